/-
Two runs of the sketches on data in the same order: a relation between programs that flip the same coins.
-/
import Mathlib.Data.List.Forall2
import Verif.Model.RCSketch2
import Verif.Model.Linear

set_option linter.unusedSectionVars false
set_option linter.unusedVariables false

namespace AQ
open Prog

namespace Prog

/-- Same coins, same failures, related results. -/
def Rel {α β : Type} (R : α → β → Prop) : Prog α → Prog β → Prop
  | .ret a, .ret b => R a b
  | .fail e, .fail e' => e = e'
  | .flip f, .flip g => ∀ c, Rel R (f c) (g c)
  | _, _ => False

theorem rel_bind {α β α' β' : Type} {R : α → β → Prop} {S : α' → β' → Prop} : ∀ {p : Prog α} {q : Prog β}
    {f : α → Prog α'} {g : β → Prog β'}, Rel R p q → (∀ a b, R a b → Rel S (f a) (g b)) → Rel S (p >>= f) (q >>= g)
  | .ret a, .ret b, f, g, h, hf => hf a b h
  | .fail e, .fail e', f, g, h, hf => h
  | .flip u, .flip v, f, g, h, hf => fun c => rel_bind (h c) hf
  | .ret _, .fail _, _, _, h, _ => h.elim
  | .ret _, .flip _, _, _, h, _ => h.elim
  | .fail _, .ret _, _, _, h, _ => h.elim
  | .fail _, .flip _, _, _, h, _ => h.elim
  | .flip _, .ret _, _, _, h, _ => h.elim
  | .flip _, .fail _, _, _, h, _ => h.elim

theorem rel_mono {α β : Type} {R S : α → β → Prop} (h : ∀ a b, R a b → S a b) : ∀ {p : Prog α} {q : Prog β}, Rel R p q → Rel S p q
  | .ret a, .ret b, hr => h a b hr
  | .fail e, .fail e', hr => hr
  | .flip u, .flip v, hr => fun c => rel_mono h (hr c)
  | .ret _, .fail _, h => h.elim
  | .ret _, .flip _, h => h.elim
  | .fail _, .ret _, h => h.elim
  | .fail _, .flip _, h => h.elim
  | .flip _, .ret _, h => h.elim
  | .flip _, .fail _, h => h.elim

theorem rel_refl {α : Type} {R : α → α → Prop} (h : ∀ a, R a a) : ∀ p : Prog α, Rel R p p
  | .ret a => h a
  | .fail e => rfl
  | .flip u => fun c => rel_refl h (u c)

/-- Related results that determine each other: the second program is the first with `g` applied to the results. -/
theorem rel_eq {α β : Type} {R : α → β → Prop} {g : α → β} (h : ∀ a b, R a b → b = g a) : ∀ {p : Prog α} {q : Prog β}, Rel R p q →
    q = p >>= fun a => .ret (g a)
  | .ret a, .ret b, hr => congrArg Prog.ret (h a b hr)
  | .fail e, .fail e', hr => congrArg Prog.fail hr.symm
  | .flip u, .flip v, hr => congrArg Prog.flip (funext fun c => rel_eq h (hr c))
  | .ret _, .fail _, h => h.elim
  | .ret _, .flip _, h => h.elim
  | .fail _, .ret _, h => h.elim
  | .fail _, .flip _, h => h.elim
  | .flip _, .ret _, h => h.elim
  | .flip _, .fail _, h => h.elim

theorem rel_usub {a a' b b' : Nat} (h1 : a = a') (h2 : b = b') : Rel (· = ·) (usub a b) (usub a' b') := by
  subst h1 h2; exact rel_refl (fun _ => rfl) _

theorem rel_idx {α β : Type} {R : α → β → Prop} : ∀ {l : List α} {l' : List β} (h : List.Forall₂ R l l') (i : Nat),
    Rel R (idx l i) (idx l' i)
  | [], [], _, i => rfl
  | a :: l, b :: l', .cons h hs, 0 => h
  | a :: l, b :: l', .cons h hs, i + 1 => by
    have := rel_idx hs i
    simpa [idx] using this

theorem rel_eq_eq {α : Type} {p q : Prog α} (h : Rel (· = ·) p q) : q = p := by
  rw [rel_eq (g := fun a => a) (fun a b h => h.symm) h]
  exact bind_ret_right p

theorem rel_getLast {α β : Type} {R : α → β → Prop} : ∀ {l : List α} {l' : List β} (h : List.Forall₂ R l l'),
    Rel R (unwrap l.getLast?) (unwrap l'.getLast?)
  | [], [], _ => rfl
  | [a], [b], .cons h .nil => h
  | a :: c :: l, b :: d :: l', .cons h (.cons h' hs) => by
    have := rel_getLast (List.Forall₂.cons h' hs)
    rwa [List.getLast?_cons_cons, List.getLast?_cons_cons]

end Prog

theorem forall₂_set {α β : Type} {R : α → β → Prop} {a : α} {b : β} (hab : R a b) : ∀ {l : List α} {l' : List β} (n : Nat),
    List.Forall₂ R l l' → List.Forall₂ R (l.set n a) (l'.set n b)
  | [], [], _, _ => .nil
  | _ :: _, _ :: _, 0, .cons _ hs => .cons hab hs
  | _ :: _, _ :: _, n + 1, .cons h hs => .cons h (forall₂_set hab n hs)

theorem forall₂_countP {α β : Type} {R : α → β → Prop} {p : α → Bool} {q : β → Bool} (h : ∀ a b, R a b → p a = q b) :
    ∀ {l : List α} {l' : List β}, List.Forall₂ R l l' → l.countP p = l'.countP q
  | [], [], _ => rfl
  | a :: l, b :: l', .cons h1 hs => by
    rw [List.countP_cons, List.countP_cons, forall₂_countP h hs, h a b h1]

theorem forall₂_any {α β : Type} {R : α → β → Prop} {p : α → Bool} {q : β → Bool} (h : ∀ a b, R a b → p a = q b) :
    ∀ {l : List α} {l' : List β}, List.Forall₂ R l l' → l.any p = l'.any q
  | [], [], _ => rfl
  | a :: l, b :: l', .cons h1 hs => by
    rw [List.any_cons, List.any_cons, forall₂_any h hs, h a b h1]

theorem forall₂_nil_iff {α β : Type} {R : α → β → Prop} {l : List α} {l' : List β} (h : List.Forall₂ R l l') : l = [] ↔ l' = [] := by
  cases h <;> simp

theorem forall₂_chunks {α β : Type} {R : α → β → Prop} (c : Nat) : ∀ (n : Nat) {l : List α} {l' : List β}, List.Forall₂ R l l' →
    List.Forall₂ (List.Forall₂ R) (chunksAux c n l) (chunksAux c n l')
  | 0, _, _, _ => .nil
  | n + 1, [], [], .nil => .nil
  | n + 1, a :: l, b :: l', .cons h hs => by
    unfold chunksAux
    exact .cons (List.forall₂_take c (.cons h hs)) (forall₂_chunks c n (List.forall₂_drop c (.cons h hs)))

theorem forall₂_everyOther {α β : Type} {R : α → β → Prop} : ∀ (c : Bool) {l : List α} {l' : List β}, List.Forall₂ R l l' →
    List.Forall₂ R (everyOther c l) (everyOther c l')
  | c, [], [], .nil => by cases c <;> exact .nil
  | false, _ :: _, _ :: _, .cons h hs => .cons h (forall₂_everyOther true hs)
  | true, _ :: _, _ :: _, .cons h hs => forall₂_everyOther false hs

variable {K : Type} [Field K] [LinearOrder K] [IsStrictOrderedRing K] [FloatFmt K]

/-- Related items compare alike. -/
def Alike (r : Fl K → Fl K → Prop) : Prop := ∀ a a' b b', r a a' → r b b' → Fl.le a b = Fl.le a' b'

theorem Fl.le_self {a : Fl K} : Fl.le a a = true ↔ a ≠ .nan := by
  cases a <;> simp [Fl.le]

theorem Fl.le_iff {a b : Fl K} : a ≤ b ↔ Fl.le b b = false ∨ Fl.le a b = true := by
  cases b with
  | nan => simp [Fl.le]
  | _ => cases a <;> simp [Fl.le]

namespace Alike
variable {r : Fl K → Fl K → Prop}

theorem nan (h : Alike r) {a a' : Fl K} (ha : r a a') : a.isNan = a'.isNan := by
  have := h a a' a a' ha ha
  cases a <;> cases a' <;> simp_all [Fl.le]

theorem le (h : Alike r) {a a' b b' : Fl K} (ha : r a a') (hb : r b b') : a ≤ b ↔ a' ≤ b' := by
  rw [Fl.le_iff, Fl.le_iff, h _ _ _ _ hb hb, h _ _ _ _ ha hb]

theorem flt (h : Alike r) {a a' b b' : Fl K} (ha : r a a') (hb : r b b') : Fl.lt a b = Fl.lt a' b' := by
  have e : ∀ x y : Fl K, Fl.lt x y = (Fl.le x y && !Fl.le y x) := by
    intro x y
    by_cases hx : x = .nan
    · subst hx; rfl
    by_cases hy : y = .nan
    · subst hy; cases x <;> rfl
    rw [Fl.lt_eq hx hy, Fl.le_eq hx hy, Fl.le_eq hy hx, Bool.eq_iff_iff]
    simp only [decide_eq_true_eq, Bool.and_eq_true, Bool.not_eq_true', decide_eq_false_iff_not, not_le]
    exact ⟨fun h => ⟨h.le, h⟩, fun h => h.2⟩
  rw [e, e, h _ _ _ _ ha hb, h _ _ _ _ hb ha]

theorem feq (h : Alike r) {a a' b b' : Fl K} (ha : r a a') (hb : r b b') : Fl.feq a b = Fl.feq a' b' := by
  have e : ∀ x y : Fl K, Fl.feq x y = (Fl.le x y && Fl.le y x) := by
    intro x y
    by_cases hx : x = .nan
    · subst hx; rfl
    by_cases hy : y = .nan
    · subst hy; cases x <;> rfl
    rw [Fl.feq_eq hx hy, Fl.le_eq hx hy, Fl.le_eq hy hx, Bool.eq_iff_iff]
    simp only [decide_eq_true_eq, Bool.and_eq_true]
    exact ⟨fun h => ⟨h.le, h.ge⟩, fun h => le_antisymm h.1 h.2⟩
  rw [e, e, h _ _ _ _ ha hb, h _ _ _ _ hb ha]

/-- Sorting by keys that compare alike. -/
theorem orderedInsert {α β : Type} (h : Alike r) {R : α → β → Prop} {f : α → Fl K} {g : β → Fl K} (hR : ∀ a b, R a b → r (f a) (g b))
    {a : α} {b : β} (hab : R a b) : ∀ {l : List α} {l' : List β}, List.Forall₂ R l l' →
    List.Forall₂ R (l.orderedInsert (fun x y => f x ≤ f y) a) (l'.orderedInsert (fun x y => g x ≤ g y) b)
  | [], [], .nil => .cons hab .nil
  | c :: l, d :: l', .cons hcd hs => by
    have he : f a ≤ f c ↔ g b ≤ g d := h.le (hR _ _ hab) (hR _ _ hcd)
    by_cases hc : f a ≤ f c
    · have hd := he.1 hc
      simp only [List.orderedInsert, if_pos hc, if_pos hd]
      exact .cons hab (.cons hcd hs)
    · have hd : ¬ g b ≤ g d := fun h => hc (he.2 h)
      simp only [List.orderedInsert, if_neg hc, if_neg hd]
      exact .cons hcd (orderedInsert h hR hab hs)

theorem insertionSort {α β : Type} (h : Alike r) {R : α → β → Prop} {f : α → Fl K} {g : β → Fl K} (hR : ∀ a b, R a b → r (f a) (g b)) :
    ∀ {l : List α} {l' : List β}, List.Forall₂ R l l' →
    List.Forall₂ R (l.insertionSort (fun x y => f x ≤ f y)) (l'.insertionSort (fun x y => g x ≤ g y))
  | [], [], .nil => .nil
  | c :: l, d :: l', .cons hcd hs => orderedInsert h hR hcd (insertionSort h hR hs)

theorem sortByKey {α β : Type} (h : Alike r) {R : α → β → Prop} {f : α → Fl K} {g : β → Fl K} (hR : ∀ a b, R a b → r (f a) (g b))
    {l : List α} {l' : List β} (hl : List.Forall₂ R l l') : Rel (List.Forall₂ R) (AQ.sortByKey f l) (AQ.sortByKey g l') := by
  unfold AQ.sortByKey
  rw [hl.length_eq, forall₂_any (fun a b hab => h.nan (hR a b hab)) hl]
  split
  · rfl
  · exact h.insertionSort hR hl

theorem sortFl (h : Alike r) {l l' : List (Fl K)} (hl : List.Forall₂ r l l') :
    Rel (List.Forall₂ r) (AQ.sortFl l) (AQ.sortFl l') := h.sortByKey (fun _ _ h => h) hl

theorem rankFrom (h : Alike r) {x x' : Fl K} (hx : r x x') : ∀ {bs bs' : List (List (Fl K))}, List.Forall₂ (List.Forall₂ r) bs bs' →
    ∀ i acc, AQ.rankFrom x i acc bs = AQ.rankFrom x' i acc bs'
  | [], [], .nil, i, acc => rfl
  | b :: bs, b' :: bs', .cons hb hbs, i, acc => by
    unfold AQ.rankFrom
    rw [forall₂_countP (fun a a' ha => h a a' x x' ha hx) hb, rankFrom h hx hbs]

theorem estQuantileFrom (h : Alike r) {x x' : Fl K} (hx : r x x') {bs bs' : List (List (Fl K))}
    (hb : List.Forall₂ (List.Forall₂ r) bs bs') (n : Nat) : AQ.estQuantileFrom bs n x = AQ.estQuantileFrom bs' n x' := by
  unfold AQ.estQuantileFrom
  rw [h.rankFrom hx hb]

/-- Centroids of the same weight with related means. -/
def CRel (r : Fl K → Fl K → Prop) (a b : Centroid K) : Prop := r a.mean b.mean ∧ a.weight = b.weight

theorem levelCentroids (i : Nat) : ∀ {b b' : List (Fl K)}, List.Forall₂ r b b' →
    Rel (List.Forall₂ (CRel r)) (AQ.levelCentroids i b) (AQ.levelCentroids i b') := by
  intro b b' hb
  unfold AQ.levelCentroids
  by_cases hn : b = []
  · rw [if_pos hn, if_pos ((forall₂_nil_iff hb).1 hn)]
    exact .nil
  · rw [if_neg hn, if_neg (fun h => hn ((forall₂_nil_iff hb).2 h))]
    refine rel_bind (R := (· = ·)) (rel_refl (fun _ => rfl) _) ?_
    rintro w _ rfl
    show List.Forall₂ _ _ _
    rw [List.forall₂_map_left_iff, List.forall₂_map_right_iff]
    exact hb.imp (fun a b h => ⟨h, rfl⟩)

theorem weightedFrom : ∀ {bs bs' : List (List (Fl K))}, List.Forall₂ (List.Forall₂ r) bs bs' → ∀ i,
    Rel (List.Forall₂ (CRel r)) (AQ.weightedFrom i bs) (AQ.weightedFrom i bs')
  | [], [], .nil, i => .nil
  | b :: bs, b' :: bs', .cons hb hbs, i => by
    unfold AQ.weightedFrom
    refine rel_bind (levelCentroids i hb) ?_
    intro c c' hc
    refine rel_bind (weightedFrom hbs (i + 1)) ?_
    intro d d' hd
    exact List.rel_append hc hd

theorem valueSearch (target : Fl K) : ∀ {cs cs' : List (Centroid K)}, List.Forall₂ (CRel r) cs cs' → ∀ (total : Fl K)
    (last last' : Option (Fl K)), (last = none ∧ last' = none ∨ ∃ v v', last = some v ∧ last' = some v' ∧ r v v') →
    Rel r (AQ.valueSearch target total last cs) (AQ.valueSearch target total last' cs')
  | [], [], .nil, total, last, last', hl => by
    rcases hl with ⟨rfl, rfl⟩ | ⟨v, v', rfl, rfl, h⟩
    · rfl
    · exact h
  | c :: cs, c' :: cs', .cons hc hcs, total, last, last', hl => by
    unfold AQ.valueSearch
    rw [hc.2]
    split
    · exact hc.1
    · exact valueSearch target hcs _ _ _ (Or.inr ⟨_, _, rfl, rfl, hc.1⟩)

theorem estValueFrom (h : Alike r) {bs bs' : List (List (Fl K))} (hb : List.Forall₂ (List.Forall₂ r) bs bs') (n : Nat) (q : Fl K) :
    Rel r (AQ.estValueFrom bs n q) (AQ.estValueFrom bs' n q) := by
  unfold AQ.estValueFrom sortedWeightedValues
  rw [bind_assoc', bind_assoc']
  refine rel_bind (weightedFrom hb 0) ?_
  intro c c' hc
  refine rel_bind (h.sortByKey (fun a b hab => hab.1) hc) ?_
  intro d d' hd
  exact valueSearch _ hd _ _ _ (Or.inl ⟨rfl, rfl⟩)

theorem compactUpper {l l' : List (Fl K)} (hl : List.Forall₂ r l l') :
    Rel (List.Forall₂ r) (AQ.compactUpper .default l) (AQ.compactUpper .default l') :=
  fun c => forall₂_everyOther c hl

end Alike

/-! ### RCSketch -/

/-- Sketches of the same shape with related items. -/
structure RCSketch.Like (r : Fl K → Fl K → Prop) (s t : RCSketch K) : Prop where
  buffers : List.Forall₂ (List.Forall₂ r) s.buffers t.buffers
  inputLength : s.inputLength = t.inputLength
  k : s.k = t.k
  bufferSize : s.bufferSize = t.bufferSize
  count : s.count = t.count
  counters : s.counters = t.counters

namespace RCSketch
variable {r : Fl K → Fl K → Prop}

theorem Like.getCompactIndex {s t : RCSketch K} (h : Like r s t) (l : Nat) :
    Rel (fun a b => a.1 = b.1 ∧ Like r a.2 b.2) (s.getCompactIndex l) (t.getCompactIndex l) := by
  unfold RCSketch.getCompactIndex
  refine rel_bind (rel_idx h.buffers l) ?_
  intro b b' hb
  rw [h.counters]
  refine rel_bind (R := (· = ·)) (rel_refl (fun _ => rfl) _) ?_
  rintro c _ rfl
  refine rel_bind (rel_usub hb.length_eq (by rw [h.k])) ?_
  rintro ci _ rfl
  split
  · exact ⟨rfl, h.buffers, h.inputLength, h.k, h.bufferSize, h.count, rfl⟩
  · rfl

theorem Like.compact (ha : Alike r) {s t : RCSketch K} (h : Like r s t) (l ci : Nat) :
    Rel (fun a b => List.Forall₂ r a.1 b.1 ∧ Like r a.2 b.2) (s.compact l ci .default) (t.compact l ci .default) := by
  unfold RCSketch.compact
  refine rel_bind (rel_idx h.buffers l) ?_
  intro b b' hb
  refine rel_bind (ha.sortFl hb) ?_
  intro srt srt' hs
  rw [hs.length_eq]
  split
  · refine rel_bind (Alike.compactUpper (List.forall₂_drop ci hs)) ?_
    intro o o' ho
    exact ⟨ho, forall₂_set (List.forall₂_take ci hs) l h.buffers, h.inputLength, h.k, h.bufferSize, h.count, h.counters⟩
  · rfl

theorem Like.compactAt (ha : Alike r) {s t : RCSketch K} (h : Like r s t) (l : Nat) (fast : Bool) :
    Rel (fun a b => List.Forall₂ r a.1 b.1 ∧ Like r a.2 b.2) (s.compactAt l fast .default) (t.compactAt l fast .default) := by
  unfold RCSketch.compactAt
  refine rel_bind (R := fun a b => a.1 = b.1 ∧ Like r a.2 b.2) ?_ ?_
  · split
    · exact ⟨by unfold getCompactIndexFast; rw [h.bufferSize], h⟩
    · exact h.getCompactIndex l
  · rintro a b ⟨e, hl⟩
    rw [e]
    exact hl.compact ha l _

theorem Like.ensureLevel {s t : RCSketch K} (h : Like r s t) (l : Nat) : Like r (s.ensureLevel l) (t.ensureLevel l) := by
  unfold RCSketch.ensureLevel
  rw [h.buffers.length_eq]
  split
  · exact ⟨List.rel_append h.buffers (.cons .nil .nil), h.inputLength, h.k, h.bufferSize, h.count, by simp [h.counters]⟩
  · exact h

theorem Like.setBuf {s t : RCSketch K} (h : Like r s t) (l : Nat) {b b' : List (Fl K)} (hb : List.Forall₂ r b b') :
    Like r (s.setBuf l b) (t.setBuf l b') :=
  ⟨forall₂_set hb l h.buffers, h.inputLength, h.k, h.bufferSize, h.count, h.counters⟩

theorem Like.loops (ha : Alike r) (fast : Bool) : ∀ f : Nat,
    (∀ (xs ys : List (Fl K)) (l : Nat) (s t : RCSketch K), List.Forall₂ r xs ys → Like r s t →
      Rel (Like r) (batch fast .default f xs l s) (batch fast .default f ys l t)) ∧
    (∀ (xs ys : List (Fl K)) (l : Nat) (s t : RCSketch K), List.Forall₂ r xs ys → Like r s t →
      Rel (Like r) (fill fast .default f xs l s) (fill fast .default f ys l t)) ∧
    (∀ (l : Nat) (s t : RCSketch K), Like r s t → Rel (Like r) (drain fast .default f l s) (drain fast .default f l t))
  | 0 => ⟨fun _ _ _ _ _ _ _ => by unfold batch; rfl, fun _ _ _ _ _ _ _ => by unfold fill; rfl,
      fun _ _ _ _ => by unfold drain; rfl⟩
  | f + 1 => by
    obtain ⟨ib, ifl, id⟩ := Like.loops ha fast f
    refine ⟨?_, ?_, ?_⟩
    · intro xs ys l s t hx h
      unfold batch
      exact ifl xs ys l _ _ hx (h.ensureLevel l)
    · intro xs ys l s t hx h
      unfold fill
      by_cases hn : xs = []
      · rw [if_pos hn, if_pos ((forall₂_nil_iff hx).1 hn)]
        exact h
      · rw [if_neg hn, if_neg (fun e => hn ((forall₂_nil_iff hx).2 e))]
        refine rel_bind (rel_idx h.buffers l) ?_
        intro b b' hb
        refine rel_bind (rel_usub h.bufferSize hb.length_eq) ?_
        rintro room _ rfl
        refine rel_bind (id l _ _ (h.setBuf l (List.rel_append hb (List.forall₂_take room hx)))) ?_
        intro s' t' h'
        exact ifl _ _ l _ _ (List.forall₂_drop room hx) h'
    · intro l s t h
      unfold drain
      refine rel_bind (rel_idx h.buffers l) ?_
      intro b b' hb
      rw [hb.length_eq, h.bufferSize]
      split
      · refine rel_bind (h.compactAt ha l fast) ?_
        rintro a a' ⟨h1, h2⟩
        refine rel_bind (ib _ _ (l + 1) _ _ h1 h2) ?_
        intro s' t' h'
        exact id l _ _ h'
      · exact h

theorem Like.fuelFor {s t : RCSketch K} (h : Like r s t) (n : Nat) : s.fuelFor n = t.fuelFor n := by
  have e : s.stored = t.stored := by
    unfold RCSketch.stored
    have : ∀ {a b : List (List (Fl K))}, List.Forall₂ (List.Forall₂ r) a b → a.map List.length = b.map List.length := by
      intro a b hab
      induction hab with
      | nil => rfl
      | cons h hs ih => rw [List.map_cons, List.map_cons, ih, h.length_eq]
    rw [this h.buffers]
  unfold RCSketch.fuelFor
  rw [e, h.bufferSize, h.buffers.length_eq]

theorem Like.add (ha : Alike r) {s t : RCSketch K} (h : Like r s t) {x y : Fl K} (hx : r x y) : Rel (Like r) (s.add x) (t.add y) := by
  unfold RCSketch.add RCSketch.insertAt
  rw [h.fuelFor]
  refine rel_bind (R := Like r) ?_ (fun a b hab => ⟨hab.buffers, hab.inputLength, hab.k, hab.bufferSize, by rw [hab.count], hab.counters⟩)
  have h' := h.ensureLevel 0
  refine rel_bind (rel_idx h'.buffers 0) ?_
  intro b b' hb
  have hb' : List.Forall₂ r (b ++ [x]) (b' ++ [y]) := List.rel_append hb (.cons hx .nil)
  have h'' := h'.setBuf 0 hb'
  dsimp only
  rw [hb'.length_eq, h''.bufferSize]
  split
  · refine rel_bind (h''.compactAt ha 0 false) ?_
    rintro a a' ⟨h1, h2⟩
    exact (Like.loops ha false _).1 _ _ _ _ _ h1 h2
  · exact h''

theorem Like.batches (ha : Alike r) (fast : Bool) : ∀ {cs ds : List (List (Fl K))}, List.Forall₂ (List.Forall₂ r) cs ds →
    ∀ {s t : RCSketch K}, Like r s t → Rel (Like r) (batches fast .default cs s) (batches fast .default ds t)
  | [], [], .nil, s, t, h => h
  | c :: cs, d :: ds, .cons hc hcs, s, t, h => by
    unfold RCSketch.batches
    rw [h.fuelFor, hc.length_eq]
    refine rel_bind ((Like.loops ha fast _).1 _ _ _ _ _ hc h) ?_
    intro s' t' h'
    exact Like.batches ha fast hcs h'

theorem Like.addBufferCustom (ha : Alike r) {s t : RCSketch K} (h : Like r s t) {xs ys : List (Fl K)} (hx : List.Forall₂ r xs ys)
    (fast : Bool) : Rel (Like r) (s.addBufferCustom xs fast .default) (t.addBufferCustom ys fast .default) := by
  unfold RCSketch.addBufferCustom
  refine rel_bind (R := List.Forall₂ (List.Forall₂ r)) ?_ ?_
  · unfold chunks
    rw [h.bufferSize]
    split
    · rfl
    · rw [hx.length_eq]
      exact forall₂_chunks _ _ hx
  · intro cs ds hc
    refine rel_bind (Like.batches ha fast hc h) ?_
    intro s' t' h'
    exact ⟨h'.buffers, h'.inputLength, h'.k, h'.bufferSize, by rw [h'.count, hx.length_eq], h'.counters⟩

theorem new_like (n k : Nat) : Rel (Like r) (RCSketch.new n k : Prog (RCSketch K)) (RCSketch.new n k) := by
  unfold RCSketch.new
  refine rel_bind (R := (· = ·)) (rel_refl (fun _ => rfl) _) ?_
  rintro b _ rfl
  exact ⟨.nil, rfl, rfl, rfl, rfl, rfl⟩

end RCSketch

/-! ### Histories -/

/-- The same call with every item mapped. -/
def InsOp.map (f : Fl K → Fl K) : InsOp K → InsOp K
  | .add x => .add (f x)
  | .addBuffer xs => .addBuffer (xs.map f)
  | .addBufferFast xs => .addBufferFast (xs.map f)
  | .addBufferCustom xs fast m => .addBufferCustom (xs.map f) fast m

/-- Items of `S` and their images. -/
def MapRel (S : List (Fl K)) (f : Fl K → Fl K) (a b : Fl K) : Prop := a ∈ S ∧ b = f a

theorem mapRel_list {S : List (Fl K)} {f : Fl K → Fl K} : ∀ {xs : List (Fl K)}, (∀ x ∈ xs, x ∈ S) →
    List.Forall₂ (MapRel S f) xs (xs.map f)
  | [], _ => .nil
  | x :: xs, h => .cons ⟨h x (by simp), rfl⟩ (mapRel_list (fun y hy => h y (by simp [hy])))

namespace RCSketch

theorem Like.execOps {S : List (Fl K)} {f : Fl K → Fl K} (ha : Alike (MapRel S f)) : ∀ (ops : List (InsOp K)),
    (∀ o ∈ ops, o.method = .default) → (∀ x ∈ insItems ops, x ∈ S) → ∀ {s t : RCSketch K}, Like (MapRel S f) s t →
    Rel (Like (MapRel S f)) (s.execOps ops) (t.execOps (ops.map (InsOp.map f)))
  | [], _, _, s, t, h => h
  | o :: ops, hm, hS, s, t, h => by
    have hm' := fun o ho => hm o (List.mem_cons_of_mem _ ho)
    have hS1 : ∀ x ∈ o.items, x ∈ S := fun x hx => hS x (by simp [insItems, hx])
    have hS2 : ∀ x ∈ insItems ops, x ∈ S := fun x hx => hS x (by
      unfold insItems at hx ⊢; rw [List.flatMap_cons, List.mem_append]; exact Or.inr hx)
    rw [List.map_cons (a := o)]
    unfold RCSketch.execOps
    refine rel_bind (R := Like (MapRel S f)) ?_ (fun s' t' h' => Like.execOps ha ops hm' hS2 h')
    have hmo := hm o (by simp)
    cases o with
    | add x => exact h.add ha ⟨hS1 x (by simp [InsOp.items]), rfl⟩
    | addBuffer xs => exact h.addBufferCustom ha (mapRel_list hS1) false
    | addBufferFast xs => exact h.addBufferCustom ha (mapRel_list hS1) true
    | addBufferCustom xs fast m =>
      obtain rfl : m = .default := hmo
      exact h.addBufferCustom ha (mapRel_list hS1) fast

theorem Like.runHist {S : List (Fl K)} {f : Fl K → Fl K} (ha : Alike (MapRel S f)) (n k : Nat) (ops : List (InsOp K))
    (hm : ∀ o ∈ ops, o.method = .default) (hS : ∀ x ∈ insItems ops, x ∈ S) :
    Rel (Like (MapRel S f)) (RCSketch.runHist n k ops) (RCSketch.runHist n k (ops.map (InsOp.map f))) := by
  unfold RCSketch.runHist
  refine rel_bind (new_like (r := MapRel S f) n k) ?_
  intro s t h
  exact Like.execOps ha ops hm hS h

end RCSketch

/-! ### RCSketch2 -/

/-- Levels of the same shape with related items. -/
structure Level2.Like (r : Fl K → Fl K → Prop) (s t : Level2 K) : Prop where
  buf : List.Forall₂ r s.buf t.buf
  counter : s.counter = t.counter
  sections : s.sections = t.sections
  divs : s.divs = t.divs

/-- Sketches of the same shape with related items. -/
structure RCSketch2.Like (r : Fl K → Fl K → Prop) (s t : RCSketch2 K) : Prop where
  levels : List.Forall₂ (Level2.Like r) s.levels t.levels
  sketchSize : s.sketchSize = t.sketchSize
  k : s.k = t.k
  count : s.count = t.count

namespace RCSketch2
variable {r : Fl K → Fl K → Prop} {sec : Nat → Nat}

theorem like_cap {l l' : Level2 K} (h : l.Like r l') : cap sec l = cap sec l' := by
  unfold cap; rw [h.sections, h.divs]

theorem like_updateSections {l l' : Level2 K} (h : l.Like r l') : (updateSections l).Like r (updateSections l') := by
  unfold updateSections
  rw [h.sections, h.counter]
  split
  · exact ⟨h.buf, rfl, rfl, by rw [h.divs]⟩
  · exact h

theorem like_getCompactIndex {l l' : Level2 K} (h : l.Like r l') :
    Rel (fun a b => a.1 = b.1 ∧ a.2.Like r b.2) (getCompactIndex sec l) (getCompactIndex sec l') := by
  unfold getCompactIndex
  refine rel_bind (rel_usub h.sections (by rw [h.counter])) ?_
  rintro a _ rfl
  refine rel_bind (rel_usub rfl rfl) ?_
  rintro b _ rfl
  rw [h.counter]
  split
  · exact ⟨by rw [h.buf.length_eq, h.divs], h.buf, rfl, h.sections, h.divs⟩
  · rfl

theorem like_compactBuffer (ha : Alike r) {l l' : Level2 K} (h : l.Like r l') (ci : Nat) :
    Rel (fun a b => List.Forall₂ r a.1 b.1 ∧ a.2.1 = b.2.1 ∧ a.2.2.Like r b.2.2) (compactBuffer l ci .default)
      (compactBuffer l' ci .default) := by
  unfold compactBuffer
  refine rel_bind (ha.sortFl h.buf) ?_
  intro s s' hs
  rw [hs.length_eq]
  split
  · refine rel_bind (Alike.compactUpper (List.forall₂_drop ci hs)) ?_
    intro o o' ho
    exact ⟨ho, (List.forall₂_drop ci hs).length_eq, List.forall₂_take ci hs, h.counter, h.sections, h.divs⟩
  · rfl

theorem like_compactLevel (ha : Alike r) (fast : Bool) {l l' : Level2 K} (h : l.Like r l') :
    Rel (fun a b => List.Forall₂ r a.1 b.1 ∧ a.2.1 = b.2.1 ∧ a.2.2.Like r b.2.2) (compactLevel sec fast .default l)
      (compactLevel sec fast .default l') := by
  unfold compactLevel
  refine rel_bind (R := fun a b => a.1 = b.1 ∧ a.2.Like r b.2) ?_ ?_
  · split
    · exact ⟨by unfold getCompactIndexFast; rw [like_cap h], h⟩
    · exact like_getCompactIndex h
  · rintro a b ⟨e, hl⟩
    rw [e]
    refine rel_bind (like_compactBuffer ha hl _) ?_
    rintro c d ⟨h1, h2, h3⟩
    exact ⟨h1, h2, like_updateSections h3⟩

/-- Related carries. -/
def CarryRel (r : Fl K → Fl K → Prop) : Option (List (Fl K)) → Option (List (Fl K)) → Prop
  | none, none => True
  | some a, some b => List.Forall₂ r a b
  | _, _ => False

theorem like_extend {l l' : Level2 K} (h : l.Like r l') : ∀ {c c' : Option (List (Fl K))}, CarryRel r c c' →
    (extend l c).Like r (extend l' c')
  | none, none, _ => h
  | some a, some b, hc => ⟨List.rel_append h.buf hc, h.counter, h.sections, h.divs⟩
  | none, some _, hc => hc.elim
  | some _, none, hc => hc.elim

theorem like_compressFrom (ha : Alike r) (fast : Bool) : ∀ {ls ls' : List (Level2 K)}, List.Forall₂ (Level2.Like r) ls ls' →
    ∀ (size : Nat) {c c' : Option (List (Fl K))}, CarryRel r c c' →
    Rel (fun a b => a.1 = b.1 ∧ List.Forall₂ (Level2.Like r) a.2 b.2) (compressFrom sec fast .default size c ls)
      (compressFrom sec fast .default size c' ls')
  | [], [], .nil, size, none, none, _ => ⟨rfl, .nil⟩
  | [], [], .nil, size, some a, some b, hc => ⟨rfl, .cons ⟨hc, rfl, rfl, rfl⟩ .nil⟩
  | _, _, _, _, none, some _, hc => hc.elim
  | _, _, _, _, some _, none, hc => hc.elim
  | l :: ls, l' :: ls', .cons hl hls, size, c, c', hc => by
    have he := like_extend hl hc
    rw [compressFrom, compressFrom, like_cap he, he.buf.length_eq]
    split
    · refine rel_bind (like_compactLevel ha fast he) ?_
      rintro a b ⟨h1, h2, h3⟩
      refine rel_bind (rel_usub rfl h2) ?_
      rintro sz _ rfl
      rw [h1.length_eq]
      refine rel_bind (like_compressFrom ha fast hls _ (c := some a.1) (c' := some b.1) h1) ?_
      rintro x y ⟨h4, h5⟩
      exact ⟨h4, .cons h3 h5⟩
    · refine rel_bind (like_compressFrom ha fast hls _ (c := none) (c' := none) trivial) ?_
      rintro x y ⟨h4, h5⟩
      exact ⟨h4, .cons he h5⟩

theorem like_capacity {s t : RCSketch2 K} (h : s.Like r t) : capacity sec s = capacity sec t := by
  have : ∀ {a b : List (Level2 K)}, List.Forall₂ (Level2.Like r) a b → a.map (cap sec) = b.map (cap sec) := by
    intro a b hab
    induction hab with
    | nil => rfl
    | cons h hs ih => rw [List.map_cons, List.map_cons, ih, like_cap h]
  unfold capacity
  rw [this h.levels]

theorem like_pushAll {s t : RCSketch2 K} (h : s.Like r t) {xs ys : List (Fl K)} (hx : List.Forall₂ r xs ys) :
    Rel (RCSketch2.Like r) (pushAll s xs) (pushAll t ys) := by
  obtain ⟨l1, z1, k1, c1⟩ := s
  obtain ⟨l2, z2, k2, c2⟩ := t
  obtain ⟨hl, hz, hk, hc⟩ := h
  simp only at hl hz hk hc
  unfold pushAll
  cases hl with
  | nil => rfl
  | cons h1 hs =>
    exact ⟨.cons ⟨List.rel_append h1.buf hx, h1.counter, h1.sections, h1.divs⟩ hs, by simp [hz, hx.length_eq], hk, hc⟩

theorem like_compressIfFull (ha : Alike r) (fast : Bool) {s t : RCSketch2 K} (h : s.Like r t) :
    Rel (RCSketch2.Like r) (compressIfFull sec fast .default s) (compressIfFull sec fast .default t) := by
  unfold compressIfFull
  rw [like_capacity h, h.sketchSize]
  split
  · unfold compress
    rw [h.sketchSize]
    refine rel_bind (like_compressFrom ha fast h.levels _ (c := none) (c' := none) trivial) ?_
    rintro a b ⟨h1, h2⟩
    exact ⟨h2, h1, h.k, h.count⟩
  · exact h

theorem like_insertBatchLoop (ha : Alike r) (fast : Bool) : ∀ (n : Nat) {xs ys : List (Fl K)}, List.Forall₂ r xs ys →
    ∀ {s t : RCSketch2 K}, s.Like r t → Rel (RCSketch2.Like r) (insertBatchLoop sec fast .default n xs s)
      (insertBatchLoop sec fast .default n ys t)
  | n, [], [], .nil, s, t, h => by cases n <;> exact h
  | 0, _ :: _, _ :: _, .cons _ _, s, t, h => rfl
  | n + 1, x :: xs, y :: ys, .cons hx hxs, s, t, h => by
    rw [insertBatchLoop, insertBatchLoop, like_capacity (sec := sec) h, h.sketchSize]
    split
    · refine rel_bind (like_pushAll h (List.forall₂_take _ (.cons hx hxs))) ?_
      intro s1 t1 h1
      refine rel_bind (like_compressIfFull ha fast h1) ?_
      intro s2 t2 h2
      exact like_insertBatchLoop ha fast n (List.forall₂_drop _ (.cons hx hxs)) h2
    · rfl

theorem like_addBufferCustom (ha : Alike r) {s t : RCSketch2 K} (h : s.Like r t) {xs ys : List (Fl K)} (hx : List.Forall₂ r xs ys)
    (fast : Bool) : Rel (RCSketch2.Like r) (s.addBufferCustom sec xs fast .default) (t.addBufferCustom sec ys fast .default) := by
  unfold addBufferCustom insertBatch
  rw [hx.length_eq]
  refine rel_bind (like_insertBatchLoop ha fast _ hx h) ?_
  intro s1 t1 h1
  exact ⟨h1.levels, h1.sketchSize, h1.k, by rw [h1.count]⟩

theorem like_add (ha : Alike r) {s t : RCSketch2 K} (h : s.Like r t) {x y : Fl K} (hx : r x y) :
    Rel (RCSketch2.Like r) (s.add sec x) (t.add sec y) := by
  unfold add insert
  rw [bind_assoc', bind_assoc']
  refine rel_bind (like_pushAll h (.cons hx .nil)) ?_
  intro s1 t1 h1
  refine rel_bind (like_compressIfFull ha false h1) ?_
  intro s2 t2 h2
  exact ⟨h2.levels, h2.sketchSize, h2.k, by rw [h2.count]⟩

theorem like_execOps {S : List (Fl K)} {f : Fl K → Fl K} (ha : Alike (MapRel S f)) : ∀ (ops : List (InsOp K)),
    (∀ o ∈ ops, o.method = .default) → (∀ x ∈ insItems ops, x ∈ S) → ∀ {s t : RCSketch2 K}, s.Like (MapRel S f) t →
    Rel (RCSketch2.Like (MapRel S f)) (s.execOps sec ops) (t.execOps sec (ops.map (InsOp.map f)))
  | [], _, _, s, t, h => h
  | o :: ops, hm, hS, s, t, h => by
    have hm' := fun o ho => hm o (List.mem_cons_of_mem _ ho)
    have hS1 : ∀ x ∈ o.items, x ∈ S := fun x hx => hS x (by simp [insItems, hx])
    have hS2 : ∀ x ∈ insItems ops, x ∈ S := fun x hx => hS x (by
      unfold insItems at hx ⊢; rw [List.flatMap_cons, List.mem_append]; exact Or.inr hx)
    rw [List.map_cons (a := o)]
    unfold RCSketch2.execOps
    refine rel_bind (R := RCSketch2.Like (MapRel S f)) ?_ (fun s' t' h' => like_execOps ha ops hm' hS2 h')
    have hmo := hm o (by simp)
    cases o with
    | add x => exact like_add ha h ⟨hS1 x (by simp [InsOp.items]), rfl⟩
    | addBuffer xs => exact like_addBufferCustom ha h (mapRel_list hS1) false
    | addBufferFast xs => exact like_addBufferCustom ha h (mapRel_list hS1) true
    | addBufferCustom xs fast m =>
      obtain rfl : m = .default := hmo
      exact like_addBufferCustom ha h (mapRel_list hS1) fast

theorem Like.buffers {s t : RCSketch2 K} (h : s.Like r t) : List.Forall₂ (List.Forall₂ r) s.buffers t.buffers := by
  unfold RCSketch2.buffers
  rw [List.forall₂_map_left_iff, List.forall₂_map_right_iff]
  exact h.levels.imp (fun a b h => h.buf)

theorem new_like (k : Nat) : (RCSketch2.new k : RCSketch2 K).Like r (RCSketch2.new k) :=
  ⟨.cons ⟨.nil, rfl, rfl, rfl⟩ .nil, rfl, rfl, rfl⟩

end RCSketch2
end AQ

/-
The order in which items arrive between two compactions of a sketch, and within a batch of a TDigest.
-/
import Verif.Proofs.Rescale
import Verif.Proofs.Sort
import Verif.Proofs.Nondet
import Verif.Spec.TDigest
import Verif.Spec.Outcomes

set_option linter.unusedSectionVars false
set_option linter.unusedVariables false

namespace AQ
open Prog Spec
variable {K : Type} [Field K] [LinearOrder K] [IsStrictOrderedRing K] [FloatFmt K]

/-! ### A stable sort of permuted lists -/

theorem orderedInsert_swap {α : Type} (f : α → Fl K) (a b : α) (h : f a = f b → a = b) : ∀ l : List α,
    (l.orderedInsert (fun x y => f x ≤ f y) b).orderedInsert (fun x y => f x ≤ f y) a =
      (l.orderedInsert (fun x y => f x ≤ f y) a).orderedInsert (fun x y => f x ≤ f y) b
  | [] => by
    by_cases h1 : f a ≤ f b <;> by_cases h2 : f b ≤ f a
    · rw [h (le_antisymm h1 h2)]
    · simp only [List.orderedInsert, if_pos h1, if_neg h2]
    · simp only [List.orderedInsert, if_neg h1, if_pos h2]
    · exact absurd (le_total (f a) (f b)) (by simp [h1, h2])
  | c :: l => by
    by_cases hab : a = b
    · rw [hab]
    have ih := orderedInsert_swap f a b h l
    have hne : f a ≠ f b := fun e => hab (h e)
    by_cases hac : f a ≤ f c <;> by_cases hbc : f b ≤ f c
    · by_cases h1 : f a ≤ f b
      · have h2 : ¬ f b ≤ f a := fun h2 => hne (le_antisymm h1 h2)
        simp only [List.orderedInsert, if_pos hac, if_pos hbc, if_pos h1, if_neg h2]
      · have h2 : f b ≤ f a := le_of_not_ge h1
        simp only [List.orderedInsert, if_pos hac, if_pos hbc, if_neg h1, if_pos h2]
    · have h1 : ¬ f b ≤ f a := fun h1 => hbc (h1.trans hac)
      simp only [List.orderedInsert, if_pos hac, if_neg hbc, if_neg h1]
    · have h1 : ¬ f a ≤ f b := fun h1 => hac (h1.trans hbc)
      simp only [List.orderedInsert, if_neg hac, if_pos hbc, if_neg h1]
    · simp only [List.orderedInsert, if_neg hac, if_neg hbc, ih]

/-- A stable sort gives the same result when items that are equal whenever their keys are equal are permuted in front of the rest. -/
theorem insertionSort_perm_append {α : Type} (f : α → Fl K) (r : List α) {l l' : List α} (hp : l.Perm l')
    (h : ∀ a ∈ l, ∀ b ∈ l, f a = f b → a = b) :
    (l ++ r).insertionSort (fun x y => f x ≤ f y) = (l' ++ r).insertionSort (fun x y => f x ≤ f y) := by
  induction hp with
  | nil => rfl
  | cons a hp ih =>
    simp only [List.cons_append, List.insertionSort_cons]
    rw [ih (fun x hx y hy => h x (by simp [hx]) y (by simp [hy]))]
  | swap a b l =>
    simp only [List.cons_append, List.insertionSort_cons]
    exact orderedInsert_swap f b a (h b (by simp) a (by simp)) _
  | trans hp hq ih1 ih2 =>
    rw [ih1 h, ih2 (fun x hx y hy => h x (hp.mem_iff.2 hx) y (hp.mem_iff.2 hy))]

theorem insertionSort_append_congr {α : Type} (f : α → Fl K) (l : List α) {r r' : List α}
    (h : r.insertionSort (fun x y => f x ≤ f y) = r'.insertionSort (fun x y => f x ≤ f y)) :
    (l ++ r).insertionSort (fun x y => f x ≤ f y) = (l ++ r').insertionSort (fun x y => f x ≤ f y) := by
  induction l with
  | nil => exact h
  | cons a l ih => simp only [List.cons_append, List.insertionSort_cons, ih]

/-! ### Queries of permuted buffers -/

theorem rankFrom_perm (x : Fl K) : ∀ {bs bs' : List (List (Fl K))}, List.Forall₂ List.Perm bs bs' → ∀ i acc,
    rankFrom x i acc bs = rankFrom x i acc bs'
  | [], [], .nil, i, acc => rfl
  | b :: bs, b' :: bs', .cons hb hbs, i, acc => by
    unfold rankFrom
    rw [hb.countP_eq, rankFrom_perm x hbs]

/-- Centroid lists that a stable sort by mean does not distinguish. -/
def SameSorted (a b : List (Centroid K)) : Prop :=
  a.Perm b ∧ a.insertionSort (fun x y => x.mean ≤ y.mean) = b.insertionSort (fun x y => x.mean ≤ y.mean)

theorem weightedFrom_perm : ∀ {bs bs' : List (List (Fl K))}, List.Forall₂ List.Perm bs bs' → ∀ i,
    Rel SameSorted (weightedFrom i bs) (weightedFrom i bs')
  | [], [], .nil, i => ⟨.refl _, rfl⟩
  | b :: bs, b' :: bs', .cons hb hbs, i => by
    unfold weightedFrom
    refine rel_bind (R := fun a a' => a.Perm a' ∧ ∀ x ∈ a, ∀ y ∈ a, x.mean = y.mean → x = y) ?_ ?_
    · unfold levelCentroids
      by_cases hn : b = []
      · have hn' : b' = [] := by rw [hn] at hb; exact hb.symm.eq_nil
        rw [if_pos hn, if_pos hn']
        exact ⟨.refl _, by simp⟩
      · have hn' : ¬ b' = [] := fun h => hn (by rw [h] at hb; exact hb.eq_nil)
        rw [if_neg hn, if_neg hn']
        refine rel_bind (R := (· = ·)) (rel_refl (fun _ => rfl) _) ?_
        rintro w _ rfl
        refine ⟨hb.map _, ?_⟩
        intro x hx y hy hxy
        obtain ⟨u, -, rfl⟩ := List.mem_map.1 hx
        obtain ⟨v, -, rfl⟩ := List.mem_map.1 hy
        rw [show u = v from hxy]
    · rintro c c' ⟨hc, hcc⟩
      refine rel_bind (weightedFrom_perm hbs (i + 1)) ?_
      rintro d d' ⟨hd, hdd⟩
      refine ⟨hc.append hd, ?_⟩
      rw [insertionSort_perm_append Centroid.mean d hc hcc]
      exact insertionSort_append_congr Centroid.mean c' hdd

theorem estValueFrom_perm {bs bs' : List (List (Fl K))} (hb : List.Forall₂ List.Perm bs bs') (n : Nat) (q : Fl K) :
    estValueFrom bs n q = estValueFrom bs' n q := by
  refine (rel_eq_eq ?_).symm
  unfold estValueFrom sortedWeightedValues
  rw [bind_assoc', bind_assoc']
  refine rel_bind (weightedFrom_perm hb 0) ?_
  rintro c c' ⟨hc, hcc⟩
  have e : sortByKey Centroid.mean c = sortByKey Centroid.mean c' := by
    unfold sortByKey
    have h1 : c.any (fun a => a.mean.isNan) = c'.any (fun a => a.mean.isNan) := by
      rw [Bool.eq_iff_iff]; simp only [List.any_eq_true, hc.mem_iff]
    rw [hc.length_eq, h1, hcc]
  rw [e]
  exact rel_refl (fun _ => rfl) _

theorem estQuantileFrom_perm {bs bs' : List (List (Fl K))} (hb : List.Forall₂ List.Perm bs bs') (n : Nat) (x : Fl K) :
    estQuantileFrom bs n x = estQuantileFrom bs' n x := by
  unfold estQuantileFrom
  rw [rankFrom_perm x hb]

theorem forall₂_perm_refl : ∀ bs : List (List (Fl K)), List.Forall₂ List.Perm bs bs
  | [] => .nil
  | b :: bs => .cons (.refl b) (forall₂_perm_refl bs)

/-! ### RCSketch -/

/-- Sketches that differ in the order of the items within each level only. -/
structure RCSketch.Shuf (s t : RCSketch K) : Prop where
  buffers : List.Forall₂ List.Perm s.buffers t.buffers
  inputLength : s.inputLength = t.inputLength
  k : s.k = t.k
  bufferSize : s.bufferSize = t.bufferSize
  count : s.count = t.count
  counters : s.counters = t.counters

namespace RCSketch

theorem Shuf.getCompactIndex {s t : RCSketch K} (h : Shuf s t) (l : Nat) :
    Rel (fun a b => a.1 = b.1 ∧ Shuf a.2 b.2) (s.getCompactIndex l) (t.getCompactIndex l) := by
  unfold RCSketch.getCompactIndex
  refine rel_bind (rel_idx h.buffers l) ?_
  intro b b' hb
  rw [h.counters]
  refine rel_bind (R := (· = ·)) (rel_refl (fun _ => rfl) _) ?_
  rintro c _ rfl
  refine rel_bind (rel_usub hb.length_eq (by rw [h.k])) ?_
  rintro ci _ rfl
  split
  · exact ⟨rfl, h.buffers, h.inputLength, h.k, h.bufferSize, h.count, rfl⟩
  · rfl

theorem Shuf.compact {s t : RCSketch K} (h : Shuf s t) (l ci : Nat) (m : CompactionMethod) :
    Rel (fun a b => a.1 = b.1 ∧ Shuf a.2 b.2) (s.compact l ci m) (t.compact l ci m) := by
  unfold RCSketch.compact
  refine rel_bind (rel_idx h.buffers l) ?_
  intro b b' hb
  rw [sortFl_eq_of_perm hb]
  refine rel_bind (R := (· = ·)) (rel_refl (fun _ => rfl) _) ?_
  rintro srt _ rfl
  split
  · refine rel_bind (R := (· = ·)) (rel_refl (fun _ => rfl) _) ?_
    rintro o _ rfl
    exact ⟨rfl, forall₂_set (.refl _) l h.buffers, h.inputLength, h.k, h.bufferSize, h.count, h.counters⟩
  · rfl

theorem Shuf.compactAt {s t : RCSketch K} (h : Shuf s t) (l : Nat) (fast : Bool) (m : CompactionMethod) :
    Rel (fun a b => a.1 = b.1 ∧ Shuf a.2 b.2) (s.compactAt l fast m) (t.compactAt l fast m) := by
  unfold RCSketch.compactAt
  refine rel_bind (R := fun a b => a.1 = b.1 ∧ Shuf a.2 b.2) ?_ ?_
  · split
    · exact ⟨by unfold getCompactIndexFast; rw [h.bufferSize], h⟩
    · exact h.getCompactIndex l
  · rintro a b ⟨e, hl⟩
    rw [e]
    exact hl.compact l _ m

theorem Shuf.ensureLevel {s t : RCSketch K} (h : Shuf s t) (l : Nat) : Shuf (s.ensureLevel l) (t.ensureLevel l) := by
  unfold RCSketch.ensureLevel
  rw [h.buffers.length_eq]
  split
  · exact ⟨List.rel_append h.buffers (.cons (.refl _) .nil), h.inputLength, h.k, h.bufferSize, h.count, by simp [h.counters]⟩
  · exact h

theorem Shuf.setBuf {s t : RCSketch K} (h : Shuf s t) (l : Nat) {b b' : List (Fl K)} (hb : b.Perm b') :
    Shuf (s.setBuf l b) (t.setBuf l b') :=
  ⟨forall₂_set hb l h.buffers, h.inputLength, h.k, h.bufferSize, h.count, h.counters⟩

theorem Shuf.loops (fast : Bool) (m : CompactionMethod) : ∀ f : Nat,
    (∀ (xs : List (Fl K)) (l : Nat) (s t : RCSketch K), Shuf s t → Rel Shuf (batch fast m f xs l s) (batch fast m f xs l t)) ∧
    (∀ (xs : List (Fl K)) (l : Nat) (s t : RCSketch K), Shuf s t → Rel Shuf (fill fast m f xs l s) (fill fast m f xs l t)) ∧
    (∀ (l : Nat) (s t : RCSketch K), Shuf s t → Rel Shuf (drain fast m f l s) (drain fast m f l t))
  | 0 => ⟨fun _ _ _ _ _ => by unfold batch; rfl, fun _ _ _ _ _ => by unfold fill; rfl, fun _ _ _ _ => by unfold drain; rfl⟩
  | f + 1 => by
    obtain ⟨ib, ifl, id⟩ := Shuf.loops fast m f
    refine ⟨?_, ?_, ?_⟩
    · intro xs l s t h
      unfold batch
      exact ifl xs l _ _ (h.ensureLevel l)
    · intro xs l s t h
      unfold fill
      split
      · exact h
      · refine rel_bind (rel_idx h.buffers l) ?_
        intro b b' hb
        refine rel_bind (rel_usub h.bufferSize hb.length_eq) ?_
        rintro room _ rfl
        refine rel_bind (id l _ _ (h.setBuf l (hb.append_right _))) ?_
        intro s' t' h'
        exact ifl _ l _ _ h'
    · intro l s t h
      unfold drain
      refine rel_bind (rel_idx h.buffers l) ?_
      intro b b' hb
      rw [hb.length_eq, h.bufferSize]
      split
      · refine rel_bind (h.compactAt l fast m) ?_
        rintro a a' ⟨h1, h2⟩
        rw [h1]
        refine rel_bind (ib _ (l + 1) _ _ h2) ?_
        intro s' t' h'
        exact id l _ _ h'
      · exact h

theorem Shuf.fuelFor {s t : RCSketch K} (h : Shuf s t) (n : Nat) : s.fuelFor n = t.fuelFor n := by
  have e : s.stored = t.stored := by
    unfold RCSketch.stored
    have : ∀ {a b : List (List (Fl K))}, List.Forall₂ List.Perm a b → a.map List.length = b.map List.length := by
      intro a b hab
      induction hab with
      | nil => rfl
      | cons h hs ih => rw [List.map_cons, List.map_cons, ih, h.length_eq]
    rw [this h.buffers]
  unfold RCSketch.fuelFor
  rw [e, h.bufferSize, h.buffers.length_eq]

theorem Shuf.add {s t : RCSketch K} (h : Shuf s t) (x : Fl K) : Rel Shuf (s.add x) (t.add x) := by
  unfold RCSketch.add RCSketch.insertAt
  rw [h.fuelFor]
  refine rel_bind (R := Shuf) ?_ (fun a b hab => ⟨hab.buffers, hab.inputLength, hab.k, hab.bufferSize, by rw [hab.count], hab.counters⟩)
  have h' := h.ensureLevel 0
  refine rel_bind (rel_idx h'.buffers 0) ?_
  intro b b' hb
  have hb' : (b ++ [x]).Perm (b' ++ [x]) := hb.append_right _
  have h'' := h'.setBuf 0 hb'
  dsimp only
  rw [hb'.length_eq, h''.bufferSize]
  split
  · refine rel_bind (h''.compactAt 0 false _) ?_
    rintro a a' ⟨h1, h2⟩
    rw [h1]
    exact (Shuf.loops false _ _).1 _ _ _ _ h2
  · exact h''

theorem Shuf.batches (fast : Bool) (m : CompactionMethod) : ∀ (cs : List (List (Fl K))) {s t : RCSketch K}, Shuf s t →
    Rel Shuf (batches fast m cs s) (batches fast m cs t)
  | [], s, t, h => h
  | c :: cs, s, t, h => by
    unfold RCSketch.batches
    rw [h.fuelFor]
    refine rel_bind ((Shuf.loops fast m _).1 _ _ _ _ h) ?_
    intro s' t' h'
    exact Shuf.batches fast m cs h'

theorem Shuf.addBufferCustom {s t : RCSketch K} (h : Shuf s t) (xs : List (Fl K)) (fast : Bool) (m : CompactionMethod) :
    Rel Shuf (s.addBufferCustom xs fast m) (t.addBufferCustom xs fast m) := by
  unfold RCSketch.addBufferCustom
  rw [h.bufferSize]
  refine rel_bind (R := (· = ·)) (rel_refl (fun _ => rfl) _) ?_
  rintro cs _ rfl
  refine rel_bind (Shuf.batches fast m cs h) ?_
  intro s' t' h'
  exact ⟨h'.buffers, h'.inputLength, h'.k, h'.bufferSize, by rw [h'.count], h'.counters⟩

theorem Shuf.execOps : ∀ (ops : List (InsOp K)) {s t : RCSketch K}, Shuf s t → Rel Shuf (s.execOps ops) (t.execOps ops)
  | [], s, t, h => h
  | o :: ops, s, t, h => by
    unfold RCSketch.execOps
    refine rel_bind (R := Shuf) ?_ (fun s' t' h' => Shuf.execOps ops h')
    cases o with
    | add x => exact h.add x
    | addBuffer xs => exact h.addBufferCustom xs false .default
    | addBufferFast xs => exact h.addBufferCustom xs true .default
    | addBufferCustom xs fast m => exact h.addBufferCustom xs fast m

/-- Append to level 0, without compaction. -/
def push0 (s : RCSketch K) (xs : List (Fl K)) : RCSketch K :=
  if xs = [] then s
  else match s.buffers with
    | [] => { s with buffers := [xs], counters := s.counters ++ [0], compactions := s.compactions ++ [0] }
    | b :: bs => { s with buffers := (b ++ xs) :: bs }

/-- Number of items at level 0. -/
def len0 (s : RCSketch K) : Nat := (s.buffers.getD 0 []).length

theorem push0_len (s : RCSketch K) (xs : List (Fl K)) : (s.push0 xs).len0 = s.len0 + xs.length ∧ (s.push0 xs).bufferSize = s.bufferSize ∧
    (s.push0 xs).count = s.count := by
  obtain ⟨bufs, il, k, B, n, cnt, cmp, lg⟩ := s
  unfold push0 len0
  by_cases h : xs = []
  · simp [h]
  · rw [if_neg h]
    cases bufs <;> simp

theorem push0_append (s : RCSketch K) (xs ys : List (Fl K)) : (s.push0 xs).push0 ys = s.push0 (xs ++ ys) := by
  obtain ⟨bufs, il, k, B, n, cnt, cmp, lg⟩ := s
  by_cases hx : xs = []
  · subst hx; rfl
  by_cases hy : ys = []
  · subst hy; rw [List.append_nil]; rfl
  have hxy : xs ++ ys ≠ [] := by simp [hx]
  unfold push0
  cases bufs <;> simp [hx, hy]

/-- The same, with the count. -/
def pushed (s : RCSketch K) (xs : List (Fl K)) : RCSketch K := { s.push0 xs with count := s.count + xs.length }

theorem pushed_len (s : RCSketch K) (xs : List (Fl K)) : (s.pushed xs).len0 = s.len0 + xs.length ∧
    (s.pushed xs).bufferSize = s.bufferSize := ⟨(push0_len s xs).1, (push0_len s xs).2.1⟩

theorem pushed_append (s : RCSketch K) (xs ys : List (Fl K)) : (s.pushed xs).pushed ys = s.pushed (xs ++ ys) := by
  obtain ⟨bufs, il, k, B, n, cnt, cmp, lg⟩ := s
  by_cases hx : xs = []
  · subst hx; rfl
  by_cases hy : ys = []
  · subst hy; rw [List.append_nil]; rfl
  unfold pushed push0
  cases bufs <;> simp [hx, hy, Nat.add_assoc]

theorem batch_fits (fast : Bool) (m : CompactionMethod) (f : Nat) {xs : List (Fl K)} (hx : xs ≠ []) {s : RCSketch K}
    (h : s.len0 + xs.length < s.bufferSize) : batch fast m (f + 3) xs 0 s = .ret (s.push0 xs) := by
  obtain ⟨bufs, il, k, B, n, cnt, cmp, lg⟩ := s
  unfold len0 at h
  have key : ∀ (b : List (Fl K)) (bs : List (List (Fl K))) (cnt cmp : List Nat), b.length + xs.length < B →
      fill fast m (f + 2) xs 0 (⟨b :: bs, il, k, B, n, cnt, cmp, lg⟩ : RCSketch K) =
        .ret ⟨(b ++ xs) :: bs, il, k, B, n, cnt, cmp, lg⟩ := by
    intro b bs cnt cmp h
    have h1 : xs.take (B - b.length) = xs := List.take_of_length_le (by omega)
    have h2 : xs.drop (B - b.length) = [] := List.drop_of_length_le (by omega)
    have h3 : ¬ B < b.length := by omega
    have h4 : ¬ B ≤ (b ++ xs).length := by rw [List.length_append]; omega
    have hd : drain fast m (f + 1) 0 (⟨(b ++ xs) :: bs, il, k, B, n, cnt, cmp, lg⟩ : RCSketch K) =
        .ret ⟨(b ++ xs) :: bs, il, k, B, n, cnt, cmp, lg⟩ := by
      unfold drain
      show (if B ≤ (b ++ xs).length then _ else _) = _
      rw [if_neg h4]
    unfold fill
    rw [if_neg hx]
    show (usub B b.length >>= fun room => _) = _
    rw [show usub B b.length = .ret (B - b.length) from if_pos (by omega), bind_ret]
    show (drain fast m (f + 1) 0 (⟨(b ++ xs.take (B - b.length)) :: bs, il, k, B, n, cnt, cmp, lg⟩ : RCSketch K) >>= fun s' => _) = _
    rw [h1, hd, bind_ret, h2]
    unfold fill
    rw [if_pos rfl]
  unfold batch push0
  rw [if_neg hx]
  cases bufs with
  | nil => exact key [] [] _ _ (by simpa using h)
  | cons b bs => exact key b bs _ _ (by simpa using h)

theorem batches_fits (fast : Bool) (m : CompactionMethod) : ∀ (cs : List (List (Fl K))) {s : RCSketch K}, (∀ c ∈ cs, c ≠ []) →
    s.len0 + cs.flatten.length < s.bufferSize → batches fast m cs s = .ret (s.push0 cs.flatten)
  | [], s, _, _ => by unfold batches push0; rfl
  | c :: cs, s, hne, h => by
    rw [List.flatten_cons, List.length_append] at h
    obtain ⟨f, hf⟩ : ∃ f, s.fuelFor c.length = f + 3 := ⟨s.fuelFor c.length - 3, by unfold fuelFor; omega⟩
    obtain ⟨h1, h2, -⟩ := push0_len s c
    unfold batches
    rw [hf, batch_fits fast m f (hne c (by simp)) (by omega), bind_ret,
      batches_fits fast m cs (fun x hx => hne x (by simp [hx])) (by rw [h1, h2]; omega), push0_append, List.flatten_cons]

theorem addBufferCustom_fits (fast : Bool) (m : CompactionMethod) (xs : List (Fl K)) {s : RCSketch K} (hB : 2 ≤ s.bufferSize)
    (h : s.len0 + xs.length < s.bufferSize) :
    s.addBufferCustom xs fast m = .ret (s.pushed xs) := by
  have hc : s.bufferSize / 2 ≠ 0 := by omega
  unfold addBufferCustom chunks
  rw [if_neg hc, bind_ret]
  have hfl := chunksAux_flatten (s.bufferSize / 2) hc xs.length xs le_rfl
  rw [batches_fits fast m _ (fun c hcm => chunksAux_ne_nil _ hc _ _ _ hcm) (by rw [hfl]; exact h), bind_ret, hfl, (push0_len s xs).2.2]
  rfl

theorem add_fits (x : Fl K) {s : RCSketch K} (h : s.len0 + 1 < s.bufferSize) :
    s.add x = .ret (s.pushed [x]) := by
  unfold add insertAt
  have : ∀ f : Nat, (do
      let buf ← Prog.idx (s.ensureLevel 0).buffers 0
      let t := (s.ensureLevel 0).setBuf 0 (buf ++ [x])
      if t.bufferSize ≤ (buf ++ [x]).length then do
        let r ← t.compactAt 0 false .default
        batch false .default f r.1 (0 + 1) r.2
      else Prog.ret t) = .ret (s.push0 [x]) := by
    intro f
    obtain ⟨bufs, il, k, B, n, cnt, cmp, lg⟩ := s
    unfold len0 at h
    cases bufs with
    | nil =>
      show (if B ≤ 1 then _ else _) = _
      rw [if_neg (by simpa using h)]
      rfl
    | cons b bs =>
      have h' : b.length + 1 < B := h
      show (if B ≤ (b ++ [x]).length then _ else _) = _
      rw [if_neg (by rw [List.length_append]; simpa using h')]
      rfl
  rw [this, bind_ret, (push0_len s [x]).2.2]
  rfl

theorem execOp_fits (o : InsOp K) {s : RCSketch K} (hB : 2 ≤ s.bufferSize) (h : s.len0 + o.items.length < s.bufferSize) :
    s.execOp o = .ret (s.pushed o.items) := by
  cases o with
  | add x => exact add_fits x h
  | addBuffer xs => exact addBufferCustom_fits false .default xs hB h
  | addBufferFast xs => exact addBufferCustom_fits true .default xs hB h
  | addBufferCustom xs fast m => exact addBufferCustom_fits fast m xs hB h

theorem execOps_fits : ∀ (ops : List (InsOp K)) {s : RCSketch K}, 2 ≤ s.bufferSize → s.len0 + (insItems ops).length < s.bufferSize →
    s.execOps ops = .ret (s.pushed (insItems ops))
  | [], s, hB, h => rfl
  | o :: os, s, hB, h => by
    have e : insItems (o :: os) = o.items ++ insItems os := rfl
    rw [e, List.length_append] at h
    obtain ⟨h1, h2⟩ := pushed_len s o.items
    unfold execOps
    rw [execOp_fits o hB (by omega), bind_ret, execOps_fits os (by omega) (by omega), pushed_append, e]

theorem pushed_shuf (s : RCSketch K) {xs ys : List (Fl K)} (h : xs.Perm ys) : Shuf (s.pushed xs) (s.pushed ys) := by
  unfold pushed
  rw [h.length_eq]
  by_cases hx : xs = []
  · have hy : ys = [] := by rw [hx] at h; exact h.symm.eq_nil
    rw [hx, hy]
    exact ⟨forall₂_perm_refl _, rfl, rfl, rfl, rfl, rfl⟩
  · have hy : ys ≠ [] := fun e => hx (by rw [e] at h; exact h.eq_nil)
    obtain ⟨bufs, il, k, B, n', cnt, cmp, lg⟩ := s
    unfold push0
    rw [if_neg hx, if_neg hy]
    cases bufs with
    | nil => exact ⟨.cons h .nil, rfl, rfl, rfl, rfl, rfl⟩
    | cons b bs => exact ⟨.cons (h.append_left b) (forall₂_perm_refl bs), rfl, rfl, rfl, rfl, rfl⟩

/-- Two ways of supplying the same items that fit into level 0 are followed by the same answers, whatever is inserted afterwards. -/
theorem execOps_any_order {mid mid' : List (InsOp K)} (hp : (insItems mid).Perm (insItems mid')) {s : RCSketch K} (hB : 2 ≤ s.bufferSize)
    (h : s.len0 + (insItems mid).length < s.bufferSize) (post : List (InsOp K)) :
    Rel Shuf (s.execOps mid >>= fun s' => s'.execOps post) (s.execOps mid' >>= fun s' => s'.execOps post) := by
  rw [execOps_fits mid hB h, execOps_fits mid' hB (by rw [← hp.length_eq]; exact h), bind_ret, bind_ret]
  exact Shuf.execOps post (pushed_shuf s hp)

end RCSketch

/-! ### RCSketch2 -/

/-- Levels that differ in the order of the items only. -/
structure Level2.Shuf (s t : Level2 K) : Prop where
  buf : s.buf.Perm t.buf
  counter : s.counter = t.counter
  sections : s.sections = t.sections
  divs : s.divs = t.divs

/-- Sketches that differ in the order of the items within each level only. -/
structure RCSketch2.Shuf (s t : RCSketch2 K) : Prop where
  levels : List.Forall₂ Level2.Shuf s.levels t.levels
  sketchSize : s.sketchSize = t.sketchSize
  k : s.k = t.k
  count : s.count = t.count

theorem Level2.Shuf.rfl' (l : Level2 K) : l.Shuf l := ⟨.refl _, rfl, rfl, rfl⟩

theorem forall₂_shuf_refl : ∀ ls : List (Level2 K), List.Forall₂ Level2.Shuf ls ls
  | [] => .nil
  | l :: ls => .cons (Level2.Shuf.rfl' l) (forall₂_shuf_refl ls)

namespace RCSketch2
variable {sec : Nat → Nat}

theorem shuf_cap {l l' : Level2 K} (h : l.Shuf l') : cap sec l = cap sec l' := by
  unfold cap; rw [h.sections, h.divs]

theorem shuf_updateSections {l l' : Level2 K} (h : l.Shuf l') : (updateSections l).Shuf (updateSections l') := by
  unfold updateSections
  rw [h.sections, h.counter]
  split
  · exact ⟨h.buf, rfl, rfl, by rw [h.divs]⟩
  · exact h

theorem shuf_getCompactIndex {l l' : Level2 K} (h : l.Shuf l') :
    Rel (fun a b => a.1 = b.1 ∧ a.2.Shuf b.2) (getCompactIndex sec l) (getCompactIndex sec l') := by
  unfold getCompactIndex
  refine rel_bind (rel_usub h.sections (by rw [h.counter])) ?_
  rintro a _ rfl
  refine rel_bind (rel_usub rfl rfl) ?_
  rintro b _ rfl
  rw [h.counter]
  split
  · exact ⟨by rw [h.buf.length_eq, h.divs], h.buf, rfl, h.sections, h.divs⟩
  · rfl

theorem shuf_compactBuffer {l l' : Level2 K} (h : l.Shuf l') (ci : Nat) (m : CompactionMethod) :
    Rel (fun a b => a.1 = b.1 ∧ a.2.1 = b.2.1 ∧ a.2.2.Shuf b.2.2) (compactBuffer l ci m) (compactBuffer l' ci m) := by
  unfold compactBuffer
  rw [sortFl_eq_of_perm h.buf]
  refine rel_bind (R := (· = ·)) (rel_refl (fun _ => rfl) _) ?_
  rintro s _ rfl
  split
  · refine rel_bind (R := (· = ·)) (rel_refl (fun _ => rfl) _) ?_
    rintro o _ rfl
    exact ⟨rfl, rfl, .refl _, h.counter, h.sections, h.divs⟩
  · rfl

theorem shuf_compactLevel (fast : Bool) (m : CompactionMethod) {l l' : Level2 K} (h : l.Shuf l') :
    Rel (fun a b => a.1 = b.1 ∧ a.2.1 = b.2.1 ∧ a.2.2.Shuf b.2.2) (compactLevel sec fast m l) (compactLevel sec fast m l') := by
  unfold compactLevel
  refine rel_bind (R := fun a b => a.1 = b.1 ∧ a.2.Shuf b.2) ?_ ?_
  · split
    · exact ⟨by unfold getCompactIndexFast; rw [shuf_cap h], h⟩
    · exact shuf_getCompactIndex h
  · rintro a b ⟨e, hl⟩
    rw [e]
    refine rel_bind (shuf_compactBuffer hl _ m) ?_
    rintro c d ⟨h1, h2, h3⟩
    exact ⟨h1, h2, shuf_updateSections h3⟩

theorem shuf_extend {l l' : Level2 K} (h : l.Shuf l') : ∀ c : Option (List (Fl K)), (extend l c).Shuf (extend l' c)
  | none => h
  | some a => ⟨h.buf.append_right _, h.counter, h.sections, h.divs⟩

theorem shuf_compressFrom (fast : Bool) (m : CompactionMethod) : ∀ {ls ls' : List (Level2 K)}, List.Forall₂ Level2.Shuf ls ls' →
    ∀ (size : Nat) (c : Option (List (Fl K))),
    Rel (fun a b => a.1 = b.1 ∧ List.Forall₂ Level2.Shuf a.2 b.2) (compressFrom sec fast m size c ls)
      (compressFrom sec fast m size c ls')
  | [], [], .nil, size, none => ⟨rfl, .nil⟩
  | [], [], .nil, size, some a => ⟨rfl, .cons (Level2.Shuf.rfl' _) .nil⟩
  | l :: ls, l' :: ls', .cons hl hls, size, c => by
    have he := shuf_extend hl c
    rw [compressFrom, compressFrom, shuf_cap he, he.buf.length_eq]
    split
    · refine rel_bind (shuf_compactLevel fast m he) ?_
      rintro a b ⟨h1, h2, h3⟩
      refine rel_bind (rel_usub rfl h2) ?_
      rintro sz _ rfl
      rw [h1]
      refine rel_bind (shuf_compressFrom fast m hls _ _) ?_
      rintro x y ⟨h4, h5⟩
      exact ⟨h4, .cons h3 h5⟩
    · refine rel_bind (shuf_compressFrom fast m hls _ none) ?_
      rintro x y ⟨h4, h5⟩
      exact ⟨h4, .cons he h5⟩

theorem shuf_capacity {s t : RCSketch2 K} (h : s.Shuf t) : capacity sec s = capacity sec t := by
  have : ∀ {a b : List (Level2 K)}, List.Forall₂ Level2.Shuf a b → a.map (cap sec) = b.map (cap sec) := by
    intro a b hab
    induction hab with
    | nil => rfl
    | cons h hs ih => rw [List.map_cons, List.map_cons, ih, shuf_cap h]
  unfold capacity
  rw [this h.levels]

theorem shuf_pushAll {s t : RCSketch2 K} (h : s.Shuf t) (xs : List (Fl K)) : Rel Shuf (pushAll s xs) (pushAll t xs) := by
  obtain ⟨l1, z1, k1, c1⟩ := s
  obtain ⟨l2, z2, k2, c2⟩ := t
  obtain ⟨hl, hz, hk, hc⟩ := h
  simp only at hl hz hk hc
  unfold pushAll
  cases hl with
  | nil => rfl
  | cons h1 hs => exact ⟨.cons ⟨h1.buf.append_right _, h1.counter, h1.sections, h1.divs⟩ hs, by simp [hz], hk, hc⟩

theorem shuf_compressIfFull (fast : Bool) (m : CompactionMethod) {s t : RCSketch2 K} (h : s.Shuf t) :
    Rel Shuf (compressIfFull sec fast m s) (compressIfFull sec fast m t) := by
  unfold compressIfFull
  rw [shuf_capacity h, h.sketchSize]
  split
  · unfold compress
    rw [h.sketchSize]
    refine rel_bind (shuf_compressFrom fast m h.levels _ none) ?_
    rintro a b ⟨h1, h2⟩
    exact ⟨h2, h1, h.k, h.count⟩
  · exact h

theorem shuf_insertBatchLoop (fast : Bool) (m : CompactionMethod) : ∀ (n : Nat) (xs : List (Fl K)) {s t : RCSketch2 K}, s.Shuf t →
    Rel Shuf (insertBatchLoop sec fast m n xs s) (insertBatchLoop sec fast m n xs t)
  | n, [], s, t, h => by cases n <;> exact h
  | 0, _ :: _, s, t, h => rfl
  | n + 1, x :: xs, s, t, h => by
    rw [insertBatchLoop, insertBatchLoop, shuf_capacity (sec := sec) h, h.sketchSize]
    split
    · refine rel_bind (shuf_pushAll h _) ?_
      intro s1 t1 h1
      refine rel_bind (shuf_compressIfFull fast m h1) ?_
      intro s2 t2 h2
      exact shuf_insertBatchLoop fast m n _ h2
    · rfl

theorem shuf_addBufferCustom {s t : RCSketch2 K} (h : s.Shuf t) (xs : List (Fl K)) (fast : Bool) (m : CompactionMethod) :
    Rel Shuf (s.addBufferCustom sec xs fast m) (t.addBufferCustom sec xs fast m) := by
  unfold addBufferCustom insertBatch
  refine rel_bind (shuf_insertBatchLoop fast m _ xs h) ?_
  intro s1 t1 h1
  exact ⟨h1.levels, h1.sketchSize, h1.k, by rw [h1.count]⟩

theorem shuf_add {s t : RCSketch2 K} (h : s.Shuf t) (x : Fl K) : Rel Shuf (s.add sec x) (t.add sec x) := by
  unfold add insert
  rw [bind_assoc', bind_assoc']
  refine rel_bind (shuf_pushAll h [x]) ?_
  intro s1 t1 h1
  refine rel_bind (shuf_compressIfFull false _ h1) ?_
  intro s2 t2 h2
  exact ⟨h2.levels, h2.sketchSize, h2.k, by rw [h2.count]⟩

theorem shuf_execOps : ∀ (ops : List (InsOp K)) {s t : RCSketch2 K}, s.Shuf t → Rel Shuf (s.execOps sec ops) (t.execOps sec ops)
  | [], s, t, h => h
  | o :: ops, s, t, h => by
    unfold execOps
    refine rel_bind (R := Shuf) ?_ (fun s' t' h' => shuf_execOps ops h')
    cases o with
    | add x => exact shuf_add h x
    | addBuffer xs => exact shuf_addBufferCustom h xs false .default
    | addBufferFast xs => exact shuf_addBufferCustom h xs true .default
    | addBufferCustom xs fast m => exact shuf_addBufferCustom h xs fast m

theorem Shuf.buffers {s t : RCSketch2 K} (h : s.Shuf t) : List.Forall₂ List.Perm s.buffers t.buffers := by
  unfold RCSketch2.buffers
  rw [List.forall₂_map_left_iff, List.forall₂_map_right_iff]
  exact h.levels.imp (fun a b h => h.buf)

/-- Append to level 0 and count, without compaction. -/
def pushed (s : RCSketch2 K) (xs : List (Fl K)) : RCSketch2 K :=
  match s.levels with
  | [] => s
  | l :: ls => ⟨{ l with buf := l.buf ++ xs } :: ls, s.sketchSize + xs.length, s.k, s.count + xs.length⟩

theorem pushed_same (s : RCSketch2 K) (hs : s.levels ≠ []) (xs : List (Fl K)) : (s.pushed xs).levels ≠ [] ∧
    (s.pushed xs).sketchSize = s.sketchSize + xs.length ∧ capacity sec (s.pushed xs) = capacity sec s := by
  obtain ⟨ls, z, k, c⟩ := s
  cases ls with
  | nil => exact absurd rfl hs
  | cons l ls => exact ⟨by simp [pushed], rfl, rfl⟩

theorem pushed_append (s : RCSketch2 K) (xs ys : List (Fl K)) : (s.pushed xs).pushed ys = s.pushed (xs ++ ys) := by
  obtain ⟨ls, z, k, c⟩ := s
  cases ls with
  | nil => rfl
  | cons l ls => simp [pushed, Nat.add_assoc]

theorem addBufferCustom_fits (fast : Bool) (m : CompactionMethod) (xs : List (Fl K)) {s : RCSketch2 K} (hs : s.levels ≠ [])
    (h : s.sketchSize + xs.length < capacity sec s) : s.addBufferCustom sec xs fast m = .ret (s.pushed xs) := by
  have hcap := (pushed_same (sec := sec) s hs xs).2.2
  obtain ⟨ls, z, k, c⟩ := s
  cases ls with
  | nil => exact absurd rfl hs
  | cons l ls =>
    have h' : z + xs.length < capacity sec (⟨l :: ls, z, k, c⟩ : RCSketch2 K) := h
    unfold addBufferCustom insertBatch
    cases xs with
    | nil => simp [insertBatchLoop, pushed, bind_ret]
    | cons x xs =>
      have h1 : (x :: xs).take (capacity sec (⟨l :: ls, z, k, c⟩ : RCSketch2 K) - z) = x :: xs := List.take_of_length_le (by omega)
      have h2 : (x :: xs).drop (capacity sec (⟨l :: ls, z, k, c⟩ : RCSketch2 K) - z) = [] := List.drop_of_length_le (by omega)
      have hc' : compressIfFull sec fast m (⟨{ l with buf := l.buf ++ x :: xs } :: ls, z + (x :: xs).length, k, c⟩ : RCSketch2 K) =
          .ret ⟨{ l with buf := l.buf ++ x :: xs } :: ls, z + (x :: xs).length, k, c⟩ := by
        unfold compressIfFull
        exact if_neg (by
          show ¬ capacity sec (⟨l :: ls, z, k, c⟩ : RCSketch2 K) ≤ z + (x :: xs).length
          omega)
      show ((insertBatchLoop sec fast m (xs.length + 1) (x :: xs) ⟨l :: ls, z, k, c⟩) >>= fun s => _) = _
      rw [insertBatchLoop]
      rw [if_pos (show z ≤ capacity sec (⟨l :: ls, z, k, c⟩ : RCSketch2 K) by omega)]
      simp only [h1, h2, pushAll, bind_ret, hc']
      cases xs <;> rfl

theorem add_fits (x : Fl K) {s : RCSketch2 K} (hs : s.levels ≠ []) (h : s.sketchSize + 1 < capacity sec s) :
    s.add sec x = .ret (s.pushed [x]) := by
  obtain ⟨ls, z, k, c⟩ := s
  cases ls with
  | nil => exact absurd rfl hs
  | cons l ls =>
    have h' : z + 1 < capacity sec (⟨l :: ls, z, k, c⟩ : RCSketch2 K) := h
    have hc' : compressIfFull sec false .default (⟨{ l with buf := l.buf ++ [x] } :: ls, z + 1, k, c⟩ : RCSketch2 K) =
        .ret ⟨{ l with buf := l.buf ++ [x] } :: ls, z + 1, k, c⟩ := by
      unfold compressIfFull
      exact if_neg (by
        show ¬ capacity sec (⟨l :: ls, z, k, c⟩ : RCSketch2 K) ≤ z + 1
        omega)
    unfold add insert
    show (compressIfFull sec false .default _ >>= fun s => _) = _
    rw [show [x].length = 1 from rfl, hc']
    rfl

theorem execOp_fits (o : InsOp K) {s : RCSketch2 K} (hs : s.levels ≠ []) (h : s.sketchSize + o.items.length < capacity sec s) :
    s.execOp sec o = .ret (s.pushed o.items) := by
  cases o with
  | add x => exact add_fits x hs h
  | addBuffer xs => exact addBufferCustom_fits false .default xs hs h
  | addBufferFast xs => exact addBufferCustom_fits true .default xs hs h
  | addBufferCustom xs fast m => exact addBufferCustom_fits fast m xs hs h

theorem execOps_fits : ∀ (ops : List (InsOp K)) {s : RCSketch2 K}, s.levels ≠ [] → s.sketchSize + (insItems ops).length < capacity sec s →
    s.execOps sec ops = .ret (s.pushed (insItems ops))
  | [], s, hs, h => by
    obtain ⟨ls, z, k, c⟩ := s
    cases ls with
    | nil => exact absurd rfl hs
    | cons l ls => simp [execOps, insItems, pushed]
  | o :: os, s, hs, h => by
    have e : insItems (o :: os) = o.items ++ insItems os := rfl
    rw [e, List.length_append] at h
    obtain ⟨h1, h2, h3⟩ := pushed_same (sec := sec) s hs o.items
    unfold execOps
    rw [execOp_fits o hs (by omega), bind_ret, execOps_fits os h1 (by omega), pushed_append, e]

theorem pushed_shuf (s : RCSketch2 K) {xs ys : List (Fl K)} (h : xs.Perm ys) : (s.pushed xs).Shuf (s.pushed ys) := by
  obtain ⟨ls, z, k, c⟩ := s
  unfold pushed
  cases ls with
  | nil => exact ⟨.nil, rfl, rfl, rfl⟩
  | cons l ls =>
    exact ⟨.cons ⟨h.append_left _, rfl, rfl, rfl⟩ (forall₂_shuf_refl ls), by simp [h.length_eq], rfl, by simp [h.length_eq]⟩

/-- Two ways of supplying the same items that do not fill the sketch are followed by the same answers, whatever is inserted afterwards. -/
theorem execOps_any_order {mid mid' : List (InsOp K)} (hp : (insItems mid).Perm (insItems mid')) {s : RCSketch2 K} (hs : s.levels ≠ [])
    (h : s.sketchSize + (insItems mid).length < capacity sec s) (post : List (InsOp K)) :
    Rel Shuf (s.execOps sec mid >>= fun s' => s'.execOps sec post) (s.execOps sec mid' >>= fun s' => s'.execOps sec post) := by
  rw [execOps_fits mid hs h, execOps_fits mid' hs (by rw [← hp.length_eq]; exact h), bind_ret, bind_ret]
  exact shuf_execOps post (pushed_shuf s hp)

end RCSketch2

/-! ### The same possible outcomes -/

namespace Prog

theorem canFail_bind {α β : Type} {p : Prog α} {k : α → Prog β} {e : Err} :
    CanFail (p >>= k) e ↔ CanFail p e ∨ ∃ a, CanReturn p a ∧ CanFail (k a) e := by
  induction p with
  | ret a =>
    constructor
    · intro h; exact Or.inr ⟨a, rfl, h⟩
    · rintro (h | ⟨b, hb, h⟩)
      · exact h.elim
      · obtain rfl : a = b := hb
        exact h
  | fail e' =>
    constructor
    · intro h; exact Or.inl h
    · rintro (h | ⟨b, hb, h⟩)
      · exact h
      · exact hb.elim
  | flip f ih =>
    constructor
    · rintro ⟨b, hb⟩
      rcases (ih b).1 hb with h | ⟨a, ha, h⟩
      · exact Or.inl ⟨b, h⟩
      · exact Or.inr ⟨a, ⟨b, ha⟩, h⟩
    · rintro (⟨b, hb⟩ | ⟨a, ⟨b, hb⟩, h⟩)
      · exact ⟨b, (ih b).2 (Or.inl hb)⟩
      · exact ⟨b, (ih b).2 (Or.inr ⟨a, hb, h⟩)⟩

theorem SameOutcomes.bind {α β : Type} {p q : Prog α} (h : SameOutcomes p q) {k k' : α → Prog β} (hk : ∀ a, SameOutcomes (k a) (k' a)) :
    SameOutcomes (p >>= k) (q >>= k') := by
  refine ⟨fun b => ?_, fun e => ?_⟩
  · simp only [canReturn_bind, h.1, (hk _).1]
  · simp only [canFail_bind, h.1, h.2, (hk _).2]

theorem SameOutcomes.rfl' {α : Type} (p : Prog α) : SameOutcomes p p := ⟨fun _ => Iff.rfl, fun _ => Iff.rfl⟩
end Prog

theorem canReturn_sortTie {α : Type} (f : α → Fl K) (l r : List α) :
    CanReturn (sortTie f l) r ↔ r.Perm l ∧ r.Pairwise (fun a b => f a ≤ f b) :=
  ⟨fun h => ((always_iff _ _).1 (sortTie_spec f l)).1 r h, fun h => sortTie_complete f l r h.1 h.2⟩

theorem not_canFail_sortTie {α : Type} (f : α → Fl K) (l : List α) (e : Err) : ¬ CanFail (sortTie f l) e :=
  ((always_iff _ _).1 (sortTie_spec f l)).2 e

theorem sortUnstable_same {α : Type} (f : α → Fl K) {l l' : List α} (h : l.Perm l') :
    SameOutcomes (sortUnstable f l) (sortUnstable f l') := by
  have h1 : (l.any (fun a => (f a).isNan)) = l'.any (fun a => (f a).isNan) := by
    rw [Bool.eq_iff_iff]; simp only [List.any_eq_true, h.mem_iff]
  unfold sortUnstable
  rw [h.length_eq, h1]
  split
  · exact SameOutcomes.rfl' _
  · refine ⟨fun r => ?_, fun e => ?_⟩
    · rw [canReturn_sortTie, canReturn_sortTie]
      exact and_congr_left fun _ => ⟨fun hr => hr.trans h, fun hr => hr.trans h.symm⟩
    · exact iff_of_false (not_canFail_sortTie f l e) (not_canFail_sortTie f l' e)

namespace TDigest

theorem addCentroidBuffer_sameOut (d : TDigest K) {l l' : List (Centroid K)} (h : l.Perm l') :
    SameOutcomes (d.addCentroidBuffer l) (d.addCentroidBuffer l') := by
  unfold addCentroidBuffer
  exact (sortUnstable_same _ (h.append_right _)).bind (fun _ => SameOutcomes.rfl' _)

theorem exec_supplied [FloatFmt.Mono K] (d : TDigest K) (o : TOp K) : o.exec d = d.addCentroidBuffer o.supplied := by
  have h : (Fl.lit 1 : Fl K) = .fin 1 := FloatFmt.Mono.rnd_one
  cases o with
  | add x => simp only [TOp.exec, TOp.supplied, add, unit, h]
  | addBuffer xs =>
    simp only [TOp.exec, TOp.supplied, addBuffer]
    congr 1
    apply List.map_congr_left
    intro x _
    rw [unit, h]
  | addCentroids cs => rfl

theorem execOps_sameOut [FloatFmt.Mono K] : ∀ {ops ops' : List (TOp K)}, List.Forall₂ (fun o o' => o.supplied.Perm o'.supplied) ops ops' →
    ∀ d : TDigest K, SameOutcomes (d.execOps ops) (d.execOps ops')
  | [], [], .nil, d => SameOutcomes.rfl' _
  | o :: os, o' :: os', .cons h hs, d => by
    unfold execOps
    rw [exec_supplied, exec_supplied]
    exact (addCentroidBuffer_sameOut d h).bind (fun d' => execOps_sameOut hs d')

/-- The ties of a batch of unit centroids in an empty digest are between equal centroids. -/
theorem addBuffer_fresh_det [FloatFmt.Mono K] {d : TDigest K} (hd : d.centroids = []) {xs ys : List (Fl K)} (h : xs.Perm ys) {a b : TDigest K}
    (ha : CanReturn (d.addBuffer xs) a) (hb : CanReturn (d.addBuffer ys) b) : a = b := by
  unfold addBuffer addCentroidBuffer at ha hb
  rw [hd, List.append_nil] at ha hb
  rw [canReturn_bind] at ha hb
  obtain ⟨r, hr, ha⟩ := ha
  obtain ⟨t, ht, hb⟩ := hb
  have get : ∀ {l r : List (Centroid K)}, CanReturn (sortUnstable Centroid.mean l) r → r.Perm l ∧ r.Pairwise (fun a b => a.mean ≤ b.mean) := by
    intro l r h
    unfold sortUnstable at h
    split at h
    · exact h.elim
    · exact (canReturn_sortTie _ _ _).1 h
  obtain ⟨h1, h2⟩ := get hr
  obtain ⟨h3, h4⟩ := get ht
  have e : r = t := by
    refine List.Perm.eq_of_pairwise (le := fun a b => a.mean ≤ b.mean) ?_ h2 h4 (h1.trans ((h.map _).trans h3.symm))
    intro u v hu hv p q
    obtain ⟨x, -, rfl⟩ := List.mem_map.1 (h1.mem_iff.1 hu)
    obtain ⟨y, -, rfl⟩ := List.mem_map.1 (h3.mem_iff.1 hv)
    rw [show x = y from le_antisymm p q]
  subst e
  have e1 : d.mergeSorted r = a := ha
  have e2 : d.mergeSorted r = b := hb
  rw [← e1, ← e2]

end TDigest
end AQ

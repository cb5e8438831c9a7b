/-
Facts about the non-deterministic library models.
-/
import Mathlib.Data.List.Basic
import Mathlib.Data.List.Sort
import Verif.Model.Nondet

set_option linter.unusedSectionVars false
set_option linter.unusedVariables false

namespace AQ
open Prog
variable {K : Type} [LinearOrder K]

theorem insertTie_spec {α : Type} (f : α → Fl K) (a : α) : ∀ l : List α, l.Pairwise (fun a b => f a ≤ f b) →
    Always (insertTie f a l) (fun r => r.Perm (a :: l) ∧ r.Pairwise (fun a b => f a ≤ f b))
  | [], _ => by simp [insertTie]
  | b :: l, h => by
    obtain ⟨h1, h2⟩ := List.pairwise_cons.1 h
    have hrec : f b ≤ f a → Always (do let r ← insertTie f a l; return b :: r : Prog (List α))
        (fun r => r.Perm (a :: b :: l) ∧ r.Pairwise (fun a b => f a ≤ f b)) := by
      intro hba
      rw [always_bind]
      refine (insertTie_spec f a l h2).mono ?_
      rintro r ⟨h3, h4⟩
      refine ⟨(h3.cons b).trans (List.Perm.swap _ _ _), List.pairwise_cons.2 ⟨?_, h4⟩⟩
      intro c hc
      rcases List.mem_cons.1 (h3.mem_iff.1 hc) with rfl | hc
      · exact hba
      · exact h1 c hc
    have hhere : f a ≤ f b → (a :: b :: l).Pairwise (fun a b => f a ≤ f b) := by
      intro hab
      refine List.pairwise_cons.2 ⟨?_, h⟩
      intro c hc
      rcases List.mem_cons.1 hc with rfl | hc
      · exact hab
      · exact hab.trans (h1 c hc)
    unfold insertTie
    split
    · next hlt => exact ⟨List.Perm.refl _, hhere hlt.le⟩
    · next hnlt =>
      split
      · next hlt => exact hrec hlt.le
      · next hnlt' =>
        intro c
        cases c with
        | true => exact ⟨List.Perm.refl _, hhere (not_lt.1 hnlt')⟩
        | false => exact hrec (not_lt.1 hnlt)

theorem sortTie_spec {α : Type} (f : α → Fl K) : ∀ l : List α,
    Always (sortTie f l) (fun r => r.Perm l ∧ r.Pairwise (fun a b => f a ≤ f b))
  | [] => by simp [sortTie]
  | a :: l => by
    unfold sortTie
    rw [always_bind]
    refine (sortTie_spec f l).mono ?_
    rintro r ⟨h1, h2⟩
    exact (insertTie_spec f a r h2).mono (fun r' h => ⟨h.1.trans (h1.cons a), h.2⟩)

theorem sortUnstable_spec {α : Type} (f : α → Fl K) (l : List α) (h : ∀ a ∈ l, f a ≠ .nan) :
    Always (sortUnstable f l) (fun r => r.Perm l ∧ r.Pairwise (fun a b => f a ≤ f b)) := by
  unfold sortUnstable
  rw [if_neg]
  · exact sortTie_spec f l
  · rintro ⟨-, h2⟩
    rw [List.any_eq_true] at h2
    obtain ⟨a, ha, h3⟩ := h2
    exact h a ha (by cases hf : f a <;> simp_all [Fl.isNan])

theorem sortUnstable_partially {α : Type} (f : α → Fl K) (l : List α) :
    Partially (sortUnstable f l) (fun r => r.Perm l ∧ r.Pairwise (fun a b => f a ≤ f b)) := by
  unfold sortUnstable
  split
  · trivial
  · exact (sortTie_spec f l).partially

theorem sortUnstable_nan {α : Type} (f : α → Fl K) (l : List α) (h2 : 2 ≤ l.length) (h : ∃ a ∈ l, f a = .nan) :
    sortUnstable f l = .fail .unwrap := by
  unfold sortUnstable
  rw [if_pos]
  refine ⟨h2, ?_⟩
  rw [List.any_eq_true]
  obtain ⟨a, ha, h⟩ := h
  exact ⟨a, ha, by rw [h]; rfl⟩

theorem canReturn_bind {α β : Type} {p : Prog α} {k : α → Prog β} {b : β} :
    CanReturn (p >>= k) b ↔ ∃ a, CanReturn p a ∧ CanReturn (k a) b := by
  induction p with
  | ret a =>
    constructor
    · intro h; exact ⟨a, rfl, h⟩
    · rintro ⟨a', rfl, h⟩; exact h
  | fail e =>
    constructor
    · intro h; cases h
    · rintro ⟨_, h, _⟩; cases h
  | flip f ih =>
    constructor
    · rintro ⟨c, h⟩
      obtain ⟨a, h1, h2⟩ := (ih c).1 h
      exact ⟨a, ⟨c, h1⟩, h2⟩
    · rintro ⟨a, ⟨c, h1⟩, h2⟩
      exact ⟨c, (ih c).2 ⟨a, h1, h2⟩⟩

theorem insertTie_complete {α : Type} (f : α → Fl K) (a : α) : ∀ (s t : List α),
    (s ++ a :: t).Pairwise (fun a b => f a ≤ f b) → CanReturn (insertTie f a (s ++ t)) (s ++ a :: t)
  | [], [], _ => rfl
  | [], b :: t, h => by
    have hab : f a ≤ f b := (List.pairwise_cons.1 h).1 b (by simp)
    show CanReturn (insertTie f a (b :: t)) _
    unfold insertTie
    split
    · rfl
    · next hn =>
      rw [if_neg (not_lt.2 hab)]
      exact ⟨true, rfl⟩
  | b :: s, t, h => by
    have hba : f b ≤ f a := (List.pairwise_cons.1 h).1 a (by simp)
    have ih := insertTie_complete f a s t (List.pairwise_cons.1 h).2
    have hstep : CanReturn (do let r ← insertTie f a (s ++ t); return b :: r : Prog (List α)) (b :: (s ++ a :: t)) :=
      canReturn_bind.2 ⟨_, ih, rfl⟩
    show CanReturn (insertTie f a (b :: (s ++ t))) (b :: (s ++ a :: t))
    unfold insertTie
    rw [if_neg (not_lt.2 hba)]
    split
    · exact hstep
    · exact ⟨false, hstep⟩

/-- Every sorted permutation is a possible outcome: the model allows all behaviours of an unstable sort. -/
theorem sortTie_complete {α : Type} (f : α → Fl K) : ∀ (l r : List α), r.Perm l →
    r.Pairwise (fun a b => f a ≤ f b) → CanReturn (sortTie f l) r
  | [], r, hp, _ => by rw [hp.eq_nil]; rfl
  | a :: l, r, hp, hs => by
    have ha : a ∈ r := hp.mem_iff.2 (by simp)
    obtain ⟨s, t, rfl⟩ := List.append_of_mem ha
    have hp' : (s ++ t).Perm l := List.Perm.cons_inv ((List.perm_middle.symm.trans hp))
    have hs' : (s ++ t).Pairwise (fun a b => f a ≤ f b) := hs.sublist (by
      exact List.Sublist.append_left (List.sublist_cons_self a t) s)
    unfold sortTie
    exact canReturn_bind.2 ⟨_, sortTie_complete f l _ hp' hs', insertTie_complete f a s t hs⟩

theorem insertAny_perm {α : Type} (a : α) : ∀ l : List α, Always (insertAny a l) (fun r => r.Perm (a :: l))
  | [] => List.Perm.refl _
  | b :: l => by
    intro c
    cases c with
    | true => exact List.Perm.refl _
    | false =>
      simp only [Bool.false_eq_true, if_false]
      rw [always_bind]
      exact (insertAny_perm a l).mono (fun r h => (h.cons b).trans (List.Perm.swap _ _ _))

theorem shuffle_perm {α : Type} : ∀ l : List α, Always (shuffle l) (fun r => r.Perm l)
  | [] => List.Perm.refl _
  | a :: l => by
    unfold shuffle
    rw [always_bind]
    exact (shuffle_perm l).mono (fun r h => (insertAny_perm a r).mono (fun r' h' => h'.trans (h.cons a)))

theorem insertAny_complete {α : Type} (a : α) : ∀ s t : List α, CanReturn (insertAny a (s ++ t)) (s ++ a :: t)
  | [], [] => rfl
  | [], b :: t => ⟨true, rfl⟩
  | b :: s, t => ⟨false, canReturn_bind.2 ⟨_, insertAny_complete a s t, rfl⟩⟩

/-- Every permutation is a possible outcome of a shuffle. -/
theorem shuffle_complete {α : Type} : ∀ l r : List α, r.Perm l → CanReturn (shuffle l) r
  | [], r, hp => by rw [hp.eq_nil]; rfl
  | a :: l, r, hp => by
    have ha : a ∈ r := hp.mem_iff.2 (by simp)
    obtain ⟨s, t, rfl⟩ := List.append_of_mem ha
    have hp' : (s ++ t).Perm l := List.Perm.cons_inv ((List.perm_middle.symm.trans hp))
    exact canReturn_bind.2 ⟨_, shuffle_complete l _ hp', insertAny_complete a s t⟩

theorem anyOf_spec {α : Type} : ∀ l : List α, l ≠ [] → Always (anyOf l) (fun a => a ∈ l)
  | [], h => absurd rfl h
  | [a], _ => by simp [anyOf]
  | a :: b :: l, _ => by
    intro c
    cases c with
    | true => simp
    | false => exact (anyOf_spec (b :: l) (by simp)).mono (fun x hx => List.mem_cons_of_mem _ hx)

theorem anyOf_complete {α : Type} : ∀ (l : List α) (a : α), a ∈ l → CanReturn (anyOf l) a
  | [a], b, h => by
    rw [List.mem_singleton] at h
    subst h; rfl
  | a :: b :: l, x, h => by
    rcases List.mem_cons.1 h with rfl | h
    · exact ⟨true, rfl⟩
    · exact ⟨false, anyOf_complete (b :: l) x h⟩

/-- There is always an allowed answer of a binary search. -/
theorem bsearch_exists (ks : List (Fl K)) (t : Fl K) : ∃ i, i ≤ ks.length ∧ bsearchOk ks t i = true := by
  unfold bsearchOk
  by_cases hs : ks.Pairwise (· ≤ ·)
  · simp only [if_pos hs]
    by_cases ht : t ∈ ks
    · simp only [if_pos ht]
      obtain ⟨i, hi, h⟩ := List.getElem_of_mem ht
      exact ⟨i, hi.le, by simp [List.getElem?_eq_getElem hi, h]⟩
    · simp only [if_neg ht]
      induction ks with
      | nil => exact ⟨0, le_refl _, by simp⟩
      | cons a l ih =>
        obtain ⟨h1, h2⟩ := List.pairwise_cons.1 hs
        have hta : t ≠ a := fun h => ht (by simp [h])
        by_cases hlt : t < a
        · refine ⟨0, Nat.zero_le _, ?_⟩
          simp only [List.take_zero, List.drop_zero, decide_eq_true_eq]
          refine ⟨by simp, ?_⟩
          intro x hx
          rcases List.mem_cons.1 hx with rfl | hx
          · exact hlt
          · exact hlt.trans_le (h1 x hx)
        · obtain ⟨i, hi, h3⟩ := ih h2 (fun h => ht (by simp [h]))
          refine ⟨i + 1, by simpa using hi, ?_⟩
          simp only [decide_eq_true_eq, List.take_succ_cons, List.drop_succ_cons] at h3 ⊢
          refine ⟨?_, h3.2⟩
          intro x hx
          rcases List.mem_cons.1 hx with rfl | hx
          · exact lt_of_le_of_ne (not_lt.1 hlt) (Ne.symm hta)
          · exact h3.1 x hx
  · simp only [if_neg hs]
    exact ⟨0, Nat.zero_le _, trivial⟩

theorem binarySearch_spec {α : Type} (f : α → Fl K) (l : List α) (t : Fl K) (hl : ∀ a ∈ l, f a ≠ .nan) (ht : t ≠ .nan) :
    Always (binarySearch f l t) (fun i => i ≤ l.length ∧ bsearchOk (l.map f) t i = true) := by
  unfold binarySearch
  rw [if_neg]
  · obtain ⟨i, hi, h⟩ := bsearch_exists (l.map f) t
    have hne : (List.range (l.length + 1)).filter (bsearchOk (l.map f) t) ≠ [] := by
      intro hnil
      rw [List.filter_eq_nil_iff] at hnil
      exact hnil i (by simp at hi; simp; omega) h
    refine (anyOf_spec _ hne).mono ?_
    intro j hj
    rw [List.mem_filter, List.mem_range] at hj
    exact ⟨by omega, hj.2⟩
  · rintro ⟨-, h | h⟩
    · cases t <;> simp_all [Fl.isNan]
    · rw [List.any_eq_true] at h
      obtain ⟨a, ha, h⟩ := h
      exact hl a ha (by cases hf : f a <;> simp_all [Fl.isNan])

theorem binarySearch_partially {α : Type} (f : α → Fl K) (l : List α) (t : Fl K) :
    Partially (binarySearch f l t) (fun i => i ≤ l.length) := by
  unfold binarySearch
  split
  · trivial
  · obtain ⟨i, hi, h⟩ := bsearch_exists (l.map f) t
    have hne : (List.range (l.length + 1)).filter (bsearchOk (l.map f) t) ≠ [] := by
      intro hnil
      rw [List.filter_eq_nil_iff] at hnil
      exact hnil i (by simp at hi; simp; omega) h
    refine (anyOf_spec _ hne).partially.mono ?_
    intro j hj
    rw [List.mem_filter, List.mem_range] at hj
    omega

end AQ

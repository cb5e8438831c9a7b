/-
Facts about the modelled sorts, minima and chunks.
-/
import Verif.Model.Traits
import Verif.Spec.Basic

set_option linter.unusedSectionVars false

namespace AQ
open Spec
variable {K : Type} [LinearOrder K] {α : Type}

instance (f : α → Fl K) : IsTrans α (fun a b => f a ≤ f b) := ⟨fun _ _ _ h h' => le_trans h h'⟩
instance (f : α → Fl K) : Std.Total (fun a b => f a ≤ f b) := ⟨fun _ _ => le_total _ _⟩

/-- The list the sort produces when it does not panic. -/
abbrev sorted (f : α → Fl K) (l : List α) : List α := l.insertionSort (fun a b => f a ≤ f b)

theorem sorted_perm (f : α → Fl K) (l : List α) : (sorted f l).Perm l := List.perm_insertionSort _ _

theorem sorted_pairwise (f : α → Fl K) (l : List α) : (sorted f l).Pairwise (fun a b => f a ≤ f b) :=
  List.pairwise_insertionSort _ _

theorem sortByKey_of_no_nan (f : α → Fl K) (l : List α) (h : ∀ a ∈ l, f a ≠ .nan) :
    sortByKey f l = .ret (sorted f l) := by
  rw [sortByKey, if_neg]
  rintro ⟨-, h2⟩
  obtain ⟨a, ha, h3⟩ := List.any_eq_true.1 h2
  exact h a ha (by cases hf : f a <;> simp_all [Fl.isNan])

theorem sortByKey_partially (f : α → Fl K) (l : List α) :
    Prog.Partially (sortByKey f l) (fun r => r = sorted f l) := by
  unfold sortByKey; split <;> simp

theorem sortByKey_nan (f : α → Fl K) (l : List α) (h2 : 2 ≤ l.length) (h : ∃ a ∈ l, f a = .nan) :
    sortByKey f l = .fail .unwrap := by
  rw [sortByKey, if_pos]
  refine ⟨h2, List.any_eq_true.2 ?_⟩
  obtain ⟨a, ha, h3⟩ := h
  exact ⟨a, ha, by simp [h3]⟩

/-- Sorting is determined by the multiset. -/
theorem sorted_id_eq_of_perm {l l' : List (Fl K)} (h : l.Perm l') : sorted id l = sorted id l' := by
  refine List.Perm.eq_of_pairwise (le := (· ≤ ·)) ?_ (sorted_pairwise id l) (sorted_pairwise id l') ?_
  · intro a b _ _ h1 h2; exact le_antisymm h1 h2
  · exact (sorted_perm id l).trans (h.trans (sorted_perm id l').symm)

theorem sortFl_eq_of_perm {l l' : List (Fl K)} (h : l.Perm l') : sortFl l = sortFl l' := by
  have h1 : l.any (fun a => a.isNan) = l'.any (fun a => a.isNan) := by
    rw [Bool.eq_iff_iff]; simp only [List.any_eq_true, h.mem_iff]
  simp only [sortFl, sortByKey, h.length_eq, id]
  rw [h1]
  have := sorted_id_eq_of_perm h
  simp only [sorted, id] at this
  rw [this]

theorem isOrderStat_perm {β : Type} [LinearOrder β] {l l' : List β} (h : l.Perm l') (i : Nat) (v : β) :
    IsOrderStat l i v ↔ IsOrderStat l' i v := by
  simp only [IsOrderStat, h.mem_iff, h.countP_eq]

/-- In a sorted list, position `i` holds the `i`-th order statistic. -/
theorem isOrderStat_getElem {β : Type} [LinearOrder β] {l : List β} (h : l.Pairwise (· ≤ ·)) {i : Nat}
    (hi : i < l.length) : IsOrderStat l i l[i] := by
  refine ⟨List.getElem_mem hi, ?_, ?_⟩
  · have hsplit : l = l.take i ++ l.drop i := (List.take_append_drop i l).symm
    have : (l.drop i).countP (fun x => decide (x < l[i])) = 0 := by
      rw [List.countP_eq_zero]
      intro a ha
      obtain ⟨j, hj, rfl⟩ := List.getElem_of_mem ha
      rw [List.getElem_drop]
      simp only [decide_eq_true_eq, not_lt]
      rcases Nat.eq_zero_or_pos j with rfl | hj0
      · simp
      · exact (List.pairwise_iff_getElem.1 h) _ _ _ _ (by omega)
    calc l.countP (fun x => decide (x < l[i])) = (l.take i).countP (fun x => decide (x < l[i]))
          + (l.drop i).countP (fun x => decide (x < l[i])) := by
            rw [← List.countP_append, List.take_append_drop]
      _ ≤ (l.take i).length := by rw [this]; exact List.countP_le_length
      _ ≤ i := by simp
  · have : (l.take (i + 1)).countP (fun x => decide (x ≤ l[i])) = (l.take (i + 1)).length := by
      rw [List.countP_eq_length]
      intro a ha
      obtain ⟨j, hj, rfl⟩ := List.getElem_of_mem ha
      simp only [List.length_take] at hj
      rw [List.getElem_take]
      simp only [decide_eq_true_eq]
      rcases Nat.lt_or_ge j i with h1 | h1
      · exact (List.pairwise_iff_getElem.1 h) _ _ _ _ h1
      · have : j = i := by omega
        subst this; exact le_refl _
    have h2 : (l.take (i + 1)).countP (fun x => decide (x ≤ l[i])) ≤ l.countP (fun x => decide (x ≤ l[i])) :=
      List.Sublist.countP_le (List.take_sublist _ _)
    rw [this, List.length_take] at h2
    omega

/-- Order statistics are unique. -/
theorem isOrderStat_unique {β : Type} [LinearOrder β] {l : List β} {i : Nat} {v w : β}
    (hv : IsOrderStat l i v) (hw : IsOrderStat l i w) : v = w := by
  have key : ∀ a b : β, IsOrderStat l i a → IsOrderStat l i b → ¬ a < b := by
    intro a b ha hb hab
    have : l.countP (fun x => decide (x ≤ a)) ≤ l.countP (fun x => decide (x < b)) := by
      apply List.countP_mono_left
      intro x _ hx
      simp only [decide_eq_true_eq] at *
      exact lt_of_le_of_lt hx hab
    have h1 := ha.2.2
    have h2 := hb.2.1
    omega
  exact le_antisymm (not_lt.1 (key w v hw hv)) (not_lt.1 (key v w hv hw))

theorem chunksAux_flatten (c : Nat) (hc : c ≠ 0) : ∀ (n : Nat) (l : List α), l.length ≤ n →
    (chunksAux c n l).flatten = l := by
  intro n
  induction n with
  | zero => intro l h; simp [chunksAux, List.length_eq_zero_iff.1 (Nat.le_zero.1 h)]
  | succ n ih =>
    intro l h
    cases l with
    | nil => simp [chunksAux]
    | cons a l =>
      rw [chunksAux, List.flatten_cons, ih, List.take_append_drop]
      simp only [List.length_drop, List.length_cons] at *; omega

theorem chunksAux_length_le (c : Nat) : ∀ (n : Nat) (l : List α), ∀ x ∈ chunksAux c n l, x.length ≤ c := by
  intro n
  induction n with
  | zero => intro l x hx; simp [chunksAux] at hx
  | succ n ih =>
    intro l x hx
    cases l with
    | nil => simp [chunksAux] at hx
    | cons a l =>
      rw [chunksAux] at hx
      rcases List.mem_cons.1 hx with rfl | h
      · simp
      · exact ih _ _ h

theorem chunksAux_ne_nil (c : Nat) (hc : c ≠ 0) : ∀ (n : Nat) (l : List α), ∀ x ∈ chunksAux c n l, x ≠ [] := by
  intro n
  induction n with
  | zero => intro l x hx; simp [chunksAux] at hx
  | succ n ih =>
    intro l x hx
    cases l with
    | nil => simp [chunksAux] at hx
    | cons a l =>
      rw [chunksAux] at hx
      rcases List.mem_cons.1 hx with rfl | h
      · cases c <;> simp_all
      · exact ih _ _ h

end AQ

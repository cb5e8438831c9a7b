/-
Averages over all orders of a list: the first element, the elements with a property, and the mean number of nodes on a search path of a search tree.
-/
import Verif.Spec.Orders
import Mathlib.NumberTheory.Harmonic.Defs
import Mathlib.Algebra.Order.BigOperators.Group.List
import Mathlib.Data.Finset.Max
import Mathlib.Algebra.BigOperators.Group.Finset.Basic
import Mathlib.Algebra.BigOperators.Field
import Mathlib.Algebra.BigOperators.Ring.Finset
import Mathlib.Data.Finset.Card
import Mathlib.Tactic.Ring
import Mathlib.Tactic.FieldSimp
import Mathlib.Tactic.Linarith

set_option linter.unusedSectionVars false
set_option linter.unusedVariables false

namespace AQ
open Spec Nat

namespace Orders
variable {α : Type} [DecidableEq α]

/-- The orders of a list, sorted by what comes first. -/
theorem permutations_head (l : List α) (hn : l.Nodup) (hne : l ≠ []) :
    l.permutations.Perm (l.flatMap (fun x => (l.erase x).permutations.map (x :: ·))) := by
  rw [List.perm_ext_iff_of_nodup (List.nodup_permutations l hn)]
  · intro p
    rw [List.mem_permutations, List.mem_flatMap]
    constructor
    · intro hp
      rcases p with _ | ⟨x, p⟩
      · exact absurd (List.nil_perm.1 hp) hne
      · have hx : x ∈ l := hp.mem_iff.1 (by simp)
        refine ⟨x, hx, List.mem_map.2 ⟨p, ?_, rfl⟩⟩
        rw [List.mem_permutations]
        have := hp.erase x
        rwa [List.erase_cons_head] at this
    · rintro ⟨x, hx, h⟩
      obtain ⟨q, hq, rfl⟩ := List.mem_map.1 h
      rw [List.mem_permutations] at hq
      exact (hq.cons x).trans (List.perm_cons_erase hx).symm
  · rw [List.nodup_flatMap]
    refine ⟨fun x hx => ?_, ?_⟩
    · exact (List.nodup_permutations _ (hn.erase x)).map (fun a b h => (List.cons.inj h).2)
    · refine hn.imp (fun {x y} hxy => ?_)
      intro p hp hq
      obtain ⟨a, -, rfl⟩ := List.mem_map.1 hp
      obtain ⟨b, -, hb⟩ := List.mem_map.1 hq
      exact hxy (List.cons.inj hb).1.symm

/-- Mean over all orders, with values in the rational numbers. -/
def mean (l : List α) (f : List α → ℚ) : ℚ := (l.permutations.map f).sum / (l.length ! : ℚ)

theorem mean_nil (f : List α → ℚ) : mean [] f = f [] := by simp [mean]

theorem mean_head (l : List α) (hn : l.Nodup) (hne : l ≠ []) (f : List α → ℚ) :
    l.length * mean l f = (l.map (fun x => mean (l.erase x) (fun p => f (x :: p)))).sum := by
  unfold mean
  have hfm : ∀ (m : List α) (g : α → List ℚ), (m.flatMap g).sum = (m.map (fun x => (g x).sum)).sum := by
    intro m g
    induction m with
    | nil => simp
    | cons x m ih => rw [List.flatMap_cons, List.sum_append, ih, List.map_cons, List.sum_cons]
  rw [((permutations_head l hn hne).map f).sum_eq, List.map_flatMap, hfm]
  obtain ⟨n, hl⟩ : ∃ n, l.length = n + 1 := ⟨l.length - 1, by have := List.length_pos_iff.2 hne; omega⟩
  have e : (l.map (fun x => (((l.erase x).permutations.map (fun p => f (x :: p))).sum) / ((l.erase x).length ! : ℚ))).sum =
      (l.map (fun x => (((l.erase x).permutations.map (fun p => f (x :: p))).sum) / (n ! : ℚ))).sum := by
    congr 1
    refine List.map_congr_left fun x hx => ?_
    rw [List.length_erase_of_mem hx, hl, Nat.add_sub_cancel]
  rw [e, hl, Nat.factorial_succ]
  have hf : (n ! : ℚ) ≠ 0 := by exact_mod_cast Nat.factorial_ne_zero n
  have hn1 : ((n + 1 : ℕ) : ℚ) ≠ 0 := by exact_mod_cast Nat.succ_ne_zero n
  simp only [List.map_map, Function.comp_def]
  rw [Nat.cast_mul, mul_div_assoc', mul_div_mul_left _ _ hn1]
  simp only [div_eq_mul_inv]
  rw [List.sum_map_mul_right]

theorem mean_const (l : List α) (c : ℚ) : mean l (fun _ => c) = c := by
  unfold mean
  rw [List.map_const', List.sum_replicate, List.length_permutations, nsmul_eq_mul]
  have hf : (l.length ! : ℚ) ≠ 0 := by exact_mod_cast Nat.factorial_ne_zero _
  field_simp

theorem mean_add (l : List α) (f g : List α → ℚ) : mean l (fun p => f p + g p) = mean l f + mean l g := by
  unfold mean
  rw [List.sum_map_add, add_div]

theorem mean_congr (l : List α) (f g : List α → ℚ) (h : ∀ p, p.Perm l → f p = g p) : mean l f = mean l g := by
  unfold mean
  congr 2
  exact List.map_congr_left fun p hp => h p (List.mem_permutations.1 hp)

theorem mean_mono (l : List α) (f g : List α → ℚ) (h : ∀ p, p.Perm l → f p ≤ g p) : mean l f ≤ mean l g := by
  unfold mean
  refine div_le_div_of_nonneg_right ?_ (by positivity)
  exact List.sum_le_sum fun p hp => h p (List.mem_permutations.1 hp)

/-- What matters only through the order of the elements with a property: the other elements may be left out. -/
theorem mean_filter (P : α → Bool) : ∀ (n : Nat) (l : List α) (f : List α → ℚ), l.length = n → l.Nodup →
    mean l (fun p => f (p.filter P)) = mean (l.filter P) f
  | 0, l, f, hl, _ => by
    obtain rfl := List.length_eq_zero_iff.1 hl
    simp [mean_nil]
  | n + 1, l, f, hl, hn => by
    have hne : l ≠ [] := by rintro rfl; simp at hl
    have hpos : (l.length : ℚ) ≠ 0 := by rw [hl]; exact_mod_cast Nat.succ_ne_zero n
    apply mul_left_cancel₀ hpos
    rw [mean_head l hn hne]
    have hx : ∀ x ∈ l, mean (l.erase x) (fun p => f ((x :: p).filter P)) =
        if P x then mean ((l.filter P).erase x) (fun p => f (x :: p)) else mean (l.filter P) f := by
      intro x hx
      have hl' : (l.erase x).length = n := by rw [List.length_erase_of_mem hx, hl, Nat.add_sub_cancel]
      by_cases hP : P x = true
      · simp only [hP, if_true, List.filter_cons_of_pos]
        rw [mean_filter P n (l.erase x) (fun p => f (x :: p)) hl' (hn.erase x)]
        congr 1
        rw [hn.erase_eq_filter, (hn.filter P).erase_eq_filter, List.filter_comm]
      · simp only [hP, List.filter_cons_of_neg, not_false_eq_true, Bool.false_eq_true, if_false]
        rw [mean_filter P n (l.erase x) f hl' (hn.erase x)]
        congr 1
        rw [hn.erase_eq_filter, List.filter_comm]
        refine List.filter_eq_self.2 fun y hy => ?_
        have := (List.mem_filter.1 hy).2
        have : y ≠ x := by rintro rfl; exact hP this
        simpa using this
    rw [List.map_congr_left hx]
    have split : ∀ (m : List α) (g : α → ℚ) (c : ℚ), (m.map (fun x => if P x then g x else c)).sum =
        ((m.filter P).map g).sum + ((m.length : ℚ) - (m.filter P).length) * c := by
      intro m g c
      induction m with
      | nil => simp
      | cons x m ih =>
        rw [List.map_cons, List.sum_cons, ih]
        by_cases hP : P x = true
        · simp only [hP, if_true, List.filter_cons_of_pos, List.map_cons, List.sum_cons, List.length_cons, Nat.cast_add, Nat.cast_one]
          ring
        · simp only [hP, List.filter_cons_of_neg, not_false_eq_true, Bool.false_eq_true, if_false, List.length_cons, Nat.cast_add, Nat.cast_one]
          ring
    rw [split]
    by_cases h0 : l.filter P = []
    · simp [h0]
    · rw [← mean_head (l.filter P) (hn.filter P) h0 f]
      ring

end Orders

namespace Orders
variable {α : Type} [LinearOrder α]

/-- Number of nodes on the way to `t` in the search tree that arises by inserting a list; equal keys count as above. -/
def pathLen (t : α) : List α → ℕ
  | [] => 0
  | k :: l => 1 + if k < t then pathLen t (l.filter (fun y => k < y)) else pathLen t (l.filter (fun y => y < k))
termination_by l => l.length
decreasing_by
  · rw [List.length_unattach]; exact Nat.lt_succ_of_le ((List.length_filter_le _ _).trans (by simp))
  · rw [List.length_unattach]; exact Nat.lt_succ_of_le ((List.length_filter_le _ _).trans (by simp))

theorem sum_rank_above (g : ℕ → ℚ) (s : Finset α) : ∑ x ∈ s, g (s.filter (fun y => y < x)).card = ∑ j ∈ Finset.range s.card, g j := by
  induction s using Finset.induction_on_max with
  | empty => simp
  | insert a s h ih =>
    have ha : a ∉ s := fun h' => lt_irrefl _ (h a h')
    rw [Finset.sum_insert ha, Finset.card_insert_of_notMem ha, Finset.sum_range_succ, ← ih, add_comm]
    congr 1
    · refine Finset.sum_congr rfl fun x hx => ?_
      rw [Finset.filter_insert, if_neg (not_lt.2 (h x hx).le)]
    · rw [Finset.filter_insert, if_neg (lt_irrefl _), Finset.filter_true_of_mem h]

theorem sum_rank_below (g : ℕ → ℚ) (s : Finset α) : ∑ x ∈ s, g (s.filter (fun y => x < y)).card = ∑ j ∈ Finset.range s.card, g j := by
  induction s using Finset.induction_on_min with
  | empty => simp
  | insert a s h ih =>
    have ha : a ∉ s := fun h' => lt_irrefl _ (h a h')
    rw [Finset.sum_insert ha, Finset.card_insert_of_notMem ha, Finset.sum_range_succ, ← ih, add_comm]
    congr 1
    · refine Finset.sum_congr rfl fun x hx => ?_
      rw [Finset.filter_insert, if_neg (not_lt.2 (h x hx).le)]
    · rw [Finset.filter_insert, if_neg (lt_irrefl _), Finset.filter_true_of_mem h]

theorem sum_harmonic (n : ℕ) : ∑ j ∈ Finset.range n, harmonic j = n * harmonic n - n := by
  induction n with
  | zero => simp
  | succ n ih =>
    rw [Finset.sum_range_succ, ih, harmonic_succ]
    have : ((n + 1 : ℕ) : ℚ) ≠ 0 := by exact_mod_cast Nat.succ_ne_zero n
    push_cast at this ⊢
    field_simp
    ring

/-- The mean number of nodes on a search path. -/
theorem mean_pathLen (t : α) : ∀ (n : Nat) (l : List α), l.length ≤ n → l.Nodup →
    mean l (fun p => (pathLen t p : ℚ)) =
      harmonic (l.toFinset.filter (fun y => y < t)).card + harmonic (l.toFinset.filter (fun y => ¬ y < t)).card
  | n, [], _, _ => by rw [mean_nil]; simp [pathLen]
  | 0, x :: l, h, _ => by simp at h
  | n + 1, x :: l', h, hn => by
    generalize hl : x :: l' = l at h hn ⊢
    have hne : l ≠ [] := by rw [← hl]; simp
    clear hl
    have hpos : (l.length : ℚ) ≠ 0 := by exact_mod_cast (List.length_pos_iff.2 hne).ne'
    apply mul_left_cancel₀ hpos
    rw [mean_head l hn hne]
    set S := l.toFinset with hS
    set A := S.filter (fun y => y < t) with hA
    set B := S.filter (fun y => ¬ y < t) with hB
    have hx : ∀ x ∈ l, mean (l.erase x) (fun p => (pathLen t (x :: p) : ℚ)) =
        1 + if x < t then harmonic (A.filter (fun y => x < y)).card + harmonic B.card
          else harmonic A.card + harmonic (B.filter (fun y => y < x)).card := by
      intro x hx
      have hlen : ∀ P : α → Bool, P x = false → (l.filter P).length ≤ n := by
        intro P hP
        have : (l.filter P).length < l.length := by
          rw [List.length_filter_lt_length_iff_exists]
          exact ⟨x, hx, by simp [hP]⟩
        omega
      have hfil : ∀ P : α → Bool, P x = false → (l.erase x).filter P = l.filter P := by
        intro P hP
        rw [hn.erase_eq_filter, List.filter_comm]
        refine List.filter_eq_self.2 fun y hy => ?_
        have h2 := (List.mem_filter.1 hy).2
        have : y ≠ x := by rintro rfl; rw [hP] at h2; exact absurd h2 (by simp)
        simpa using this
      by_cases hxt : x < t
      · have e : ∀ p : List α, (pathLen t (x :: p) : ℚ) = 1 + (pathLen t (p.filter (fun y => x < y)) : ℚ) := by
          intro p
          rw [pathLen, if_pos hxt, Nat.cast_add, Nat.cast_one]
        simp only [e, if_pos hxt]
        rw [mean_add, mean_const, mean_filter (fun y => decide (x < y)) _ (l.erase x) (fun p => (pathLen t p : ℚ)) rfl (hn.erase x),
          hfil _ (by simp), mean_pathLen t n _ (hlen _ (by simp)) (hn.filter _)]
        congr 3
        · congr 1
          ext y
          simp only [hA, hS, Finset.mem_filter, List.mem_toFinset, List.mem_filter, decide_eq_true_eq]
          tauto
        · congr 1
          ext y
          simp only [hB, hS, Finset.mem_filter, List.mem_toFinset, List.mem_filter, decide_eq_true_eq]
          constructor
          · rintro ⟨⟨h1, h2⟩, h3⟩; exact ⟨h1, h3⟩
          · rintro ⟨h1, h3⟩; exact ⟨⟨h1, lt_of_lt_of_le hxt (not_lt.1 h3)⟩, h3⟩
      · have e : ∀ p : List α, (pathLen t (x :: p) : ℚ) = 1 + (pathLen t (p.filter (fun y => y < x)) : ℚ) := by
          intro p
          rw [pathLen, if_neg hxt, Nat.cast_add, Nat.cast_one]
        simp only [e, if_neg hxt]
        rw [mean_add, mean_const, mean_filter (fun y => decide (y < x)) _ (l.erase x) (fun p => (pathLen t p : ℚ)) rfl (hn.erase x),
          hfil _ (by simp), mean_pathLen t n _ (hlen _ (by simp)) (hn.filter _)]
        congr 3
        · congr 1
          ext y
          simp only [hA, hS, Finset.mem_filter, List.mem_toFinset, List.mem_filter, decide_eq_true_eq]
          constructor
          · rintro ⟨⟨h1, h2⟩, h3⟩; exact ⟨h1, h3⟩
          · rintro ⟨h1, h3⟩; exact ⟨⟨h1, lt_of_lt_of_le h3 (not_lt.1 hxt)⟩, h3⟩
        · congr 1
          ext y
          simp only [hB, hS, Finset.mem_filter, List.mem_toFinset, List.mem_filter, decide_eq_true_eq]
          tauto
    rw [List.map_congr_left hx, ← List.sum_toFinset _ hn, ← hS, Finset.sum_add_distrib, Finset.sum_const, Finset.sum_ite, ← hA, ← hB,
      Finset.sum_add_distrib, Finset.sum_add_distrib, Finset.sum_const, Finset.sum_const,
      sum_rank_below harmonic A, sum_rank_above harmonic B, sum_harmonic, sum_harmonic]
    have hcard : (l.length : ℚ) = A.card + B.card := by
      have : S.card = l.length := List.toFinset_card_of_nodup hn
      rw [← this, hA, hB]
      exact_mod_cast (Finset.card_filter_add_card_filter_not (s := S) (fun y => y < t)).symm
    have hcS : (S.card : ℚ) = A.card + B.card := by
      rw [← hcard]; exact_mod_cast List.toFinset_card_of_nodup hn
    simp only [nsmul_eq_mul, mul_one]
    rw [hcard, hcS]
    ring

end Orders
end AQ

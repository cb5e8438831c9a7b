/-
Exponential tail bounds from exponential moments with rational bases, and simultaneous accuracy of all ranks from one-sided bounds at
finitely many items.
-/
import Mathlib.Analysis.SpecialFunctions.Log.Basic
import Mathlib.Analysis.SpecialFunctions.Trigonometric.Series
import Mathlib.Algebra.Order.BigOperators.Group.Finset
import Mathlib.Algebra.Order.Floor.Semiring
import Verif.Base.Prog
import Verif.Spec.Basic

set_option linter.unusedSectionVars false
set_option linter.unusedVariables false

namespace AQ
open Prog Spec

/-! ### Rational hyperbolic cosine -/

/-- `cosh (log a)`. -/
def rcosh (a : ℚ) : ℚ := (a + a⁻¹) / 2

theorem one_le_rcosh {a : ℚ} (ha : 0 < a) : 1 ≤ rcosh a := by
  have h : a * a⁻¹ = 1 := mul_inv_cancel₀ ha.ne'
  unfold rcosh
  nlinarith [sq_nonneg (a - 1), inv_pos.2 ha, sq_nonneg (a - a⁻¹)]

theorem rcosh_sq_le {u : ℚ} (hu : 0 < u) : rcosh (u ^ 2) ≤ rcosh u ^ 4 := by
  have h : u * u⁻¹ = 1 := mul_inv_cancel₀ hu.ne'
  have e : rcosh (u ^ 2) = 2 * rcosh u ^ 2 - 1 := by
    unfold rcosh; rw [← inv_pow]
    have : (u + u⁻¹) ^ 2 = u ^ 2 + u⁻¹ ^ 2 + 2 * (u * u⁻¹) := by ring
    rw [div_pow, this, h]; ring
  rw [e]
  nlinarith [sq_nonneg (rcosh u ^ 2 - 1)]

theorem rcosh_pow_le {a : ℚ} (ha : 0 < a) (h : Nat) : rcosh (a ^ 2 ^ h) ≤ rcosh a ^ 4 ^ h := by
  induction h with
  | zero => simp
  | succ h ih =>
    rw [pow_succ 2, pow_mul, pow_succ 4, pow_mul]
    refine (rcosh_sq_le (by positivity)).trans (pow_le_pow_left₀ ?_ ih 4)
    exact le_trans zero_le_one (one_le_rcosh (by positivity))

/-- Monotone in the exponent's size. -/
theorem rcosh_mono {u v : ℚ} (hu : 1 ≤ u) (huv : u ≤ v) : rcosh u ≤ rcosh v := by
  have hu0 : 0 < u := by linarith
  have hv0 : 0 < v := by linarith
  unfold rcosh
  have h1 : u * u⁻¹ = 1 := mul_inv_cancel₀ hu0.ne'
  have h2 : v * v⁻¹ = 1 := mul_inv_cancel₀ hv0.ne'
  have h3 : u⁻¹ * v⁻¹ ≤ 1 := by
    have := inv_le_one_of_one_le₀ hu
    have := inv_le_one_of_one_le₀ (hu.trans huv)
    have := inv_pos.2 hu0
    have := inv_pos.2 hv0
    nlinarith
  have h4 : u⁻¹ - v⁻¹ = (v - u) * (u⁻¹ * v⁻¹) := by
    have : (v - u) * (u⁻¹ * v⁻¹) = u⁻¹ * (v * v⁻¹) - v⁻¹ * (u * u⁻¹) := by ring
    rw [this, h1, h2]; ring
  have := mul_le_mul_of_nonneg_left h3 (sub_nonneg.2 huv)
  linarith

theorem zpow_sym_le {a : ℚ} (ha : 1 ≤ a) {h : Nat} {δ : ℤ} (hδ : |δ| ≤ 2 ^ h) : (a ^ δ + a ^ (-δ)) / 2 ≤ rcosh a ^ 4 ^ h := by
  have ha0 : 0 < a := by linarith
  have e : (a ^ δ + a ^ (-δ)) / 2 = rcosh (a ^ δ.natAbs) := by
    have hd := Int.natAbs_eq δ
    unfold rcosh
    generalize δ.natAbs = d at hd
    rcases hd with rfl | rfl
    · rw [zpow_neg, zpow_natCast]
    · rw [neg_neg, zpow_neg, zpow_natCast, add_comm]
  rw [e]
  refine (rcosh_mono (one_le_pow₀ ha) (pow_le_pow_right₀ ha ?_)).trans (rcosh_pow_le ha0 h)
  have : (δ.natAbs : ℤ) ≤ 2 ^ h := by rw [Int.natCast_natAbs]; exact hδ
  exact_mod_cast this


/-! ### From exponential moments to tails -/

theorem rcosh_real {a : ℚ} (ha : 0 < a) : ((rcosh a : ℚ) : ℝ) ≤ Real.exp (Real.log a ^ 2 / 2) := by
  have h0 : (0 : ℝ) < a := by exact_mod_cast ha
  have e : ((rcosh a : ℚ) : ℝ) = Real.cosh (Real.log a) := by
    rw [Real.cosh_eq, Real.exp_neg, Real.exp_log h0]; unfold rcosh; push_cast; ring
  rw [e]
  exact Real.cosh_le_exp_half_sq _

/-- If the mean of `a ^ f` is at most `cosh(log a) ^ M` for all rational `a ≥ 1` then `f ≥ t` has probability at most `exp(-t²/(2V))`, `M ≤ V`. -/
theorem tail_of_mgf {α : Type} (p : Prog α) (f : α → ℤ) (M : Nat) (V : ℝ) (hM : (M : ℝ) ≤ V)
    (h : ∀ a : ℚ, 1 ≤ a → exp p (fun x => a ^ f x) ≤ rcosh a ^ M) (t : ℚ) (ht : 0 ≤ t) :
    ((exp p (fun x => if t ≤ f x then 1 else 0) : ℚ) : ℝ) ≤ Real.exp (-((t : ℝ) ^ 2 / (2 * V))) := by
  have hV0 : 0 ≤ V := le_trans (Nat.cast_nonneg _) hM
  have ht' : (0 : ℝ) ≤ t := by exact_mod_cast ht
  -- every rational base
  have step : ∀ a : ℚ, 1 ≤ a → ((exp p (fun x => if t ≤ f x then 1 else 0) : ℚ) : ℝ) ≤
      Real.exp (V * (Real.log a ^ 2 / 2) - t * Real.log a) := by
    intro a ha
    have ha0 : 0 < a := by linarith
    have haR : (1 : ℝ) ≤ a := by exact_mod_cast ha
    have ha0R : (0 : ℝ) < a := by linarith
    have hlog : 0 ≤ Real.log a := Real.log_nonneg haR
    have h1 : a ^ ⌈t⌉ * exp p (fun x => if t ≤ f x then 1 else 0) ≤ rcosh a ^ M := by
      rw [← exp_mul_left]
      refine le_trans (exp_mono ((partially_true _).mono (fun x _ => ?_))) (h a ha)
      split
      · rename_i hx
        rw [mul_one]
        exact zpow_le_zpow_right₀ ha (Int.ceil_le.2 hx)
      · rw [mul_zero]; exact (zpow_pos ha0 _).le
    have h2 : ((a : ℝ) ^ ⌈t⌉) * ((exp p (fun x => if t ≤ f x then 1 else 0) : ℚ) : ℝ) ≤ ((rcosh a : ℚ) : ℝ) ^ M := by
      exact_mod_cast h1
    have h3 : ((rcosh a : ℚ) : ℝ) ^ M ≤ Real.exp (V * (Real.log a ^ 2 / 2)) := by
      have hc : (0 : ℝ) ≤ ((rcosh a : ℚ) : ℝ) := by exact_mod_cast le_trans zero_le_one (one_le_rcosh ha0)
      refine (pow_le_pow_left₀ hc (rcosh_real ha0) M).trans ?_
      rw [← Real.exp_nat_mul]
      exact Real.exp_le_exp.2 (mul_le_mul_of_nonneg_right hM (by positivity))
    have h4 : Real.exp (t * Real.log a) ≤ (a : ℝ) ^ ⌈t⌉ := by
      have : (a : ℝ) ^ ⌈t⌉ = Real.exp (⌈t⌉ * Real.log a) := by
        rw [← Real.log_zpow, Real.exp_log (zpow_pos ha0R _)]
      rw [this]
      refine Real.exp_le_exp.2 (mul_le_mul_of_nonneg_right ?_ hlog)
      exact_mod_cast Int.le_ceil t
    have h0 : (0 : ℝ) ≤ ((exp p (fun x => if t ≤ f x then 1 else 0) : ℚ) : ℝ) := by
      have := exp_mono (p := p) (g := fun _ => 0) (g' := fun x => if t ≤ f x then 1 else 0)
        ((partially_true p).mono (fun a _ => by split <;> norm_num))
      have hz : exp p (fun _ => (0 : ℚ)) = 0 := by simpa using exp_mul_left p 0 (fun _ => 0)
      rw [hz] at this
      exact_mod_cast this
    rw [Real.exp_sub, le_div_iff₀ (Real.exp_pos _), mul_comm]
    exact (mul_le_mul_of_nonneg_right h4 h0).trans (h2.trans h3)
  rcases hV0.eq_or_lt with hV | hV
  · have := step 1 le_rfl
    rw [← hV]
    simpa using this
  · set s : ℝ := t / V with hs
    have hs0 : 0 ≤ s := div_nonneg ht' hV0
    have e : Real.exp (-((t : ℝ) ^ 2 / (2 * V))) = Real.exp (V * (Real.log (Real.exp s) ^ 2 / 2) - t * Real.log (Real.exp s)) := by
      rw [Real.log_exp, hs]; congr 1; field_simp; ring
    rw [e]
    by_contra hc
    rw [not_le] at hc
    have hcont : ContinuousAt (fun u : ℝ => Real.exp (V * (Real.log u ^ 2 / 2) - t * Real.log u)) (Real.exp s) := by
      have hl : ContinuousAt Real.log (Real.exp s) := Real.continuousAt_log (Real.exp_pos s).ne'
      refine Real.continuous_exp.continuousAt.comp ?_
      exact (continuousAt_const.mul ((hl.pow 2).div_const 2)).sub (continuousAt_const.mul hl)
    obtain ⟨ε, hε, hb⟩ := Metric.eventually_nhds_iff.1 (hcont.tendsto.eventually_lt_const hc)
    obtain ⟨a, h1, h2⟩ := exists_rat_btwn (lt_add_of_pos_right (Real.exp s) hε)
    have ha : (1 : ℚ) ≤ a := by
      have : (1 : ℝ) ≤ a := (Real.one_le_exp hs0).trans h1.le
      exact_mod_cast this
    have := hb (y := (a : ℝ)) (by rw [Real.dist_eq, abs_of_pos (by linarith)]; linarith)
    exact absurd (step a ha) (not_le.2 this)

/-! ### All ranks at once -/

section
variable {α : Type} [LinearOrder α]

theorem exists_max (l : List α) (h : l ≠ []) : ∃ u ∈ l, ∀ y ∈ l, y ≤ u := by
  induction l with
  | nil => exact absurd rfl h
  | cons a l ih =>
    by_cases hl : l = []
    · subst hl; exact ⟨a, by simp, by simp⟩
    · obtain ⟨u, hu, h1⟩ := ih hl
      rcases le_total a u with h2 | h2
      · exact ⟨u, by simp [hu], by simp [h2]; exact h1⟩
      · exact ⟨a, by simp, by simp; exact fun y hy => (h1 y hy).trans h2⟩

theorem exists_min (l : List α) (h : l ≠ []) : ∃ u ∈ l, ∀ y ∈ l, u ≤ y :=
  exists_max (α := αᵒᵈ) l h

/-- A counting function of items of `I`: monotone, and constant where `I` has no item. -/
structure Counts (I : List α) (E : α → Nat) : Prop where
  mono : ∀ x y, x ≤ y → E x ≤ E y
  same : ∀ x f, (∀ y ∈ I, y ≤ x ↔ y ≤ f) → E x = E f
  zero : ∀ x, (∀ y ∈ I, ¬ y ≤ x) → E x = 0

theorem rank_pos_item {I : List α} {x : α} (h : rank I x ≠ 0) : ∃ f ∈ I, f ≤ x ∧ (∀ y ∈ I, y ≤ x ↔ y ≤ f) ∧ rank I x = rank I f := by
  have hne : I.filter (fun y => decide (y ≤ x)) ≠ [] := by
    intro e
    apply h
    rw [rank, List.countP_eq_length_filter, e]; rfl
  obtain ⟨f, hf, hmax⟩ := exists_max _ hne
  obtain ⟨hfI, hfx⟩ := List.mem_filter.1 hf
  have hfx : f ≤ x := by simpa using hfx
  have hiff : ∀ y ∈ I, y ≤ x ↔ y ≤ f := fun y hy =>
    ⟨fun hyx => hmax y (List.mem_filter.2 ⟨hy, by simpa using hyx⟩), fun hyf => hyf.trans hfx⟩
  refine ⟨f, hfI, hfx, hiff, ?_⟩
  exact List.countP_congr (fun y hy => by simpa using hiff y hy)

theorem rank_le_rank (I : List α) {x y : α} (h : x ≤ y) : rank I x ≤ rank I y :=
  List.countP_mono_left (fun z _ hz => by simp only [decide_eq_true_eq] at hz ⊢; exact hz.trans h)

/-- Items at which upper errors have to be checked, one per strip. -/
theorem upper_pivot (I : List α) (hI : I ≠ []) (c : Nat → Prop) : ∃ u ∈ I, ∀ f ∈ I, c (rank I f) → f ≤ u ∧ c (rank I u) := by
  classical
  by_cases he : I.filter (fun f => decide (c (rank I f))) = []
  · obtain ⟨u, hu⟩ := List.exists_mem_of_ne_nil I hI
    refine ⟨u, hu, fun f hf hc => ?_⟩
    have : f ∈ I.filter (fun f => decide (c (rank I f))) := List.mem_filter.2 ⟨hf, by simpa using hc⟩
    rw [he] at this; simp at this
  · obtain ⟨u, hu, hmax⟩ := exists_max _ he
    obtain ⟨h1, h2⟩ := List.mem_filter.1 hu
    exact ⟨u, h1, fun f hf hc => ⟨hmax f (List.mem_filter.2 ⟨hf, by simpa using hc⟩), by simpa using h2⟩⟩

theorem lower_pivot (I : List α) (hI : I ≠ []) (c : Nat → Prop) : ∃ u ∈ I, ∀ f ∈ I, c (rank I f) → u ≤ f ∧ c (rank I u) := by
  classical
  by_cases he : I.filter (fun f => decide (c (rank I f))) = []
  · obtain ⟨u, hu⟩ := List.exists_mem_of_ne_nil I hI
    refine ⟨u, hu, fun f hf hc => ?_⟩
    have : f ∈ I.filter (fun f => decide (c (rank I f))) := List.mem_filter.2 ⟨hf, by simpa using hc⟩
    rw [he] at this; simp at this
  · obtain ⟨u, hu, hmax⟩ := exists_min _ he
    obtain ⟨h1, h2⟩ := List.mem_filter.1 hu
    exact ⟨u, h1, fun f hf hc => ⟨hmax f (List.mem_filter.2 ⟨hf, by simpa using hc⟩), by simpa using h2⟩⟩

/-- One of `m` upper or `m` lower pivots is off by `e` when any rank is off by `e + N/m`. -/
theorem pivots (I : List α) (hI : I ≠ []) (m : Nat) (hm : 1 ≤ m) : ∃ u v : Nat → α, (∀ j, u j ∈ I ∧ v j ∈ I) ∧
    ∀ (E : α → Nat), Counts I E → ∀ (e : ℚ), 0 ≤ e → ∀ x, e + (I.length : ℚ) / m ≤ |(E x : ℚ) - rank I x| →
      ∃ j < m, e ≤ (E (u j) : ℚ) - rank I (u j) ∨ e ≤ (rank I (v j) : ℚ) - E (v j) := by
  choose u hu using fun j : Nat => upper_pivot I hI (fun r => r * m ≤ (j + 1) * I.length)
  choose v hv using fun j : Nat => lower_pivot I hI (fun r => j * I.length < r * m)
  refine ⟨u, v, fun j => ⟨(hu j).1, (hv j).1⟩, fun E hE e he x hx => ?_⟩
  have hN : 0 < I.length := List.length_pos_of_ne_nil hI
  have hmq : (0 : ℚ) < m := by exact_mod_cast hm
  have hNq : (0 : ℚ) < I.length := by exact_mod_cast hN
  by_cases hr : rank I x = 0
  · exfalso
    have h0 : E x = 0 := hE.zero x (by
      intro y hy hyx
      have : 0 < rank I x := List.countP_pos_iff.2 ⟨y, hy, by simpa using hyx⟩
      omega)
    rw [h0, hr] at hx
    have : (0 : ℚ) < I.length / m := by positivity
    simp at hx; linarith
  · obtain ⟨f, hfI, hfx, hiff, hrf⟩ := rank_pos_item hr
    rw [hE.same x f hiff, hrf] at hx
    rw [hrf] at hr
    have hle : rank I f ≤ I.length := List.countP_le_length
    have h1 : 1 ≤ rank I f * m := Nat.mul_pos (Nat.pos_of_ne_zero hr) hm
    set j := (rank I f * m - 1) / I.length with hj
    have hd := Nat.div_add_mod (rank I f * m - 1) I.length
    have hmod := Nat.mod_lt (rank I f * m - 1) hN
    rw [← hj] at hd
    have hjm : j < m := by
      rw [hj, Nat.div_lt_iff_lt_mul hN]
      have := Nat.mul_le_mul_right m hle
      rw [Nat.mul_comm m]; omega
    have hlo : j * I.length < rank I f * m := by rw [Nat.mul_comm]; omega
    have hhi : rank I f * m ≤ (j + 1) * I.length := by rw [Nat.add_mul, one_mul, Nat.mul_comm j]; omega
    refine ⟨j, hjm, ?_⟩
    rcases le_abs.1 hx with hx | hx
    · left
      obtain ⟨h2, h3⟩ := (hu j).2 f hfI hhi
      have h4 : (E f : ℚ) ≤ E (u j) := by exact_mod_cast hE.mono _ _ h2
      have h5 : (rank I (u j) : ℚ) * m ≤ rank I f * m + I.length := by
        have : rank I (u j) * m ≤ rank I f * m + I.length := by
          rw [Nat.add_mul, one_mul] at h3; omega
        exact_mod_cast this
      have h6 : (rank I (u j) : ℚ) ≤ rank I f + I.length / m := by
        rw [← sub_le_iff_le_add', le_div_iff₀ hmq]; linarith
      linarith
    · right
      obtain ⟨h2, h3⟩ := (hv j).2 f hfI hlo
      have h4 : (E (v j) : ℚ) ≤ E f := by exact_mod_cast hE.mono _ _ h2
      have h5 : (rank I f : ℚ) * m ≤ rank I (v j) * m + I.length := by
        have : rank I f * m ≤ rank I (v j) * m + I.length := by
          rw [Nat.add_mul, one_mul] at hhi; omega
        exact_mod_cast this
      have h6 : (rank I f : ℚ) ≤ rank I (v j) + I.length / m := by
        rw [← sub_le_iff_le_add', le_div_iff₀ hmq]; linarith
      linarith

theorem exp_finsum {S : Type} (p : Prog S) (m : Nat) (g : Nat → S → ℚ) :
    exp p (fun s => ∑ j ∈ Finset.range m, g j s) = ∑ j ∈ Finset.range m, exp p (g j) := by
  induction m with
  | zero => simpa using exp_mul_left p 0 (fun _ => 0)
  | succ m ih =>
    simp only [Finset.sum_range_succ]
    rw [exp_add, ih]

open Classical in
/-- All ranks at once: if the estimate at each item is too high by `e` with probability at most `P`, and too low by `e` with probability at
most `P`, then some rank is off by `e + N/m` with probability at most `2 m P`. -/
theorem all_ranks {S : Type} (p : Prog S) (I : List α) (hI : I ≠ []) (E : S → α → Nat) (hE : Partially p (fun s => Counts I (E s)))
    (m : Nat) (hm : 1 ≤ m) (e : ℚ) (he : 0 ≤ e) (P : ℝ)
    (hup : ∀ x ∈ I, ((exp p (fun s => if e ≤ (((E s x : ℤ) - rank I x : ℤ) : ℚ) then 1 else 0) : ℚ) : ℝ) ≤ P)
    (hdn : ∀ x ∈ I, ((exp p (fun s => if e ≤ (((rank I x : ℤ) - E s x : ℤ) : ℚ) then 1 else 0) : ℚ) : ℝ) ≤ P) :
    ((exp p (fun s => if ∃ x, e + (I.length : ℚ) / m ≤ |(E s x : ℚ) - rank I x| then 1 else 0) : ℚ) : ℝ) ≤ 2 * m * P := by
  obtain ⟨u, v, huv, key⟩ := pivots I hI m hm
  have h1 : exp p (fun s => if ∃ x, e + (I.length : ℚ) / m ≤ |(E s x : ℚ) - rank I x| then 1 else 0) ≤
      (∑ j ∈ Finset.range m, exp p (fun s => if e ≤ (((E s (u j) : ℤ) - rank I (u j) : ℤ) : ℚ) then 1 else 0)) +
      ∑ j ∈ Finset.range m, exp p (fun s => if e ≤ (((rank I (v j) : ℤ) - E s (v j) : ℤ) : ℚ) then 1 else 0) := by
    rw [← exp_finsum, ← exp_finsum, ← exp_add]
    refine exp_mono (hE.mono (fun s hs => ?_))
    have hn1 : ∀ j ∈ Finset.range m, (0 : ℚ) ≤ if e ≤ (((E s (u j) : ℤ) - rank I (u j) : ℤ) : ℚ) then 1 else 0 := fun j _ => by
      split <;> norm_num
    have hn2 : ∀ j ∈ Finset.range m, (0 : ℚ) ≤ if e ≤ (((rank I (v j) : ℤ) - E s (v j) : ℤ) : ℚ) then 1 else 0 := fun j _ => by
      split <;> norm_num
    split
    · rename_i hx
      obtain ⟨x, hx⟩ := hx
      obtain ⟨j, hj, h | h⟩ := key (E s) hs e he x hx
      · have := Finset.single_le_sum hn1 (Finset.mem_range.2 hj)
        rw [if_pos (by push_cast; exact h)] at this
        have := Finset.sum_nonneg hn2
        linarith
      · have := Finset.single_le_sum hn2 (Finset.mem_range.2 hj)
        rw [if_pos (by push_cast; exact h)] at this
        have := Finset.sum_nonneg hn1
        linarith
    · exact add_nonneg (Finset.sum_nonneg hn1) (Finset.sum_nonneg hn2)
  have h2 : ((exp p (fun s => if ∃ x, e + (I.length : ℚ) / m ≤ |(E s x : ℚ) - rank I x| then 1 else 0) : ℚ) : ℝ) ≤
      (∑ j ∈ Finset.range m, ((exp p (fun s => if e ≤ (((E s (u j) : ℤ) - rank I (u j) : ℤ) : ℚ) then 1 else 0) : ℚ) : ℝ)) +
      ∑ j ∈ Finset.range m, ((exp p (fun s => if e ≤ (((rank I (v j) : ℤ) - E s (v j) : ℤ) : ℚ) then 1 else 0) : ℚ) : ℝ) := by
    exact_mod_cast h1
  refine h2.trans ?_
  have a1 := Finset.sum_le_card_nsmul (Finset.range m) _ P (fun j _ => hup (u j) (huv j).1)
  have a2 := Finset.sum_le_card_nsmul (Finset.range m) _ P (fun j _ => hdn (v j) (huv j).2)
  rw [Finset.card_range, nsmul_eq_mul] at a1 a2
  linarith

end
end AQ

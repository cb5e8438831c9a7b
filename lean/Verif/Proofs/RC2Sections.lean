/-
The section sizes computed in `f32` satisfy what the theorems about `RCSketch2` ask of section sizes.
-/
import Mathlib.Data.Nat.Cast.Order.Field
import Mathlib.Tactic.IntervalCases
import Verif.Model.RC2Sections
import Verif.Proofs.F64Error
import Verif.Spec.RCSketch

set_option linter.unusedSectionVars false
set_option linter.unusedVariables false

namespace AQ
open Spec

/-- `sqrtTwoF32` is an `f32` and no `f32` is closer to `√2`: the square roots of `2` and of the squares of the midpoints to its
neighbours are ordered accordingly. -/
theorem sqrtTwoF32_nearest : Ieee.single.Rep sqrtTwoF32 ∧ (sqrtTwoF32 - 1 / 2 ^ 24) ^ 2 < 2 ∧ 2 < (sqrtTwoF32 + 1 / 2 ^ 24) ^ 2 :=
  ⟨⟨11863283, -23, by decide +kernel, by decide, by unfold sqrtTwoF32; norm_num⟩, by decide +kernel, by decide +kernel⟩

/-- One division and rounding. -/
theorem f32_div_near {x : ℚ} (hx : 1 / 4 ≤ x) :
    7071 / 10000 * x ≤ Ieee.single.round (x / sqrtTwoF32) ∧ Ieee.single.round (x / sqrtTwoF32) ≤ x := by
  have h := Ieee.single.abs_round_sub (x / sqrtTwoF32)
  have hu : (2 : ℚ) ^ (-(Ieee.single.p : ℤ)) = 1 / 2 ^ 24 := by
    show (2 : ℚ) ^ (-24 : ℤ) = _
    norm_num
  have hη : (2 : ℚ) ^ (Ieee.single.emin - 1) ≤ 1 / 2 ^ 24 := by
    show (2 : ℚ) ^ (-150 : ℤ) ≤ _
    norm_num
  rw [hu] at h
  have e : x / sqrtTwoF32 = 8388608 / 11863283 * x := by unfold sqrtTwoF32; field_simp
  rw [e] at h ⊢
  rw [abs_of_nonneg (by positivity : (0 : ℚ) ≤ 8388608 / 11863283 * x)] at h
  generalize Ieee.single.round (8388608 / 11863283 * x) = y at *
  generalize (2 : ℚ) ^ (Ieee.single.emin - 1) = η at *
  obtain ⟨h1, h2⟩ := abs_le.1 h
  constructor <;> linarith

theorem f32Size_zero {k : Nat} (hk : k < 2 ^ 24) : f32Size k 0 = k := by
  unfold f32Size
  refine Ieee.single.round_of_rep (by decide) ⟨k, 0, ?_, by decide, by simp⟩
  rw [abs_of_nonneg (by omega)]
  show (k : ℤ) ≤ 2 ^ 24
  omega

theorem f32Size_low {k : Nat} (hk : k < 2 ^ 24) (h1 : 1 ≤ k) : ∀ j, j ≤ 4 → (7071 / 10000 : ℚ) ^ j * k ≤ f32Size k j := by
  have hkq : (1 : ℚ) ≤ k := by exact_mod_cast h1
  intro j
  induction j with
  | zero => intro _; rw [f32Size_zero hk]; simp
  | succ j ih =>
    intro hj
    have ih := ih (by omega)
    -- still large enough to be far from the smallest numbers
    have h4 : (1 / 4 : ℚ) ≤ (7071 / 10000) ^ j * k := by
      have : (7071 / 10000 : ℚ) ^ 3 ≤ (7071 / 10000) ^ j := pow_le_pow_of_le_one (by norm_num) (by norm_num) (by omega)
      have h5 : (1 / 4 : ℚ) ≤ (7071 / 10000) ^ 3 := by norm_num
      nlinarith [mul_le_mul_of_nonneg_right (h5.trans this) (by linarith : (0 : ℚ) ≤ k)]
    have := (f32_div_near (h4.trans ih)).1
    show _ ≤ Ieee.single.round (f32Size k j / sqrtTwoF32)
    rw [pow_succ]
    linarith

theorem f32Sec_zero {k : Nat} (hk : k < 2 ^ 24) : f32Sec k 0 = k := by
  unfold f32Sec; rw [f32Size_zero hk]; simp

/-- A section is at most twice the size of the next. -/
theorem f32Sec_half {k j : Nat} (hk : k < 2 ^ 24) (h6 : 6 ≤ k) (hj : j < 4) : f32Sec k j ≤ 2 * f32Sec k (j + 1) := by
  have hlow := f32Size_low hk (by omega) j (by omega)
  have hkq : (6 : ℚ) ≤ k := by exact_mod_cast h6
  have h2 : (2 : ℚ) ≤ f32Size k j := by
    have : (7071 / 10000 : ℚ) ^ 3 ≤ (7071 / 10000) ^ j := pow_le_pow_of_le_one (by norm_num) (by norm_num) (by omega)
    have h5 : (353 / 1000 : ℚ) ≤ (7071 / 10000) ^ 3 := by norm_num
    nlinarith [mul_le_mul_of_nonneg_right (h5.trans this) (by linarith : (0 : ℚ) ≤ k)]
  have hn := (f32_div_near (x := f32Size k j) (by linarith)).1
  have e : f32Size k (j + 1) = Ieee.single.round (f32Size k j / sqrtTwoF32) := rfl
  rw [← e] at hn
  unfold f32Sec
  set n := ⌊f32Size k j⌋₊ with hn'
  have hnx : (n : ℚ) ≤ f32Size k j := Nat.floor_le (by linarith)
  have h2n : 2 ≤ n := Nat.le_floor (by exact_mod_cast h2)
  have key : ∀ m : Nat, 10000 * m ≤ 7071 * n → m ≤ ⌊f32Size k (j + 1)⌋₊ := by
    intro m hm
    refine Nat.le_floor (le_trans ?_ hn)
    have hm : (10000 : ℚ) * m ≤ 7071 * n := by exact_mod_cast hm
    linarith
  have := key ((n + 1) / 2) (by omega)
  omega

theorem f32Sec_low {k j : Nat} (hk : k < 2 ^ 24) (h1 : 1 ≤ k) (hj : j ≤ 4) : 24999 * k / 100000 ≤ f32Sec k j := by
  have hlow := f32Size_low hk h1 j hj
  have hkq : (1 : ℚ) ≤ k := by exact_mod_cast h1
  refine Nat.le_floor (le_trans ?_ hlow)
  have h4 : (7071 / 10000 : ℚ) ^ 4 ≤ (7071 / 10000) ^ j := pow_le_pow_of_le_one (by norm_num) (by norm_num) hj
  have h5 : (24999 / 100000 : ℚ) ≤ (7071 / 10000) ^ 4 := by norm_num
  have h6 : ((24999 * k / 100000 : Nat) : ℚ) ≤ 24999 * k / 100000 := by
    have := Nat.cast_div_le (α := ℚ) (m := 24999 * k) (n := 100000)
    push_cast at this; exact this
  have := mul_le_mul_of_nonneg_right (h5.trans h4) (by linarith : (0 : ℚ) ≤ k)
  linarith

/-- The section sizes the code computes are fit for every `k` from 4 up to `2^24`. -/
theorem f32Sec_ok {k : Nat} (hk : 4 ≤ k) (hk2 : k < 2 ^ 24) : RCSketch2.SecOK (f32Sec k) := by
  rcases Nat.lt_or_ge k 6 with h | h
  · interval_cases k
    · constructor <;> decide +kernel
    · constructor <;> decide +kernel
  · constructor
    · intro j hj
      refine le_trans ?_ (f32Sec_low hk2 (by omega) hj)
      omega
    · intro j hj
      exact f32Sec_half hk2 h (by omega)

end AQ

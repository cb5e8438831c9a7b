/-
Properties C57 and C58 of the scale functions, and C77 - C80 of digests using them, over the real numbers.
-/
import Mathlib.Tactic.Linarith
import Mathlib.Tactic.NormNum
import Verif.Proofs.ScaleFns
import Verif.Props.TDigestQuery

set_option linter.unusedSectionVars false
set_option linter.unusedVariables false

namespace AQ
open Prog Spec

/-- C57. `inv_k0` inverts `k0`, for every quantile and every non-zero compression factor. -/
theorem C57_k0_inverse {K : Type} [Field K] [LinearOrder K] [IsStrictOrderedRing K] [FloatFmt K] [FloatFmt.Exact K]
    (q δ : K) (n : Fl K) (hδ : δ ≠ 0) : invK0 (k0 (.fin q) (.fin δ) n) (.fin δ) n = .fin q := by
  unfold invK0 k0
  simp only [Fl.lit_exact, Fl.mul_exact]
  rw [Fl.div_exact _ two_ne_zero, Fl.mul_exact, Fl.div_exact _ hδ]
  congr 1
  field_simp

section
variable [FloatFmt ℝ] [FloatFmt.Exact ℝ]
open ScaleR

/-- C57. `inv_k1` inverts `k1` on `[0, 1]`. -/
theorem C57_k1_inverse (q δ : ℝ) (n : Fl ℝ) (h0 : 0 ≤ q) (h1 : q ≤ 1) (hδ : δ ≠ 0) :
    invK1 (k1 (.fin q) (.fin δ) n) (.fin δ) n = .fin q := by
  rw [k1_fin n h0 h1, invK1_fin n hδ]
  have hp := Real.pi_pos
  have e : 2 * Real.pi * (δ / (2 * Real.pi) * Real.arcsin (2 * q - 1)) / δ = Real.arcsin (2 * q - 1) := by
    field_simp
  rw [e, Real.sin_arcsin (by linarith) (by linarith)]
  congr 1
  ring

/-- C57. `inv_k2` inverts `k2` on `(0, 1)` whenever the normaliser is not zero. -/
theorem C57_k2_inverse (q δ n : ℝ) (h0 : 0 < q) (h1 : q < 1) (hδ : 0 < δ) (hn : 0 < n)
    (hN : 4 * Real.logb 10 (n / δ) + 24 ≠ 0) :
    invK2 (k2 (.fin q) (.fin δ) (.fin n)) (.fin δ) (.fin n) = .fin q := by
  change norm δ n 24 ≠ 0 at hN
  rw [k2_fin h0 h1 hδ hn hN, invK2_fin hδ hn]
  have e : δ / norm δ n 24 * odds q * norm δ n 24 / δ = odds q := by field_simp
  rw [e, unodds_odds h0 h1]

/-- C57. At 0 too `inv_k2` inverts `k2`, through minus infinity; at 1 the round trip gives NaN. -/
theorem C57_k2_ends (δ n : ℝ) (hδ : 0 < δ) (hn : 0 < n) (hN : 0 < 4 * Real.logb 10 (n / δ) + 24) :
    invK2 (k2 (.fin 0) (.fin δ) (.fin n)) (.fin δ) (.fin n) = .fin 0 ∧
    invK2 (k2 (.fin 1) (.fin δ) (.fin n)) (.fin δ) (.fin n) = .nan := by
  change 0 < norm δ n 24 at hN
  rw [k2_zero hδ hn hN, k2_one hδ hn hN]
  unfold invK2
  simp only [Fl.lit_exact]
  rw [normaliser_fin _ hδ hn]
  have m1 : (Fl.ninf * .fin (norm δ n 24) : Fl ℝ) = .ninf := by
    show Fl.mul _ _ = _
    simp [Fl.mul, Fl.signInf, hN, hN.not_gt]
  have m2 : (Fl.pinf * .fin (norm δ n 24) : Fl ℝ) = .pinf := by
    show Fl.mul _ _ = _
    simp [Fl.mul, Fl.signInf, hN]
  have d1 : (Fl.ninf / .fin δ : Fl ℝ) = .ninf := by
    show Fl.div _ _ = _
    simp [Fl.div, hδ.not_gt]
  have d2 : (Fl.pinf / .fin δ : Fl ℝ) = .pinf := by
    show Fl.div _ _ = _
    simp [Fl.div, hδ.not_gt]
  rw [m1, m2, d1, d2]
  constructor
  · show (Fl.fin 0 / (Fl.fin 1 + Fl.fin 0) : Fl ℝ) = _
    rw [Fl.add_exact, Fl.div_exact _ (by norm_num)]
    norm_num
  · rfl

/-- C57. `inv_k2_asym` inverts `k2_asym` on `(0, 1]`. -/
theorem C57_k2_asym_inverse (q δ n : ℝ) (h0 : 0 < q) (h1 : q ≤ 1) (hδ : 0 < δ) (hn : 0 < n)
    (hN : 4 * Real.logb 10 (n / (δ * 2)) + 24 ≠ 0) :
    invK2Asym (k2Asym (.fin q) (.fin δ) (.fin n)) (.fin δ) (.fin n) = .fin q := by
  unfold invK2Asym k2Asym
  simp only [Fl.lit_exact, Fl.mul_exact]
  rw [C57_k2_inverse (q * (1 / 2)) (δ * 2) n (by linarith) (by linarith) (by linarith) hn hN, Fl.mul_exact]
  congr 1
  ring

theorem modCompFactor_fin {δ n : ℝ} (hn : 0 < n) :
    modCompFactor (.fin δ) (.fin n) = .fin (δ / 10 * Real.logb 10 n ^ 2) := by
  unfold modCompFactor
  rw [Fl.log10_pos hn, Fl.square_fin]
  simp only [Fl.lit_exact]
  rw [Fl.div_exact _ (by norm_num), Fl.mul_exact]

theorem k2n_eq (q δ n : ℝ) (hn : 0 < n) :
    k2n (.fin q) (.fin δ) (.fin n) = k2 (.fin q) (.fin (δ / 10 * Real.logb 10 n ^ 2)) (.fin n) := by
  unfold k2n k2
  rw [modCompFactor_fin hn]

theorem invK2n_eq (s : Fl ℝ) (δ n : ℝ) (hn : 0 < n) :
    invK2n s (.fin δ) (.fin n) = invK2 s (.fin (δ / 10 * Real.logb 10 n ^ 2)) (.fin n) := by
  unfold invK2n invK2
  rw [modCompFactor_fin hn]

/-- C57. `inv_k2n` inverts `k2n` on `(0, 1)`, for more than one item. -/
theorem C57_k2n_inverse (q δ n : ℝ) (h0 : 0 < q) (h1 : q < 1) (hδ : 0 < δ) (hn : 1 < n)
    (hN : 4 * Real.logb 10 (n / (δ / 10 * Real.logb 10 n ^ 2)) + 24 ≠ 0) :
    invK2n (k2n (.fin q) (.fin δ) (.fin n)) (.fin δ) (.fin n) = .fin q := by
  have hl : 0 < Real.logb 10 n := Real.logb_pos (by norm_num) hn
  rw [k2n_eq _ _ _ (by linarith), invK2n_eq _ _ _ (by linarith)]
  exact C57_k2_inverse q _ n h0 h1 (by positivity) (by linarith) hN

/-- C57. `inv_k3` inverts `k3` on `(0, 1)` whenever the normaliser is not zero. -/
theorem C57_k3_inverse (q δ n : ℝ) (h0 : 0 < q) (h1 : q < 1) (hδ : 0 < δ) (hn : 0 < n)
    (hN : 4 * Real.logb 10 (n / δ) + 21 ≠ 0) :
    invK3 (k3 (.fin q) (.fin δ) (.fin n)) (.fin δ) (.fin n) = .fin q := by
  change norm δ n 21 ≠ 0 at hN
  rw [k3_fin h0 h1 hδ hn hN, invK3_fin hδ hn]
  have e : δ / norm δ n 21 * fold q * norm δ n 21 / δ = fold q := by field_simp
  rw [e, unfold_fold h0 h1]

omit [FloatFmt ℝ] [FloatFmt.Exact ℝ] in
/-- C58. `k0` is strictly increasing. -/
theorem C58_k0_increasing {K : Type} [Field K] [LinearOrder K] [IsStrictOrderedRing K] [FloatFmt K] [FloatFmt.Exact K]
    (a b δ : K) (n : Fl K) (hδ : 0 < δ) (hab : a < b) : Fl.lt (k0 (.fin a) (.fin δ) n) (k0 (.fin b) (.fin δ) n) = true := by
  unfold k0
  simp only [Fl.lit_exact, Fl.mul_exact]
  rw [Fl.div_exact _ two_ne_zero, Fl.div_exact _ two_ne_zero, Fl.lt_fin]
  apply decide_eq_true
  have := mul_lt_mul_of_pos_right hab hδ
  linarith

/-- C58. `k1` is strictly increasing on `[0, 1]`. -/
theorem C58_k1_increasing (a b δ : ℝ) (n : Fl ℝ) (hδ : 0 < δ) (h0 : 0 ≤ a) (hab : a < b) (h1 : b ≤ 1) :
    Fl.lt (k1 (.fin a) (.fin δ) n) (k1 (.fin b) (.fin δ) n) = true := by
  rw [k1_fin n h0 (by linarith), k1_fin n (by linarith) h1, Fl.lt_fin]
  apply decide_eq_true
  have hp := Real.pi_pos
  exact mul_lt_mul_of_pos_left (Real.strictMonoOn_arcsin (by constructor <;> linarith) (by constructor <;> linarith) (by linarith))
    (by positivity)

/-- C58. `k2` is strictly increasing on `[0, 1]` (minus infinity at 0, infinity at 1). -/
theorem C58_k2_increasing (a b δ n : ℝ) (hδ : 0 < δ) (hn : 0 < n) (hN : 0 < 4 * Real.logb 10 (n / δ) + 24)
    (h0 : 0 ≤ a) (hab : a < b) (h1 : b ≤ 1) :
    Fl.lt (k2 (.fin a) (.fin δ) (.fin n)) (k2 (.fin b) (.fin δ) (.fin n)) = true := by
  change 0 < norm δ n 24 at hN
  rcases h0.eq_or_lt with rfl | h0
  · rw [k2_zero hδ hn hN]
    rcases h1.eq_or_lt with rfl | h1
    · rw [k2_one hδ hn hN]; rfl
    · rw [k2_fin hab h1 hδ hn hN.ne']; rfl
  · rw [k2_fin h0 (by linarith) hδ hn hN.ne']
    rcases h1.eq_or_lt with rfl | h1
    · rw [k2_one hδ hn hN]; rfl
    · rw [k2_fin (by linarith) h1 hδ hn hN.ne', Fl.lt_fin]
      exact decide_eq_true (mul_lt_mul_of_pos_left (odds_lt h0 hab h1) (by positivity))

/-- C58. `k2_asym` is strictly increasing on `[0, 1]`. -/
theorem C58_k2_asym_increasing (a b δ n : ℝ) (hδ : 0 < δ) (hn : 0 < n) (hN : 0 < 4 * Real.logb 10 (n / (δ * 2)) + 24)
    (h0 : 0 ≤ a) (hab : a < b) (h1 : b ≤ 1) :
    Fl.lt (k2Asym (.fin a) (.fin δ) (.fin n)) (k2Asym (.fin b) (.fin δ) (.fin n)) = true := by
  unfold k2Asym
  simp only [Fl.lit_exact, Fl.mul_exact]
  exact C58_k2_increasing _ _ _ _ (by linarith) hn hN (by linarith) (by linarith) (by linarith)

/-- C58. `k2n` is strictly increasing on `[0, 1]`, for more than one item. -/
theorem C58_k2n_increasing (a b δ n : ℝ) (hδ : 0 < δ) (hn : 1 < n)
    (hN : 0 < 4 * Real.logb 10 (n / (δ / 10 * Real.logb 10 n ^ 2)) + 24)
    (h0 : 0 ≤ a) (hab : a < b) (h1 : b ≤ 1) :
    Fl.lt (k2n (.fin a) (.fin δ) (.fin n)) (k2n (.fin b) (.fin δ) (.fin n)) = true := by
  have hl : 0 < Real.logb 10 n := Real.logb_pos (by norm_num) hn
  rw [k2n_eq _ _ _ (by linarith), k2n_eq _ _ _ (by linarith)]
  exact C58_k2_increasing a b _ n (by positivity) (by linarith) hN h0 hab h1

/-- C58. `k3` is strictly increasing on `(0, 1)`. -/
theorem C58_k3_increasing (a b δ n : ℝ) (hδ : 0 < δ) (hn : 0 < n) (hN : 0 < 4 * Real.logb 10 (n / δ) + 21)
    (h0 : 0 < a) (hab : a < b) (h1 : b < 1) :
    Fl.lt (k3 (.fin a) (.fin δ) (.fin n)) (k3 (.fin b) (.fin δ) (.fin n)) = true := by
  change 0 < norm δ n 21 at hN
  rw [k3_fin h0 (by linarith) hδ hn hN.ne', k3_fin (by linarith) h1 hδ hn hN.ne', Fl.lt_fin]
  exact decide_eq_true (mul_lt_mul_of_pos_left (fold_lt h0 hab h1) (by positivity))

/-- C58. `inv_k2` and `inv_k3` are strictly increasing with values in `(0, 1)`. -/
theorem C58_inverse_increasing (a b δ n : ℝ) (hδ : 0 < δ) (hn : 0 < n) (hN : 0 < 4 * Real.logb 10 (n / δ) + 21)
    (hab : a < b) :
    (∃ x y : ℝ, invK2 (.fin a) (.fin δ) (.fin n) = .fin x ∧ invK2 (.fin b) (.fin δ) (.fin n) = .fin y ∧
      0 < x ∧ x < y ∧ y < 1) ∧
    (∃ x y : ℝ, invK3 (.fin a) (.fin δ) (.fin n) = .fin x ∧ invK3 (.fin b) (.fin δ) (.fin n) = .fin y ∧
      0 < x ∧ x < y ∧ y < 1) := by
  have h21 : 0 < norm δ n 21 := hN
  have h24 : 0 < norm δ n 24 := by unfold ScaleR.norm; linarith
  refine ⟨⟨_, _, invK2_fin hδ hn, invK2_fin hδ hn, unodds_pos _, unodds_lt ?_, unodds_lt_one _⟩,
    ⟨_, _, invK3_fin hδ hn, invK3_fin hδ hn, unfold_pos _, unfold_lt ?_, unfold_lt_one _⟩⟩
  · rw [div_lt_div_iff_of_pos_right hδ]
    exact mul_lt_mul_of_pos_right hab h24
  · rw [div_lt_div_iff_of_pos_right hδ]
    exact mul_lt_mul_of_pos_right hab h21

end
end AQ

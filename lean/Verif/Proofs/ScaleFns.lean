/-
The scale functions as real functions.
-/
import Mathlib.Tactic.Linarith
import Mathlib.Tactic.FieldSimp
import Verif.Model.ScaleFns
import Verif.Spec.TDigest

set_option linter.unusedSectionVars false
set_option linter.unusedVariables false

namespace AQ
open Prog Spec

namespace ScaleR

/-- The denominator of `k2` (`c = 24`) and `k3` (`c = 21`). -/
noncomputable def norm (δ n c : ℝ) : ℝ := 4 * Real.logb 10 (n / δ) + c

/-- Log odds. -/
noncomputable def odds (q : ℝ) : ℝ := Real.logb 10 (q / (1 - q))

/-- The inverse of the log odds. -/
noncomputable def unodds (y : ℝ) : ℝ := (10 : ℝ) ^ y / (1 + (10 : ℝ) ^ y)

theorem pow10_pos (y : ℝ) : 0 < (10 : ℝ) ^ y := Real.rpow_pos_of_pos (by norm_num) y

theorem unodds_pos (y : ℝ) : 0 < unodds y := by
  have := pow10_pos y
  unfold unodds; positivity

theorem unodds_lt_one (y : ℝ) : unodds y < 1 := by
  have := pow10_pos y
  unfold unodds
  rw [div_lt_one (by linarith)]
  linarith

theorem unodds_odds {q : ℝ} (h0 : 0 < q) (h1 : q < 1) : unodds (odds q) = q := by
  have h2 : 0 < 1 - q := by linarith
  unfold unodds odds
  rw [Real.rpow_logb (by norm_num) (by norm_num) (by positivity)]
  field_simp
  ring

theorem odds_unodds (y : ℝ) : odds (unodds y) = y := by
  have h := pow10_pos y
  unfold unodds odds
  have e : (10 : ℝ) ^ y / (1 + (10 : ℝ) ^ y) / (1 - (10 : ℝ) ^ y / (1 + (10 : ℝ) ^ y)) = (10 : ℝ) ^ y := by
    field_simp
    ring
  rw [e, Real.logb_rpow (by norm_num) (by norm_num)]

theorem odds_lt {a b : ℝ} (h0 : 0 < a) (hab : a < b) (h1 : b < 1) : odds a < odds b := by
  unfold odds
  apply Real.logb_lt_logb (by norm_num)
  · exact div_pos h0 (by linarith)
  · rw [div_lt_div_iff₀ (by linarith) (by linarith)]
    nlinarith

theorem unodds_lt {a b : ℝ} (h : a < b) : unodds a < unodds b := by
  have ha := pow10_pos a
  have hb := pow10_pos b
  have := Real.rpow_lt_rpow_of_exponent_lt (by norm_num : (1 : ℝ) < 10) h
  unfold unodds
  rw [div_lt_div_iff₀ (by linarith) (by linarith)]
  nlinarith

/-- The two-sided logarithm used by `k3`. -/
noncomputable def fold (q : ℝ) : ℝ := if q ≤ 1 / 2 then Real.logb 10 (2 * q) else -Real.logb 10 (2 * (1 - q))

/-- Its inverse. -/
noncomputable def unfold' (y : ℝ) : ℝ := if y ≤ 0 then (10 : ℝ) ^ y / 2 else 1 - (10 : ℝ) ^ (-y) / 2

theorem fold_nonpos {q : ℝ} (h0 : 0 < q) (h : q ≤ 1 / 2) : fold q ≤ 0 := by
  unfold fold
  rw [if_pos h]
  exact Real.logb_nonpos (by norm_num) (by linarith) (by linarith)

theorem fold_pos {q : ℝ} (h1 : q < 1) (h : 1 / 2 < q) : 0 < fold q := by
  unfold fold
  rw [if_neg (not_le.2 h)]
  have := Real.logb_neg (by norm_num : (1 : ℝ) < 10) (show 0 < 2 * (1 - q) by linarith) (by linarith)
  linarith

theorem unfold_fold {q : ℝ} (h0 : 0 < q) (h1 : q < 1) : unfold' (fold q) = q := by
  by_cases h : q ≤ 1 / 2
  · unfold unfold'
    rw [if_pos (fold_nonpos h0 h)]
    unfold fold
    rw [if_pos h, Real.rpow_logb (by norm_num) (by norm_num) (by linarith)]
    ring
  · have h' := not_le.1 h
    unfold unfold'
    rw [if_neg (not_le.2 (fold_pos h1 h'))]
    unfold fold
    rw [if_neg h, neg_neg, Real.rpow_logb (by norm_num) (by norm_num) (by linarith)]
    ring

theorem pow10_le_one {y : ℝ} (h : y ≤ 0) : (10 : ℝ) ^ y ≤ 1 := Real.rpow_le_one_of_one_le_of_nonpos (by norm_num) h

theorem pow10_lt_one {y : ℝ} (h : y < 0) : (10 : ℝ) ^ y < 1 := Real.rpow_lt_one_of_one_lt_of_neg (by norm_num) h

theorem fold_unfold (y : ℝ) : fold (unfold' y) = y := by
  unfold unfold'
  split
  · rename_i h
    have := pow10_le_one h
    unfold fold
    rw [if_pos (by linarith), show 2 * ((10 : ℝ) ^ y / 2) = (10 : ℝ) ^ y by ring, Real.logb_rpow (by norm_num) (by norm_num)]
  · rename_i h
    have := pow10_lt_one (show -y < 0 by linarith)
    unfold fold
    rw [if_neg (by linarith), show 2 * (1 - (1 - (10 : ℝ) ^ (-y) / 2)) = (10 : ℝ) ^ (-y) by ring,
      Real.logb_rpow (by norm_num) (by norm_num), neg_neg]

theorem unfold_pos (y : ℝ) : 0 < unfold' y := by
  unfold unfold'
  split
  · have := pow10_pos y; positivity
  · have := pow10_lt_one (show -y < 0 by linarith); linarith

theorem unfold_lt_one (y : ℝ) : unfold' y < 1 := by
  unfold unfold'
  split
  · rename_i h
    have := pow10_le_one h; linarith
  · have := pow10_pos (-y); linarith

theorem fold_lt {a b : ℝ} (h0 : 0 < a) (hab : a < b) (h1 : b < 1) : fold a < fold b := by
  by_cases hb : b ≤ 1 / 2
  · unfold fold
    rw [if_pos hb, if_pos (by linarith)]
    exact Real.logb_lt_logb (by norm_num) (by linarith) (by linarith)
  · have hb' := not_le.1 hb
    by_cases ha : a ≤ 1 / 2
    · exact (fold_nonpos h0 ha).trans_lt (fold_pos h1 hb')
    · unfold fold
      rw [if_neg hb, if_neg ha]
      have := Real.logb_lt_logb (by norm_num : (1 : ℝ) < 10) (show 0 < 2 * (1 - b) by linarith)
        (show 2 * (1 - b) < 2 * (1 - a) by linarith)
      linarith

theorem unfold_lt {a b : ℝ} (h : a < b) : unfold' a < unfold' b := by
  by_contra hcon
  rcases eq_or_lt_of_le (not_lt.1 hcon) with he | hl
  · have := congrArg fold he
    rw [fold_unfold, fold_unfold] at this
    linarith
  · have := fold_lt (unfold_pos b) hl (unfold_lt_one a)
    rw [fold_unfold, fold_unfold] at this
    linarith

end ScaleR

section fl
variable [FloatFmt ℝ] [FloatFmt.Exact ℝ]

theorem Fl.log10_pos {a : ℝ} (h : 0 < a) : Fl.log10 (.fin a) = .fin (Real.logb 10 a) := by
  unfold Fl.log10
  simp only [Fl.rnd_exact]
  rw [if_neg (by linarith), if_neg h.ne']

theorem Fl.log10_zero : Fl.log10 (.fin 0) = .ninf := by
  unfold Fl.log10
  simp

theorem Fl.pow10_fin (a : ℝ) : Fl.pow10 (.fin a) = .fin ((10 : ℝ) ^ a) := by simp [Fl.pow10]

theorem Fl.sin_fin (a : ℝ) : Fl.sin (.fin a) = .fin (Real.sin a) := by simp [Fl.sin]

theorem Fl.asin_fin {a : ℝ} (h0 : -1 ≤ a) (h1 : a ≤ 1) : Fl.asin (.fin a) = .fin (Real.arcsin a) := by
  simp [Fl.asin, h0, h1]

theorem Fl.square_fin (a : ℝ) : Fl.square (.fin a) = .fin (a ^ 2) := by simp [Fl.square]

open ScaleR

theorem normaliser_fin {δ n : ℝ} (c : ℝ) (hδ : 0 < δ) (hn : 0 < n) :
    normaliser (.fin δ) (.fin n) (.fin c) = .fin (norm δ n c) := by
  unfold normaliser
  rw [Fl.div_exact _ hδ.ne', Fl.log10_pos (div_pos hn hδ)]
  simp [ScaleR.norm]

theorem k2_fin {q δ n : ℝ} (h0 : 0 < q) (h1 : q < 1) (hδ : 0 < δ) (hn : 0 < n) (hN : norm δ n 24 ≠ 0) :
    k2 (.fin q) (.fin δ) (.fin n) = .fin (δ / norm δ n 24 * odds q) := by
  have h2 : (0 : ℝ) < 1 - q := by linarith
  unfold k2
  simp only [Fl.lit_exact]
  rw [normaliser_fin _ hδ hn, Fl.div_exact _ hN]
  simp only [Fl.sub_exact]
  rw [Fl.div_exact _ h2.ne', Fl.log10_pos (div_pos h0 h2)]
  simp [odds]

theorem invK2_fin {s δ n : ℝ} (hδ : 0 < δ) (hn : 0 < n) :
    invK2 (.fin s) (.fin δ) (.fin n) = .fin (unodds (s * norm δ n 24 / δ)) := by
  unfold invK2
  simp only [Fl.lit_exact]
  rw [normaliser_fin _ hδ hn]
  simp only [Fl.mul_exact]
  rw [Fl.div_exact _ hδ.ne', Fl.pow10_fin]
  simp only [Fl.add_exact]
  rw [Fl.div_exact _ (by have := pow10_pos (s * norm δ n 24 / δ); linarith)]
  rfl

theorem k3_fin {q δ n : ℝ} (h0 : 0 < q) (h1 : q < 1) (hδ : 0 < δ) (hn : 0 < n) (hN : norm δ n 21 ≠ 0) :
    k3 (.fin q) (.fin δ) (.fin n) = .fin (δ / norm δ n 21 * fold q) := by
  unfold k3 k3Factor
  simp only [Fl.lit_exact]
  rw [normaliser_fin _ hδ hn, Fl.div_exact _ hN]
  by_cases h : q ≤ 1 / 2
  · have : Fl.le (.fin q) (.fin (1 / 2) : Fl ℝ) = true := by rw [Fl.le_fin]; simpa using h
    rw [if_pos this, Fl.mul_exact, Fl.log10_pos (by linarith), Fl.mul_exact, fold, if_pos h]
  · have : ¬ Fl.le (.fin q) (.fin (1 / 2) : Fl ℝ) = true := by rw [Fl.le_fin]; simpa using h
    rw [if_neg this, Fl.sub_exact, Fl.mul_exact, Fl.log10_pos (by linarith), Fl.neg_fin, Fl.mul_exact, fold, if_neg h]

theorem invK3_fin {s δ n : ℝ} (hδ : 0 < δ) (hn : 0 < n) :
    invK3 (.fin s) (.fin δ) (.fin n) = .fin (unfold' (s * norm δ n 21 / δ)) := by
  unfold invK3
  simp only [Fl.lit_exact]
  rw [normaliser_fin _ hδ hn]
  simp only [Fl.mul_exact]
  rw [Fl.div_exact _ hδ.ne']
  generalize s * norm δ n 21 / δ = y
  rw [Fl.neg_fin, Fl.pow10_fin, Fl.pow10_fin]
  simp only [Fl.sub_exact]
  rw [Fl.div_exact _ (by norm_num), Fl.div_exact _ (by norm_num)]
  simp only [Fl.sub_exact, Fl.fabs_fin, Fl.lt_fin]
  have hp := pow10_pos y
  have hm := pow10_pos (-y)
  have e : (10 : ℝ) ^ (-y) * (10 : ℝ) ^ y = 1 := by rw [← Real.rpow_add (by norm_num)]; simp
  unfold unfold'
  split
  · rename_i h
    have h := of_decide_eq_true h
    by_cases hy : y ≤ 0
    · exfalso
      have h1 := pow10_le_one hy
      have h2 : 1 ≤ (10 : ℝ) ^ (-y) := by nlinarith
      rw [abs_of_nonneg (by linarith), abs_of_nonneg (by linarith)] at h
      nlinarith
    · rw [if_neg hy]; congr 1; ring
  · rename_i h
    by_cases hy : y ≤ 0
    · rw [if_pos hy]
    · exfalso
      apply h
      have h1 := pow10_lt_one (show -y < 0 by linarith)
      have h2 : 1 < (10 : ℝ) ^ y := by nlinarith
      apply decide_eq_true
      rw [abs_of_nonpos (by linarith), abs_of_nonpos (by linarith)]
      nlinarith

theorem k2_zero {δ n : ℝ} (hδ : 0 < δ) (hn : 0 < n) (hN : 0 < norm δ n 24) : k2 (.fin 0) (.fin δ) (.fin n) = .ninf := by
  unfold k2
  simp only [Fl.lit_exact]
  rw [normaliser_fin _ hδ hn, Fl.div_exact _ hN.ne', Fl.sub_exact, Fl.div_exact _ (by norm_num), sub_zero, zero_div,
    Fl.log10_zero]
  show (Fl.mul _ _ : Fl ℝ) = _
  have : 0 < δ / norm δ n 24 := by positivity
  simp [Fl.mul, Fl.signInf, this, this.not_gt]

theorem k2_one {δ n : ℝ} (hδ : 0 < δ) (hn : 0 < n) (hN : 0 < norm δ n 24) : k2 (.fin 1) (.fin δ) (.fin n) = .pinf := by
  have hdiv : (.fin 1 / .fin 0 : Fl ℝ) = .pinf := by
    show Fl.div _ _ = _
    simp [Fl.div, Fl.signInf]
  unfold k2
  simp only [Fl.lit_exact]
  rw [normaliser_fin _ hδ hn, Fl.div_exact _ hN.ne', Fl.sub_exact, sub_self, hdiv]
  show (Fl.mul _ .pinf : Fl ℝ) = _
  have : 0 < δ / norm δ n 24 := by positivity
  simp [Fl.mul, Fl.signInf, this]

theorem k1_fin {q δ : ℝ} (n : Fl ℝ) (h0 : 0 ≤ q) (h1 : q ≤ 1) :
    k1 (.fin q) (.fin δ) n = .fin (δ / (2 * Real.pi) * Real.arcsin (2 * q - 1)) := by
  unfold k1 Fl.pi
  simp only [Fl.lit_exact, Fl.mul_exact, Fl.sub_exact]
  rw [Fl.div_exact _ (by have := Real.pi_pos; positivity), Fl.asin_fin (by linarith) (by linarith), Fl.mul_exact]

theorem invK1_fin {s δ : ℝ} (n : Fl ℝ) (hδ : δ ≠ 0) :
    invK1 (.fin s) (.fin δ) n = .fin ((1 + Real.sin (2 * Real.pi * s / δ)) / 2) := by
  unfold invK1 Fl.pi
  simp only [Fl.lit_exact, Fl.mul_exact]
  rw [Fl.div_exact _ hδ, Fl.sin_fin, Fl.add_exact, Fl.div_exact _ (by norm_num)]

end fl
end AQ

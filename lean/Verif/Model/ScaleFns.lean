/-
Model of the transcendental scale functions of `src/t_digest/scale_functions.rs`, over the reals with the special values of
IEEE arithmetic. The library functions `asin`, `sin`, `log10` and `powf` are taken to be the rounded mathematical functions.
-/
import Mathlib.Analysis.SpecialFunctions.Trigonometric.Inverse
import Mathlib.Analysis.SpecialFunctions.Log.Base
import Mathlib.Analysis.SpecialFunctions.Pow.Real
import Verif.Model.ScaleK0

set_option linter.unusedSectionVars false

namespace AQ
variable [FloatFmt ℝ]

/-- `x.asin()`: NaN outside `[-1, 1]`. -/
noncomputable def Fl.asin : Fl ℝ → Fl ℝ
  | .fin a => if -1 ≤ a ∧ a ≤ 1 then FloatFmt.rnd (Real.arcsin a) else .nan
  | _ => .nan

/-- `x.sin()`: NaN at the infinities. -/
noncomputable def Fl.sin : Fl ℝ → Fl ℝ
  | .fin a => FloatFmt.rnd (Real.sin a)
  | _ => .nan

/-- `x.log10()`: `-inf` at 0, NaN below. -/
noncomputable def Fl.log10 : Fl ℝ → Fl ℝ
  | .nan => .nan
  | .ninf => .nan
  | .pinf => .pinf
  | .fin a => if a < 0 then .nan else if a = 0 then .ninf else FloatFmt.rnd (Real.logb 10 a)

/-- `10.0.powf(x)`. -/
noncomputable def Fl.pow10 : Fl ℝ → Fl ℝ
  | .nan => .nan
  | .ninf => .fin 0
  | .pinf => .pinf
  | .fin a => FloatFmt.rnd ((10 : ℝ) ^ a)

/-- `x.powf(2.0)`. -/
noncomputable def Fl.square : Fl ℝ → Fl ℝ
  | .nan => .nan
  | .ninf => .pinf
  | .pinf => .pinf
  | .fin a => FloatFmt.rnd (a ^ 2)

/-- `F::from(PI).unwrap()`. -/
noncomputable def Fl.pi : Fl ℝ := Fl.lit Real.pi

/-- `k1` (scale_functions.rs:18-24). -/
noncomputable def k1 : ScaleFn ℝ := fun q δ _ => (δ / (Fl.lit 2 * Fl.pi)) * Fl.asin (Fl.lit 2 * q - Fl.lit 1)

/-- `inv_k1` (scale_functions.rs:26-33). -/
noncomputable def invK1 : ScaleFn ℝ := fun s δ _ => (Fl.lit 1 + Fl.sin (Fl.lit 2 * Fl.pi * s / δ)) / Fl.lit 2

/-- The common denominator `4 * (n / δ).log10() + c`. -/
noncomputable def normaliser (δ n c : Fl ℝ) : Fl ℝ := Fl.lit 4 * Fl.log10 (n / δ) + c

/-- `k2` (scale_functions.rs:35-41). -/
noncomputable def k2 : ScaleFn ℝ := fun q δ n => (δ / normaliser δ n (Fl.lit 24)) * Fl.log10 (q / (Fl.lit 1 - q))

/-- `inv_k2` (scale_functions.rs:43-52). -/
noncomputable def invK2 : ScaleFn ℝ := fun s δ n =>
  let x := Fl.pow10 (s * normaliser δ n (Fl.lit 24) / δ)
  x / (Fl.lit 1 + x)

/-- `k2_asym` (scale_functions.rs:54-60). -/
noncomputable def k2Asym : ScaleFn ℝ := fun q δ n => k2 (q * Fl.lit (1 / 2)) (δ * Fl.lit 2) n

/-- `inv_k2_asym` (scale_functions.rs:62-67). -/
noncomputable def invK2Asym : ScaleFn ℝ := fun s δ n => invK2 s (δ * Fl.lit 2) n * Fl.lit 2

/-- `mod_comp_factor` (scale_functions.rs:73-74, 84-85). -/
noncomputable def modCompFactor (δ n : Fl ℝ) : Fl ℝ := δ / Fl.lit 10 * Fl.square (Fl.log10 n)

/-- `k2n` (scale_functions.rs:69-78): the formula of `k2` with `mod_comp_factor`. -/
noncomputable def k2n : ScaleFn ℝ := fun q δ n =>
  (modCompFactor δ n / normaliser (modCompFactor δ n) n (Fl.lit 24)) * Fl.log10 (q / (Fl.lit 1 - q))

/-- `inv_k2n` (scale_functions.rs:80-91). -/
noncomputable def invK2n : ScaleFn ℝ := fun s δ n =>
  let x := Fl.pow10 (s * normaliser (modCompFactor δ n) n (Fl.lit 24) / modCompFactor δ n)
  x / (Fl.lit 1 + x)

/-- The `match` in `k3` (scale_functions.rs:97-100). -/
noncomputable def k3Factor (q : Fl ℝ) : Fl ℝ :=
  if Fl.le q (Fl.lit (1 / 2)) then Fl.log10 (Fl.lit 2 * q) else -Fl.log10 (Fl.lit 2 * (Fl.lit 1 - q))

/-- `k3` (scale_functions.rs:93-103). -/
noncomputable def k3 : ScaleFn ℝ := fun q δ n => (δ / normaliser δ n (Fl.lit 21)) * k3Factor q

/-- `inv_k3` (scale_functions.rs:105-120). -/
noncomputable def invK3 : ScaleFn ℝ := fun s δ n =>
  let pow := s * normaliser δ n (Fl.lit 21) / δ
  let qLow := Fl.pow10 pow / Fl.lit 2
  let qHigh := (Fl.lit 2 - Fl.pow10 (-pow)) / Fl.lit 2
  if Fl.lt (Fl.fabs (Fl.lit (1 / 2) - qHigh)) (Fl.fabs (Fl.lit (1 / 2) - qLow)) then qHigh else qLow

end AQ

/-
The uniform scale function and its inverse from `src/t_digest/scale_functions.rs`, in floating point arithmetic. The
transcendental scale functions are modelled over the reals in `Verif/Model/ScaleFns.lean`.
-/
import Verif.Model.TDigest

set_option linter.unusedSectionVars false

namespace AQ
variable {K : Type} [Field K] [LinearOrder K] [IsStrictOrderedRing K] [FloatFmt K]

/-- `k0` (scale_functions.rs:4-9). -/
def k0 : ScaleFn K := fun q δ _ => (q * δ) / Fl.lit 2

/-- `inv_k0` (scale_functions.rs:11-16). -/
def invK0 : ScaleFn K := fun s δ _ => (s * Fl.lit 2) / δ

end AQ

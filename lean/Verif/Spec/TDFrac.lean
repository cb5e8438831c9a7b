/-
Trees of TDigests with different scale functions.
-/
import Verif.Spec.TDShards
import Verif.Model.ScaleFns

set_option linter.unusedSectionVars false

namespace AQ
open Spec
variable {K : Type} [Field K] [LinearOrder K] [IsStrictOrderedRing K] [FloatFmt K]

/-- `P` holds for scale function, inverse and compression factor of every digest that was created. -/
def TTree.Made (P : ScaleFn K → ScaleFn K → Fl K → Prop) : TTree K → Prop
  | .new s i cf => P s i cf
  | .ins t _ => t.Made P
  | .merge a b => a.Made P ∧ b.Made P

/-- `k1` and a compression factor of at least `δ`. -/
def Spec.K1AtLeast [FloatFmt ℝ] (δ : ℝ) (s i : ScaleFn ℝ) (cf : Fl ℝ) : Prop := s = k1 ∧ i = invK1 ∧ ∃ δ', cf = .fin δ' ∧ δ ≤ δ'

end AQ

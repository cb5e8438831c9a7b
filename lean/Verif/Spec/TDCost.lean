/-
What the passes of a tree of TDigests may cost, pass by pass.
-/
import Verif.Spec.TDFrac

set_option linter.unusedSectionVars false

namespace AQ
open Spec
variable {K : Type} [Field K] [LinearOrder K] [IsStrictOrderedRing K] [FloatFmt K]
namespace TTree

/-- `G n` for every insertion call and every merge, `n` the weight that the digest represents after it, added up. -/
def cost (G : K → K) : TTree K → K
  | new _ _ _ => 0
  | ins t o => t.cost G + G (totalW (t.supplied ++ o.supplied))
  | merge a b => a.cost G + b.cost G + G (totalW (a.supplied ++ b.supplied))

/-- `G n` is at most `P` for every insertion call and every merge, `n` the weight that the digest represents after it. -/
def Peak (G : K → K) (P : K) : TTree K → Prop
  | new _ _ _ => True
  | ins t o => t.Peak G P ∧ G (totalW (t.supplied ++ o.supplied)) ≤ P
  | merge a b => a.Peak G P ∧ b.Peak G P ∧ G (totalW (a.supplied ++ b.supplied)) ≤ P

end TTree
end AQ

/-
Clients that build RCSketches separately and merge them in any shape, through the public interface of `RCSketch`.
-/
import Verif.Model.RCWeighted

set_option linter.unusedSectionVars false

namespace AQ
variable {K : Type} [Field K] [LinearOrder K] [IsStrictOrderedRing K] [FloatFmt K]

/-- How a client came by a sketch: `RCSketch::new` (rc_sketch.rs:91-100), an insertion call on a sketch, or one sketch merged into
another, level by level (`RCSketch.mergeInto`). -/
inductive MergeTree (K : Type) where
  | new (n k : Nat)
  | ins (t : MergeTree K) (o : InsOp K)
  | merge (a b : MergeTree K) (fast : Bool)

namespace MergeTree

/-- The program of such a client. -/
def run : MergeTree K → Prog (RCSketch K)
  | new n k => RCSketch.new n k
  | ins t o => do let s ← t.run; s.execOp o
  | merge a b fast => do
    let s ← a.run
    let s' ← b.run
    RCSketch.mergeInto s s' fast .default

end MergeTree
end AQ

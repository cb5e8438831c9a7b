/-
Clients that build TDigests separately and merge them in any shape, through the public interface of `TDigest`.
-/
import Verif.Spec.TDigest

set_option linter.unusedSectionVars false

namespace AQ
variable {K : Type} [Field K] [LinearOrder K] [IsStrictOrderedRing K] [FloatFmt K]

/-- How a client came by a digest: `TDigest::new` (t_digest.rs:285-294), an insertion call on a digest (`add`, `add_buffer`,
`add_centroid_buffer`), or one digest merged into another, by `a.add_centroid_buffer(b.centroids)` (t_digest.rs:301-366; the field
`centroids` is public, t_digest.rs:19). -/
inductive TTree (K : Type) [Field K] [LinearOrder K] [IsStrictOrderedRing K] [FloatFmt K] where
  | new (s i : ScaleFn K) (cf : Fl K)
  | ins (t : TTree K) (o : TDigest.TOp K)
  | merge (a b : TTree K)

namespace TTree

/-- The program of such a client. -/
def run : TTree K → Prog (TDigest K)
  | new s i cf => .ret (TDigest.new s i cf)
  | ins t o => do let d ← t.run; o.exec d
  | merge a b => do
    let d ← a.run
    let d' ← b.run
    d.addCentroidBuffer d'.centroids

end TTree
end AQ

/-
Images of data, histories and digests under `x ↦ a·x + b`.
-/
import Verif.Spec.TDigest

set_option linter.unusedSectionVars false

namespace AQ
variable {K : Type} [Field K] [LinearOrder K] [IsStrictOrderedRing K] [FloatFmt K]

/-- The image of a number; infinities and NaN stay. -/
def Fl.affine (a b : K) : Fl K → Fl K
  | .fin x => .fin (a * x + b)
  | y => y

/-- The image of a weighted value. -/
def Centroid.affine (a b : K) (c : Centroid K) : Centroid K := ⟨c.mean.affine a b, c.weight⟩

/-- The image of a digest: centroids and limits, all else unchanged. -/
def TDigest.affine (a b : K) (d : TDigest K) : TDigest K :=
  { d with centroids := d.centroids.map (Centroid.affine a b), min := d.min.affine a b, max := d.max.affine a b }

/-- The image of a call. -/
def TDigest.TOp.affine (a b : K) : TDigest.TOp K → TDigest.TOp K
  | .add x => .add (x.affine a b)
  | .addBuffer xs => .addBuffer (xs.map (Fl.affine a b))
  | .addCentroids cs => .addCentroids (cs.map (Centroid.affine a b))

/-- The image of a call of any inserting method. -/
def TDigest.AOp.affine (a b : K) : TDigest.AOp K → TDigest.AOp K
  | .ins o => .ins (o.affine a b)
  | .cluster cs g => .cluster (cs.map (Centroid.affine a b)) g
  | .clusterTree cs g => .clusterTree (cs.map (Centroid.affine a b)) g

end AQ

/-
Model of `src/t_digest/centroid.rs`.
-/
import Verif.Model.Traits

set_option linter.unusedSectionVars false

namespace AQ
variable {K : Type} [Field K] [LinearOrder K] [IsStrictOrderedRing K] [FloatFmt K]

/-- `struct Centroid` (src/t_digest/centroid.rs:6-14). -/
structure Centroid (K : Type) where
  mean : Fl K
  weight : Fl K
  deriving DecidableEq, Repr

/-- `impl Add for Centroid` (centroid.rs:27-55; both impls are identical). -/
def Centroid.add (a b : Centroid K) : Centroid K :=
  let newWeight := a.weight + b.weight
  { mean := ((a.mean * a.weight) + (b.mean * b.weight)) / newWeight, weight := newWeight }

end AQ

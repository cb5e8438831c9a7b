/-
What the closest keys of a tree and its sums ask of a rounding arithmetic.
-/
import Verif.Spec.Centroid

set_option linter.unusedSectionVars false

namespace AQ.Spec
variable {K : Type} [Field K] [LinearOrder K] [IsStrictOrderedRing K] [FloatFmt K]

/-- Rounding does not depend on the sign. -/
def SymmetricRounding (K : Type) [Field K] [FloatFmt K] : Prop :=
  ∀ x y : K, FloatFmt.rnd x = .fin y → FloatFmt.rnd (-x) = .fin (-y)

/-- All weights inserted are counts, at most `N` in total, `a` of which were inserted before. -/
def KOp.Counts (N : Nat) : Nat → List (KOp K) → Prop
  | a, [] => a ≤ N
  | a, .insert _ w :: ops => ∃ n : Nat, w = .fin (n : K) ∧ Counts N (a + n) ops
  | a, .delete _ :: ops => Counts N a ops

end AQ.Spec

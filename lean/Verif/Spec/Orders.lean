/-
Averages over all orders of a list.
-/
import Mathlib.Data.List.Permutation
import Mathlib.Algebra.BigOperators.Group.List.Basic
import Mathlib.Data.Rat.Defs
import Mathlib.Algebra.Field.Rat

namespace AQ
open Nat

/-- Mean of `f` over all `n!` orders of a list. -/
def Spec.meanOrders {α : Type} (l : List α) (f : List α → ℕ) : ℚ := ((l.permutations.map (fun p => (f p : ℚ))).sum) / (l.length ! : ℚ)

end AQ

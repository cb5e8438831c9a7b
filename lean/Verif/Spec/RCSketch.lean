/-
Specifications about the compactor sketches, independent of how they compact.
-/
import Verif.Model.RCSketch2
import Verif.Spec.Basic

set_option linter.unusedSectionVars false

namespace AQ
open Prog
variable {K : Type} [Field K] [LinearOrder K] [IsStrictOrderedRing K] [FloatFmt K]

namespace Spec

/-- `Σ_h 4^h l[h]`. -/
def wsum4 : List Nat → Nat
  | [] => 0
  | a :: l => a + 4 * wsum4 l

/-- What a value query promises: `v` is stored and is the least stored value whose weighted rank exceeds the target, or
no stored value's rank does and `v` is the largest stored value. -/
def IsWeightedStat (L : List (List (Fl K))) (t v : Fl K) : Prop :=
  v ∈ L.flatten ∧
  ((t < .fin (weightedRank L v : K) ∧ ∀ y ∈ L.flatten, t < .fin (weightedRank L y : K) → v ≤ y) ∨
   ((∀ y ∈ L.flatten, ¬ t < .fin (weightedRank L y : K)) ∧ ∀ y ∈ L.flatten, y ≤ v))

end Spec

/-- Calling `add` for each item in order. -/
def RCSketch.addEach (s : RCSketch K) : List (Fl K) → Prog (RCSketch K)
  | [] => .ret s
  | x :: xs => do let s' ← s.add x; addEach s' xs

/-- `add` for every item in turn. -/
def RCSketch2.addEach (sec : Nat → Nat) (s : RCSketch2 K) : List (Fl K) → Prog (RCSketch2 K)
  | [] => .ret s
  | x :: xs => s.add sec x >>= fun s' => addEach sec s' xs

/-- Assumptions on the truncated section sizes: at least 1 for the divisions that can occur, and a doubling of the number of
sections does not shrink a level's capacity. -/
structure RCSketch2.SecOK (sec : Nat → Nat) : Prop where
  one : ∀ j, j ≤ 4 → 1 ≤ sec j
  half : ∀ j, j < 4 → sec j ≤ 2 * sec (j + 1)

end AQ

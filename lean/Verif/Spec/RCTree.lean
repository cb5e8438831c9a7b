/-
What a tree of merged RCSketches was given, and what is expected of it.
-/
import Verif.Model.RCTree

set_option linter.unusedSectionVars false

namespace AQ
variable {K : Type} [Field K] [LinearOrder K] [IsStrictOrderedRing K] [FloatFmt K]
namespace MergeTree

/-- Declared length and section size of the sketch at the root. -/
def root : MergeTree K → Nat × Nat
  | new n k => (n, k)
  | ins t _ => t.root
  | merge a _ _ => a.root

/-- All insertion calls made on any of the sketches. -/
def ops : MergeTree K → List (InsOp K)
  | new _ _ => []
  | ins t o => t.ops ++ [o]
  | merge a b _ => a.ops ++ b.ops

/-- Section sizes are even. -/
def EvenK : MergeTree K → Prop
  | new _ k => k % 2 = 0
  | ins t _ => t.EvenK
  | merge a b _ => a.EvenK ∧ b.EvenK

/-- Section sizes are positive. -/
def PosK : MergeTree K → Prop
  | new _ k => 1 ≤ k
  | ins t _ => t.PosK
  | merge a b _ => a.PosK ∧ b.PosK

/-- Every sketch receives, directly and through merging, fewer items than `cap` of its parameters. -/
def Fits (cap : Nat → Nat → Nat) : MergeTree K → Prop
  | new _ _ => True
  | ins t o => t.Fits cap ∧ (insItems (ins t o).ops).length < cap t.root.1 t.root.2
  | merge a b fast => a.Fits cap ∧ b.Fits cap ∧ (insItems (merge a b fast).ops).length < cap a.root.1 a.root.2

/-- Buffer size of the sketch at the root. -/
def rootBuffer (t : MergeTree K) : Nat := max (2 * t.root.2 * Nat.clog 2 (t.root.1 / t.root.2)) (2 * t.root.2)

/-- `2 N² / (k B)` for the sketch at the root, `N` the number of items that reached it. -/
def share (t : MergeTree K) : ℚ := 2 * ((insItems t.ops).length : ℚ) ^ 2 / (t.root.2 * t.rootBuffer)

/-- The sum of `share` over all sketches that were merged into another. -/
def inherited : MergeTree K → ℚ
  | new _ _ => 0
  | ins t _ => t.inherited
  | merge a b _ => a.inherited + (b.share + b.inherited)

end MergeTree
end AQ

/-
What a list of public calls supplies to an `RCSketch2`.
-/
import Verif.Model.RC2Calls
import Verif.Model.RCSketch

set_option linter.unusedSectionVars false

namespace AQ
variable {K : Type}
namespace Call2

/-- Items handed over by a call. -/
def items : Call2 K → List (Fl K)
  | ins o => o.items
  | insert x _ _ => [x]
  | insertBatch xs _ _ => xs
  | compress _ _ => []
  | grow => []
  | updateSections _ => []

/-- How many of them `count` takes note of: `insert` and `insert_batch` leave it alone. -/
def counted : Call2 K → Nat
  | ins o => o.items.length
  | _ => 0

/-- The compaction method of a call, if it can compact. -/
def method? : Call2 K → Option CompactionMethod
  | ins o => some o.method
  | insert _ _ m => some m
  | insertBatch _ _ m => some m
  | compress _ m => some m
  | grow => none
  | updateSections _ => none

/-- Number of `grow` calls. -/
def grows : List (Call2 K) → Nat
  | [] => 0
  | grow :: cs => grows cs + 1
  | _ :: cs => grows cs

/-- Every `update_sections(h)` names one of the levels known to exist (`n` at the start, one more per `grow`). -/
def InRange : Nat → List (Call2 K) → Prop
  | _, [] => True
  | n, grow :: cs => InRange (n + 1) cs
  | n, updateSections h :: cs => h < n ∧ InRange n cs
  | n, _ :: cs => InRange n cs

/-- All items handed over. -/
def allItems (cs : List (Call2 K)) : List (Fl K) := cs.flatMap items

end Call2
end AQ

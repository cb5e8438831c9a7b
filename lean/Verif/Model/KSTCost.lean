/-
The loops of `src/util/keyed_sum_tree.rs` with a counter: how many nodes they visit. `C156_counters` shows that without the counter they are the functions
of `Verif.Model.KeyedSumTree`.
-/
import Verif.Model.KeyedSumTree

set_option linter.unusedSectionVars false

namespace AQ
open Prog
variable {K : Type} [Field K] [LinearOrder K] [IsStrictOrderedRing K] [FloatFmt K]

namespace KNode

/-- The loop of `less_than_sum` (keyed_sum_tree.rs:186-215) with the number of its iterations. -/
def lessThanSumCount (key : Fl K) : KNode K → Fl K → Prog (Fl K × Nat)
  | nil, acc => .ret (acc, 0)
  | node k w _ l r, acc =>
    match Fl.cmp key k with
    | none => .fail .unwrap
    | some .gt =>
      match l with
      | nil => do
        let x ← lessThanSumCount key r (acc + w)
        return (x.1, x.2 + 1)
      | node _ _ ls _ _ => do
        let x ← lessThanSumCount key r (acc + (w + ls))
        return (x.1, x.2 + 1)
    | some _ => do
      let x ← lessThanSumCount key l acc
      return (x.1, x.2 + 1)

/-- The loop of `insert` (keyed_sum_tree.rs:234-261) with the number of its iterations. -/
def insertCount (key weight : Fl K) : KNode K → Prog (KNode K × Nat)
  | nil => .ret (node key weight weight nil nil, 0)
  | node k w s l r =>
    if Fl.lt key k then do
      let x ← insertCount key weight l
      return (node k w (s + weight) x.1 r, x.2 + 1)
    else if Fl.lt k key then do
      let x ← insertCount key weight r
      return (node k w (s + weight) l x.1, x.2 + 1)
    else .fail .explicit

end KNode
end AQ

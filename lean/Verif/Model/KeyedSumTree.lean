/-
Model of `src/util/keyed_sum_tree.rs`.
-/
import Verif.Model.Centroid

set_option linter.unusedSectionVars false

namespace AQ
open Prog
variable {K : Type} [Field K] [LinearOrder K] [IsStrictOrderedRing K] [FloatFmt K]

/-- `Option<Box<KeyedSumNode<F>>>` (src/util/keyed_sum_tree.rs:7-17): `nil` is `None`. -/
inductive KNode (K : Type) where
  | nil
  | node (key weight sum : Fl K) (left right : KNode K)
  deriving DecidableEq, Repr

namespace KNode

/-- `KeyedSumTree::insert`, the descent from the root (keyed_sum_tree.rs:231-264). The loop with a `&mut` cursor becomes
a recursion; `sum` of every visited node is increased. -/
def insert (key weight : Fl K) : KNode K → Prog (KNode K)
  | nil => .ret (node key weight weight nil nil)
  | node k w s l r =>
    if Fl.lt key k then do
      let l' ← insert key weight l
      return node k w (s + weight) l' r
    else if Fl.lt k key then do
      let r' ← insert key weight r
      return node k w (s + weight) l r'
    else .fail .explicit

/-- `KeyedSumNode::rightmost_child` (keyed_sum_tree.rs:65-81): the removed node and what remains of the receiver. -/
def rightmostChild : KNode K → Option (KNode K × KNode K)
  | nil => none
  | node _ _ _ _ nil => none
  | node k w s l (node k' w' s' l' r') =>
    match rightmostChild (node k' w' s' l' r') with
    | some (t, right) => some (t, node k w s l right)
    | none => some (node k' w' s' nil r', node k w s l l')

/-- The `Equal` arm of `KeyedSumNode::delete` (keyed_sum_tree.rs:47-61): join the two children of the removed node. -/
def join : KNode K → KNode K → KNode K
  | nil, nil => nil
  | node k w s l r, nil => node k w s l r
  | nil, node k w s l r => node k w s l r
  | node k w s l r, right =>
    match rightmostChild (node k w s l r) with
    | some (node k' w' s' _ _, left) => node k' w' s' left right
    | some (nil, left) => left
    | none => node k w s l right

/-- `KeyedSumNode::delete` (keyed_sum_tree.rs:33-63). Sums of the nodes passed are left as they are. -/
def delete (target : Fl K) : KNode K → Prog (KNode K)
  | nil => .ret nil
  | node k w s l r =>
    match Fl.cmp target k with
    | none => .fail .unwrap
    | some .lt => do
      let l' ← delete target l
      return node k w s l' r
    | some .gt => do
      let r' ← delete target r
      return node k w s l r'
    | some .eq => .ret (join l r)

/-- `KeyedSumNode::sorted_vec_key` (keyed_sum_tree.rs:83-91). -/
def sortedVecKey : KNode K → List (Centroid K)
  | nil => []
  | node k w _ l r => sortedVecKey l ++ ⟨k, w⟩ :: sortedVecKey r

/-- `KeyedSumNode::closest_keys` (keyed_sum_tree.rs:93-111): the nodes on the search path of the target. -/
def closestPath (target : Fl K) : KNode K → Prog (List (Centroid K))
  | nil => .ret []
  | node k w _ l r =>
    match Fl.cmp target k with
    | none => .fail .unwrap
    | some .lt => do
      let p ← closestPath target l
      return ⟨k, w⟩ :: p
    | some .eq => .ret [⟨k, w⟩]
    | some .gt => do
      let p ← closestPath target r
      return ⟨k, w⟩ :: p

/-- The loop of `less_than_sum` (keyed_sum_tree.rs:186-215) with its accumulator. -/
def lessThanSumGo (key : Fl K) : KNode K → Fl K → Prog (Fl K)
  | nil, acc => .ret acc
  | node k w _ l r, acc =>
    match Fl.cmp key k with
    | none => .fail .unwrap
    | some .gt =>
      match l with
      | nil => lessThanSumGo key r (acc + w)
      | node _ _ ls _ _ => lessThanSumGo key r (acc + (w + ls))
    | some _ => lessThanSumGo key l acc

end KNode

/-- `KeyedSumTree<F>` (keyed_sum_tree.rs:150-157). -/
structure KeyedSumTree (K : Type) where
  root : KNode K
  size : Nat
  deriving DecidableEq, Repr

namespace KeyedSumTree

/-- `KeyedSumTree::new` (keyed_sum_tree.rs:177-182). -/
def new : KeyedSumTree K := ⟨.nil, 0⟩

/-- `KeyedSumTree::less_than_sum` (keyed_sum_tree.rs:184-220). -/
def lessThanSum (t : KeyedSumTree K) (key : Fl K) : Prog (Option (Fl K)) :=
  match t.root with
  | .nil => .ret none
  | .node k w s l r => do
    let x ← KNode.lessThanSumGo key (.node k w s l r) (Fl.lit 0)
    return some x

/-- `KeyedSumTree::insert` (keyed_sum_tree.rs:230-266). -/
def insert (t : KeyedSumTree K) (key weight : Fl K) : Prog (KeyedSumTree K) := do
  let r ← t.root.insert key weight
  return ⟨r, t.size + 1⟩

/-- `KeyedSumTree::delete` (keyed_sum_tree.rs:276-281): `size -= 1` panics at 0 (overflow checks on). -/
def delete (t : KeyedSumTree K) (key : Fl K) : Prog (KeyedSumTree K) := do
  let r ← t.root.delete key
  let s ← usub t.size 1
  return ⟨r, s⟩

/-- `KeyedSumTree::sorted_vec_key` (keyed_sum_tree.rs:283-291). -/
def sortedVecKey (t : KeyedSumTree K) : List (Centroid K) := t.root.sortedVecKey

/-- `KeyedSumTree::closest_keys` (keyed_sum_tree.rs:293-316). -/
def closestKeys (t : KeyedSumTree K) (target : Fl K) : Prog (List (Centroid K)) :=
  match t.root with
  | .nil => .ret []
  | .node k w s l r => do
    let path ← KNode.closestPath target (.node k w s l r)
    let m ← minBy (fun c : Centroid K => Fl.fabs (c.mean - target)) path
    match m with
    | none => .fail .unwrap
    | some m => return path.filter (fun c =>
        Fl.lt (Fl.fabs (Fl.fabs (c.mean - target) - Fl.fabs (m.mean - target))) (Fl.lit (1 / 1000)))

/-- The loop of `KeyedSumTree::from(&[Centroid])` (keyed_sum_tree.rs:329-332). -/
def fromAux (t : KeyedSumTree K) : List (Centroid K) → Prog (KeyedSumTree K)
  | [] => .ret t
  | c :: cs => do
    let t' ← t.insert c.mean c.weight
    fromAux t' cs

/-- `KeyedSumTree::from(&[Centroid])` (keyed_sum_tree.rs:323-334). -/
def ofCentroids (cs : List (Centroid K)) : Prog (KeyedSumTree K) := fromAux new cs

end KeyedSumTree
end AQ

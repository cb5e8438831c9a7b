/-
Model of `src/traits.rs` and of the slice helpers of the standard library used throughout.
-/
import Mathlib.Data.List.Sort
import Verif.Base.Fl

set_option linter.unusedSectionVars false

namespace AQ

/-- `trait Digest<F>` (src/traits.rs:3-34). `&mut self` methods return the new state; all methods may panic
or draw random bits (`Prog`). -/
class Digest (D : Type) (F : outParam Type) where
  /-- traits.rs:12 -/
  add : D → F → Prog D
  /-- traits.rs:19 -/
  addBuffer : D → List F → Prog D
  /-- traits.rs:24 -/
  estQuantileAtValue : D → F → Prog (F × D)
  /-- traits.rs:29 -/
  estValueAtQuantile : D → F → Prog (F × D)
  /-- traits.rs:33 -/
  count : D → Prog Nat

/-- A call of one of the trait's `&mut self` methods, used to speak about histories. -/
inductive Op (F : Type) where
  | add (x : F)
  | addBuffer (xs : List F)
  | quantile (v : F)
  | value (q : F)

/-- The items a call supplies. -/
def Op.items {F : Type} : Op F → List F
  | .add x => [x]
  | .addBuffer xs => xs
  | .quantile _ => []
  | .value _ => []

/-- Execute one call, keeping only the new state. -/
def Op.exec {D F : Type} [Digest D F] (d : D) : Op F → Prog D
  | .add x => Digest.add d x
  | .addBuffer xs => Digest.addBuffer d xs
  | .quantile v => do let r ← Digest.estQuantileAtValue d v; return r.2
  | .value q => do let r ← Digest.estValueAtQuantile d q; return r.2

/-- Execute a history of calls. -/
def execAll {D F : Type} [Digest D F] (d : D) : List (Op F) → Prog D
  | [] => .ret d
  | o :: os => do let d' ← o.exec d; execAll d' os

/-- All items supplied by a history, in order. -/
def itemsOf {F : Type} (ops : List (Op F)) : List F := ops.flatMap Op.items

section
variable {K : Type} [LinearOrder K]

/-- `v.sort_by(|a, b| f(a).partial_cmp(&f(b)).unwrap())` – the standard library's stable sort. Every
element takes part in at least one comparison once there are two elements, so a NaN key panics exactly then. -/
def sortByKey {α : Type} (f : α → Fl K) (l : List α) : Prog (List α) :=
  if 2 ≤ l.length ∧ l.any (fun a => (f a).isNan) then .fail .unwrap
  else .ret (l.insertionSort (fun a b => f a ≤ f b))

/-- `v.sort_by(|a, b| a.partial_cmp(&b).unwrap())`. -/
def sortFl (l : List (Fl K)) : Prog (List (Fl K)) := sortByKey id l

/-- `iter.min_by(|a, b| f(a).partial_cmp(&f(b)).unwrap())`: the first minimal element (`None` when empty; panics
when a NaN key meets a comparison). -/
def minBy {α : Type} (f : α → Fl K) : List α → Prog (Option α)
  | [] => .ret none
  | a :: l => go a l
where
  go (m : α) : List α → Prog (Option α)
    | [] => .ret (some m)
    | b :: l => match Fl.cmp (f m) (f b) with
      | none => .fail .unwrap
      | some .gt => go b l
      | some _ => go m l

/-- `iter.max_by(|a, b| f(a).partial_cmp(&f(b)).unwrap())`: the last maximal element. -/
def maxBy {α : Type} (f : α → Fl K) : List α → Prog (Option α)
  | [] => .ret none
  | a :: l => go a l
where
  go (m : α) : List α → Prog (Option α)
    | [] => .ret (some m)
    | b :: l => match Fl.cmp (f m) (f b) with
      | none => .fail .unwrap
      | some .gt => go m l
      | some _ => go b l

end

/-- `slice.chunks(c)`: panics for `c = 0`, otherwise consecutive pieces of length `c` (the last may be shorter). -/
def chunksAux {α : Type} (c : Nat) : Nat → List α → List (List α)
  | 0, _ => []
  | _ + 1, [] => []
  | n + 1, a :: l => (a :: l).take c :: chunksAux c n ((a :: l).drop c)

/-- `slice.chunks(c)`. -/
def chunks {α : Type} (c : Nat) (l : List α) : Prog (List (List α)) :=
  if c = 0 then .fail .explicit else .ret (chunksAux c l.length l)

end AQ

/-
Library calls whose result is not fixed by their documentation. Every outcome the documentation allows is a possible
outcome of the model: the choice is made with `flip`, so `Always`/`Partially` speak about all of them.
-/
import Verif.Model.Traits

set_option linter.unusedSectionVars false

namespace AQ
open Prog
variable {K : Type} [LinearOrder K]

/-- Insert into a list sorted by `f`; ties are broken either way. -/
def insertTie {α : Type} (f : α → Fl K) (a : α) : List α → Prog (List α)
  | [] => .ret [a]
  | b :: l =>
    if f a < f b then .ret (a :: b :: l)
    else if f b < f a then do
      let r ← insertTie f a l
      return b :: r
    else .flip (fun c => if c then .ret (a :: b :: l) else do
      let r ← insertTie f a l
      return b :: r)

/-- Some sorted permutation. -/
def sortTie {α : Type} (f : α → Fl K) : List α → Prog (List α)
  | [] => .ret []
  | a :: l => do
    let r ← sortTie f l
    insertTie f a r

/-- `v.par_sort_unstable_by(|a, b| f(a).partial_cmp(&f(b)).unwrap())` (rayon): any sorted permutation; a NaN key panics as
soon as there are two elements. -/
def sortUnstable {α : Type} (f : α → Fl K) (l : List α) : Prog (List α) :=
  if 2 ≤ l.length ∧ l.any (fun a => (f a).isNan) then .fail .unwrap else sortTie f l

/-- Insert at any position. -/
def insertAny {α : Type} (a : α) : List α → Prog (List α)
  | [] => .ret [a]
  | b :: l => .flip (fun c => if c then .ret (a :: b :: l) else do
      let r ← insertAny a l
      return b :: r)

/-- `v.shuffle(&mut rng)`: any permutation (probabilities are not modelled). -/
def shuffle {α : Type} : List α → Prog (List α)
  | [] => .ret []
  | a :: l => do
    let r ← shuffle l
    insertAny a r

/-- Any element of a list (`oob` for the empty list, which does not occur). -/
def anyOf {α : Type} : List α → Prog α
  | [] => .fail .oob
  | [a] => .ret a
  | a :: b :: l => .flip (fun c => if c then .ret a else anyOf (b :: l))

/-- The index `i` is an allowed answer of `binary_search_by` (either `Ok(i)` or `Err(i)`) on keys `ks` and target `t`:
an element equal to the target, or, when there is none, the insertion point. On an unsorted slice the documentation
leaves the answer open. -/
def bsearchOk (ks : List (Fl K)) (t : Fl K) (i : Nat) : Bool :=
  if ks.Pairwise (· ≤ ·) then
    if t ∈ ks then decide (ks[i]? = some t)
    else decide ((∀ x ∈ ks.take i, x < t) ∧ (∀ x ∈ ks.drop i, t < x))
  else true

/-- `match v.binary_search_by(|p| f(p).partial_cmp(&t).unwrap()) { Ok(i) => i, Err(i) => i }`. Simplification: a NaN among the
keys is taken to panic always (in the code only when the search happens to look at it). -/
def binarySearch {α : Type} (f : α → Fl K) (l : List α) (t : Fl K) : Prog Nat :=
  if l ≠ [] ∧ (t.isNan ∨ l.any (fun a => (f a).isNan)) then .fail .unwrap
  else anyOf ((List.range (l.length + 1)).filter (bsearchOk (l.map f) t))

end AQ

/-
Pieces shared by `rc_sketch.rs` and `rc_sketch2.rs`: centroids, compaction of a sorted upper part, weighted views.
-/
import Verif.Model.Centroid

set_option linter.unusedSectionVars false

namespace AQ
variable {K : Type} [Field K] [LinearOrder K] [IsStrictOrderedRing K] [FloatFmt K]

/-- `enum CompactionMethod` (src/rc_sketch/compaction_method.rs:2-5). -/
inductive CompactionMethod where
  | default
  | averageNeighbour
  deriving DecidableEq, Repr

/-- `.enumerate().filter(|(pos,_)| pos % 2 == chosen_pos)` (rc_sketch.rs:259-264): positions 0,2,4,… for
`false` and 1,3,5,… for `true`. -/
def everyOther {α : Type} : Bool → List α → List α
  | _, [] => []
  | false, a :: l => a :: everyOther true l
  | true, _ :: l => everyOther false l

/-- Averages of neighbouring pairs (rc_sketch.rs:267-271); an unpaired last item is dropped. -/
def averagePairs : List (Fl K) → List (Fl K)
  | a :: b :: l => (a + b) / Fl.ofNat 2 :: averagePairs l
  | _ => []

/-- The `match compaction_method` of `compact` (rc_sketch.rs:253-273, rc_sketch2.rs:264-284). -/
def compactUpper (m : CompactionMethod) (upper : List (Fl K)) : Prog (List (Fl K)) :=
  match m with
  | .default => .flip (fun chosen => .ret (everyOther chosen upper))
  | .averageNeighbour => .ret (averagePairs upper)

/-- `u32::trailing_ones` (values below `2^32`). -/
def trailingOnesAux : Nat → Nat → Nat
  | 0, _ => 0
  | f + 1, n => if n % 2 = 1 then trailingOnesAux f (n / 2) + 1 else 0

/-- `u32::trailing_ones`. -/
def trailingOnes (n : Nat) : Nat := trailingOnesAux 32 n

/-- The loop of `interpolate_rank` (rc_sketch.rs:279-285, rc_sketch2.rs:290-296) from level `i` on;
`1 << i` overflows (panics) for `i ≥ 64`. Simplification: the `usize` accumulator itself does not overflow. -/
def rankFrom (x : Fl K) : Nat → Nat → List (List (Fl K)) → Prog Nat
  | _, acc, [] => .ret acc
  | i, acc, b :: bs =>
    if i < 64 then rankFrom x (i + 1) (acc + b.countP (fun y => Fl.le y x) * 2 ^ i) bs
    else .fail .overflow

/-- `F::from(1 << i).unwrap()` (rc_sketch.rs:294): the literal is an `i32`, so level 31 gives `-2^31` and higher
levels panic. -/
def levelWeight (i : Nat) : Prog (Fl K) :=
  if i < 31 then .ret (Fl.ofNat (2 ^ i))
  else if i = 31 then .ret (Fl.lit (-(2 ^ 31)))
  else .fail .overflow

/-- The centroids of one level (rc_sketch.rs:293-294); the shift is evaluated once per stored item, so an empty level does
not evaluate it. -/
def levelCentroids (i : Nat) (b : List (Fl K)) : Prog (List (Centroid K)) :=
  if b = [] then .ret []
  else do
    let w ← levelWeight i
    .ret (b.map (fun x => (⟨x, w⟩ : Centroid K)))

/-- The unsorted centroid list of `sorted_weighted_values` (rc_sketch.rs:290-296, rc_sketch2.rs:301-307) from level `i`. -/
def weightedFrom : Nat → List (List (Fl K)) → Prog (List (Centroid K))
  | _, [] => .ret []
  | i, b :: bs => do
    let here ← levelCentroids i b
    let rest ← weightedFrom (i + 1) bs
    .ret (here ++ rest)

/-- `sorted_weighted_values` (rc_sketch.rs:289-299, rc_sketch2.rs:300-310). -/
def sortedWeightedValues (buffers : List (List (Fl K))) : Prog (List (Centroid K)) := do
  let cs ← weightedFrom 0 buffers
  sortByKey Centroid.mean cs

/-- The search loop of `est_value_at_quantile` (rc_sketch.rs:69-75, rc_sketch2.rs:70-76): `total` is the
running weight, `last` the last centroid seen. -/
def valueSearch (target : Fl K) : Fl K → Option (Fl K) → List (Centroid K) → Prog (Fl K)
  | _, last, [] => Prog.unwrap last
  | total, _, c :: cs =>
    if Fl.lt target (c.weight + total) then .ret c.mean
    else valueSearch target (total + c.weight) (some c.mean) cs

/-- `est_value_at_quantile` (rc_sketch.rs:65-76, rc_sketch2.rs:66-77) from the stored buffers and `count`. -/
def estValueFrom (buffers : List (List (Fl K))) (count : Nat) (q : Fl K) : Prog (Fl K) := do
  let cs ← sortedWeightedValues buffers
  valueSearch (q * Fl.ofNat count) (Fl.lit 0) none cs

/-- `est_quantile_at_value` (rc_sketch.rs:61-63, rc_sketch2.rs:62-64) from the stored buffers and `count`. -/
def estQuantileFrom (buffers : List (List (Fl K))) (count : Nat) (x : Fl K) : Prog (Fl K) := do
  let r ← rankFrom x 0 0 buffers
  .ret (Fl.ofNat r / Fl.ofNat count)

end AQ

/-
Model of `src/t_digest/t_digest.rs` (complete except `interpolate_centroids_quantile`, which is never called;
`owned_size` is in Model/OwnedSize.lean).
-/
import Verif.Model.KeyedSumTree
import Verif.Model.Linear
import Verif.Model.Nondet

set_option linter.unusedSectionVars false

namespace AQ
open Prog
variable {K : Type} [Field K] [LinearOrder K] [IsStrictOrderedRing K] [FloatFmt K]

/-- `Fn(T, T, T) -> T`: a scale function or inverse scale function; any total function. -/
abbrev ScaleFn (K : Type) := Fl K → Fl K → Fl K → Fl K

/-- `struct TDigest` (t_digest.rs:11-30). -/
structure TDigest (K : Type) where
  centroids : List (Centroid K)
  compressFactor : Fl K
  scaleFunc : ScaleFn K
  inverseScaleFunc : ScaleFn K
  min : Fl K
  max : Fl K

namespace TDigest

/-- `TDigest::new` (t_digest.rs:285-294). -/
def new (scale inv : ScaleFn K) (compressFactor : Fl K) : TDigest K :=
  { centroids := [], compressFactor := compressFactor, scaleFunc := scale, inverseScaleFunc := inv,
    min := Fl.maxValue, max := Fl.minValue }

/-- Sum of the weights in `f64`, converted back (t_digest.rs:309-315 and 593-601). -/
def weightSum (cs : List (Centroid K)) : Fl K := Fl.ofF64 (Fl.sum64 (cs.map (·.weight)))

/-- `total_weight` (t_digest.rs:593-601). -/
def totalWeight (d : TDigest K) : Fl K := weightSum d.centroids

/-- The closure `get_w_limit` (t_digest.rs:321-328). -/
def wLimit (d : TDigest K) (n w0 : Fl K) : Fl K :=
  d.inverseScaleFunc (d.scaleFunc (w0 / n) d.compressFactor n + Fl.lit 1) d.compressFactor n * n

/-- The merge loop with the final push (t_digest.rs:329-360): `w0`, `w_size_limit`, `mergeable_weight`, `mergeable_sum`. -/
def mergeLoop (limit : Fl K → Fl K) (w0 wSizeLimit mw ms : Fl K) : List (Centroid K) → List (Centroid K)
  | [] => [⟨ms / mw, mw⟩]
  | c :: cs =>
    let newW := mw + c.weight
    if Fl.le newW wSizeLimit then
      mergeLoop limit w0 wSizeLimit newW (ms + c.mean * c.weight) cs
    else
      let w0' := w0 + mw
      ⟨ms / mw, mw⟩ :: mergeLoop limit w0' (limit w0' - w0') c.weight (c.mean * c.weight) cs

/-- Merging a sorted non-empty buffer (t_digest.rs:309-360). -/
def mergeSorted (d : TDigest K) : List (Centroid K) → TDigest K
  | [] => d
  | c :: cs =>
    let n := weightSum (c :: cs)
    { centroids := mergeLoop (d.wLimit n) (Fl.lit 0) (d.wLimit n (Fl.lit 0)) c.weight (c.mean * c.weight) cs
      compressFactor := d.compressFactor
      scaleFunc := d.scaleFunc
      inverseScaleFunc := d.inverseScaleFunc
      min := Fl.fmin d.min c.mean
      max := Fl.fmax d.max ((c :: cs).getLast (by simp)).mean }

/-- `add_centroid_buffer` (t_digest.rs:301-361). -/
def addCentroidBuffer (d : TDigest K) (buffer : List (Centroid K)) : Prog (TDigest K) := do
  let sorted ← sortUnstable Centroid.mean (buffer ++ d.centroids)
  return d.mergeSorted sorted

/-- `Centroid { mean: item, weight: 1.0 }` (t_digest.rs:50-53, 60-63). -/
def unit (x : Fl K) : Centroid K := ⟨x, Fl.lit 1⟩

/-- `add` (t_digest.rs:49-54). -/
def add (d : TDigest K) (item : Fl K) : Prog (TDigest K) := d.addCentroidBuffer [unit item]

/-- `add_buffer` (t_digest.rs:56-66). -/
def addBuffer (d : TDigest K) (buffer : List (Fl K)) : Prog (TDigest K) := d.addCentroidBuffer (buffer.map unit)

/-- The inner loop summing the weights of the centroids equal to the item (t_digest.rs:130-137). -/
def equalWeight (item dw : Fl K) : List (Centroid K) → Fl K
  | [] => dw
  | c :: cs => if Fl.feq c.mean item then equalWeight item (dw + c.weight) cs else dw

/-- One pair of neighbouring centroids with `curr.mean <= item < next.mean` (t_digest.rs:144-186). -/
def between (item wsf total : Fl K) (c n : Centroid K) : Fl K :=
  if Fl.lt (Fl.lit 0) (n.mean - c.mean) then
    if Fl.feq c.weight (Fl.lit 1) && Fl.feq n.weight (Fl.lit 1) then
      (wsf + Fl.lit 1) / total
    else
      let le : Fl K := if Fl.feq c.weight (Fl.lit 1) then Fl.lit (1 / 2) else Fl.lit 0
      let re : Fl K := if Fl.feq c.weight (Fl.lit 1) then Fl.lit 0
        else if Fl.feq n.weight (Fl.lit 1) then Fl.lit (1 / 2) else Fl.lit 0
      let dw := (c.weight + n.weight) / Fl.lit 2
      let dwNoSingleton := dw - le - re
      let base := wsf + c.weight / Fl.lit 2 + le
      (base + dwNoSingleton * (item - c.mean) / (n.mean - c.mean)) / total
  else
    let dw := (c.weight + n.weight) / Fl.lit 2
    (wsf + dw) / total

/-- The loop over neighbouring centroids (t_digest.rs:127-190): an answer, or `weight_so_far` after the loop. -/
def quantileLoop (item total : Fl K) (wsf : Fl K) : List (Centroid K) → Sum (Fl K) (Fl K)
  | c :: n :: rest =>
    if Fl.feq c.mean item then
      let dw := equalWeight item (Fl.lit 0) (c :: n :: rest)
      if Fl.feq c.weight dw && Fl.feq dw (Fl.lit 1) then .inl (wsf / total)
      else .inl ((wsf + dw / Fl.lit 2) / total)
    else if Fl.le c.mean item && Fl.lt item n.mean then .inl (between item wsf total c n)
    else quantileLoop item total (wsf + c.weight) (n :: rest)
  | _ => .inr wsf

/-- `est_quantile_at_value` (t_digest.rs:68-202). -/
def estQuantileAtValue (d : TDigest K) (item : Fl K) : Prog (Fl K) :=
  match d.centroids with
  | [] => .ret .nan
  | [_] =>
    let width := d.max - d.min
    if Fl.lt item d.min then .ret (Fl.lit 0)
    else if Fl.lt d.max item then .ret (Fl.lit 1)
    else if Fl.le (item - d.min) width then .ret (Fl.lit (1 / 2))
    else .ret ((item - d.min) / width)
  | first :: second :: rest =>
    let cs := first :: second :: rest
    let last := cs.getLast (by simp [cs])
    let total := d.totalWeight
    if Fl.lt item d.min then .ret (Fl.lit 0)
    else if Fl.lt d.max item then .ret (Fl.lit 1)
    else if Fl.lt item first.mean then
      if Fl.lt (Fl.lit 0) (first.mean - d.min) then
        if Fl.feq item d.min then .ret (Fl.lit (1 / 2) / total)
        else .ret ((Fl.lit 1 + (item - d.min) / (first.mean - d.min) * (first.weight / Fl.lit 2 - Fl.lit 1)) / total)
      else .ret (Fl.lit 0)
    else if Fl.lt last.mean item then
      if Fl.lt (Fl.lit 0) (d.max - last.mean) then
        if Fl.feq item d.max then .ret (Fl.lit 1 - Fl.lit (1 / 2) / total)
        else .ret (Fl.lit 1 -
          (Fl.lit 1 + (d.max - item) / (d.max - last.mean) * (last.weight / Fl.lit 2 - Fl.lit 1)) / total)
      else .ret (Fl.lit 1)
    else
      match quantileLoop item total (Fl.lit 0) cs with
      | .inl r => .ret r
      | .inr wsf =>
        if Fl.feq item last.mean then
          if Fl.feq last.weight (Fl.lit 1) then .ret (wsf / total)
          else .ret (Fl.lit 1 - Fl.lit (1 / 2) / total)
        else .fail .explicit

/-- The loop of `est_value_at_quantile` (t_digest.rs:236-261): `steps` iterations left, index `i`, `curr_weight`. -/
def valueLoop (cs : List (Centroid K)) (target : Fl K) : Nat → Nat → Fl K → Prog (Option (Fl K))
  | 0, _, _ => .ret none
  | steps + 1, i, currWeight => do
    let curr ← idx cs i
    let next ← idx cs (i + 1)
    let dw := (curr.weight + next.weight) / Fl.lit 2
    if Fl.lt target (currWeight + dw) then
      if Fl.feq curr.weight (Fl.lit 1) && Fl.lt (target - currWeight) (Fl.lit (1 / 2)) then .ret (some curr.mean)
      else if Fl.feq next.weight (Fl.lit 1) && Fl.le (currWeight + dw - target) (Fl.lit (1 / 2)) then .ret (some next.mean)
      else
        let z1 := target - currWeight - Fl.lit (1 / 2)
        let z2 := currWeight + dw - target - Fl.lit (1 / 2)
        .ret (some (weightedAverage curr.mean z2 next.mean z1))
    else valueLoop cs target steps (i + 1) (currWeight + dw)

section
variable [FloorRing K]

/-- `est_value_at_quantile` (t_digest.rs:204-266). -/
def estValueAtQuantile (d : TDigest K) (q : Fl K) : Prog (Fl K) := do
  let total := d.totalWeight
  let target := total * q
  if Fl.lt target (Fl.lit 1) then .ret d.min
  else do
    let first ← idx d.centroids 0
    if Fl.lt (Fl.lit 1) first.weight && Fl.lt target (first.weight / Fl.lit 2) then
      .ret (d.min + (target - Fl.lit 1) / (first.weight / Fl.lit 2 - Fl.lit 1) * (first.mean - d.min))
    else if Fl.lt (total - Fl.lit 1) target then .ret d.max
    else do
      let last ← unwrap d.centroids.getLast?
      if Fl.lt (Fl.lit 1) last.weight && Fl.le (total - target) (last.weight / Fl.lit 2) then
        .ret (d.max - (total - target - Fl.lit 1) / (last.weight / Fl.lit 2 - Fl.lit 1))
      else do
        let steps ← unwrap (Fl.toUsize total)
        let r ← valueLoop d.centroids target steps 0 (first.weight / Fl.lit 2)
        match r with
        | some v => .ret v
        | none =>
          let z1 := target - total - last.weight / Fl.lit 2
          let z2 := last.weight / Fl.lit 2 - z1
          .ret (weightedAverage last.mean z1 d.max z2)

/-- `count` (t_digest.rs:268-270). -/
def count (d : TDigest K) : Prog Nat := unwrap (Fl.toUsize d.totalWeight)

instance : Digest (TDigest K) (Fl K) where
  add := add
  addBuffer := addBuffer
  estQuantileAtValue d v := do let r ← d.estQuantileAtValue v; return (r, d)
  estValueAtQuantile d q := do let r ← d.estValueAtQuantile q; return (r, d)
  count := count

end

/-- `weight_left` (t_digest.rs:581-590). -/
def weightLeft (d : TDigest K) (target : Centroid K) : Fl K :=
  weightSum (d.centroids.filter (fun c => Fl.lt c.mean target.mean))

/-- `k_size_from_weights` (t_digest.rs:616-621). -/
def kSizeFromWeights (d : TDigest K) (weight wLeft newTotal : Fl K) : Fl K :=
  let qLeft := wLeft / newTotal
  let qRight := qLeft + weight / newTotal
  d.scaleFunc qRight d.compressFactor newTotal - d.scaleFunc qLeft d.compressFactor newTotal

/-- `k_size` (t_digest.rs:605-614). -/
def kSize (d : TDigest K) (target : Centroid K) (total : Fl K) : Fl K :=
  d.kSizeFromWeights target.weight (d.weightLeft target) (total + target.weight)

/-- `update_limits` (t_digest.rs:650-668). -/
def updateLimits (d : TDigest K) (cs : List (Centroid K)) : Prog (TDigest K) := do
  let mn ← minBy id (cs.map (·.mean))
  let mx ← maxBy id (cs.map (·.mean))
  return { d with min := Fl.fmin (mn.getD .pinf) d.min, max := Fl.fmax (mx.getD .ninf) d.max }

/-- The first `while` loop of `find_closest_centroids` (t_digest.rs:566-568). -/
def closestLeft (cs : List (Centroid K)) (t dist : Fl K) : Nat → Prog Nat
  | 0 => .ret 0
  | i + 1 => do
    let c ← idx cs i
    if Fl.feq (c.mean - t) dist then closestLeft cs t dist i else .ret (i + 1)

/-- The second `while` loop of `find_closest_centroids` (t_digest.rs:569-573), at most `fuel` rounds. -/
def closestRight (cs : List (Centroid K)) (t dist : Fl K) : Nat → Nat → Prog Nat
  | 0, r => .ret r
  | fuel + 1, r =>
    if r < cs.length - 1 then do
      let c ← idx cs (r + 1)
      if Fl.feq (c.mean - t) dist then closestRight cs t dist fuel (r + 1) else .ret r
    else .ret r

/-- The distance and the initial range of `find_closest_centroids` (t_digest.rs:541-562). -/
def closestStart (cs : List (Centroid K)) (t : Fl K) (index : Nat) : Prog (Fl K × Nat × Nat) :=
  if index = 0 then do
    let c ← idx cs index
    return (c.mean - t, index, index + 1)
  else if index = cs.length then do
    let c ← idx cs (index - 1)
    return (c.mean - t, index - 1, index)
  else do
    let l ← idx cs (index - 1)
    let h ← idx cs index
    return (if Fl.le (l.mean - t) (h.mean - t) then l.mean - t else h.mean - t, index, index + 1)

/-- `find_closest_centroids` (t_digest.rs:527-575). -/
def findClosestCentroids (d : TDigest K) (target : Centroid K) : Prog (Option (Nat × Nat)) :=
  if d.centroids = [] then .ret none
  else do
    let index ← binarySearch Centroid.mean d.centroids target.mean
    let s ← closestStart d.centroids target.mean index
    let left ← closestLeft d.centroids target.mean s.1 s.2.1
    let right ← closestRight d.centroids target.mean s.1 d.centroids.length s.2.2
    return some (left, right)

/-- The loop of `add_cluster` choosing a centroid to merge into (t_digest.rs:377-393). -/
def chooseIndex (d : TDigest K) (x : Centroid K) (total : Fl K) : List Nat → Option Nat → Prog (Option Nat)
  | [], best => .ret best
  | i :: is, best => do
    let c ← idx d.centroids i
    let newC := x.add c
    if Fl.lt (Fl.fabs (d.kSize newC total)) (Fl.lit 1) then
      match best with
      | none => chooseIndex d x total is (some i)
      | some j => do
        let o ← idx d.centroids j
        if Fl.lt (c.mean * c.weight) (o.mean * o.weight) then chooseIndex d x total is (some i)
        else chooseIndex d x total is (some j)
    else chooseIndex d x total is best

/-- Inserting the cluster as a new centroid (t_digest.rs:404-413, 417-427). -/
def insertCluster (d : TDigest K) (x : Centroid K) : Prog (TDigest K) := do
  let i ← binarySearch Centroid.mean d.centroids x.mean
  return { d with centroids := d.centroids.take i ++ x :: d.centroids.drop i }

/-- Merging the cluster into centroid `i` (t_digest.rs:396-403). -/
def mergeCluster (d : TDigest K) (x : Centroid K) (i : Nat) : Prog (TDigest K) := do
  let m ← idx d.centroids i
  let m' : Centroid K := ⟨(m.mean * m.weight + x.mean * x.weight) / (m.weight + x.weight), m.weight + x.weight⟩
  return { d with centroids := d.centroids.set i m' }

/-- One cluster of `add_cluster` before the growth check (t_digest.rs:372-428); the caller adds `x.weight` to the total
weight in every branch. -/
def placeCluster (d : TDigest K) (x : Centroid K) (total : Fl K) : Prog (TDigest K) := do
  let close ← d.findClosestCentroids x
  match close with
  | some (l, r) => do
    let best ← chooseIndex d x total (List.range' l (r - l)) none
    match best with
    | some i => d.mergeCluster x i
    | none => d.insertCluster x
  | none => d.insertCluster x

section
variable [FloorRing K]

/-- The growth check at the end of the loop body (t_digest.rs:430-433). -/
def limitGrowth (d : TDigest K) (growthLimit : Fl K) : Prog (TDigest K) := do
  let lim ← unwrap (Fl.toUsize (growthLimit * d.compressFactor))
  if lim < d.centroids.length then d.addBuffer [] else .ret d

/-- The loop of `add_cluster` (t_digest.rs:370-434). -/
def addClusterLoop (growthLimit : Fl K) (d : TDigest K) (total : Fl K) : List (Centroid K) → Prog (TDigest K)
  | [] => .ret d
  | x :: xs => do
    let d1 ← d.placeCluster x total
    let d2 ← d1.limitGrowth growthLimit
    addClusterLoop growthLimit d2 (total + x.weight) xs

/-- `add_cluster` (t_digest.rs:368-436). -/
def addCluster (d : TDigest K) (clusters : List (Centroid K)) (growthLimit : Fl K) : Prog (TDigest K) := do
  let d1 ← d.updateLimits clusters
  addClusterLoop growthLimit d1 d1.totalWeight clusters

/-- The loop of `add_cluster_tree` choosing a centroid (t_digest.rs:456-482). As in the code the *mean* of the merged
centroid is passed as its weight. -/
def chooseCentroid (d : TDigest K) (t : KeyedSumTree K) (x : Centroid K) (total : Fl K) :
    List (Centroid K) → Option (Centroid K) → Prog (Option (Centroid K))
  | [], best => .ret best
  | c :: cs, best => do
    let newMean := (x.add c).mean
    let below ← t.lessThanSum newMean
    if Fl.lt (Fl.fabs (d.kSizeFromWeights newMean (below.getD (Fl.lit 0)) (total + x.weight))) (Fl.lit 1) then
      match best with
      | none => chooseCentroid d t x total cs (some c)
      | some o =>
        if Fl.lt (c.mean * c.weight) (o.mean * o.weight) then chooseCentroid d t x total cs (some c)
        else chooseCentroid d t x total cs (some o)
    else chooseCentroid d t x total cs best

/-- One cluster of `add_cluster_tree` before the growth check (t_digest.rs:451-507). -/
def placeTree (d : TDigest K) (t : KeyedSumTree K) (x : Centroid K) (total : Fl K) : Prog (KeyedSumTree K) := do
  let closest ← t.closestKeys x.mean
  if closest = [] then t.insert x.mean x.weight
  else do
    let best ← chooseCentroid d t x total closest none
    match best with
    | some c => do
      let t1 ← t.delete c.mean
      t1.insert ((c.mean * c.weight + x.mean * x.weight) / (c.weight + x.weight)) (c.weight + x.weight)
    | none => t.insert x.mean x.weight

/-- Rebuild the tree from the digest's centroids in random order (t_digest.rs:446-449, 513-515). -/
def rebuildTree (d : TDigest K) : Prog (KeyedSumTree K) := do
  let cs ← shuffle d.centroids
  KeyedSumTree.ofCentroids cs

/-- The loop of `add_cluster_tree` (t_digest.rs:450-517): digest and tree. -/
def addClusterTreeLoop (growthLimit : Fl K) (d : TDigest K) (t : KeyedSumTree K) (total : Fl K) :
    List (Centroid K) → Prog (TDigest K × KeyedSumTree K)
  | [] => .ret (d, t)
  | x :: xs => do
    let t1 ← placeTree d t x total
    let lim ← unwrap (Fl.toUsize (growthLimit * d.compressFactor))
    if lim < t1.size then do
      let d1 ← ({ d with centroids := t1.sortedVecKey } : TDigest K).addBuffer []
      let t2 ← d1.rebuildTree
      addClusterTreeLoop growthLimit d1 t2 (total + x.weight) xs
    else addClusterTreeLoop growthLimit d t1 (total + x.weight) xs

/-- `add_cluster_tree` (t_digest.rs:443-520). -/
def addClusterTree (d : TDigest K) (clusters : List (Centroid K)) (growthLimit : Fl K) : Prog (TDigest K) := do
  let d1 ← d.updateLimits clusters
  let t ← d1.rebuildTree
  let r ← addClusterTreeLoop growthLimit d1 t d1.totalWeight clusters
  return { r.1 with centroids := r.2.sortedVecKey }

end
end TDigest
end AQ

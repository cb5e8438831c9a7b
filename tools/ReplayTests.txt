/-
Replays the deterministic unit tests of the repository (and smaller versions of the randomised ones) on the model, in f64
arithmetic. A test of the model's fidelity, not part of the build and not a proof: run with
`cd lean && lake env lean ../tools/ReplayTests.txt`. The transcendental scale functions are computed with Lean's `Float`.
Every line cites the test it replays; the expected values are those of the Rust tests.
-/
import Verif.Model.BufferedDigest
import Verif.Model.SymDigest
import Verif.Model.ParallelDigest
import Verif.Model.ParTDigest
import Verif.Model.RCSketch
import Verif.Model.RCSketch2
import Verif.Model.ScaleK0
import Verif.Spec.F64
import Mathlib.Data.Rat.Floor

namespace AQ
open Prog Spec
attribute [local instance] f64Fmt
abbrev F := Fl ℚ

/-- Exact conversions between `Float` and the model's numbers. -/
def toFloat : F → Float
  | .nan => 0.0 / 0.0
  | .pinf => 1.0 / 0.0
  | .ninf => -1.0 / 0.0
  | .fin q =>
    let s := if q < 0 then -1.0 else 1.0
    let q := |q|
    if q = 0 then 0.0 else
      let e := ilog2 q - 52
      let m := q / pow2 e
      s * (Float.scaleB (Float.ofNat m.num.natAbs) e)
def ofFloat (x : Float) : F :=
  if x.isNaN then .nan else if x.isInf then (if x > 0 then .pinf else .ninf) else
    if x == 0.0 then .fin 0 else
    let (m, e) := x.frExp
    let mi : Int := (m.scaleB 53).toInt64.toInt
    .fin ((mi : ℚ) * pow2 (e - 53))

def fl (f : Float → Float → Float → Float) : ScaleFn ℚ := fun a b c => ofFloat (f (toFloat a) (toFloat b) (toFloat c))
def PI : Float := 3.14159265358979323846264338327950288
def k1f := fl fun q d _ => (d / (2.0 * PI)) * (2.0 * q - 1.0).asin
def ik1f := fl fun s d _ => (1.0 + (2.0 * PI * s / d).sin) / 2.0
def k2f := fl fun q d n => (d / (4.0 * (n / d).log10 + 24.0)) * (q / (1.0 - q)).log10
def ik2f := fl fun s d n => let x := Float.pow 10.0 ((s * (4.0 * (n / d).log10 + 24.0)) / d); x / (1.0 + x)

/-- Random path through a program. -/
def samp {α} (s : UInt64) : Nat → Prog α → Except String α
  | _, .ret a => .ok a
  | _, .fail e => .error s!"panic {repr e}"
  | 0, .flip _ => .error "out of coins"
  | n + 1, .flip f =>
    let s' := s * 6364136223846793005 + 1442695040888963407
    samp s' n (f ((s' >>> 40) % 2 == 0))
def go {α} (p : Prog α) (seed : UInt64 := 1) : Except String α := samp seed 10000000 p

def num (n : Int) (d : Nat := 1) : F := FloatFmt.rnd ((n : ℚ) / d)
def asc (n : Nat) : List F := (List.range n).map fun x => num x
def desc (n : Nat) : List F := (List.range n).map fun x => num (n - 1 - x)
def lcg (s : UInt64) : Nat → List F
  | 0 => []
  | n + 1 => let s' := s * 6364136223846793005 + 1442695040888963407; num (s' >>> 33).toNat (2 ^ 31) * num 1001 :: lcg s' n

def show1 (p : Except String F) : String := match p with | .ok v => toString (toFloat v) | .error e => e
/-- `assert_relative_eq!(a, b, epsilon)`; the default relative tolerance is f64::EPSILON. -/
def near (name : String) (p : Except String F) (b : Float) (eps : Float := 2.220446049250313e-16) : IO Unit := do
  let ok := match p with
    | .ok v => let a := toFloat v; (a - b).abs ≤ eps || (a - b).abs ≤ 2.220446049250313e-16 * max a.abs b.abs
    | .error _ => false
  IO.println s!"{if ok then "ok  " else "FAIL"} {name}: {show1 p} expected {b}"
def eqT {α} [ToString α] [BEq α] (name : String) (p : Except String α) (b : α) : IO Unit := do
  let ok := match p with | .ok v => v == b | .error _ => false
  let s := match p with | .ok v => toString v | .error e => e
  IO.println s!"{if ok then "ok  " else "FAIL"} {name}: {s} expected {b}"

def cs (l : List F) : List (Centroid ℚ) := l.map TDigest.unit

def qv (name : String) (d : Prog (TDigest ℚ)) (l : List (Int × Nat × Float × Float)) : IO Unit := do
  let d := go d
  for (n, k, e, eps) in l do
    near s!"{name} value({n}/{k})" (do let d ← d; go (d.estValueAtQuantile (num n k))) e eps

def eps0 : Float := 2.220446049250313e-16

def tdigest : IO Unit := do
  let d := go ((TDigest.new k0 invK0 (num 1)).addCentroidBuffer (cs [num 1]))
  eqT "t_digest add_buffer_with_single_centroid len" (d.map (·.centroids.length)) 1
  near "t_digest add_buffer_with_single_centroid total" (d.map (·.totalWeight)) 1.0
  let five : List (Int × Nat × Float × Float) := [(0, 1, 0.0, eps0), (1, 4, 250.0, 1.0), (1, 2, 500.0, 2.0), (3, 4, 750.0, 1.0), (1, 1, 1000.0, eps0)]
  qv "t_digest add_buffer_with_many_centroids" ((TDigest.new k1f ik1f (num 100)).addCentroidBuffer (cs (asc 1001))) five
  near "t_digest add_buffer_with_many_centroids total" ((go ((TDigest.new k1f ik1f (num 100)).addCentroidBuffer (cs (asc 1001)))).map (·.totalWeight)) 1001.0
  qv "t_digest add_buffer_with_many_centroids_high_compression" ((TDigest.new k1f ik1f (num 20)).addCentroidBuffer (cs (asc 1001))) five
  let d := go ((TDigest.new k0 invK0 (num 1)).addCluster (cs [num 1]) (num 3))
  eqT "t_digest add_cluster_with_single_centroid len" (d.map (·.centroids.length)) 1
  -- the two tests with 1001 centroids take too long in the interpreter: 101 centroids
  let five : List (Int × Nat × Float × Float) := [(0, 1, 0.0, eps0), (1, 4, 25.0, 1.0), (1, 2, 50.0, 2.0), (3, 4, 75.0, 1.0), (1, 1, 100.0, eps0)]
  qv "t_digest add_cluster_with_many_centroids" ((TDigest.new k1f ik1f (num 100)).addCluster (cs (asc 101)) (num 3)) five
  qv "t_digest add_cluster_with_many_centroids_high_compression" ((TDigest.new k1f ik1f (num 20)).addCluster (cs (asc 101)) (num 10)) five
  let eight : List (Int × Nat × Float × Float) := [(0, 1, 0.5, eps0), (24, 100, 0.5, eps0), (25, 100, 1.0, eps0), (49, 100, 1.0, eps0), (50, 100, 2.0, eps0), (74, 100, 2.0, eps0),
    (75, 100, 8.0, eps0), (1, 1, 8.0, eps0)]
  let four : List F := [num 1, num 2, num 8, num 1 2]
  qv "t_digest est_value_at_quantile_singleton_centroids" ((TDigest.new k0 invK0 (num 50)).addBuffer four) eight
  let p := go do
    let p ← ParTDigest.new 32 128 (.ret (TDigest.new k1f ik1f (num 20)))
    p.addBuffer four
  for (n, k, e, eps) in eight do
    near s!"par_t_digest est_value_at_quantile_singleton_centroids value({n}/{k})" (do let p ← p; (go (p.estValueAtQuantile (num n k))).map (·.1)) e eps
  let five : List (Int × Nat × Float × Float) := [(0, 1, 0.0, eps0), (1, 4, 250.0, 1.0), (1, 2, 500.0, 2.0), (3, 4, 750.0, 1.0), (1, 1, 1000.0, eps0)]
  let p := go do
    let p ← ParTDigest.new 2500 10000 (.ret (TDigest.new k1f ik1f (num 50)))
    p.addBuffer (asc 1001)
  for (n, k, e, eps) in five do
    near s!"par_t_digest add_buffer_with_many_centroids value({n}/{k})" (do let p ← p; (go (p.estValueAtQuantile (num n k))).map (·.1)) e eps
  let p := go do
    let p ← ParTDigest.new 32 128 (.ret (TDigest.new k1f ik1f (num 20)))
    p.addBuffer (asc 1001)
  for (n, k, e, eps) in [(0, 1, 0.0, 3.0), (1, 4, 250.0, 1.0), (1, 2, 500.0, 2.0), (3, 4, 750.0, 1.0), (1, 1, 1000.0, eps0)] do
    near s!"par_t_digest add_buffer_with_many_centroids_high_compression value({n}/{k})" (do let p ← p; (go (p.estValueAtQuantile (num n k))).map (·.1)) e eps
  -- est_quantile_at_value
  let buf : List F := (List.range 1000).map fun x => num (-500 + x)
  let lin : LinearDigest ℚ := LinearDigest.new.addBuffer buf
  let p := go do
    let p ← ParTDigest.new 128 256 (.ret (TDigest.new k1f ik1f (num 20)))
    p.addBuffer buf
  near "par_t_digest est_quantile_at_value(-500)" (do let p ← p; (go (p.estQuantileAtValue (num (-500)))).map (·.1)) (toFloat (lin.estQuantileAtValue (num (-500)))) 0.0005
  for (v, eps) in [((-250 : Int), 0.0025), (0, 0.001), (250, 0.001), (500, 0.0005)] do
    near s!"par_t_digest est_quantile_at_value({v})" (do let p ← p; (go (p.estQuantileAtValue (num v))).map (·.1 / lin.estQuantileAtValue (num v))) 1.0 eps

def parallel : IO Unit := do
  let four : ParallelDigest (LinearDigest ℚ) ℚ := ParallelDigest.new [LinearDigest.new, LinearDigest.new, LinearDigest.new, LinearDigest.new]
  let p := go (four.addBuffer (asc 1001))
  for (n, k, e, eps) in [((0 : Int), 1, 0.0, eps0), (1, 4, 250.0, 1.0), (1, 2, 500.0, 2.0), (3, 4, 750.0, 1.0), (1, 1, 1000.0, 1.0)] do
    near s!"parallel_digest add_buffer_with_many_centroids value({n}/{k})" (do let p ← p; (go (p.estValueAtQuantile (num n k))).map (·.1)) e eps
  let p := go (four.addBuffer [num 1, num 2, num 8, num 1 2])
  for (n, k, e, eps) in [((0 : Int), 1, 0.5, eps0), (24, 100, 0.5, 1e-5), (25, 100, 1.0, 1e-5), (49, 100, 1.0, 1e-5), (50, 100, 2.0, 1e-5),
      (74, 100, 2.0, 1e-5), (75, 100, 8.0, 1e-5), (1, 1, 8.0, eps0)] do
    near s!"parallel_digest singleton value({n}/{k})" (do let p ← p; (go (p.estValueAtQuantile (num n k))).map (·.1)) e eps
  let buf : List F := (List.range 1000).map fun x => num (-500 + x)
  let lin : LinearDigest ℚ := LinearDigest.new.addBuffer buf
  let p := go (four.addBuffer buf)
  near "parallel_digest est_quantile_at_value(-500)" (do let p ← p; (go (p.estQuantileAtValue (num (-500)))).map (·.1)) (toFloat (lin.estQuantileAtValue (num (-500)))) 0.0005
  for (v, eps) in [((-250 : Int), 0.0025), (0, 0.001), (250, 0.001), (500, 0.0005)] do
    near s!"parallel_digest est_quantile_at_value({v})" (do let p ← p; (go (p.estQuantileAtValue (num v))).map (·.1 / lin.estQuantileAtValue (num v))) 1.0 eps

def linear : IO Unit := do
  let lin : LinearDigest ℚ := LinearDigest.new.addBuffer (asc 1000)
  for (v, e) in [((0 : Int), 0.0), (250, 0.25), (500, 0.5), (750, 0.75), (1000, 1.0)] do
    near s!"linear_digest est_quantile_at_value({v})" (.ok (lin.estQuantileAtValue (num v))) e
  for (n, k, e) in [((0 : Int), 1, 0.0), (1, 4, 250.0), (1, 2, 500.0), (3, 4, 750.0), (1, 1, 999.0)] do
    near s!"linear_digest est_value_at_quantile({n}/{k})" ((go (lin.estValueAtQuantile (num n k))).map (·.1)) e

def keyed : IO Unit := do
  let f := fun (name : String) (t : Except String (KeyedSumTree ℚ)) (k : Int) (e : Float) =>
    near s!"keyed_sum_tree {name} less_than_sum({k})" (do let t ← t; match ← go (t.lessThanSum (num k)) with | some v => .ok v | none => .ok .nan) e
  let none' := fun (name : String) (t : Except String (KeyedSumTree ℚ)) (k : Int) =>
    eqT s!"keyed_sum_tree {name} less_than_sum({k}) is none" (do let t ← t; return (← go (t.lessThanSum (num k))).isNone) true
  let t0 : Except String (KeyedSumTree ℚ) := .ok KeyedSumTree.new
  none' "new" t0 0
  none' "new" t0 1000000
  let t1 := do let t ← t0; go (t.insert (num 1) (num 1))
  f "one" t1 1 0.0
  f "one" t1 2 1.0
  let t2 := do let t ← t1; go (t.delete (num 1))
  none' "deleted" t2 0
  let t3 := do
    let t ← t2
    go do
      let t ← t.insert (num 1) (num 1)
      let t ← t.insert (num 13) (num 100)
      let t ← t.insert (num 25) (num 1)
      t.insert (num (-100)) (num 5)
  eqT "keyed_sum_tree size" (t3.map (·.size)) 4
  for (k, e) in [((-101 : Int), 0.0), (-100, 0.0), (-99, 5.0), (0, 5.0), (1, 5.0), (2, 6.0), (12, 6.0), (13, 6.0), (14, 106.0), (24, 106.0), (25, 106.0), (26, 107.0)] do
    f "four" t3 k e

def rc : IO Unit := do
  for seed in [1, 2, 3] do
    let hist : List (String × Prog (RCSketch ℚ)) := [
      ("insert_multiple_values", do let s ← RCSketch.new 1024 8; (asc 1000).foldlM (fun s x => s.add x) s),
      ("insert_descending_multiple_values", do let s ← RCSketch.new 1024 8; (desc 1000).foldlM (fun s x => s.add x) s),
      ("insert_batch_multiple_values", do let s ← RCSketch.new 1024 8; s.addBuffer (asc 1000)),
      ("insert_batch_descending_multiple_values", do let s ← RCSketch.new 1024 8; s.addBuffer (desc 1000))]
    for (name, p) in hist do
      let s := go p seed.toUInt64
      for (v, e) in [((0 : Int), 1), (1, 2)] ++ (if name.splitOn "desc" |>.length |> (· = 1) then [(10, 11)] else []) do
        eqT s!"rc_sketch {name} rank({v})" (do let s ← s; go (s.interpolateRank (num v))) e
      near s!"rc_sketch {name} rank(500)" (do let s ← s; (go (s.interpolateRank (num 500))).map (fun n => num n)) 500 10.0
      near s!"rc_sketch {name} rank(1000)" (do let s ← s; (go (s.interpolateRank (num 1000))).map (fun n => num n)) 1000 30.0
    let hist2 : List (String × Prog (RCSketch2 ℚ)) := [
      ("insert_multiple_values", (asc 1000).foldlM (fun s x => s.add (realSec 8) x) (RCSketch2.new 8)),
      ("insert_descending_multiple_values", (desc 1000).foldlM (fun s x => s.add (realSec 8) x) (RCSketch2.new 8)),
      ("insert_batch_multiple_values", (RCSketch2.new 8).addBuffer (realSec 8) (asc 1000)),
      ("insert_batch_descending_multiple_values", (RCSketch2.new 8).addBuffer (realSec 8) (desc 1000))]
    for (name, p) in hist2 do
      let s := go p seed.toUInt64
      for (v, e) in [((0 : Int), 1), (1, 2)] ++ (if name.splitOn "desc" |>.length |> (· = 1) then [(10, 11)] else []) do
        eqT s!"rc_sketch2 {name} rank({v})" (do let s ← s; go (s.interpolateRank (num v))) e
      near s!"rc_sketch2 {name} rank(500)" (do let s ← s; (go (s.interpolateRank (num 500))).map (fun n => num n)) 500 10.0
      near s!"rc_sketch2 {name} rank(1000)" (do let s ← s; (go (s.interpolateRank (num 1000))).map (fun n => num n)) 1000 30.0
    let s := go (do let s ← RCSketch.new 1024 16; s.addBuffer (asc 1000)) seed.toUInt64
    for (n, k, e, eps) in [((0 : Int), 1, 0.0, 0.001), (1, 1000, 1.0, 0.1), (1, 10, 100.0, 1.0), (1, 2, 500.0, 4.0), (1, 1, 1000.0, 10.0)] do
      near s!"rc_sketch est_value_at_quantile({n}/{k})" (do let s ← s; go (s.estValueAtQuantile (num n k))) e eps
    let s := go ((RCSketch2.new 16).addBuffer (realSec 16) (asc 1000)) seed.toUInt64
    for (n, k, e, eps) in [((0 : Int), 1, 0.0, 0.001), (1, 1000, 1.0, 0.1), (1, 10, 100.0, 1.0), (1, 2, 500.0, 4.0), (1, 1, 1000.0, 10.0)] do
      near s!"rc_sketch2 est_value_at_quantile({n}/{k})" (do let s ← s; go (s.estValueAtQuantile (num n k))) e eps
    -- sym_digest
    let sym : List (String × List F × Nat) := [("insert_batch_multiple_values", asc 1000, 8), ("insert_batch_descending_multiple_values", desc 1000, 8)]
    for (name, l, k) in sym do
      let s : Except String (SymDigest (RCSketch ℚ)) := go (do
        let a ← RCSketch.new 1024 k; let b ← RCSketch.new 1024 k
        (SymDigest.new a b).addBuffer l) seed.toUInt64
      for (v, e, eps) in [((0 : Int), 0.001, eps0), (1, 0.002, eps0)] ++ (if name.splitOn "desc" |>.length |> (· = 1) then [(10, 0.011, eps0)] else []) ++ [(500, 0.5, 10.0), (1000, 1.0, 30.0)] do
        near s!"sym_digest {name} quantile({v})" (do let s ← s; (go (s.estQuantileAtValue (num v))).map (·.1)) e eps
    let s : Except String (SymDigest (RCSketch ℚ)) := go (do
        let a ← RCSketch.new 1024 16; let b ← RCSketch.new 1024 16
        (SymDigest.new a b).addBuffer (asc 1000)) seed.toUInt64
    for (n, k, e, eps) in [((0 : Int), 1, 0.0, 0.001), (1, 1000, 1.0, 0.1), (1, 10, 100.0, 1.0), (1, 2, 500.0, 4.0), (1, 1, 1000.0, 10.0)] do
      near s!"sym_digest est_value_at_quantile({n}/{k})" (do let s ← s; (go (s.estValueAtQuantile (num n k))).map (·.1)) e eps

section F32
attribute [-instance] f64Fmt
attribute [local instance] f32Fmt
def r32 : F → F
  | .fin q => FloatFmt.rnd q
  | x => x
def num32 (n : Int) : F := FloatFmt.rnd (n : ℚ)
def k1s : ScaleFn ℚ := fun a b c => r32 (k1f a b c)
def ik1s : ScaleFn ℚ := fun a b c => r32 (ik1f a b c)
/-- This test runs in f32. -/
def tdigest32 : IO Unit := do
  let buf : List F := (List.range 1000).map fun x => num32 (-500 + x)
  let lin : LinearDigest ℚ := LinearDigest.new.addBuffer buf
  let d := go ((TDigest.new k1s ik1s (num32 100)).addBuffer buf)
  near "t_digest est_quantile_at_value(-500)" (do let d ← d; go (d.estQuantileAtValue (num32 (-500)))) (toFloat (lin.estQuantileAtValue (num32 (-500))))
  for (v, eps) in [((-250 : Int), 0.002), (0, 0.002), (250, 0.002), (500, 1.1920929e-7)] do
    near s!"t_digest est_quantile_at_value({v})" (do let d ← d; (go (d.estQuantileAtValue (num32 v))).map (· / lin.estQuantileAtValue (num32 v))) 1.0 eps
end F32

#eval do linear; keyed; parallel
#eval tdigest
#eval tdigest32
#eval rc
end AQ

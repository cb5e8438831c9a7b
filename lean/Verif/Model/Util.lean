/-
Model of the helpers of `src/util/mod.rs`: `opt_accuracy_parameter`, `sample_digest_accuracy` and the deterministic data
generators. The parallel iterators are run in order; the closures passed in are arbitrary computations (they may draw random
bits and panic), except that each call of a closure only depends on its arguments and the bits it draws.
-/
import Verif.Model.Linear
import Verif.Model.Centroid

set_option linter.unusedSectionVars false

namespace AQ
open Prog
variable {K : Type} [Field K] [LinearOrder K] [IsStrictOrderedRing K] [FloatFmt K]

/-- One test of the closure of `filter` (src/util/mod.rs:177-183). -/
def optTest {D : Type} (createDigest : List (Fl K) → Fl K → Prog D) (genDataset : Prog (List (Fl K)))
    (testFunc : D → LinearDigest K → Prog Bool) (param : Fl K) : Prog Bool := do
  let dataset ← genDataset
  let linear := LinearDigest.new.addBuffer dataset
  let digest ← createDigest dataset param
  testFunc digest linear

/-- `(0..test_count).filter(..).count()` (src/util/mod.rs:175-184). -/
def passCount (test : Prog Bool) : Nat → Prog Nat
  | 0 => .ret 0
  | n + 1 => do
    let b ← test
    let c ← passCount test n
    return if b then c + 1 else c

/-- `pass_count as f64 / test_count as f64` (src/util/mod.rs:194): NaN for `0 / 0`. The counts are below `2^53`. -/
def passFraction (passed total : Nat) : Fl K :=
  if total = 0 then .nan else FloatFmt.rnd64 ((passed : K) / (total : K))

/-- The loop (src/util/mod.rs:174-204), with a bound on the number of rounds. -/
def optLoop (test : Fl K → Prog Bool) (testCount : Nat) (passRatio epsilon : Fl K) :
    Nat → Fl K → Fl K → Fl K → Prog (Fl K)
  | 0, _, _, _ => .fail .fuel
  | fuel + 1, low, high, current => do
    let passed ← passCount (test current) testCount
    let ok := Fl.le passRatio (passFraction passed testCount)
    let high' := if ok then current else high
    let low' := if ok then low else current
    if Fl.lt (high' - low') epsilon then .ret high'
    else optLoop test testCount passRatio epsilon fuel low' high' ((high' + low') / Fl.lit 2)

/-- `opt_accuracy_parameter` (src/util/mod.rs:155-205), stopped after `fuel` rounds. -/
def optAccuracyParameter {D : Type} (fuel : Nat) (createDigest : List (Fl K) → Fl K → Prog D)
    (genDataset : Prog (List (Fl K))) (testFunc : D → LinearDigest K → Prog Bool) (testCount : Nat)
    (passRatio maxParam epsilon : Fl K) : Prog (Fl K) :=
  optLoop (optTest createDigest genDataset testFunc) testCount passRatio epsilon fuel (Fl.lit 0) maxParam
    ((maxParam + Fl.lit 0) / Fl.lit 2)

/-- One sample (src/util/mod.rs:233-239). `test_func` works on any digest (`dyn Digest`); `testD` and `testL` are its
behaviours on the two. -/
def sampleOnce {D : Type} (createDigest : List (Fl K) → Prog D) (genDataset : Prog (List (Fl K)))
    (testD : D → Prog (Fl K)) (testL : LinearDigest K → Prog (Fl K)) (errorFunc : Fl K → Fl K → Fl K) : Prog (Fl K) := do
  let dataset ← genDataset
  let linear := LinearDigest.new.addBuffer dataset
  let digest ← createDigest dataset
  let a ← testD digest
  let b ← testL linear
  return errorFunc a b

/-- `sample_digest_accuracy` (src/util/mod.rs:216-242). -/
def sampleDigestAccuracy {D : Type} (createDigest : List (Fl K) → Prog D) (genDataset : Prog (List (Fl K)))
    (testD : D → Prog (Fl K)) (testL : LinearDigest K → Prog (Fl K)) (errorFunc : Fl K → Fl K → Fl K) :
    Nat → Prog (List (Fl K))
  | 0 => .ret []
  | n + 1 => do
    let x ← sampleOnce createDigest genDataset testD testL errorFunc
    let xs ← sampleDigestAccuracy createDigest genDataset testD testL errorFunc n
    return x :: xs

/-- `gen_asc_vec` (src/util/mod.rs:124-129). `size` is an `i32`; the range is empty when it is negative. -/
def genAscVec (size : Int) : List (Fl K) := (List.range size.toNat).map Fl.ofNat

/-- `gen_asc_centroid_vec` (src/util/mod.rs:134-144). -/
def genAscCentroidVec (size : Int) : List (Centroid K) :=
  (List.range size.toNat).map (fun x => ⟨Fl.ofNat x, Fl.lit 1⟩)

/-- The loop of `gen_growing_blocks_vec` (src/util/mod.rs:78-84). Whether the sample is at most `increment_prob` is taken as
an arbitrary bit. -/
def growingLoop : Nat → Fl K → Prog (List (Fl K))
  | 0, _ => .ret []
  | n + 1, val => .flip fun b => do
    let val' := if b then val + Fl.lit 1 else val
    let rest ← growingLoop n val'
    return val' :: rest

/-- `gen_growing_blocks_vec` (src/util/mod.rs:69-86). -/
def genGrowingBlocksVec (size : Int) : Prog (List (Fl K)) := growingLoop size.toNat (Fl.lit 1)

end AQ

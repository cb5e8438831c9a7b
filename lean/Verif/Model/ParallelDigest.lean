/-
Model of `src/parallel_digest.rs` (complete; `owned_size` is in Model/OwnedSize.lean). The rayon iterators are executed in order: every closure
touches a digest of its own, so the interleaving cannot be observed; the sum of the ranks is folded from the left. Rayon may
associate the sum differently, which matters only for rounding: the functions with a `Split` argument take the association as a
parameter.
-/
import Verif.Model.MultiDigest

set_option linter.unusedSectionVars false

namespace AQ
open Prog
variable {K : Type} [Field K] [LinearOrder K] [IsStrictOrderedRing K] [FloatFmt K]

/-- `struct ParallelDigest` (parallel_digest.rs:6-14). -/
structure ParallelDigest (D K : Type) where
  digests : List D
  min : Fl K
  max : Fl K
  deriving DecidableEq

namespace ParallelDigest
variable {D : Type} [Digest D (Fl K)]

/-- `new` (parallel_digest.rs:92-98). -/
def new (digests : List D) : ParallelDigest D K := { digests := digests, min := Fl.maxValue, max := Fl.minValue }

/-- The chunk length `((buffer.len() as f64 / self.digests.len() as f64).ceil() as usize).max(1)` (parallel_digest.rs:27).
Simplification: the quotient of the lengths is rounded up exactly (C124 proves that `f64` does so for lengths below 2^53). For no digests the
quotient is infinite and saturates, so that there is one chunk. -/
def chunkLen (len digests : Nat) : Nat := if digests = 0 then Max.max len 1 else Max.max ((len + digests - 1) / digests) 1

/-- `(chunks, digests).for_each(|(chunk, d)| d.add_buffer(chunk))` (parallel_digest.rs:28-30): pairs up to the shorter list. -/
def feed : List (List (Fl K)) → List D → Prog (List D)
  | [], ds => .ret ds
  | _ :: _, [] => .ret []
  | c :: cs, d :: ds => do
    let d' ← Digest.addBuffer d c
    let ds' ← feed cs ds
    return d' :: ds'

/-- `add_buffer` (parallel_digest.rs:25-42). -/
def addBuffer (p : ParallelDigest D K) (buffer : List (Fl K)) : Prog (ParallelDigest D K) := do
  let cs ← chunks (chunkLen buffer.length p.digests.length) buffer
  let ds ← feed cs p.digests
  let mx ← maxBy id buffer
  let buffMax ← unwrap mx
  let mn ← minBy id buffer
  let buffMin ← unwrap mn
  return { digests := ds, max := Fl.fmax p.max buffMax, min := Fl.fmin p.min buffMin }

/-- `add` (parallel_digest.rs:21-23). -/
def add (p : ParallelDigest D K) (item : Fl K) : Prog (ParallelDigest D K) := p.addBuffer [item]

/-- `count` (parallel_digest.rs:82-84). -/
def count (p : ParallelDigest D K) : Prog Nat := sumCounts p.digests

/-- The sum of `d.est_quantile_at_value(value) * F::from(d.count())` (parallel_digest.rs:45-49). -/
def rankLoop (value : Fl K) : List D → Fl K → Prog (Fl K × List D)
  | [], acc => .ret (acc, [])
  | d :: ds, acc => do
    let r ← Digest.estQuantileAtValue d value
    let n ← Digest.count r.2
    let s ← rankLoop value ds (acc + r.1 * Fl.ofNat n)
    return (s.1, r.2 :: s.2)

/-- `est_quantile_at_value` (parallel_digest.rs:44-51). -/
def estQuantileAtValue (p : ParallelDigest D K) (value : Fl K) : Prog (Fl K × ParallelDigest D K) := do
  let r ← rankLoop value p.digests (Fl.lit 0)
  let p' : ParallelDigest D K := { p with digests := r.2 }
  let n ← p'.count
  return (r.1 / Fl.ofNat n, p')

/-- The loop of `est_value_at_quantile` (parallel_digest.rs:58-70) from `start`, `end` and `mid`, with fuel. -/
def searchLoop (target : Fl K) : Nat → ParallelDigest D K → Fl K → Fl K → Fl K → Prog (Fl K × Fl K × Fl K × ParallelDigest D K)
  | 0, _, _, _, _ => .fail .fuel
  | n + 1, p, start, en, mid =>
    if Fl.lt (Fl.lit (1 / 1000000)) (Fl.fabs (en - start) / (Fl.fabs p.min + Fl.fabs p.max)) then do
      let mid := (start + en) / Fl.lit 2
      let r ← p.estQuantileAtValue mid
      match Fl.cmp r.1 target with
      | none => .fail .unwrap
      | some .gt => searchLoop target n r.2 start mid mid
      | some _ => searchLoop target n r.2 mid en mid
    else .ret (start, en, mid, p)

/-- `est_value_at_quantile` (parallel_digest.rs:53-80). The loop gets fuel for 1000 rounds; that it needs at most 20 in exact
arithmetic is part of the theorems. -/
def estValueAtQuantile (p : ParallelDigest D K) (target : Fl K) : Prog (Fl K × ParallelDigest D K) := do
  let r ← searchLoop target 1000 p p.min p.max ((p.min + p.max) / Fl.lit 2)
  let s ← r.2.2.2.estQuantileAtValue r.1
  if Fl.le target s.1 then return (r.1, s.2)
  else
    let t ← s.2.estQuantileAtValue r.2.2.1
    if Fl.le target t.1 then return (r.2.2.1, t.2)
    else return (r.2.1, t.2)

/-- How a parallel iterator is cut: a piece is folded in order, or cut before its `i`-th element into two pieces. -/
inductive Split where
  | leaf
  | node (i : Nat) (left right : Split)
  deriving DecidableEq

/-- `.reduce(|| F::from(0.0).unwrap(), |acc, x| acc + x)` (parallel_digest.rs:49) for one way of cutting the iterator: every
uncut piece is folded from 0, the results of two pieces are added. -/
def Split.reduce : Split → List (Fl K) → Fl K
  | .leaf, xs => xs.foldl (· + ·) (Fl.lit 0)
  | .node i l r, xs => l.reduce (xs.take i) + r.reduce (xs.drop i)

/-- `.map(|d| d.est_quantile_at_value(value) * F::from(d.count()).unwrap())` (parallel_digest.rs:46-48). -/
def ranks (value : Fl K) : List D → Prog (List (Fl K) × List D)
  | [] => .ret ([], [])
  | d :: ds => do
    let r ← Digest.estQuantileAtValue d value
    let n ← Digest.count r.2
    let s ← ranks value ds
    return ((r.1 * Fl.ofNat n) :: s.1, r.2 :: s.2)

/-- `est_quantile_at_value` (parallel_digest.rs:44-51) with the sum cut as `c` says. -/
def estQuantileSplit (c : Split) (p : ParallelDigest D K) (value : Fl K) : Prog (Fl K × ParallelDigest D K) := do
  let r ← ranks value p.digests
  let p' : ParallelDigest D K := { p with digests := r.2 }
  let n ← p'.count
  return (c.reduce r.1 / Fl.ofNat n, p')

/-- The loop of `est_value_at_quantile` (parallel_digest.rs:58-70), the round with fuel `n` cut as `c n` says. -/
def searchLoopSplit (c : Nat → Split) (target : Fl K) :
    Nat → ParallelDigest D K → Fl K → Fl K → Fl K → Prog (Fl K × Fl K × Fl K × ParallelDigest D K)
  | 0, _, _, _, _ => .fail .fuel
  | n + 1, p, start, en, mid =>
    if Fl.lt (Fl.lit (1 / 1000000)) (Fl.fabs (en - start) / (Fl.fabs p.min + Fl.fabs p.max)) then do
      let mid := (start + en) / Fl.lit 2
      let r ← p.estQuantileSplit (c n) mid
      match Fl.cmp r.1 target with
      | none => .fail .unwrap
      | some .gt => searchLoopSplit c target n r.2 start mid mid
      | some _ => searchLoopSplit c target n r.2 mid en mid
    else .ret (start, en, mid, p)

/-- `est_value_at_quantile` (parallel_digest.rs:53-80) with the sums of its queries cut as `c` says. -/
def estValueSplit (c : Nat → Split) (p : ParallelDigest D K) (target : Fl K) : Prog (Fl K × ParallelDigest D K) := do
  let r ← searchLoopSplit c target 1000 p p.min p.max ((p.min + p.max) / Fl.lit 2)
  let s ← r.2.2.2.estQuantileSplit (c 1000) r.1
  if Fl.le target s.1 then return (r.1, s.2)
  else
    let t ← s.2.estQuantileSplit (c 1001) r.2.2.1
    if Fl.le target t.1 then return (r.2.2.1, t.2)
    else return (r.2.1, t.2)

instance : Digest (ParallelDigest D K) (Fl K) where
  add := add
  addBuffer := addBuffer
  estQuantileAtValue := estQuantileAtValue
  estValueAtQuantile := estValueAtQuantile
  count := count

end ParallelDigest
end AQ

/-
Model of `src/t_digest/par_t_digest.rs`. The chunks are processed one after the other: each works on a digest of its own and
`collect` keeps their order, so the interleaving of the rayon threads cannot be observed.
-/
import Verif.Model.TDigest

set_option linter.unusedSectionVars false

namespace AQ
open Prog
variable {K : Type} [Field K] [LinearOrder K] [IsStrictOrderedRing K] [FloatFmt K]

/-- `struct ParTDigest` (par_t_digest.rs:7-20). `creator` is the closure making new digests. -/
structure ParTDigest (K : Type) where
  digest : TDigest K
  threads : Nat
  buffer : List (Fl K)
  capacity : Nat
  creator : Prog (TDigest K)

namespace ParTDigest

/-- `new` (par_t_digest.rs:49-57). -/
def new (threads capacity : Nat) (creator : Prog (TDigest K)) : Prog (ParTDigest K) := do
  let d ← creator
  return { digest := d, threads := threads, buffer := [], capacity := capacity, creator := creator }

/-- The `map` over the chunks (par_t_digest.rs:64-69). -/
def chunkDigests (creator : Prog (TDigest K)) : List (List (Fl K)) → Prog (List (TDigest K))
  | [] => .ret []
  | c :: cs => do
    let d ← creator
    let d' ← d.addBuffer c
    let ds ← chunkDigests creator cs
    return d' :: ds

/-- `flush` (par_t_digest.rs:59-89). -/
def flush (p : ParTDigest K) : Prog (ParTDigest K) :=
  if p.buffer = [] then .ret p
  else do
    let cs ← chunks p.threads p.buffer
    let ds ← chunkDigests p.creator cs
    let mn ← minBy TDigest.min ds
    let dmin ← unwrap mn
    let mx ← maxBy TDigest.max ds
    let dmax ← unwrap mx
    let d' ← ({ p.digest with min := dmin.min, max := dmax.max } : TDigest K).addCentroidBuffer (ds.flatMap TDigest.centroids)
    return { p with digest := d', buffer := [] }

/-- `total_weight` (par_t_digest.rs:91-93): that of the inner digest, pending items left out. -/
def totalWeight (p : ParTDigest K) : Fl K := p.digest.totalWeight

/-- `if self.buffer.len() > self.capacity { self.flush(); }` (par_t_digest.rs:105-107, 112-114). -/
def flushIfFull (p : ParTDigest K) : Prog (ParTDigest K) :=
  if p.capacity < p.buffer.length then p.flush else .ret p

/-- `add` (par_t_digest.rs:103-108). -/
def add (p : ParTDigest K) (item : Fl K) : Prog (ParTDigest K) :=
  flushIfFull { p with buffer := p.buffer ++ [item] }

/-- `add_buffer` (par_t_digest.rs:109-115). -/
def addBuffer (p : ParTDigest K) (items : List (Fl K)) : Prog (ParTDigest K) :=
  flushIfFull { p with buffer := p.buffer ++ items }

section
variable [FloorRing K]

/-- `est_quantile_at_value` (par_t_digest.rs:116-119). -/
def estQuantileAtValue (p : ParTDigest K) (value : Fl K) : Prog (Fl K × ParTDigest K) := do
  let p' ← p.flush
  let r ← p'.digest.estQuantileAtValue value
  return (r, p')

/-- `est_value_at_quantile` (par_t_digest.rs:120-123). -/
def estValueAtQuantile (p : ParTDigest K) (quantile : Fl K) : Prog (Fl K × ParTDigest K) := do
  let p' ← p.flush
  let r ← p'.digest.estValueAtQuantile quantile
  return (r, p')

/-- `count` (par_t_digest.rs:125-127). -/
def count (p : ParTDigest K) : Prog Nat := do
  let n ← p.digest.count
  return n + p.buffer.length

instance : Digest (ParTDigest K) (Fl K) where
  add := add
  addBuffer := addBuffer
  estQuantileAtValue := estQuantileAtValue
  estValueAtQuantile := estValueAtQuantile
  count := count

end
end ParTDigest
end AQ

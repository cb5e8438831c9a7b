/-
Model of `trait OwnedSize` (src/traits.rs:36-41) and of its seven implementations.

`owned_size` depends on the capacities of the vectors a digest holds, which the other models leave out. So each
digest has here a memory view: its vectors with their capacities, and one field `rest` for the plain data
(numbers, closures). The number types `u32` and `f32` take four bytes. `usize` overflow is not modelled in sums and
products (a sum of sizes of live allocations is below 2^64, except possibly where an implementation counts twice);
subtraction is checked and panics below zero.
-/
import Verif.Base.Prog
import Verif.Spec.Memory

namespace AQ
open Prog Spec

/-- `trait OwnedSize` (traits.rs:36-41). -/
class OwnedSize (T : Type) where
  ownedSize : T → Prog Nat

/-- Memory view of `TDigest` (t_digest.rs:12-30): the centroids; everything else is inline. -/
structure TDigestMem (C R : Type) where
  centroids : RVec C
  rest : R

/-- `impl OwnedSize for TDigest` (t_digest.rs:38-40). -/
instance {C R : Type} [MemSize C] [MemSize (TDigestMem C R)] : OwnedSize (TDigestMem C R) where
  ownedSize d := .ret (MemSize.bytes (TDigestMem C R) + MemSize.bytes C * d.centroids.cap)

/-- Memory view of `RCSketch` (rc_sketch.rs:8-24). -/
structure RCSketchMem (F U R : Type) where
  buffers : RVec (RVec F)
  compactionCounters : RVec U
  rest : R

/-- `impl OwnedSize for RCSketch` (rc_sketch.rs:30-39). -/
instance {F U R : Type} [MemSize F] [MemSize U] [MemSize (RVec F)] [MemSize (RCSketchMem F U R)] :
    OwnedSize (RCSketchMem F U R) where
  ownedSize s := .ret (MemSize.bytes (RCSketchMem F U R)
    + MemSize.bytes (RVec F) * s.buffers.cap
    + (s.buffers.items.map (fun b => MemSize.bytes F * b.cap)).sum
    + MemSize.bytes U * s.compactionCounters.cap)

/-- Memory view of `RCSketch2` (rc_sketch2.rs:8-26); `U` is `u32`, `G` is `f32`. -/
structure RCSketch2Mem (F U G R : Type) where
  buffers : RVec (RVec F)
  compactionCounters : RVec U
  numberOfSections : RVec U
  sectionSizes : RVec G
  rest : R

/-- `impl OwnedSize for RCSketch2` (rc_sketch2.rs:32-42). -/
instance {F U G R : Type} [MemSize F] [MemSize U] [MemSize G] [MemSize (RVec F)] [MemSize (RCSketch2Mem F U G R)] :
    OwnedSize (RCSketch2Mem F U G R) where
  ownedSize s := .ret (MemSize.bytes (RCSketch2Mem F U G R)
    + MemSize.bytes (RVec F) * s.buffers.cap
    + (s.buffers.items.map (fun b => MemSize.bytes F * b.cap)).sum
    + s.compactionCounters.cap * (MemSize.bytes U * 3 + MemSize.bytes G))

/-- Memory view of `BufferedDigest` (buffered_digest.rs:5-13); `R` is the `usize` field. -/
structure BufferedMem (D F R : Type) where
  digest : D
  buffer : RVec F
  rest : R

/-- `impl OwnedSize for BufferedDigest` (buffered_digest.rs:20-24). -/
instance {D F R : Type} [MemSize D] [MemSize F] [OwnedSize D] [MemSize (BufferedMem D F R)] :
    OwnedSize (BufferedMem D F R) where
  ownedSize b := do
    let inner ← OwnedSize.ownedSize b.digest
    let d ← usub inner (MemSize.bytes D)
    return MemSize.bytes (BufferedMem D F R) + MemSize.bytes F * b.buffer.cap + d

/-- Memory view of `ParTDigest` (par_t_digest.rs:7-20): `D` is the `TDigest`, `R` the two `usize` fields and the
creator. -/
structure ParTMem (D F R : Type) where
  digest : D
  buffer : RVec F
  rest : R

/-- `impl OwnedSize for ParTDigest` (par_t_digest.rs:29-33). The bound `C: Fn() -> TDigest + OwnedSize` there asks
the creator to implement `OwnedSize`, which no closure does: the method exists but only a hand-written function type
can reach it. -/
instance {D F R : Type} [MemSize D] [MemSize F] [OwnedSize D] [MemSize (ParTMem D F R)] :
    OwnedSize (ParTMem D F R) where
  ownedSize b := do
    let inner ← OwnedSize.ownedSize b.digest
    let d ← usub inner (MemSize.bytes D)
    return MemSize.bytes (ParTMem D F R) + MemSize.bytes F * b.buffer.cap + d

/-- Memory view of `SymDigest` (sym_digest.rs:8-13). -/
structure SymMem (D : Type) where
  low : D
  high : D

/-- `impl OwnedSize for SymDigest` (sym_digest.rs:15-19). -/
instance {D : Type} [MemSize (SymMem D)] : OwnedSize (SymMem D) where
  ownedSize _ := .ret (MemSize.bytes (SymMem D))

/-- Memory view of `ParallelDigest` (parallel_digest.rs:6-14). -/
structure ParallelMem (D R : Type) where
  digests : RVec D
  rest : R

/-- `.map(|d| d.owned_size()).sum()` (parallel_digest.rs:109). -/
def sumOwned {D : Type} [OwnedSize D] : List D → Prog Nat
  | [] => .ret 0
  | d :: ds => do
    let x ← OwnedSize.ownedSize d
    let y ← sumOwned ds
    return x + y

/-- `impl OwnedSize for ParallelDigest` (parallel_digest.rs:106-110). -/
instance {D R : Type} [MemSize D] [OwnedSize D] [MemSize (ParallelMem D R)] : OwnedSize (ParallelMem D R) where
  ownedSize p := do
    let s ← sumOwned p.digests.items
    return MemSize.bytes (ParallelMem D R) + MemSize.bytes D * p.digests.cap + s

/-! What the fields own: a struct owns what its fields own. -/

/-- The fields of `TDigest`. -/
instance {C R : Type} [MemSize C] [Owns C] [Owns R] : Owns (TDigestMem C R) where
  heap d := Owns.heap d.centroids + Owns.heap d.rest

/-- The fields of `RCSketch`. -/
instance {F U R : Type} [MemSize F] [MemSize U] [MemSize (RVec F)] [Owns F] [Owns U] [Owns R] :
    Owns (RCSketchMem F U R) where
  heap s := Owns.heap s.buffers + Owns.heap s.compactionCounters + Owns.heap s.rest

/-- The fields of `RCSketch2`. -/
instance {F U G R : Type} [MemSize F] [MemSize U] [MemSize G] [MemSize (RVec F)] [Owns F] [Owns U] [Owns G] [Owns R] :
    Owns (RCSketch2Mem F U G R) where
  heap s := Owns.heap s.buffers + Owns.heap s.compactionCounters + Owns.heap s.numberOfSections
    + Owns.heap s.sectionSizes + Owns.heap s.rest

/-- The fields of `BufferedDigest`. -/
instance {D F R : Type} [MemSize F] [Owns D] [Owns F] [Owns R] : Owns (BufferedMem D F R) where
  heap b := Owns.heap b.digest + Owns.heap b.buffer + Owns.heap b.rest

/-- The fields of `ParTDigest`. -/
instance {D F R : Type} [MemSize F] [Owns D] [Owns F] [Owns R] : Owns (ParTMem D F R) where
  heap b := Owns.heap b.digest + Owns.heap b.buffer + Owns.heap b.rest

/-- The fields of `SymDigest`. -/
instance {D : Type} [Owns D] : Owns (SymMem D) where
  heap s := Owns.heap s.low + Owns.heap s.high

/-- The fields of `ParallelDigest`. -/
instance {D R : Type} [MemSize D] [Owns D] [Owns R] : Owns (ParallelMem D R) where
  heap p := Owns.heap p.digests + Owns.heap p.rest

end AQ

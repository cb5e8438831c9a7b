/-
Property C93: `owned_size` is the number of bytes the digest occupies and owns.

`Spec.footprint` (Spec/Memory.lean) is that number. `Faithful` says `owned_size` always returns it. True for
`TDigest`, `RCSketch`, `BufferedDigest` and `ParTDigest` (over a faithful digest); false for `SymDigest`,
`ParallelDigest` and `RCSketch2`, whose deviation is computed exactly.
-/
import Mathlib.Tactic.Ring
import Mathlib.Tactic.Linarith
import Verif.Model.OwnedSize

set_option linter.unusedSectionVars false
set_option linter.unusedVariables false

namespace AQ
open Prog Spec

/-- `owned_size` returns the bytes the value occupies and owns, for every value of the type. -/
def Faithful (T : Type) [MemSize T] [Owns T] [OwnedSize T] : Prop :=
  ∀ x : T, OwnedSize.ownedSize x = .ret (footprint x)

private theorem sum_map_zero {T : Type} [Owns T] (h : Plain T) (l : List T) : (l.map Owns.heap).sum = 0 := by
  induction l with
  | nil => rfl
  | cons a l ih => simp only [List.map_cons, List.sum_cons, h a, ih]

private theorem heap_plain {T : Type} [MemSize T] [Owns T] (h : Plain T) (v : RVec T) :
    Owns.heap v = v.cap * MemSize.bytes T := by
  show v.cap * MemSize.bytes T + _ = _
  rw [sum_map_zero h]; rfl

private theorem heap_nested {T : Type} [MemSize T] [MemSize (RVec T)] [Owns T] (h : Plain T) (v : RVec (RVec T)) :
    Owns.heap v = v.cap * MemSize.bytes (RVec T) + (v.items.map (fun b => MemSize.bytes T * b.cap)).sum := by
  show v.cap * MemSize.bytes (RVec T) + _ = _
  congr 2
  refine List.map_congr_left fun b _ => ?_
  rw [heap_plain h, Nat.mul_comm]

/-- `TDigest::owned_size` is exact. `C` is `Centroid<T>`, `R` the remaining fields (numbers and capture-free
closures). -/
theorem C93_tdigest {C R : Type} [MemSize C] [Owns C] [Owns R] [MemSize (TDigestMem C R)] (hC : Plain C) (hR : Plain R) :
    Faithful (TDigestMem C R) := by
  intro d
  show Prog.ret _ = Prog.ret (_ + (Owns.heap d.centroids + Owns.heap d.rest))
  rw [heap_plain hC, hR, Nat.mul_comm]; rfl

/-- `RCSketch::owned_size` is exact. -/
theorem C93_rcsketch {F U R : Type} [MemSize F] [MemSize U] [MemSize (RVec F)] [Owns F] [Owns U] [Owns R]
    [MemSize (RCSketchMem F U R)] (hF : Plain F) (hU : Plain U) (hR : Plain R) : Faithful (RCSketchMem F U R) := by
  intro s
  show Prog.ret _ = Prog.ret (_ + (Owns.heap s.buffers + Owns.heap s.compactionCounters + Owns.heap s.rest))
  rw [heap_nested hF, heap_plain hU, hR, Nat.mul_comm (MemSize.bytes U), Nat.mul_comm (MemSize.bytes (RVec F))]
  congr 1; ring

/-- `BufferedDigest::owned_size` is exact over a digest whose `owned_size` is, and does not panic. -/
theorem C93_buffered {D F R : Type} [MemSize D] [MemSize F] [Owns D] [Owns F] [Owns R] [OwnedSize D]
    [MemSize (BufferedMem D F R)] (hD : Faithful D) (hF : Plain F) (hR : Plain R) : Faithful (BufferedMem D F R) := by
  intro b
  show (OwnedSize.ownedSize b.digest >>= fun inner => usub inner (MemSize.bytes D) >>= fun d => .ret _) =
    Prog.ret (_ + (Owns.heap b.digest + Owns.heap b.buffer + Owns.heap b.rest))
  have hle : MemSize.bytes D ≤ footprint b.digest := Nat.le_add_right _ _
  rw [hD, bind_ret, usub_eq hle, bind_ret, heap_plain hF, hR, Nat.mul_comm (MemSize.bytes F)]
  unfold footprint
  congr 1; omega

/-- `ParTDigest::owned_size` is exact over a digest whose `owned_size` is, and does not panic. -/
theorem C93_part {D F R : Type} [MemSize D] [MemSize F] [Owns D] [Owns F] [Owns R] [OwnedSize D]
    [MemSize (ParTMem D F R)] (hD : Faithful D) (hF : Plain F) (hR : Plain R) : Faithful (ParTMem D F R) := by
  intro b
  show (OwnedSize.ownedSize b.digest >>= fun inner => usub inner (MemSize.bytes D) >>= fun d => .ret _) =
    Prog.ret (_ + (Owns.heap b.digest + Owns.heap b.buffer + Owns.heap b.rest))
  have hle : MemSize.bytes D ≤ footprint b.digest := Nat.le_add_right _ _
  rw [hD, bind_ret, usub_eq hle, bind_ret, heap_plain hF, hR, Nat.mul_comm (MemSize.bytes F)]
  unfold footprint
  congr 1; omega

/-- `RCSketch2::owned_size` counts sixteen bytes for the three four-byte entries of a level: it is too large by one
`u32` per level, as long as the three vectors (which are always pushed together) have the same capacity. -/
theorem C93_rcsketch2_partial {F U G R : Type} [MemSize F] [MemSize U] [MemSize G] [MemSize (RVec F)]
    [Owns F] [Owns U] [Owns G] [Owns R] [MemSize (RCSketch2Mem F U G R)]
    (hF : Plain F) (hU : Plain U) (hG : Plain G) (hR : Plain R) (s : RCSketch2Mem F U G R)
    (h1 : s.numberOfSections.cap = s.compactionCounters.cap) (h2 : s.sectionSizes.cap = s.compactionCounters.cap) :
    OwnedSize.ownedSize s = .ret (footprint s + MemSize.bytes U * s.compactionCounters.cap) := by
  show Prog.ret _ = Prog.ret (_ + (Owns.heap s.buffers + Owns.heap s.compactionCounters + Owns.heap s.numberOfSections
    + Owns.heap s.sectionSizes + Owns.heap s.rest) + _)
  rw [heap_nested hF, heap_plain hU, heap_plain hU, heap_plain hG, hR, h1, h2]
  congr 1; ring

/-- So it is exact only while no level has been allocated. -/
theorem C93_rcsketch2_wrong {F U G R : Type} [MemSize F] [MemSize U] [MemSize G] [MemSize (RVec F)]
    [Owns F] [Owns U] [Owns G] [Owns R] [MemSize (RCSketch2Mem F U G R)]
    (hF : Plain F) (hU : Plain U) (hG : Plain G) (hR : Plain R) (hu : 0 < MemSize.bytes U) (s : RCSketch2Mem F U G R)
    (h1 : s.numberOfSections.cap = s.compactionCounters.cap) (h2 : s.sectionSizes.cap = s.compactionCounters.cap)
    (hc : 0 < s.compactionCounters.cap) : OwnedSize.ownedSize s ≠ .ret (footprint s) := by
  rw [C93_rcsketch2_partial hF hU hG hR s h1 h2]
  intro h
  have := Nat.mul_pos hu hc
  have h' := (Prog.ret.injEq _ _).mp h
  omega

/-- `SymDigest::owned_size` leaves out everything its two digests own, whatever they are. -/
theorem C93_sym_partial {D : Type} [Owns D] [MemSize (SymMem D)] (s : SymMem D) :
    ∃ n, OwnedSize.ownedSize s = .ret n ∧ footprint s = n + (Owns.heap s.low + Owns.heap s.high) :=
  ⟨_, rfl, rfl⟩

/-- So it is exact exactly when both digests own nothing on the heap. -/
theorem C93_sym_exact_iff {D : Type} [Owns D] [MemSize (SymMem D)] (s : SymMem D) :
    OwnedSize.ownedSize s = .ret (footprint s) ↔ Owns.heap s.low = 0 ∧ Owns.heap s.high = 0 := by
  show Prog.ret _ = Prog.ret (MemSize.bytes (SymMem D) + (Owns.heap s.low + Owns.heap s.high)) ↔ _
  rw [Prog.ret.injEq]; omega

/-- And it never changes, whatever is added: any two digests of the type report the same size. -/
theorem C93_sym_constant {D : Type} [MemSize (SymMem D)] (s t : SymMem D) :
    OwnedSize.ownedSize s = OwnedSize.ownedSize t := rfl

private theorem sumOwned_eq {D : Type} [MemSize D] [Owns D] [OwnedSize D] (hD : Faithful D) : ∀ l : List D,
    sumOwned l = .ret (l.length * MemSize.bytes D + (l.map Owns.heap).sum)
  | [] => by simp [sumOwned]
  | d :: ds => by
    show (OwnedSize.ownedSize d >>= fun x => sumOwned ds >>= fun y => .ret (x + y)) = _
    rw [hD, bind_ret, sumOwned_eq hD ds, bind_ret]
    unfold footprint
    simp only [List.length_cons, List.map_cons, List.sum_cons]
    congr 1; ring

/-- `ParallelDigest::owned_size` counts the inline part of every digest twice: once as a slot of the vector, once in
the digest's own `owned_size`. -/
theorem C93_parallel_partial {D R : Type} [MemSize D] [Owns D] [Owns R] [OwnedSize D] [MemSize (ParallelMem D R)]
    (hD : Faithful D) (hR : Plain R) (p : ParallelMem D R) :
    OwnedSize.ownedSize p = .ret (footprint p + p.digests.items.length * MemSize.bytes D) := by
  show (sumOwned p.digests.items >>= fun s => Prog.ret _) = Prog.ret (_ + (Owns.heap p.digests + Owns.heap p.rest) + _)
  rw [sumOwned_eq hD, bind_ret, hR]
  show _ = Prog.ret (_ + (p.digests.cap * MemSize.bytes D + (p.digests.items.map Owns.heap).sum + 0) + _)
  congr 1; ring

/-- So it is wrong as soon as there is one digest in it. -/
theorem C93_parallel_wrong {D R : Type} [MemSize D] [Owns D] [Owns R] [OwnedSize D] [MemSize (ParallelMem D R)]
    (hD : Faithful D) (hR : Plain R) (hs : 0 < MemSize.bytes D) (p : ParallelMem D R) (hp : p.digests.items ≠ []) :
    OwnedSize.ownedSize p ≠ .ret (footprint p) := by
  rw [C93_parallel_partial hD hR p]
  intro h
  have := Nat.mul_pos (List.length_pos_iff.mpr hp) hs
  have h' := (Prog.ret.injEq _ _).mp h
  omega

/-- A type whose `owned_size` is exact never reports less than the data it stores: for a sketch, at least its items. -/
theorem C93_rcsketch_holds_items {F U R : Type} [MemSize F] [MemSize U] [MemSize (RVec F)] [Owns F] [Owns U] [Owns R]
    [MemSize (RCSketchMem F U R)] (s : RCSketchMem F U R) :
    ∃ n, OwnedSize.ownedSize s = .ret n ∧
      MemSize.bytes (RCSketchMem F U R) + MemSize.bytes F * (s.buffers.items.map (fun b => b.items.length)).sum ≤ n := by
  refine ⟨_, rfl, ?_⟩
  have h : MemSize.bytes F * (s.buffers.items.map (fun b => b.items.length)).sum ≤
      (s.buffers.items.map (fun b => MemSize.bytes F * b.cap)).sum := by
    induction s.buffers.items with
    | nil => simp
    | cons b l ih =>
      simp only [List.map_cons, List.sum_cons, Nat.mul_add]
      exact Nat.add_le_add (Nat.mul_le_mul_left _ b.fits) ih
  omega

/-! Concrete types on a 64-bit target: `f64` items, `u32` counters, 24-byte vectors. -/
section Examples

/-- A plain value of `n` bytes. -/
private structure Bytes (n : Nat) where
  val : Nat := 0

private instance (n : Nat) : MemSize (Bytes n) := ⟨n⟩
private instance (n : Nat) : Owns (Bytes n) := ⟨fun _ => 0⟩
private theorem plain (n : Nat) : Plain (Bytes n) := fun _ => rfl
private instance (T : Type) : MemSize (RVec T) := ⟨24⟩
private instance : MemSize (RCSketchMem (Bytes 8) (Bytes 4) (Bytes 32)) := ⟨80⟩
private instance : MemSize (SymMem (RCSketchMem (Bytes 8) (Bytes 4) (Bytes 32))) := ⟨160⟩
private instance : MemSize (ParallelMem (RCSketchMem (Bytes 8) (Bytes 4) (Bytes 32)) (Bytes 16)) := ⟨40⟩
private instance : MemSize (BufferedMem (SymMem (RCSketchMem (Bytes 8) (Bytes 4) (Bytes 32))) (Bytes 8) (Bytes 8)) := ⟨192⟩

/-- A sketch with one level holding two items in a buffer of four slots. -/
private def sk : RCSketchMem (Bytes 8) (Bytes 4) (Bytes 32) :=
  { buffers := ⟨[⟨[⟨1⟩, ⟨2⟩], 4, by decide⟩], 1, by decide⟩, compactionCounters := ⟨[⟨0⟩], 1, by decide⟩, rest := ⟨0⟩ }

example : Faithful (RCSketchMem (Bytes 8) (Bytes 4) (Bytes 32)) := C93_rcsketch (plain 8) (plain 4) (plain 32)
example : OwnedSize.ownedSize sk = .ret (80 + 24 + 4 * 8 + 4) := rfl
/-- The `SymDigest` of two such sketches occupies 280 bytes and reports 160. -/
example : footprint (SymMem.mk sk sk) = 280 ∧ OwnedSize.ownedSize (SymMem.mk sk sk) = .ret 160 := ⟨rfl, rfl⟩
/-- A `BufferedDigest` around it inherits the loss without a panic. -/
example : OwnedSize.ownedSize
    (BufferedMem.mk (SymMem.mk sk sk) (RVec.mk [] 4 (by decide) : RVec (Bytes 8)) (Bytes.mk 0 : Bytes 8)) =
    .ret (192 + 32) := rfl
/-- A `ParallelDigest` of one sketch occupies 180 bytes and reports 260. -/
example : footprint (ParallelMem.mk (RVec.mk [sk] 1 (by decide)) (Bytes.mk 0 : Bytes 16)) = 180 ∧
    OwnedSize.ownedSize (ParallelMem.mk (RVec.mk [sk] 1 (by decide)) (Bytes.mk 0 : Bytes 16)) = .ret 260 := ⟨rfl, rfl⟩

private instance : MemSize (TDigestMem (Bytes 16) (Bytes 24)) := ⟨48⟩
private instance : MemSize (BufferedMem (TDigestMem (Bytes 16) (Bytes 24)) (Bytes 8) (Bytes 8)) := ⟨80⟩
private instance : MemSize (ParTMem (TDigestMem (Bytes 16) (Bytes 24)) (Bytes 8) (Bytes 16)) := ⟨88⟩
private instance : MemSize (RCSketch2Mem (Bytes 8) (Bytes 4) (Bytes 4) (Bytes 24)) := ⟨120⟩

example : Faithful (BufferedMem (TDigestMem (Bytes 16) (Bytes 24)) (Bytes 8) (Bytes 8)) :=
  C93_buffered (C93_tdigest (plain 16) (plain 24)) (plain 8) (plain 8)
example : Faithful (ParTMem (TDigestMem (Bytes 16) (Bytes 24)) (Bytes 8) (Bytes 16)) :=
  C93_part (C93_tdigest (plain 16) (plain 24)) (plain 8) (plain 16)

/-- One level of capacity four in each vector: 16 bytes too many. -/
private def sk2 : RCSketch2Mem (Bytes 8) (Bytes 4) (Bytes 4) (Bytes 24) :=
  { buffers := ⟨[⟨[], 0, by decide⟩], 4, by decide⟩, compactionCounters := ⟨[⟨0⟩], 4, by decide⟩,
    numberOfSections := ⟨[⟨3⟩], 4, by decide⟩, sectionSizes := ⟨[⟨8⟩], 4, by decide⟩, rest := ⟨0⟩ }

example : footprint sk2 = 264 ∧ OwnedSize.ownedSize sk2 = .ret 280 := ⟨rfl, rfl⟩
example : OwnedSize.ownedSize sk2 ≠ .ret (footprint sk2) :=
  C93_rcsketch2_wrong (plain 8) (plain 4) (plain 4) (plain 24) (by decide) sk2 rfl rfl (by decide)

end Examples

end AQ

/-
Model of `src/rc_sketch/rc_sketch.rs` (complete; `owned_size` is in Model/OwnedSize.lean).
-/
import Mathlib.Data.Nat.Log
import Verif.Model.Compaction

set_option linter.unusedSectionVars false

namespace AQ
variable {K : Type} [Field K] [LinearOrder K] [IsStrictOrderedRing K] [FloatFmt K]

/-- `struct RCSketch` (rc_sketch.rs:8-24). `compactions` and `log` are ghost fields, absent from the code and never read by
the model's functions: the number of compactions performed at each level (the code's own `compaction_counters` are not
bumped by fast compactions), and the level and the compacted items of every compaction, newest first. -/
structure RCSketch (K : Type) where
  buffers : List (List (Fl K))
  inputLength : Nat
  k : Nat
  bufferSize : Nat
  count : Nat
  counters : List Nat
  compactions : List Nat
  log : List (Nat × List (Fl K))
  deriving DecidableEq

namespace RCSketch

/-- `calc_buffer_size` (rc_sketch.rs:102-111): `input_length / k` panics for `k = 0`;
`⌈log2 (n/k)⌉` is `Nat.clog 2 (n/k)` (and for `n/k = 0` the float computation gives `-inf`, hence 0).
Simplification: the float logarithm and products are taken to be exact; `Model/RCBuffer` models them in floating point, and C121
relates the two. -/
def calcBufferSize (inputLength k : Nat) : Prog Nat :=
  if k = 0 then .fail .divZero
  else .ret (max (2 * k * Nat.clog 2 (inputLength / k)) (2 * k))

/-- `RCSketch::new` (rc_sketch.rs:91-100). -/
def new (inputLength k : Nat) : Prog (RCSketch K) := do
  let b ← calcBufferSize inputLength k
  return { buffers := [], inputLength := inputLength, k := k, bufferSize := b, count := 0, counters := [],
           compactions := [], log := [] }

/-- `get_compact_index` (rc_sketch.rs:117-123); the `u32` counter increment panics at `2^32 - 1`. -/
def getCompactIndex (s : RCSketch K) (h : Nat) : Prog (Nat × RCSketch K) := do
  let buf ← Prog.idx s.buffers h
  let c ← Prog.idx s.counters h
  let ci ← Prog.usub buf.length ((trailingOnes c + 1) * s.k)
  if c + 1 < 2 ^ 32 then
    return (ci, { s with counters := s.counters.set h (c + 1) })
  else .fail .overflow

/-- `get_compact_index_fast` (rc_sketch.rs:130-132). -/
def getCompactIndexFast (s : RCSketch K) : Nat := s.bufferSize / 2

/-- `compact` (rc_sketch.rs:243-274). -/
def compact (s : RCSketch K) (h ci : Nat) (m : CompactionMethod) : Prog (List (Fl K) × RCSketch K) := do
  let buf ← Prog.idx s.buffers h
  let srt ← sortFl buf
  if ci ≤ srt.length then
    let out ← compactUpper m (srt.drop ci)
    return (out, { s with buffers := s.buffers.set h (srt.take ci),
                          compactions := s.compactions.set h (s.compactions.getD h 0 + 1),
                          log := (h, srt.drop ci) :: s.log })
  else .fail .oob

/-- The compaction step shared by `insert_at_rc` and `insert_at_rc_batch` (rc_sketch.rs:176-181, 222-227). -/
def compactAt (s : RCSketch K) (h : Nat) (fast : Bool) (m : CompactionMethod) : Prog (List (Fl K) × RCSketch K) :=
  (if fast then .ret (s.getCompactIndexFast, s) else s.getCompactIndex h) >>= fun r => r.2.compact h r.1 m

/-- "Create a new buffer if required" (rc_sketch.rs:169-172, 205-208). -/
def ensureLevel (s : RCSketch K) (h : Nat) : RCSketch K :=
  if s.buffers.length ≤ h then
    { s with buffers := s.buffers ++ [[]], counters := s.counters ++ [0], compactions := s.compactions ++ [0] }
  else s

/-- Replace buffer `h`. -/
def setBuf (s : RCSketch K) (h : Nat) (b : List (Fl K)) : RCSketch K := { s with buffers := s.buffers.set h b }

mutual
/-- `insert_at_rc_batch` (rc_sketch.rs:197-236). The first argument bounds loop iterations and recursion depth. -/
def batch (fast : Bool) (m : CompactionMethod) : Nat → List (Fl K) → Nat → RCSketch K → Prog (RCSketch K)
  | 0, _, _, _ => .fail .fuel
  | f + 1, items, h, s => fill fast m f items h (s.ensureLevel h)
/-- The outer `while current_index < items.len()` loop (rc_sketch.rs:212-235); `items` is the part still to be
inserted. -/
def fill (fast : Bool) (m : CompactionMethod) : Nat → List (Fl K) → Nat → RCSketch K → Prog (RCSketch K)
  | 0, _, _, _ => .fail .fuel
  | f + 1, items, h, s =>
    if items = [] then .ret s
    else do
      let buf ← Prog.idx s.buffers h
      let room ← Prog.usub s.bufferSize buf.length
      let s' ← drain fast m f h (s.setBuf h (buf ++ items.take room))
      fill fast m f (items.drop room) h s'
/-- The inner `while self.buffers[rc_index].len() >= self.buffer_size` loop (rc_sketch.rs:221-234). -/
def drain (fast : Bool) (m : CompactionMethod) : Nat → Nat → RCSketch K → Prog (RCSketch K)
  | 0, _, _ => .fail .fuel
  | f + 1, h, s => do
    let buf ← Prog.idx s.buffers h
    if s.bufferSize ≤ buf.length then do
      let r ← s.compactAt h fast m
      let s' ← batch fast m f r.1 (h + 1) r.2
      drain fast m f h s'
    else .ret s
end

/-- Number of stored items (used only to choose a sufficient loop bound). -/
def stored (s : RCSketch K) : Nat := (s.buffers.map List.length).sum

/-- A loop bound sufficient for inserting `n` items (see `C07_…` and `C122_…`: it is not exhausted before the code panics). -/
def fuelFor (s : RCSketch K) (n : Nat) : Nat := n + 10 + (s.buffers.length + s.stored + n + 3) * (s.bufferSize + 10)

/-- `insert_at_rc` (rc_sketch.rs:161-189). -/
def insertAt (f : Nat) (item : Fl K) (h : Nat) (fast : Bool) (m : CompactionMethod) (s : RCSketch K) :
    Prog (RCSketch K) := do
  let s := s.ensureLevel h
  let buf ← Prog.idx s.buffers h
  let s := s.setBuf h (buf ++ [item])
  if s.bufferSize ≤ (buf ++ [item]).length then do
    let r ← s.compactAt h fast m
    batch fast m f r.1 (h + 1) r.2
  else .ret s

/-- `add` (rc_sketch.rs:46-50). -/
def add (s : RCSketch K) (item : Fl K) : Prog (RCSketch K) := do
  let s ← insertAt (s.fuelFor 1) item 0 false .default s
  return { s with count := s.count + 1 }

/-- The `for_each` over chunks (rc_sketch.rs:149-151). -/
def batches (fast : Bool) (m : CompactionMethod) : List (List (Fl K)) → RCSketch K → Prog (RCSketch K)
  | [], s => .ret s
  | c :: cs, s => do
    let s ← batch fast m (s.fuelFor c.length) c 0 s
    batches fast m cs s

/-- `add_buffer_custom` (rc_sketch.rs:141-153). -/
def addBufferCustom (s : RCSketch K) (items : List (Fl K)) (fast : Bool) (m : CompactionMethod) :
    Prog (RCSketch K) := do
  let cs ← chunks (s.bufferSize / 2) items
  let s ← batches fast m cs s
  return { s with count := s.count + items.length }

/-- `add_buffer` (rc_sketch.rs:52-59). -/
def addBuffer (s : RCSketch K) (items : List (Fl K)) : Prog (RCSketch K) := do
  let cs ← chunks (s.bufferSize / 2) items
  let s ← batches false .default cs s
  return { s with count := s.count + items.length }

/-- `add_buffer_fast` (rc_sketch.rs:134-136). -/
def addBufferFast (s : RCSketch K) (items : List (Fl K)) : Prog (RCSketch K) := s.addBufferCustom items true .default

/-- `interpolate_rank` (rc_sketch.rs:279-285). -/
def interpolateRank (s : RCSketch K) (x : Fl K) : Prog Nat := rankFrom x 0 0 s.buffers

/-- `est_quantile_at_value` (rc_sketch.rs:61-63). -/
def estQuantileAtValue (s : RCSketch K) (x : Fl K) : Prog (Fl K) := estQuantileFrom s.buffers s.count x

/-- `est_value_at_quantile` (rc_sketch.rs:65-76). -/
def estValueAtQuantile (s : RCSketch K) (q : Fl K) : Prog (Fl K) := estValueFrom s.buffers s.count q

instance : Digest (RCSketch K) (Fl K) where
  add := add
  addBuffer := addBuffer
  estQuantileAtValue s v := do let r ← s.estQuantileAtValue v; return (r, s)
  estValueAtQuantile s q := do let r ← s.estValueAtQuantile q; return (r, s)
  count s := .ret s.count

end RCSketch

/-- An insertion call on an `RCSketch`/`RCSketch2`. -/
inductive InsOp (K : Type) where
  | add (x : Fl K)
  | addBuffer (xs : List (Fl K))
  | addBufferFast (xs : List (Fl K))
  | addBufferCustom (xs : List (Fl K)) (fast : Bool) (m : CompactionMethod)

/-- Items supplied by an insertion call. -/
def InsOp.items : InsOp K → List (Fl K)
  | .add x => [x]
  | .addBuffer xs => xs
  | .addBufferFast xs => xs
  | .addBufferCustom xs _ _ => xs

/-- Compaction method used by an insertion call. -/
def InsOp.method : InsOp K → CompactionMethod
  | .addBufferCustom _ _ m => m
  | _ => .default

/-- Whether the call uses fast compaction. -/
def InsOp.fast : InsOp K → Bool
  | .addBufferCustom _ fast _ => fast
  | .addBufferFast _ => true
  | _ => false

/-- Items supplied by a history of insertion calls. -/
def insItems (ops : List (InsOp K)) : List (Fl K) := ops.flatMap InsOp.items

namespace RCSketch
/-- Execute an insertion call. -/
def execOp (s : RCSketch K) : InsOp K → Prog (RCSketch K)
  | .add x => s.add x
  | .addBuffer xs => s.addBuffer xs
  | .addBufferFast xs => s.addBufferFast xs
  | .addBufferCustom xs fast m => s.addBufferCustom xs fast m

/-- Execute a history of insertion calls. -/
def execOps (s : RCSketch K) : List (InsOp K) → Prog (RCSketch K)
  | [] => .ret s
  | o :: os => do let s' ← s.execOp o; execOps s' os

/-- `new(n, k)` followed by a history of insertion calls. -/
def runHist (n k : Nat) (ops : List (InsOp K)) : Prog (RCSketch K) := do
  let s ← RCSketch.new n k
  execOps s ops
end RCSketch
end AQ

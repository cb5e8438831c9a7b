/-
Model of `src/rc_sketch/rc_sketch2.rs` (complete; `owned_size` is in Model/OwnedSize.lean).

Section sizes: the code starts with `k as f32` and divides by `2.0f32.sqrt()` each time the number of sections doubles,
and only ever uses the value truncated to an integer. The model keeps the number of divisions `divs` and takes
the truncated size after `j` divisions from an arbitrary function `sec : Nat → Nat` (a parameter of every
function); `realSec k` is that function for exact arithmetic, `f32Sec k` (Model/RC2Sections.lean) as the code computes it.
Simplifications: the parallel vectors `buffers`, `compaction_counters`, `number_of_sections`, `section_sizes` (always pushed
together by `grow`) are one list of records; the `u32` products in `calc_buffer_size` do not overflow (`k < 2^25`).
-/
import Verif.Model.RCSketch

set_option linter.unusedSectionVars false

namespace AQ
variable {K : Type} [Field K] [LinearOrder K] [IsStrictOrderedRing K] [FloatFmt K]

/-- One level of an `RCSketch2` (rc_sketch2.rs:13-25). `compactions` and `log` are ghost fields (never read): the
number of compactions performed at this level, fast ones included, and the items removed by each, the latest first. -/
structure Level2 (K : Type) where
  buf : List (Fl K)
  counter : Nat
  sections : Nat
  divs : Nat
  compactions : Nat
  log : List (List (Fl K))
  deriving DecidableEq

/-- `struct RCSketch2` (rc_sketch2.rs:8-26). -/
structure RCSketch2 (K : Type) where
  levels : List (Level2 K)
  sketchSize : Nat
  k : Nat
  count : Nat
  deriving DecidableEq

/-- Section size after `j` divisions by `√2` in exact arithmetic, truncated: `⌊k / √2^j⌋`. -/
def realSec (k j : Nat) : Nat := Nat.sqrt (k ^ 2 / 2 ^ j)

namespace RCSketch2

/-- The level pushed by `grow` (rc_sketch2.rs:241-246), with contents `b`. -/
def newLevel (b : List (Fl K)) : Level2 K := ⟨b, 0, 3, 0, 0, []⟩

/-- `RCSketch2::new` (rc_sketch2.rs:92-104). -/
def new (k : Nat) : RCSketch2 K := { levels := [newLevel []], sketchSize := 0, k := k, count := 0 }

/-- `calc_buffer_size` (rc_sketch2.rs:109-111). -/
def cap (sec : Nat → Nat) (l : Level2 K) : Nat := 2 * l.sections * sec l.divs

/-- `update_sections` (rc_sketch2.rs:116-121); `2.0.powi(n - 1)` and the comparison are exact for the values that occur. -/
def updateSections (l : Level2 K) : Level2 K :=
  if 2 ^ (l.sections - 1) ≤ l.counter then { l with sections := 2 * l.sections, divs := l.divs + 1 } else l

/-- `get_compact_index` (rc_sketch2.rs:127-136). -/
def getCompactIndex (sec : Nat → Nat) (l : Level2 K) : Prog (Nat × Level2 K) := do
  let a ← Prog.usub l.sections (trailingOnes l.counter)
  let b ← Prog.usub a 1
  if l.counter + 1 < 2 ^ 32 then
    .ret (l.buf.length / 2 + b * sec l.divs, { l with counter := l.counter + 1 })
  else .fail .overflow

/-- `get_compact_index_fast` (rc_sketch2.rs:143-145). -/
def getCompactIndexFast (sec : Nat → Nat) (l : Level2 K) : Nat := cap sec l / 2

/-- `compact_buffer` (rc_sketch2.rs:253-285) without the `sketch_size` update, which needs the length of the removed part
(second component). -/
def compactBuffer (l : Level2 K) (ci : Nat) (m : CompactionMethod) : Prog (List (Fl K) × Nat × Level2 K) := do
  let srt ← sortFl l.buf
  if ci ≤ srt.length then
    let out ← compactUpper m (srt.drop ci)
    .ret (out, (srt.drop ci).length, { l with
      buf := srt.take ci, compactions := l.compactions + 1, log := srt.drop ci :: l.log })
  else .fail .oob

/-- The body of the `if` in `compress` up to `update_sections` (rc_sketch2.rs:223-229). -/
def compactLevel (sec : Nat → Nat) (fast : Bool) (m : CompactionMethod) (l : Level2 K) :
    Prog (List (Fl K) × Nat × Level2 K) :=
  (if fast then .ret (getCompactIndexFast sec l, l) else getCompactIndex sec l) >>= fun r =>
    compactBuffer r.2 r.1 m >>= fun c => .ret (c.1, c.2.1, updateSections c.2.2)

/-- `self.buffers[h + 1].extend(output_items)` (rc_sketch2.rs:234). -/
def extend (l : Level2 K) : Option (List (Fl K)) → Level2 K
  | none => l
  | some out => { l with buf := l.buf ++ out }

/-- The loop of `compress` (rc_sketch2.rs:221-236) from some level on. `size` is `sketch_size`, `carry` the output of the
level below (`none` when that level was not compacted). The loop range is fixed at the start, so a level created by
`grow` is not visited: at the end of the list a pending output becomes a new level. -/
def compressFrom (sec : Nat → Nat) (fast : Bool) (m : CompactionMethod) :
    Nat → Option (List (Fl K)) → List (Level2 K) → Prog (Nat × List (Level2 K))
  | size, none, [] => .ret (size, [])
  | size, some out, [] => .ret (size, [newLevel out])
  | size, carry, l :: ls =>
    if cap sec (extend l carry) ≤ (extend l carry).buf.length then
      compactLevel sec fast m (extend l carry) >>= fun c =>
        Prog.usub size c.2.1 >>= fun size' =>
          compressFrom sec fast m (size' + c.1.length) (some c.1) ls >>= fun r => .ret (r.1, c.2.2 :: r.2)
    else
      compressFrom sec fast m size none ls >>= fun r => .ret (r.1, extend l carry :: r.2)

/-- `compress` (rc_sketch2.rs:220-238). -/
def compress (sec : Nat → Nat) (fast : Bool) (m : CompactionMethod) (s : RCSketch2 K) : Prog (RCSketch2 K) := do
  let r ← compressFrom sec fast m s.sketchSize none s.levels
  .ret { s with sketchSize := r.1, levels := r.2 }

/-- `get_sketch_capacity` (rc_sketch2.rs:211-215). -/
def capacity (sec : Nat → Nat) (s : RCSketch2 K) : Nat := (s.levels.map (cap sec)).sum

/-- `self.buffers[0].extend(xs); self.sketch_size += xs.len()` (rc_sketch2.rs:172-173, 199-200). -/
def pushAll (s : RCSketch2 K) (xs : List (Fl K)) : Prog (RCSketch2 K) :=
  match s.levels with
  | [] => .fail .oob
  | l :: ls => .ret { s with levels := { l with buf := l.buf ++ xs } :: ls, sketchSize := s.sketchSize + xs.length }

/-- "If the sketch is full compress" (rc_sketch2.rs:174-177, 203-205). -/
def compressIfFull (sec : Nat → Nat) (fast : Bool) (m : CompactionMethod) (s : RCSketch2 K) : Prog (RCSketch2 K) :=
  if capacity sec s ≤ s.sketchSize then compress sec fast m s else .ret s

/-- `insert` (rc_sketch2.rs:171-178). -/
def insert (sec : Nat → Nat) (fast : Bool) (m : CompactionMethod) (x : Fl K) (s : RCSketch2 K) : Prog (RCSketch2 K) :=
  pushAll s [x] >>= compressIfFull sec fast m

/-- The loop of `insert_batch` (rc_sketch2.rs:192-206); `xs` are the items still to be inserted. -/
def insertBatchLoop (sec : Nat → Nat) (fast : Bool) (m : CompactionMethod) :
    Nat → List (Fl K) → RCSketch2 K → Prog (RCSketch2 K)
  | _, [], s => .ret s
  | 0, _ :: _, _ => .fail .fuel
  | f + 1, x :: xs, s =>
    if s.sketchSize ≤ capacity sec s then
      pushAll s ((x :: xs).take (capacity sec s - s.sketchSize)) >>= fun s' =>
        compressIfFull sec fast m s' >>= fun s'' =>
          insertBatchLoop sec fast m f ((x :: xs).drop (capacity sec s - s.sketchSize)) s''
    else .fail .explicit

/-- `insert_batch` (rc_sketch2.rs:185-207). The loop bound suffices (`C19_…`). -/
def insertBatch (sec : Nat → Nat) (fast : Bool) (m : CompactionMethod) (xs : List (Fl K)) (s : RCSketch2 K) :
    Prog (RCSketch2 K) := insertBatchLoop sec fast m xs.length xs s

/-- `add` (rc_sketch2.rs:49-53). -/
def add (sec : Nat → Nat) (s : RCSketch2 K) (x : Fl K) : Prog (RCSketch2 K) := do
  let s ← insert sec false .default x s
  .ret { s with count := s.count + 1 }

/-- `add_buffer_custom` (rc_sketch2.rs:154-164). -/
def addBufferCustom (sec : Nat → Nat) (s : RCSketch2 K) (xs : List (Fl K)) (fast : Bool) (m : CompactionMethod) :
    Prog (RCSketch2 K) := do
  let s ← insertBatch sec fast m xs s
  .ret { s with count := s.count + xs.length }

/-- `add_buffer` (rc_sketch2.rs:55-60). -/
def addBuffer (sec : Nat → Nat) (s : RCSketch2 K) (xs : List (Fl K)) : Prog (RCSketch2 K) := do
  let s ← insertBatch sec false .default xs s
  .ret { s with count := s.count + xs.length }

/-- `add_buffer_fast` (rc_sketch2.rs:147-149). -/
def addBufferFast (sec : Nat → Nat) (s : RCSketch2 K) (xs : List (Fl K)) : Prog (RCSketch2 K) :=
  addBufferCustom sec s xs true .default

/-- The public field `buffers`. -/
def buffers (s : RCSketch2 K) : List (List (Fl K)) := s.levels.map Level2.buf

/-- `interpolate_rank` (rc_sketch2.rs:290-296). -/
def interpolateRank (s : RCSketch2 K) (x : Fl K) : Prog Nat := rankFrom x 0 0 s.buffers

/-- `est_quantile_at_value` (rc_sketch2.rs:62-64). -/
def estQuantileAtValue (s : RCSketch2 K) (x : Fl K) : Prog (Fl K) := estQuantileFrom s.buffers s.count x

/-- `est_value_at_quantile` (rc_sketch2.rs:66-77). -/
def estValueAtQuantile (s : RCSketch2 K) (q : Fl K) : Prog (Fl K) := estValueFrom s.buffers s.count q

/-- Execute an insertion call. -/
def execOp (sec : Nat → Nat) (s : RCSketch2 K) : InsOp K → Prog (RCSketch2 K)
  | .add x => s.add sec x
  | .addBuffer xs => s.addBuffer sec xs
  | .addBufferFast xs => s.addBufferFast sec xs
  | .addBufferCustom xs fast m => s.addBufferCustom sec xs fast m

/-- Execute a history of insertion calls. -/
def execOps (sec : Nat → Nat) (s : RCSketch2 K) : List (InsOp K) → Prog (RCSketch2 K)
  | [] => .ret s
  | o :: os => s.execOp sec o >>= fun s' => execOps sec s' os

/-- `new(k)` followed by a history of insertion calls. -/
def runHist (sec : Nat → Nat) (k : Nat) (ops : List (InsOp K)) : Prog (RCSketch2 K) := execOps sec (new k) ops

end RCSketch2

/-- An `RCSketch2` whose section sizes are computed by `sec`. -/
def RC2 (sec : Nat → Nat) (K : Type) : Type := RCSketch2 K

/-- `RCSketch2::new` (rc_sketch2.rs:92-104). -/
def RC2.new (sec : Nat → Nat) (k : Nat) : RC2 sec K := RCSketch2.new k

/-- `impl Digest for RCSketch2` (rc_sketch2.rs:45-82). -/
instance (sec : Nat → Nat) : Digest (RC2 sec K) (Fl K) where
  add := RCSketch2.add sec
  addBuffer := RCSketch2.addBuffer sec
  estQuantileAtValue s v := do let r ← RCSketch2.estQuantileAtValue s v; return (r, s)
  estValueAtQuantile s q := do let r ← RCSketch2.estValueAtQuantile s q; return (r, s)
  count s := .ret (RCSketch2.count s)

end AQ

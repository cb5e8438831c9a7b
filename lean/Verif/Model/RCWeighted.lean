/-
Clients that call the public level-wise insertion functions of `RCSketch` directly (rc_sketch.rs:161-236).
-/
import Verif.Model.RCSketch

set_option linter.unusedSectionVars false

namespace AQ
variable {K : Type} [Field K] [LinearOrder K] [IsStrictOrderedRing K] [FloatFmt K]

/-- A direct call of `insert_at_rc` (rc_sketch.rs:161-189) or `insert_at_rc_batch` (rc_sketch.rs:197-236). -/
inductive LevelCall (K : Type) where
  | item (x : Fl K) (h : Nat) (fast : Bool) (m : CompactionMethod)
  | batch (xs : List (Fl K)) (h : Nat) (fast : Bool) (m : CompactionMethod)

namespace LevelCall

/-- The items passed. -/
def items : LevelCall K → List (Fl K)
  | .item x _ _ _ => [x]
  | .batch xs _ _ _ => xs

/-- `rc_index`. -/
def lvl : LevelCall K → Nat
  | .item _ h _ _ => h
  | .batch _ h _ _ => h

/-- `fast_compaction`. -/
def fast : LevelCall K → Bool
  | .item _ _ f _ => f
  | .batch _ _ f _ => f

/-- `compaction_method`. -/
def method : LevelCall K → CompactionMethod
  | .item _ _ _ m => m
  | .batch _ _ _ m => m

/-- The call itself: `insert_at_rc` (rc_sketch.rs:161-189), `insert_at_rc_batch` (rc_sketch.rs:197-236). Neither touches `count`. -/
def exec (s : RCSketch K) : LevelCall K → Prog (RCSketch K)
  | .item x h fast m => RCSketch.insertAt (s.fuelFor 1) x h fast m s
  | .batch xs h fast m => RCSketch.batch fast m (s.fuelFor xs.length) xs h s

/-- A sequence of such calls. -/
def execs (s : RCSketch K) : List (LevelCall K) → Prog (RCSketch K)
  | [] => .ret s
  | c :: cs => do let s' ← c.exec s; execs s' cs

end LevelCall

/-- Any insertion call of the public interface: `add`, `add_buffer`, … or a level-wise one. -/
inductive AnyIns (K : Type) where
  | plain (o : InsOp K)
  | level (c : LevelCall K)

namespace AnyIns

/-- The items passed. -/
def items : AnyIns K → List (Fl K)
  | .plain o => o.items
  | .level c => c.items

/-- The level inserted at. -/
def lvl : AnyIns K → Nat
  | .plain _ => 0
  | .level c => c.lvl

/-- Fast compaction? -/
def fast : AnyIns K → Bool
  | .plain o => o.fast
  | .level c => c.fast

/-- Compaction method. -/
def method : AnyIns K → CompactionMethod
  | .plain o => o.method
  | .level c => c.method

/-- Execute a call. -/
def exec (s : RCSketch K) : AnyIns K → Prog (RCSketch K)
  | .plain o => s.execOp o
  | .level c => c.exec s

/-- Execute a history. -/
def execs (s : RCSketch K) : List (AnyIns K) → Prog (RCSketch K)
  | [] => .ret s
  | o :: os => do let s' ← o.exec s; execs s' os

/-- `new(n, k)` followed by a history. -/
def run (n k : Nat) (ops : List (AnyIns K)) : Prog (RCSketch K) := do
  let s ← RCSketch.new n k
  execs s ops

end AnyIns

namespace RCSketch

/-- The calls `a.insert_at_rc_batch(&b.buffers[h], h, fast, method)` for `h = i, i + 1, …`. -/
def levelCalls (fast : Bool) (m : CompactionMethod) : Nat → List (List (Fl K)) → List (LevelCall K)
  | _, [] => []
  | i, b :: bs => .batch b i fast m :: levelCalls fast m (i + 1) bs

/-- A client that merges `b` into `a` through the public interface (`buffers` and `count` are public fields, rc_sketch.rs:8-24):
every level of `b` is passed to `insert_at_rc_batch` of `a` at that level, then the counts are added. -/
def mergeInto (a b : RCSketch K) (fast : Bool) (m : CompactionMethod) : Prog (RCSketch K) := do
  let s ← LevelCall.execs a (levelCalls fast m 0 b.buffers)
  return { s with count := s.count + b.count }

end RCSketch
end AQ

/-
Model of the remaining public calls that change an `RCSketch2`: `insert` and `insert_batch` called directly (they do not
touch `count`), `compress`, `grow` and `update_sections` (src/rc_sketch/rc_sketch2.rs).
-/
import Verif.Model.RCSketch2

set_option linter.unusedSectionVars false

namespace AQ
variable {K : Type} [Field K] [LinearOrder K] [IsStrictOrderedRing K] [FloatFmt K]

/-- A public call on an `RCSketch2`. Not included: `get_compact_index` and `compact_buffer`, which hand internal work to the
caller. -/
inductive Call2 (K : Type) where
  | ins (o : InsOp K)
  | insert (x : Fl K) (fast : Bool) (m : CompactionMethod)
  | insertBatch (xs : List (Fl K)) (fast : Bool) (m : CompactionMethod)
  | compress (fast : Bool) (m : CompactionMethod)
  | grow
  | updateSections (h : Nat)

namespace RCSketch2

/-- `grow` (rc_sketch2.rs:241-246). -/
def grow (s : RCSketch2 K) : RCSketch2 K := { s with levels := s.levels ++ [newLevel []] }

/-- `update_sections(h)` (rc_sketch2.rs:116-121); the index is checked. -/
def updateSectionsAt (s : RCSketch2 K) (h : Nat) : Prog (RCSketch2 K) :=
  match s.levels[h]? with
  | none => .fail .oob
  | some l => .ret { s with levels := s.levels.set h (updateSections l) }

/-- Execute a public call. -/
def execCall (sec : Nat → Nat) (s : RCSketch2 K) : Call2 K → Prog (RCSketch2 K)
  | .ins o => s.execOp sec o
  | .insert x fast m => RCSketch2.insert sec fast m x s
  | .insertBatch xs fast m => RCSketch2.insertBatch sec fast m xs s
  | .compress fast m => RCSketch2.compress sec fast m s
  | .grow => .ret s.grow
  | .updateSections h => s.updateSectionsAt h

/-- Execute public calls in turn. -/
def execCalls (sec : Nat → Nat) (s : RCSketch2 K) : List (Call2 K) → Prog (RCSketch2 K)
  | [] => .ret s
  | c :: cs => s.execCall sec c >>= fun s' => execCalls sec s' cs

/-- `new(k)` followed by public calls. -/
def runCalls (sec : Nat → Nat) (k : Nat) (cs : List (Call2 K)) : Prog (RCSketch2 K) := execCalls sec (new k) cs

end RCSketch2
end AQ

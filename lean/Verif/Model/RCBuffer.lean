/-
The buffer size of `src/rc_sketch/rc_sketch.rs` as the code computes it, in the floating-point type of the items.
-/
import Mathlib.Algebra.Order.Floor.Defs
import Verif.Model.RCSketch

set_option linter.unusedSectionVars false

namespace AQ
variable {K : Type} [Field K] [LinearOrder K] [IsStrictOrderedRing K] [FloatFmt K]

/-- `Float::log2` (rc_sketch.rs:106); `lg` is its result for positive finite numbers, a parameter because the standard library
does not specify its accuracy. -/
def Fl.log2 (lg : K → K) : Fl K → Fl K
  | .nan => .nan
  | .ninf => .nan
  | .pinf => .pinf
  | .fin a => if a < 0 then .nan else if a = 0 then .ninf else .fin (lg a)

section
variable [FloorRing K]

/-- `Float::ceil` (rc_sketch.rs:106); the result of rounding up a float is a float. -/
def Fl.fceil : Fl K → Fl K
  | .fin a => .fin (⌈a⌉ : K)
  | a => a

namespace RCSketch

/-- `calc_buffer_size` (rc_sketch.rs:102-111) with its conversions, products and logarithm in the type of the items: `input_length / k`
panics for `k = 0`, `to_usize` of a negative or infinite product is `None`, hence 0. Simplification: `2 * k` does not overflow. -/
def calcBufferSizeIn (lg : K → K) (inputLength k : Nat) : Prog Nat :=
  if k = 0 then .fail .divZero
  else .ret (max ((Fl.toUsize (Fl.lit 2 * Fl.ofNat k * Fl.fceil (Fl.log2 lg (Fl.ofNat (inputLength / k))))).getD 0) (2 * k))

/-- `RCSketch::new` (rc_sketch.rs:91-100) with the buffer size as computed. -/
def newIn (lg : K → K) (inputLength k : Nat) : Prog (RCSketch K) := do
  let b ← calcBufferSizeIn lg inputLength k
  return { buffers := [], inputLength := inputLength, k := k, bufferSize := b, count := 0, counters := [],
           compactions := [], log := [] }

/-- `new(n, k)` followed by a history of insertion calls. -/
def runHistIn (lg : K → K) (n k : Nat) (ops : List (InsOp K)) : Prog (RCSketch K) := do
  let s ← newIn lg n k
  execOps s ops

end RCSketch
end
end AQ

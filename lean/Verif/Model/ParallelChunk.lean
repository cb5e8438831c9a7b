/-
The chunk length of `src/parallel_digest.rs` as the code computes it, in `f64` whatever the type of the items.
-/
import Verif.Model.ParallelDigest
import Verif.Model.RCBuffer
import Verif.Spec.F64

set_option linter.unusedSectionVars false

namespace AQ
open Prog Spec

/-- `x as usize` for a float: towards zero, 0 for NaN, saturating (parallel_digest.rs:27). -/
def Fl.asUsize : Fl ℚ → Nat
  | .nan => 0
  | .ninf => 0
  | .pinf => 2 ^ 64 - 1
  | .fin x => min ⌊x⌋₊ (2 ^ 64 - 1)

namespace ParallelDigest

section
attribute [local instance] f64Fmt

/-- `((buffer.len() as f64 / self.digests.len() as f64).ceil() as usize).max(1)` (parallel_digest.rs:27). -/
def chunkLen64 (len digests : Nat) : Nat :=
  Max.max (Fl.asUsize (Fl.fceil ((Fl.ofNat len : Fl ℚ) / Fl.ofNat digests))) 1

end

variable {K : Type} [Field K] [LinearOrder K] [IsStrictOrderedRing K] [FloatFmt K] {D : Type} [Digest D (Fl K)]

/-- `add_buffer` (parallel_digest.rs:25-42) with the chunk length as computed. -/
def addBuffer64 (p : ParallelDigest D K) (buffer : List (Fl K)) : Prog (ParallelDigest D K) := do
  let cs ← chunks (chunkLen64 buffer.length p.digests.length) buffer
  let ds ← feed cs p.digests
  let mx ← maxBy id buffer
  let buffMax ← unwrap mx
  let mn ← minBy id buffer
  let buffMin ← unwrap mn
  return { digests := ds, max := Fl.fmax p.max buffMax, min := Fl.fmin p.min buffMin }

end ParallelDigest
end AQ

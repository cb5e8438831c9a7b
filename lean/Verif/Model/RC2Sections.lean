/-
The section sizes of `src/rc_sketch/rc_sketch2.rs` as computed, in `f32` arithmetic.
-/
import Mathlib.Algebra.Order.Floor.Semiring
import Mathlib.Data.Rat.Floor
import Verif.Model.RCSketch2
import Verif.Spec.F64

set_option linter.unusedSectionVars false

namespace AQ
open Spec

/-- `2.0f32.sqrt()` (rc_sketch2.rs:119): `√2` correctly rounded (`sqrtTwoF32_nearest`). -/
def sqrtTwoF32 : ℚ := 11863283 / 8388608

/-- `section_sizes[h]` after `j` calls of `update_sections` that doubled the number of sections: `k as f32`
(rc_sketch2.rs:244), divided by `2.0.sqrt()` each time (rc_sketch2.rs:119). -/
def f32Size (k : Nat) : Nat → ℚ
  | 0 => Ieee.single.round k
  | j + 1 => Ieee.single.round (f32Size k j / sqrtTwoF32)

/-- `section_sizes[h] as u32` (rc_sketch2.rs:110) and `as usize` (rc_sketch2.rs:133). -/
def f32Sec (k j : Nat) : Nat := ⌊f32Size k j⌋₊

end AQ

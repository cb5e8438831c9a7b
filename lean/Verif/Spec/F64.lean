/-
IEEE 754 binary floating point: `f32` and `f64` with subnormal numbers, overflow to infinity and rounding to nearest, ties to
even. Used as instances of the rounding classes of `Base/Fl` and in counterexamples.
-/
import Mathlib.Data.Rat.Floor
import Verif.Base.Fl

namespace AQ.Spec

/-- Nearest integer, ties to even. -/
def roundEven (y : ℚ) : ℤ :=
  let f := ⌊y⌋
  if y - f < 1 / 2 then f
  else if 1 / 2 < y - f then f + 1
  else if f % 2 = 0 then f else f + 1

/-- `2^e`, in a form that evaluates quickly. -/
def pow2 (e : ℤ) : ℚ := if 0 ≤ e then ((2 ^ e.toNat : ℕ) : ℚ) else 1 / ((2 ^ (-e).toNat : ℕ) : ℚ)

/-- The exponent of a positive number: `2^(ilog2 x) ≤ x < 2^(ilog2 x + 1)`. -/
def ilog2 (x : ℚ) : ℤ :=
  let e := (Nat.log2 x.num.natAbs : ℤ) - (Nat.log2 x.den : ℤ)
  if pow2 e ≤ x then e else e - 1

/-- A binary format: `p` significant bits, numbers are multiples of `2^emin`, the largest number is `(2^p - 1) * 2^top`. -/
structure Ieee where
  p : Nat
  emin : ℤ
  top : ℤ

/-- `f64`. -/
def Ieee.double : Ieee := ⟨53, -1074, 971⟩

/-- `f32`. -/
def Ieee.single : Ieee := ⟨24, -149, 104⟩

/-- The largest finite number. -/
def Ieee.max (f : Ieee) : ℚ := (2 ^ f.p - 1) * pow2 f.top

/-- Rounding of a positive number, as if exponents were unbounded above. -/
def Ieee.roundPos (f : Ieee) (x : ℚ) : ℚ :=
  let e := Max.max f.emin (ilog2 x - (f.p - 1))
  (roundEven (x / pow2 e) : ℚ) * pow2 e

/-- Rounding of any number, as if exponents were unbounded above. -/
def Ieee.round (f : Ieee) (x : ℚ) : ℚ :=
  if 0 < x then f.roundPos x else if x < 0 then -(f.roundPos (-x)) else 0

/-- Rounding: to infinity when the rounded number exceeds the largest finite number. -/
def Ieee.rnd (f : Ieee) (x : ℚ) : Fl ℚ :=
  let y := f.round x
  if f.max < y then .pinf else if y < -f.max then .ninf else .fin y

/-- Arithmetic of the format, with sums that the code takes in `f64` taken in `f64`. -/
@[reducible] def Ieee.fmt (f : Ieee) : FloatFmt ℚ where
  rnd := f.rnd
  rnd64 := Ieee.double.rnd
  maxVal := f.max

/-- `f64` arithmetic. -/
@[reducible] def f64Fmt : FloatFmt ℚ := Ieee.double.fmt

/-- `f32` arithmetic. -/
@[reducible] def f32Fmt : FloatFmt ℚ := Ieee.single.fmt

/-- The numbers of a format up to overflow: integers of at most `p` bits times a power of two not below `2^emin`. -/
def Ieee.Rep (f : Ieee) (x : ℚ) : Prop := ∃ (m e : ℤ), |m| ≤ 2 ^ f.p ∧ f.emin ≤ e ∧ x = m * 2 ^ e

end AQ.Spec

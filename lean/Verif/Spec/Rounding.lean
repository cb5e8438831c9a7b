/-
What is asked of a rounding arithmetic for the digests to be safe in it.
-/
import Verif.Spec.Basic
import Verif.Model.Centroid
import Verif.Model.Traits

set_option linter.unusedSectionVars false

namespace AQ.Spec
variable {K : Type} [Field K] [LinearOrder K] [IsStrictOrderedRing K] [FloatFmt K]

/-- The arithmetic has room for `N` items between `A` and `B`: counts and their halves are exact (in the format and in `f64`),
multiples of the bounds are exact, no sum over the range overflows, and a product with a count is off by at most one unit.
Holds for `f64` with `N ≤ 2^52`, `B = -A = 2^e`, `e ≤ 970`, see `f64_roomy`. -/
structure Roomy (N : Nat) (A B : K) : Prop where
  counts : ExactCounts K N
  counts64 : ∀ m : Nat, m ≤ N → FloatFmt.rnd64 (m : K) = .fin (m : K)
  lo : ∀ m : Nat, m ≤ N → FloatFmt.rnd (A * m) = .fin (A * m)
  hi : ∀ m : Nat, m ≤ N → FloatFmt.rnd (B * m) = .fin (B * m)
  range : -FloatFmt.maxVal ≤ A ∧ A ≤ B ∧ B ≤ FloatFmt.maxVal
  negHalf : FloatFmt.rnd (-(1 / 2) : K) = .fin (-(1 / 2))
  width : ∃ w : K, FloatFmt.rnd (B - A) = .fin w
  scaled : ∀ m : Nat, m ≤ 2 * N → ∀ x y : K, 0 ≤ x → x ≤ B - A → FloatFmt.rnd x = .fin y →
    FloatFmt.rnd (m / 2 * y) ≤ .fin ((m / 2 + 1) * y)

/-- Numbers of magnitude up to `R` are rounded to a number, with relative error at most `u` or absolute error at most `η`
(which comes from the smallest numbers of the format). -/
structure RelErr (u η R : K) : Prop where
  u_nonneg : 0 ≤ u
  eta_nonneg : 0 ≤ η
  near : ∀ x : K, |x| ≤ R → ∃ y : K, FloatFmt.rnd x = .fin y ∧ |y - x| ≤ u * |x| + η

/-- The difference between a number of the format and a nearby half-integer is computed without error: `x ≥ 1`, distance at most 1 (a case of
Sterbenz's lemma for binary formats). -/
def CloseExact (K : Type) [Field K] [LinearOrder K] [FloatFmt K] (N : Nat) : Prop :=
  ∀ (x : K) (k : Nat), k ≤ 2 * N → FloatFmt.rnd x = .fin x → 1 ≤ x → |x - (k : K) / 2| ≤ 1 →
    FloatFmt.rnd (x - (k : K) / 2) = .fin (x - (k : K) / 2) ∧ FloatFmt.rnd ((k : K) / 2 - x) = .fin ((k : K) / 2 - x)

/-- What a bisection between `lo` and `hi` needs of the arithmetic and of the data: relative error at most `2^-24` (`f32`),
no overflow for sums of two numbers of the range, and a range that is large compared with the smallest number of the format. -/
structure SearchRoom (u η R lo hi : K) : Prop where
  err : RelErr u η R
  hu : u ≤ 1 / 2 ^ 24
  heta : η ≤ 1 / 2 ^ 50
  two : 2 ≤ R
  fits : 2 * (|lo| + |hi|) ≤ R
  large : η * 2 ^ 30 ≤ |lo| + |hi|
  pos : 0 < |lo| + |hi|
  le : lo ≤ hi
  lo2 : (Fl.fin lo).CanDouble
  hi2 : (Fl.fin hi).CanDouble

/-- A centroid with mean between `A` and `B` and an integer weight, at least 1. -/
def Within (A B : K) (c : Centroid K) : Prop :=
  ∃ (m : K) (w : Nat), c.mean = .fin m ∧ A ≤ m ∧ m ≤ B ∧ c.weight = .fin (w : K) ∧ 1 ≤ w

/-- An item between `A` and `B`. -/
def ItemIn (A B : K) (x : Fl K) : Prop := ∃ y : K, x = .fin y ∧ A ≤ y ∧ y ≤ B

/-- A call with items between `A` and `B` and finite arguments. -/
def OpIn (A B : K) : Op (Fl K) → Prop
  | .add x => ItemIn A B x
  | .addBuffer xs => ∀ x ∈ xs, ItemIn A B x
  | .quantile v => v.IsFin
  | .value q => q.IsFin

end AQ.Spec

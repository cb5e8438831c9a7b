/-
Floating point numbers as the code sees them (`num_traits::Float`).

`Fl K` is NaN, the two infinities, or a finite value of an ordered field `K`. Arithmetic on finite
values is exact arithmetic in `K` followed by a rounding function `FloatFmt.rnd`, which is a parameter:
theorems hold for every rounding, for every monotone rounding, or for exact arithmetic, as stated.
Simplification: `0` and `-0` are the same number.
-/
import Mathlib.Algebra.Order.Field.Basic
import Mathlib.Algebra.Order.Floor.Ring
import Mathlib.Algebra.Order.Round
import Mathlib.Data.Rat.Floor
import Verif.Base.Prog

set_option linter.unusedSectionVars false

namespace AQ

/-- A floating point value. -/
inductive Fl (K : Type) where
  | nan
  | ninf
  | fin (x : K)
  | pinf
  deriving DecidableEq, Repr

/-- A floating point format: rounding of an exact result to the format of the code's type parameter
(`rnd`), to `f64` (`rnd64`, used by `TDigest` sums), and the largest finite value. -/
class FloatFmt (K : Type) where
  rnd : K → Fl K
  rnd64 : K → Fl K
  maxVal : K

namespace Fl
variable {K : Type}

/-- Total order used only to sort NaN-free lists and in proofs: -inf < finite < +inf < NaN. -/
def leTot [LE K] : Fl K → Fl K → Prop
  | _, nan => True
  | nan, _ => False
  | ninf, _ => True
  | _, pinf => True
  | pinf, _ => False
  | _, ninf => False
  | fin a, fin b => a ≤ b

section order
variable [LinearOrder K]

instance (a b : Fl K) : Decidable (leTot a b) := by
  cases a <;> cases b <;> unfold leTot <;> infer_instance

instance : LinearOrder (Fl K) where
  le := leTot
  le_refl a := by cases a <;> simp [leTot]
  le_trans a b c := by
    cases a <;> cases b <;> cases c <;> simp [leTot]
    exact le_trans
  le_antisymm a b := by
    cases a <;> cases b <;> simp [leTot]
    exact le_antisymm
  le_total a b := by
    cases a <;> cases b <;> simp [leTot]
    exact le_total _ _
  toDecidableLE := fun a b => inferInstanceAs (Decidable (leTot a b))

@[simp] theorem fin_le_fin {a b : K} : (fin a ≤ fin b) ↔ a ≤ b := Iff.rfl
@[simp] theorem fin_lt_fin {a b : K} : (fin a < fin b) ↔ a < b := by
  rw [← not_le, ← not_le, fin_le_fin]
@[simp] theorem ninf_le (a : Fl K) : ninf ≤ a := by
  change leTot ninf a; cases a <;> simp [leTot]
@[simp] theorem le_nan (a : Fl K) : a ≤ nan := by
  change leTot a nan; cases a <;> simp [leTot]
@[simp] theorem fin_le_pinf (a : K) : fin a ≤ pinf := trivial
@[simp] theorem pinf_not_le_fin (a : K) : ¬ (pinf ≤ fin a) := fun h => h
@[simp] theorem fin_not_le_ninf (a : K) : ¬ (fin a ≤ ninf) := fun h => h
@[simp] theorem pinf_not_le_ninf : ¬ ((pinf : Fl K) ≤ ninf) := fun h => h
@[simp] theorem nan_not_le_fin (a : K) : ¬ (nan ≤ fin a) := fun h => h
@[simp] theorem nan_not_le_pinf : ¬ ((nan : Fl K) ≤ pinf) := fun h => h
@[simp] theorem nan_not_le_ninf : ¬ ((nan : Fl K) ≤ ninf) := fun h => h

/-- `a.partial_cmp(&b)`: `None` when either is NaN. -/
def cmp : Fl K → Fl K → Option Ordering
  | nan, _ => none
  | _, nan => none
  | a, b => some (compare a b)

/-- IEEE `a < b` (false on NaN). -/
def lt : Fl K → Fl K → Bool
  | nan, _ => false
  | _, nan => false
  | a, b => decide (a < b)

/-- IEEE `a <= b` (false on NaN). -/
def le : Fl K → Fl K → Bool
  | nan, _ => false
  | _, nan => false
  | a, b => decide (a ≤ b)

/-- IEEE `a == b` (false on NaN). -/
def feq : Fl K → Fl K → Bool
  | nan, _ => false
  | _, nan => false
  | a, b => decide (a = b)

/-- `x.is_nan()`. -/
def isNan : Fl K → Bool
  | nan => true
  | _ => false

@[simp] theorem isNan_fin (a : K) : isNan (fin a) = false := rfl
@[simp] theorem isNan_nan : isNan (nan : Fl K) = true := rfl
@[simp] theorem isNan_pinf : isNan (pinf : Fl K) = false := rfl
@[simp] theorem isNan_ninf : isNan (ninf : Fl K) = false := rfl

theorem isNan_eq_false {a : Fl K} : isNan a = false ↔ a ≠ nan := by cases a <;> simp [isNan]

@[simp] theorem lt_nan_left (a : Fl K) : lt nan a = false := rfl
@[simp] theorem lt_nan_right (a : Fl K) : lt a nan = false := by cases a <;> rfl
@[simp] theorem le_nan_left (a : Fl K) : le nan a = false := rfl
@[simp] theorem le_nan_right (a : Fl K) : le a nan = false := by cases a <;> rfl
@[simp] theorem feq_nan_left (a : Fl K) : feq nan a = false := rfl
@[simp] theorem feq_nan_right (a : Fl K) : feq a nan = false := by cases a <;> rfl

theorem lt_eq {a b : Fl K} (ha : a ≠ nan) (hb : b ≠ nan) : lt a b = decide (a < b) := by
  cases a <;> cases b <;> first | contradiction | rfl
theorem le_eq {a b : Fl K} (ha : a ≠ nan) (hb : b ≠ nan) : le a b = decide (a ≤ b) := by
  cases a <;> cases b <;> first | contradiction | rfl
theorem feq_eq {a b : Fl K} (ha : a ≠ nan) (hb : b ≠ nan) : feq a b = decide (a = b) := by
  cases a <;> cases b <;> first | contradiction | rfl
theorem cmp_eq {a b : Fl K} (ha : a ≠ nan) (hb : b ≠ nan) : cmp a b = some (compare a b) := by
  cases a <;> cases b <;> first | contradiction | rfl

@[simp] theorem lt_fin (a b : K) : lt (fin a) (fin b) = decide (a < b) := by
  simp [lt]
@[simp] theorem le_fin (a b : K) : le (fin a) (fin b) = decide (a ≤ b) := by
  simp [le]
@[simp] theorem feq_fin (a b : K) : feq (fin a) (fin b) = decide (a = b) := by
  simp [feq]
theorem cmp_fin (a b : K) : cmp (fin a) (fin b) = some (compare a b) := by
  simp only [cmp, Option.some.injEq]
  rcases lt_trichotomy a b with h | h | h
  · rw [compare_lt_iff_lt.2 h, compare_lt_iff_lt.2 (fin_lt_fin.2 h)]
  · subst h; simp
  · rw [compare_gt_iff_gt.2 h, compare_gt_iff_gt.2 (fin_lt_fin.2 h)]

/-- Rust `Float::max`: the other operand when one is NaN. -/
def fmax : Fl K → Fl K → Fl K
  | nan, b => b
  | a, nan => a
  | a, b => max a b

/-- Rust `Float::min`: the other operand when one is NaN. -/
def fmin : Fl K → Fl K → Fl K
  | nan, b => b
  | a, nan => a
  | a, b => min a b

theorem fmax_eq {a b : Fl K} (ha : a ≠ nan) (hb : b ≠ nan) : fmax a b = max a b := by
  cases a <;> cases b <;> first | contradiction | rfl
theorem fmin_eq {a b : Fl K} (ha : a ≠ nan) (hb : b ≠ nan) : fmin a b = min a b := by
  cases a <;> cases b <;> first | contradiction | rfl

theorem max_fin (a b : K) : max (fin a) (fin b) = fin (max a b) := by
  rcases le_total a b with h | h
  · rw [max_eq_right h, max_eq_right (fin_le_fin.2 h)]
  · rw [max_eq_left h, max_eq_left (fin_le_fin.2 h)]
theorem min_fin (a b : K) : min (fin a) (fin b) = fin (min a b) := by
  rcases le_total a b with h | h
  · rw [min_eq_left h, min_eq_left (fin_le_fin.2 h)]
  · rw [min_eq_right h, min_eq_right (fin_le_fin.2 h)]
@[simp] theorem fmax_fin (a b : K) : fmax (fin a) (fin b) = fin (max a b) := by
  rw [fmax_eq (by simp) (by simp), max_fin]
@[simp] theorem fmin_fin (a b : K) : fmin (fin a) (fin b) = fin (min a b) := by
  rw [fmin_eq (by simp) (by simp), min_fin]

end order

section arith
variable [Field K] [LinearOrder K] [IsStrictOrderedRing K]

/-- Sign change (exact in IEEE arithmetic). -/
def neg : Fl K → Fl K
  | nan => nan
  | ninf => pinf
  | fin a => fin (-a)
  | pinf => ninf

instance : Neg (Fl K) := ⟨neg⟩

/-- `x.abs()` (exact in IEEE arithmetic). -/
def fabs : Fl K → Fl K
  | nan => nan
  | ninf => pinf
  | fin a => fin |a|
  | pinf => pinf

@[simp] theorem neg_fin (a : K) : -(fin a) = fin (-a) := rfl
@[simp] theorem neg_nan : -(nan : Fl K) = nan := rfl
@[simp] theorem neg_pinf : -(pinf : Fl K) = ninf := rfl
@[simp] theorem neg_ninf : -(ninf : Fl K) = pinf := rfl
@[simp] theorem fabs_fin (a : K) : fabs (fin a) = fin |a| := rfl

/-- Addition with rounding function `r`. -/
def addR (r : K → Fl K) : Fl K → Fl K → Fl K
  | nan, _ => nan
  | _, nan => nan
  | pinf, ninf => nan
  | ninf, pinf => nan
  | pinf, _ => pinf
  | _, pinf => pinf
  | ninf, _ => ninf
  | _, ninf => ninf
  | fin a, fin b => r (a + b)

/-- Infinity with the sign of `a` (`a ≠ 0`). -/
def signInf (a : K) : Fl K := if 0 < a then pinf else if a < 0 then ninf else nan

variable [FloatFmt K]
open FloatFmt

/-- A literal such as `F::from(0.5).unwrap()`. -/
def lit (x : K) : Fl K := rnd x

/-- `F::from(n).unwrap()` for an integer `n`. -/
def ofNat (n : Nat) : Fl K := rnd (n : K)

/-- Addition. -/
instance : Add (Fl K) := ⟨addR rnd⟩

/-- Subtraction. -/
instance : Sub (Fl K) := ⟨fun a b => a + -b⟩

/-- Multiplication. -/
def mul : Fl K → Fl K → Fl K
  | nan, _ => nan
  | _, nan => nan
  | pinf, pinf => pinf
  | pinf, ninf => ninf
  | ninf, pinf => ninf
  | ninf, ninf => pinf
  | pinf, fin b => signInf b
  | ninf, fin b => signInf (-b)
  | fin a, pinf => signInf a
  | fin a, ninf => signInf (-a)
  | fin a, fin b => rnd (a * b)

instance : Mul (Fl K) := ⟨mul⟩

/-- Division (IEEE: `x/0 = ±inf`, `0/0 = NaN`; the sign of zero is not modelled). -/
def div : Fl K → Fl K → Fl K
  | nan, _ => nan
  | _, nan => nan
  | pinf, fin b => if b < 0 then ninf else pinf
  | ninf, fin b => if b < 0 then pinf else ninf
  | pinf, _ => nan
  | ninf, _ => nan
  | fin _, pinf => fin 0
  | fin _, ninf => fin 0
  | fin a, fin b => if b = 0 then signInf a else rnd (a / b)

instance : Div (Fl K) := ⟨div⟩

theorem add_fin (a b : K) : fin a + fin b = rnd (a + b) := rfl
theorem sub_fin (a b : K) : fin a - fin b = rnd (a - b) := by
  rw [sub_eq_add_neg]; rfl
theorem mul_fin (a b : K) : fin a * fin b = rnd (a * b) := rfl
theorem div_fin (a b : K) : fin a / fin b = if b = 0 then signInf a else rnd (a / b) := rfl
theorem div_fin_of_ne {b : K} (a : K) (hb : b ≠ 0) : fin a / fin b = rnd (a / b) := by
  rw [div_fin, if_neg hb]
@[simp] theorem nan_add (a : Fl K) : nan + a = nan := rfl
@[simp] theorem add_nan (a : Fl K) : a + nan = nan := by cases a <;> rfl
@[simp] theorem nan_mul (a : Fl K) : nan * a = nan := rfl
@[simp] theorem mul_nan (a : Fl K) : a * nan = nan := by cases a <;> rfl
@[simp] theorem nan_div (a : Fl K) : nan / a = nan := rfl
@[simp] theorem div_nan (a : Fl K) : a / nan = nan := by cases a <;> rfl
@[simp] theorem nan_sub (a : Fl K) : nan - a = nan := rfl
@[simp] theorem sub_nan (a : Fl K) : a - nan = nan := by cases a <;> rfl

/-- `T::max_value()` -/
def maxValue : Fl K := fin maxVal
/-- `T::min_value()` -/
def minValue : Fl K := fin (-maxVal)

/-- Addition in `f64`. -/
def add64 : Fl K → Fl K → Fl K := addR rnd64

/-- `.sum::<f64>()` of a list already converted to `f64` (conversion from `f32`/`f64` is exact). -/
def sum64 (l : List (Fl K)) : Fl K := l.foldl add64 (fin 0)

/-- `T::from(x).unwrap()` for an `f64` value `x`. -/
def ofF64 : Fl K → Fl K
  | fin a => rnd a
  | a => a

end arith

section floor
variable [Field K] [LinearOrder K] [IsStrictOrderedRing K] [FloorRing K]

/-- `x.to_usize()` / `x.to_u64()` of num-traits: truncation, `None` outside `(-1, 2^64)` or NaN. -/
def toUsize : Fl K → Option Nat
  | fin x => if -1 < x ∧ x < 2 ^ 64 then some ⌊x⌋₊ else none
  | _ => none

/-- `x.round()`: nearest integer, halves away from zero (the result is always representable when
`x` is, so no rounding follows). -/
def fround : Fl K → Fl K
  | fin x => if 0 ≤ x then fin (⌊x + 1 / 2⌋ : K) else fin (⌈x - 1 / 2⌉ : K)
  | a => a

end floor
end Fl

/-- Exact arithmetic: no rounding error, no overflow. -/
class FloatFmt.Exact (K : Type) [FloatFmt K] : Prop where
  rnd_eq : ∀ x : K, FloatFmt.rnd x = .fin x
  rnd64_eq : ∀ x : K, FloatFmt.rnd64 x = .fin x

/-- Monotone rounding that is exact on 0, 1/2, 1, 2 (IEEE round-to-nearest is an instance). -/
class FloatFmt.Mono (K : Type) [Field K] [LinearOrder K] [FloatFmt K] : Prop where
  rnd_ne_nan : ∀ x : K, FloatFmt.rnd x ≠ .nan
  rnd_mono : ∀ x y : K, x ≤ y → FloatFmt.rnd x ≤ FloatFmt.rnd y
  rnd_zero : FloatFmt.rnd (0 : K) = .fin 0
  rnd_half : FloatFmt.rnd (1 / 2 : K) = .fin (1 / 2)
  rnd_one : FloatFmt.rnd (1 : K) = .fin 1
  rnd_two : FloatFmt.rnd (2 : K) = .fin 2

/-- Binary floating point: rounded numbers are not changed by rounding again, and twice a number of the format is a number of the
format again unless it exceeds twice some larger number that can still be doubled (no overflow). Holds for IEEE formats. -/
class FloatFmt.Binary (K : Type) [Field K] [LinearOrder K] [FloatFmt K] : Prop extends FloatFmt.Mono K where
  rnd_idem : ∀ x y : K, FloatFmt.rnd x = .fin y → FloatFmt.rnd y = .fin y
  rnd_double : ∀ a x b : K, a ≤ x → x ≤ b → FloatFmt.rnd x = .fin x → FloatFmt.rnd (2 * a) = .fin (2 * a) →
    FloatFmt.rnd (2 * b) = .fin (2 * b) → FloatFmt.rnd (2 * x) = .fin (2 * x)

/-- A finite number of the format whose double does not overflow (in IEEE formats: at most half the largest number). -/
def Fl.CanDouble {K : Type} [Field K] [FloatFmt K] (x : Fl K) : Prop :=
  ∃ a : K, x = .fin a ∧ FloatFmt.rnd a = .fin a ∧ FloatFmt.rnd (2 * a) = .fin (2 * a)

section
variable {K : Type} [Field K] [LinearOrder K] [IsStrictOrderedRing K] [FloatFmt K]

instance [h : FloatFmt.Exact K] : FloatFmt.Mono K where
  rnd_ne_nan x := by rw [h.rnd_eq]; simp
  rnd_mono x y hxy := by rw [h.rnd_eq, h.rnd_eq]; simpa using hxy
  rnd_zero := h.rnd_eq _
  rnd_half := h.rnd_eq _
  rnd_one := h.rnd_eq _
  rnd_two := h.rnd_eq _

instance [h : FloatFmt.Exact K] : FloatFmt.Binary K where
  rnd_idem _ y _ := h.rnd_eq y
  rnd_double _ _ _ _ _ _ _ _ := h.rnd_eq _

namespace Fl
section exact
variable [FloatFmt.Exact K]
@[simp] theorem rnd_exact (x : K) : FloatFmt.rnd x = fin x := FloatFmt.Exact.rnd_eq x
@[simp] theorem rnd64_exact (x : K) : FloatFmt.rnd64 x = fin x := FloatFmt.Exact.rnd64_eq x
@[simp] theorem lit_exact (x : K) : lit x = fin x := FloatFmt.Exact.rnd_eq x
@[simp] theorem ofNat_exact (n : Nat) : (ofNat n : Fl K) = fin (n : K) := FloatFmt.Exact.rnd_eq _
@[simp] theorem add_exact (a b : K) : fin a + fin b = fin (a + b) := by rw [add_fin, rnd_exact]
@[simp] theorem sub_exact (a b : K) : fin a - fin b = fin (a - b) := by rw [sub_fin, rnd_exact]
@[simp] theorem mul_exact (a b : K) : fin a * fin b = fin (a * b) := by rw [mul_fin, rnd_exact]
theorem div_exact (a : K) {b : K} (hb : b ≠ 0) : fin a / fin b = fin (a / b) := by
  rw [div_fin_of_ne _ hb, rnd_exact]
@[simp] theorem add64_exact (a b : K) : add64 (fin a) (fin b) = fin (a + b) := by
  simp [add64, addR]
@[simp] theorem ofF64_exact (a : Fl K) : ofF64 a = a := by cases a <;> simp [ofF64]
end exact
end Fl
end

/-- Exact arithmetic on ℚ, used for executable checks and counterexamples. -/
@[reducible] def ratExact : FloatFmt ℚ where
  rnd := .fin
  rnd64 := .fin
  maxVal := 10 ^ 300

theorem ratExact_exact : @FloatFmt.Exact ℚ ratExact :=
  @FloatFmt.Exact.mk ℚ ratExact (fun _ => rfl) (fun _ => rfl)

end AQ

/-
Small independent specifications used to state the properties.
-/
import Verif.Base.Fl

set_option linter.unusedSectionVars false

namespace AQ
variable {K : Type}

/-- The number a finite floating point value stands for (0 otherwise; only used next to finiteness hypotheses). -/
def Fl.toK [Zero K] : Fl K → K
  | .fin x => x
  | _ => 0

/-- The value is an ordinary number. -/
def Fl.IsFin (a : Fl K) : Prop := ∃ x : K, a = .fin x

theorem Fl.canDouble_exact {K : Type} [Field K] [LinearOrder K] [IsStrictOrderedRing K] [FloatFmt K] [h : FloatFmt.Exact K]
    {x : Fl K} : x.CanDouble ↔ x.IsFin :=
  ⟨fun ⟨a, ha, _⟩ => ⟨a, ha⟩, fun ⟨a, ha⟩ => ⟨a, ha, h.rnd_eq _, h.rnd_eq _⟩⟩

end AQ

namespace AQ.Spec
variable {K : Type}

/-- `v` is the `i`-th smallest element (counting from 0) of the multiset `l`. -/
def IsOrderStat {α : Type} [LinearOrder α] (l : List α) (i : Nat) (v : α) : Prop :=
  v ∈ l ∧ l.countP (fun x => x < v) ≤ i ∧ i < l.countP (fun x => x ≤ v)

/-- Number of items `≤ x`: the true rank of `x`. -/
def rank {α : Type} [LinearOrder α] (l : List α) (x : α) : Nat := l.countP (fun y => y ≤ x)

/-- Nearest integer (halves up) of a non-negative number. -/
def roundNat [Field K] [LinearOrder K] [IsStrictOrderedRing K] [FloorRing K] (x : K) : Nat := ⌊x + 1 / 2⌋₊

/-- Number of data below `v` plus half of those equal to `v` (only when at least two are equal). -/
def midRank [Field K] [LinearOrder K] (l : List (Fl K)) (v : Fl K) : K :=
  (l.countP (fun x => Fl.lt x v) : K) +
    if 2 ≤ l.countP (fun x => Fl.feq x v) then (l.countP (fun x => Fl.feq x v) : K) / 2 else 0

/-- Integers and half-integers up to `n` are represented exactly (true for `f64` up to 2^52, for `f32` up to 2^23,
and for exact arithmetic always). -/
def ExactCounts (K : Type) [Field K] [FloatFmt K] (n : Nat) : Prop :=
  ∀ m : Nat, m ≤ 2 * n → FloatFmt.rnd ((m : K) / 2) = .fin ((m : K) / 2)

end AQ.Spec

namespace AQ.Spec
/-- `Σ_h 2^h · l[h]`: level `h` counts `2^h`. -/
def wsum : List Nat → Nat
  | [] => 0
  | a :: l => a + 2 * wsum l

/-- The stored items of a sketch as weighted rank function: `Σ_h 2^h · #{y in level h | y ≤ x}`. -/
def weightedRank {α : Type} [LinearOrder α] (levels : List (List α)) (x : α) : Nat :=
  wsum (levels.map (fun b => rank b x))
end AQ.Spec

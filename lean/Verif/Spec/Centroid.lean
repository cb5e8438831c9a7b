/-
Specifications about weighted values: finite key/weight bookkeeping independent of the data structures.
-/
import Verif.Model.KeyedSumTree
import Verif.Spec.Basic

set_option linter.unusedSectionVars false

namespace AQ
open Prog
variable {K : Type} [Field K] [LinearOrder K] [IsStrictOrderedRing K] [FloatFmt K]

namespace Spec

/-- Sum of the weights of the pairs whose key is strictly below `key`. -/
def weightBelow (l : List (Centroid K)) (key : Fl K) : K :=
  ((l.filter (fun c => c.mean < key)).map (fun c => c.weight.toK)).sum

/-- An update of a key/weight table. -/
inductive KOp (K : Type) where
  | insert (key weight : Fl K)
  | delete (key : Fl K)

/-- The table after a sequence of updates, as an unordered list of pairs. -/
def KOp.contents (c : List (Centroid K)) : List (KOp K) → List (Centroid K)
  | [] => c
  | .insert k w :: ops => contents (⟨k, w⟩ :: c) ops
  | .delete k :: ops => contents (c.filter (fun p => p.mean ≠ k)) ops

/-- Insert only fresh non-NaN keys, delete only present keys. -/
def KOp.Valid (c : List (Centroid K)) : List (KOp K) → Prop
  | [] => True
  | .insert k w :: ops => k ≠ .nan ∧ (∀ p ∈ c, p.mean ≠ k) ∧ Valid (⟨k, w⟩ :: c) ops
  | .delete k :: ops => (∃ p ∈ c, p.mean = k) ∧ Valid (c.filter (fun p => p.mean ≠ k)) ops

/-- Insert only fresh non-NaN keys, delete only the currently largest key. -/
def KOp.ValidMax (c : List (Centroid K)) : List (KOp K) → Prop
  | [] => True
  | .insert k w :: ops => k ≠ .nan ∧ (∀ p ∈ c, p.mean ≠ k) ∧ ValidMax (⟨k, w⟩ :: c) ops
  | .delete k :: ops => (∃ p ∈ c, p.mean = k) ∧ (∀ p ∈ c, p.mean ≤ k) ∧
      ValidMax (c.filter (fun p => p.mean ≠ k)) ops

/-- All weights mentioned are ordinary numbers. -/
def KOp.FinW : List (KOp K) → Prop
  | [] => True
  | .insert _ w :: ops => w.IsFin ∧ FinW ops
  | .delete _ :: ops => FinW ops

/-- All keys mentioned are ordinary numbers. -/
def KOp.FinK : List (KOp K) → Prop
  | [] => True
  | .insert k _ :: ops => k.IsFin ∧ FinK ops
  | .delete _ :: ops => FinK ops

/-- Total weight of a list of weighted values. -/
def totalW (cs : List (Centroid K)) : K := (cs.map (fun c => c.weight.toK)).sum

/-- Sum of `mean · weight`. -/
def totalMass (cs : List (Centroid K)) : K := (cs.map (fun c => c.mean.toK * c.weight.toK)).sum

/-- The single weighted value with the same total weight and mass. -/
def weightedMean (cs : List (Centroid K)) : Centroid K := ⟨.fin (totalMass cs / totalW cs), .fin (totalW cs)⟩

/-- Ordinary mean, positive ordinary weight. -/
def Good (c : Centroid K) : Prop := c.mean.IsFin ∧ ∃ w : K, 0 < w ∧ c.weight = .fin w

/-- `runs` cuts `l` into consecutive non-empty pieces. -/
def IsPartition {α : Type} (runs : List (List α)) (l : List α) : Prop := runs.flatten = l ∧ ∀ r ∈ runs, r ≠ []

end Spec

/-- Apply a sequence of updates to the tree of the code. -/
def KeyedSumTree.execOps (t : KeyedSumTree K) : List (Spec.KOp K) → Prog (KeyedSumTree K)
  | [] => .ret t
  | .insert k w :: ops => do let t' ← t.insert k w; execOps t' ops
  | .delete k :: ops => do let t' ← t.delete k; execOps t' ops

end AQ

namespace AQ
open Prog
variable {K : Type} [Field K] [LinearOrder K] [IsStrictOrderedRing K] [FloatFmt K]

namespace Spec

/-- `m` is the smallest mean of the list. -/
def IsMinMean (l : List (Centroid K)) (m : Fl K) : Prop := (∃ c ∈ l, c.mean = m) ∧ ∀ c ∈ l, m ≤ c.mean

/-- `m` is the largest mean of the list. -/
def IsMaxMean (l : List (Centroid K)) (m : Fl K) : Prop := (∃ c ∈ l, c.mean = m) ∧ ∀ c ∈ l, c.mean ≤ m

/-- Within the range of finite numbers of the format. -/
def InRange (c : Centroid K) : Prop := Fl.minValue ≤ c.mean ∧ c.mean ≤ Fl.maxValue

end Spec
end AQ

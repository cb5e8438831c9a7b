/-
What a tree of merged TDigests was given, and what is expected of it.
-/
import Verif.Model.TDShards
import Verif.Model.ScaleK0

set_option linter.unusedSectionVars false

namespace AQ
open Spec
variable {K : Type} [Field K] [LinearOrder K] [IsStrictOrderedRing K] [FloatFmt K]
namespace TTree

/-- Everything that was supplied to any of the digests. -/
def supplied : TTree K → List (Centroid K)
  | new _ _ _ => []
  | ins t o => t.supplied ++ o.supplied
  | merge a b => a.supplied ++ b.supplied

/-- Scale function, inverse and compression factor of the digest at the root. -/
def root : TTree K → ScaleFn K × ScaleFn K × Fl K
  | new s i cf => (s, i, cf)
  | ins t _ => t.root
  | merge a _ => a.root

/-- All digests use `k0` with compression factors of at least `δ`. -/
def AllK0 (δ : K) : TTree K → Prop
  | new s i cf => s = k0 ∧ i = invK0 ∧ ∃ δ', cf = .fin δ' ∧ δ ≤ δ'
  | ins t _ => t.AllK0 δ
  | merge a b => a.AllK0 δ ∧ b.AllK0 δ

/-- All digests were made with the same scale functions and compression factor. -/
def Uniform (s i : ScaleFn K) (cf : Fl K) : TTree K → Prop
  | new s' i' cf' => s' = s ∧ i' = i ∧ cf' = cf
  | ins t _ => t.Uniform s i cf
  | merge a b => a.Uniform s i cf ∧ b.Uniform s i cf

/-- The largest number of insertion calls and merges that an item can have gone through. -/
def depth : TTree K → Nat
  | new _ _ _ => 0
  | ins t _ => t.depth + 1
  | merge a b => max a.depth b.depth + 1

/-- For every insertion call and every merge the weight that the digest represents after it, added up. -/
def passes : TTree K → K
  | new _ _ _ => 0
  | ins t o => t.passes + totalW (t.supplied ++ o.supplied)
  | merge a b => a.passes + b.passes + totalW (a.supplied ++ b.supplied)

/-- `2 ^ h` shards, each filled with one batch and merged in pairs. -/
def shards (s i : ScaleFn K) (cf : Fl K) : (h : Nat) → (Nat → List (Fl K)) → TTree K
  | 0, f => ins (new s i cf) (.addBuffer (f 0))
  | h + 1, f => merge (shards s i cf h f) (shards s i cf h (fun j => f (2 ^ h + j)))

end TTree
end AQ

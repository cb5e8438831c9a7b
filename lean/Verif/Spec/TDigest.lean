/-
Specifications about TDigest histories, independent of how the digest merges centroids.
-/
import Verif.Model.TDigest
import Verif.Spec.Centroid

set_option linter.unusedSectionVars false

namespace AQ
open Prog
variable {K : Type} [Field K] [LinearOrder K] [IsStrictOrderedRing K] [FloatFmt K]

namespace TDigest

/-- An inserting call. -/
inductive TOp (K : Type) where
  | add (x : Fl K)
  | addBuffer (xs : List (Fl K))
  | addCentroids (cs : List (Centroid K))

/-- What a call supplies (plain items have weight 1). -/
def TOp.supplied : TOp K → List (Centroid K)
  | .add x => [⟨x, .fin 1⟩]
  | .addBuffer xs => xs.map (fun x => ⟨x, .fin 1⟩)
  | .addCentroids cs => cs

/-- Execute a call. -/
def TOp.exec (d : TDigest K) : TOp K → Prog (TDigest K)
  | .add x => d.add x
  | .addBuffer xs => d.addBuffer xs
  | .addCentroids cs => d.addCentroidBuffer cs

/-- Execute a history. -/
def execOps (d : TDigest K) : List (TOp K) → Prog (TDigest K)
  | [] => .ret d
  | o :: os => do let d' ← o.exec d; execOps d' os

/-- Everything a history supplies. -/
def supplied (ops : List (TOp K)) : List (Centroid K) := ops.flatMap TOp.supplied

/-- A call of any of the inserting methods, the clustering ones included. -/
inductive AOp (K : Type) where
  | ins (o : TOp K)
  | cluster (cs : List (Centroid K)) (growthLimit : Fl K)
  | clusterTree (cs : List (Centroid K)) (growthLimit : Fl K)

/-- What a call supplies. -/
def AOp.supplied : AOp K → List (Centroid K)
  | .ins o => o.supplied
  | .cluster cs _ => cs
  | .clusterTree cs _ => cs

/-- Execute a call. -/
def AOp.exec [FloorRing K] (d : TDigest K) : AOp K → Prog (TDigest K)
  | .ins o => o.exec d
  | .cluster cs g => d.addCluster cs g
  | .clusterTree cs g => d.addClusterTree cs g

/-- Execute a history. -/
def execAOps [FloorRing K] (d : TDigest K) : List (AOp K) → Prog (TDigest K)
  | [] => .ret d
  | o :: os => do let d' ← o.exec d; execAOps d' os

/-- Everything a history supplies. -/
def suppliedA (ops : List (AOp K)) : List (Centroid K) := ops.flatMap AOp.supplied

/-- The history makes no use of `add_cluster_tree`, and all growth limits, times the compression factor `δ`, are numbers of
centroids. -/
def GrowthOK (δ : K) (ops : List (AOp K)) : Prop :=
  (∀ cs g, AOp.clusterTree cs g ∉ ops) ∧ ∀ cs g, AOp.cluster cs g ∈ ops → ∃ γ : K, g = .fin γ ∧ 0 ≤ γ * δ ∧ γ * δ < 2 ^ 64

end TDigest

namespace Spec

/-- An ordinary item: finite and within the range of the format. -/
def Item (x : Fl K) : Prop := x.IsFin ∧ Fl.minValue ≤ x ∧ x ≤ Fl.maxValue

/-- A call with ordinary items and finite arguments. -/
def OrdinaryOp : Op (Fl K) → Prop
  | .add x => Item x
  | .addBuffer xs => ∀ x ∈ xs, Item x
  | .quantile v => v.IsFin
  | .value q => q.IsFin

/-- Largest weight a new centroid may get when `w0` of the total weight `n` is already placed: one unit of the scale
function further to the right, as a weight, minus `w0`. -/
def sizeLimit (scale inv : ScaleFn K) (δ : Fl K) (n w0 : K) : Fl K :=
  inv (scale (.fin (w0 / n)) δ (.fin n) + .fin 1) δ (.fin n) * .fin n - .fin w0

/-- A first (last) centroid of weight 1 sits exactly at the minimum (maximum), as it does whenever it is an original item. -/
def EndsExact (d : TDigest K) : Prop :=
  (∀ c, d.centroids.head? = some c → c.weight = .fin 1 → c.mean = d.min) ∧
  (∀ c, d.centroids.getLast? = some c → c.weight = .fin 1 → c.mean = d.max)

/-- The quantile `q` of total weight `n` falls in the part of the last centroid (weight `w`) right of its middle, but not
into the last unit of weight. -/
def InLastTail (n w q : K) : Prop := n - w / 2 ≤ n * q ∧ n * q ≤ n - 1

/-- `r` is the rank of `x` in the data `xs` up to `err`: it is at most `err` below the number of items less than `x` and at most
`err` above the number of items less than or equal to `x`. -/
def RankWithin (xs : List (Fl K)) (r x err : K) : Prop :=
  (xs.countP (fun y => Fl.lt y (.fin x)) : K) ≤ r + err ∧ r ≤ (xs.countP (fun y => Fl.le y (.fin x)) : K) + err

/-- Distance of `x` from the nearer end of the data, in items: the smaller of the number of items `≤ x` and the number of
items `≥ x`. -/
def endDistance (xs : List (Fl K)) (x : K) : K :=
  Min.min (xs.countP (fun y => Fl.le y (.fin x)) : K) (xs.countP (fun y => Fl.le (.fin x) y) : K)

/-- No item of a batch falls strictly between two items of earlier batches: each is either at least as large or at most as large
as all of them. -/
def Outward (batches : List (List (Fl K))) : Prop :=
  ∀ pre b post, batches = pre ++ b :: post → ∀ y ∈ b,
    (∀ x ∈ pre.flatten, Fl.le x y = true) ∨ (∀ x ∈ pre.flatten, Fl.le y x = true)

end Spec
end AQ

/-
Which part of a history a sub-digest of a `ParallelDigest` sees.
-/
import Verif.Model.Traits
import Verif.Spec.Basic
import Mathlib.Data.Rat.Defs

namespace AQ.Spec

/-- The piece of a slice that the `i`-th of `m` sub-digests gets: the slice is cut into pieces of length `⌈length / m⌉` (at least
1), the last one possibly shorter. -/
def piece {α : Type} (m i : Nat) (b : List α) : List α :=
  (b.drop (i * max ((b.length + m - 1) / m) 1)).take (max ((b.length + m - 1) / m) 1)

/-- The insertions the `i`-th of `m` sub-digests sees: for every slice (or single item) the piece it gets, if that is not empty. -/
def share {α : Type} (m i : Nat) : List (Op α) → List (Op α)
  | [] => []
  | o :: os => if piece m i o.items = [] then share m i os else .addBuffer (piece m i o.items) :: share m i os

/-- A history of insertions of non-empty slices and single items, none of them NaN. -/
def PlainIns {K : Type} (ops : List (Op (Fl K))) : Prop :=
  ∀ o ∈ ops, ((∃ x, o = .add x) ∨ ∃ xs, o = .addBuffer xs ∧ xs ≠ []) ∧ ∀ y ∈ o.items, y ≠ .nan

section
open Prog
variable {D : Type} [FloatFmt ℚ] [Digest D (Fl ℚ)]

/-- After the history `ops` the answer of `d` at `x` is a number, unbiased for `μ` with mean squared error at most `v`, and `d`
counts `n` items. -/
structure Estimates (x : Fl ℚ) (ops : List (Op (Fl ℚ))) (n : Nat) (μ v : ℚ) (d : D) : Prop where
  sure : Always (execAll d ops >>= fun d' => Digest.estQuantileAtValue d' x) (fun r => r.1.IsFin ∧ Digest.count r.2 = .ret n)
  mean : exp (execAll d ops >>= fun d' => Digest.estQuantileAtValue d' x) (fun r => r.1.toK) = μ
  var : exp (execAll d ops >>= fun d' => Digest.estQuantileAtValue d' x) (fun r => (r.1.toK - μ) ^ 2) ≤ v

end

end AQ.Spec

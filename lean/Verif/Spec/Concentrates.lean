/-
Answers of randomised digests that concentrate around the truth.
-/
import Verif.Model.Traits
import Verif.Spec.Basic
import Mathlib.Data.Rat.Floor
import Mathlib.Algebra.Order.Field.Rat

namespace AQ.Spec
open Prog
variable {D : Type} [FloatFmt ℚ] [Digest D (Fl ℚ)]

/-- After the history `ops` the answer of `d` at `x` is a whole number of `n`-ths, `n` the number of items `d` counts, and that whole
number differs from `R` by an amount whose exponential moments, on both sides, are at most those of a sum of `V` fair signs: the mean
of `a ^ (number - R)` and the mean of `a ^ (R - number)` are at most `((a + 1/a) / 2) ^ V` for all `a ≥ 1`. -/
structure Concentrates (x : Fl ℚ) (ops : List (Op (Fl ℚ))) (n R V : Nat) (d : D) : Prop where
  sure : Always (execAll d ops >>= fun d' => Digest.estQuantileAtValue d' x)
    (fun r => (∃ z : ℤ, r.1 = .fin ((z : ℚ) / n)) ∧ Digest.count r.2 = .ret n)
  mgf : ∀ a : ℚ, 1 ≤ a → ∀ σ : ℤ, |σ| = 1 → exp (execAll d ops >>= fun d' => Digest.estQuantileAtValue d' x)
    (fun r => a ^ (σ * (⌊r.1.toK * n⌋ - R))) ≤ ((a + a⁻¹) / 2) ^ V

end AQ.Spec

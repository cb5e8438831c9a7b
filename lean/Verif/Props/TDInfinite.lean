/-
Property C114: TDigest and infinite items (t_digest.rs).
-/
import Verif.Proofs.TDInfinite
import Verif.Model.ScaleK0

set_option linter.unusedSectionVars false
set_option linter.unusedVariables false

namespace AQ
open Prog Spec
variable {K : Type} [Field K] [LinearOrder K] [IsStrictOrderedRing K] [FloatFmt K]

/-- C114. Items that are finite or `+inf` (finite positive weights) are always taken, whatever the scale function does: no insertion
panics, the total weight is the weight supplied, no mean becomes NaN or `-inf`, and once `+inf` was inserted the maximum and the mean
of the last centroid are `+inf`. -/
theorem C114_insert_pinf [FloatFmt.Exact K] (s i : ScaleFn K) (cf : Fl K) (ops : List (TDigest.TOp K))
    (hg : ∀ c ∈ TDigest.supplied ops, ((∃ m : K, c.mean = .fin m) ∨ c.mean = .pinf) ∧ ∃ w : K, 0 < w ∧ c.weight = .fin w) :
    Always ((TDigest.new s i cf).execOps ops) (fun d =>
      totalW d.centroids = totalW (TDigest.supplied ops) ∧
      (∀ c ∈ d.centroids, ((∃ m : K, c.mean = .fin m) ∨ c.mean = .pinf) ∧ ∃ w : K, 0 < w ∧ c.weight = .fin w) ∧
      ((∃ c ∈ TDigest.supplied ops, c.mean = .pinf) →
        d.max = .pinf ∧ ∃ z, d.centroids.getLast? = some z ∧ z.mean = .pinf)) := by
  refine (TDigest.execOps_up ops _ [] (TDigest.new_upInv s i cf) hg).mono ?_
  intro d h
  rw [List.nil_append] at h
  exact ⟨h.weight, h.up, fun h' => ⟨h.max_inf h', h.last (h.max_inf h')⟩⟩

/-- C114. After at least one such item every quantile query at a finite value or at `+inf` returns a finite number: no panic, no NaN. -/
theorem C114_quantile_pinf [FloatFmt.Exact K] (s i : ScaleFn K) (cf : Fl K) (ops : List (TDigest.TOp K))
    (hg : ∀ c ∈ TDigest.supplied ops, ((∃ m : K, c.mean = .fin m) ∨ c.mean = .pinf) ∧ ∃ w : K, 0 < w ∧ c.weight = .fin w)
    (hne : TDigest.supplied ops ≠ []) (x : Fl K) (hx : (∃ m : K, x = .fin m) ∨ x = .pinf) :
    Always ((TDigest.new s i cf).execOps ops >>= fun d => d.estQuantileAtValue x) (fun r => ∃ m : K, r = .fin m) := by
  refine always_bind.2 ((TDigest.execOps_up ops _ [] (TDigest.new_upInv s i cf) hg).mono ?_)
  intro d h
  rw [List.nil_append] at h
  rcases hx with ⟨m, rfl⟩ | rfl
  · obtain ⟨r, hr⟩ := TDigest.estQuantile_up h hne m
    rw [hr]
    exact ⟨r, rfl⟩
  · obtain ⟨r, hr⟩ := TDigest.estQuantile_up_pinf h hne
    rw [hr]
    exact ⟨r, rfl⟩

/-- C114. Items that are finite or `-inf` are always taken too. -/
theorem C114_insert_ninf [FloatFmt.Exact K] (s i : ScaleFn K) (cf : Fl K) (ops : List (TDigest.TOp K))
    (hg : ∀ c ∈ TDigest.supplied ops, ((∃ m : K, c.mean = .fin m) ∨ c.mean = .ninf) ∧ ∃ w : K, 0 < w ∧ c.weight = .fin w) :
    Always ((TDigest.new s i cf).execOps ops) (fun d =>
      totalW d.centroids = totalW (TDigest.supplied ops) ∧
      ∀ c ∈ d.centroids, ((∃ m : K, c.mean = .fin m) ∨ c.mean = .ninf) ∧ ∃ w : K, 0 < w ∧ c.weight = .fin w) := by
  refine (TDigest.execOps_down ops _ [] (TDigest.new_downInv s i cf) hg).mono ?_
  intro d h
  rw [List.nil_append] at h
  exact ⟨h.weight, h.down⟩

section Examples
attribute [local instance] ratExact ratExact_exact

/-- Three finite items and five times `+inf`. -/
def infOps : List (TDigest.TOp ℚ) := [.addBuffer [.fin 5, .pinf, .fin 6, .pinf, .pinf], .add (.fin 7), .addBuffer [.pinf, .pinf]]

example : (TDigest.supplied infOps ≠ [] ∧ (∃ c ∈ TDigest.supplied infOps, c.mean = .pinf)) ∧
    ∀ c ∈ TDigest.supplied infOps, ((∃ m : ℚ, c.mean = .fin m) ∨ c.mean = .pinf) ∧ ∃ w : ℚ, 0 < w ∧ c.weight = .fin w := by
  simp [infOps, TDigest.supplied, TDigest.TOp.supplied]

example : Always ((TDigest.new k0 invK0 (.fin 8) : TDigest ℚ).execOps infOps >>= fun d => d.estQuantileAtValue (.fin 100))
    (fun r => r = .fin (1 / 8)) := by decide +kernel

/-- C114. With `-inf` the mirrored query is NaN: four times `-inf` and four finite items, the quantile of a finite value between the
centroids is computed as `inf / inf`. With the data mirrored it is 1/4: the middle of the finite centroid. -/
theorem C114_quantile_ninf_nan :
    Always ((TDigest.new k0 invK0 (.fin 4) : TDigest ℚ).addBuffer [.ninf, .ninf, .ninf, .ninf, .fin 5, .fin 6, .fin 7, .fin 8] >>= fun d =>
      d.estQuantileAtValue (.fin 0)) (fun r => r = .nan) ∧
    Always ((TDigest.new k0 invK0 (.fin 4) : TDigest ℚ).addBuffer [.pinf, .pinf, .pinf, .pinf, .fin (-5), .fin (-6), .fin (-7), .fin (-8)] >>=
      fun d => d.estQuantileAtValue (.fin 0)) (fun r => r = .fin (1 / 4)) := by
  decide +kernel

/-- C114. With both signs a mean can become NaN, and the next insertion panics. -/
theorem C114_both_signs :
    Always ((TDigest.new k0 invK0 (.fin 1) : TDigest ℚ).addBuffer [.ninf, .pinf]) (fun d => d.centroids = [⟨.nan, .fin 2⟩]) ∧
    Panics ((TDigest.new k0 invK0 (.fin 1) : TDigest ℚ).addBuffer [.ninf, .pinf] >>= fun d => d.add (.fin 0)) := by
  decide +kernel

/-- C114. A value query can be NaN even with `+inf` only: one centroid holding 1 and three times `+inf`, quantile 1/4, where the
interpolation multiplies 0 by `+inf`. A little further to the right it is `+inf`, at smaller quantiles the minimum. -/
theorem C114_value_nan :
    Always ((TDigest.new k0 invK0 (.fin 1) : TDigest ℚ).addBuffer [.fin 1, .pinf, .pinf, .pinf] >>= fun d =>
      d.estValueAtQuantile (.fin (1 / 4))) (fun r => r = .nan) ∧
    Always ((TDigest.new k0 invK0 (.fin 1) : TDigest ℚ).addBuffer [.fin 1, .pinf, .pinf, .pinf] >>= fun d =>
      d.estValueAtQuantile (.fin (2 / 5))) (fun r => r = .pinf) ∧
    Always ((TDigest.new k0 invK0 (.fin 1) : TDigest ℚ).addBuffer [.fin 1, .pinf, .pinf, .pinf] >>= fun d =>
      d.estValueAtQuantile (.fin (1 / 5))) (fun r => r = .fin 1) := by
  decide +kernel

/-- C114. A digest that has only seen `+inf` reports the largest finite number as its minimum. -/
theorem C114_min_of_infinities :
    Always ((TDigest.new k0 invK0 (.fin 1) : TDigest ℚ).addBuffer [.pinf, .pinf, .pinf] >>= fun d =>
      d.estValueAtQuantile (.fin 0)) (fun r => r = Fl.maxValue ∧ r ≠ .pinf) := by
  decide +kernel

end Examples
end AQ

/-
Property C113: TDigest does not depend on the unit and the origin in which the data are measured (t_digest.rs).
-/
import Verif.Proofs.AffineCluster
import Verif.Model.ScaleK0

set_option linter.unusedSectionVars false
set_option linter.unusedVariables false

namespace AQ
open Prog Spec
variable {K : Type} [Field K] [LinearOrder K] [IsStrictOrderedRing K] [FloatFmt K]

/-- Good items, within the range of the format before and after `x ↦ a·x + b`. -/
def AffineData (a b : K) (cs : List (Centroid K)) : Prop :=
  ∀ c ∈ cs, Good c ∧ InRange c ∧ InRange (c.affine a b)

/-- The two histories side by side. -/
theorem TDigest.affine_runs [FloatFmt.Exact K] {a b : K} (ha : 0 < a) {P : K → Prop} (hP : WPred P) (s i : ScaleFn K) (cf : Fl K)
    (ops : List (TDigest.TOp K)) (hg : AffineData a b (TDigest.supplied ops)) (hp : ∀ c ∈ TDigest.supplied ops, P c.weight.toK) :
    Rel (fun d d' => TDigest.Aff a b P d d' ∧ d.Inv (TDigest.supplied ops)) ((TDigest.new s i cf).execOps ops)
      ((TDigest.new s i cf).execOps (ops.map (TDigest.TOp.affine a b))) := by
  have h0 : TDigest.Aff a b P (TDigest.new s i cf) (TDigest.new s i cf) :=
    ⟨.nil, rfl, rfl, rfl, Or.inl ⟨rfl, rfl, rfl, rfl, rfl⟩⟩
  have h1 := TDigest.Aff.execOps ha hP ops h0 (fun c hc => (hg c hc).1) hp (fun c hc => (hg c hc).2)
  have h2 := TDigest.execOps_inv ops (TDigest.new s i cf) [] (TDigest.new_inv s i cf) (by simp)
    (fun c hc => ⟨(hg c hc).1, (hg c hc).2.1⟩)
  exact rel_and_left h1 (h2.partially.mono (fun d hd => by simpa using hd))

/-- C113. Inserting `a·x + b` instead of `x` throughout (weights unchanged) gives, coin for coin, the digest with every mean and both
limits transformed in the same way: the same centroids are merged. -/
theorem C113_state [FloatFmt.Exact K] (s i : ScaleFn K) (cf : Fl K) (ops : List (TDigest.TOp K)) {a : K} (ha : 0 < a) (b : K)
    (hne : TDigest.supplied ops ≠ []) (hg : AffineData a b (TDigest.supplied ops)) :
    (TDigest.new s i cf).execOps (ops.map (TDigest.TOp.affine a b)) =
      ((TDigest.new s i cf).execOps ops >>= fun d => .ret (d.affine a b)) := by
  refine rel_eq ?_ (TDigest.affine_runs ha (P := fun w => 0 < w) ⟨fun _ h => h, fun _ _ => add_pos⟩ s i cf ops hg
    (fun c hc => (hg c hc).1.weight_pos))
  rintro d d' ⟨h1, h2⟩
  exact h1.eq_affine (fun h => hne (h2.empty.1 h))

/-- C113. The quantile estimated for `a·x + b` after inserting the transformed data is the quantile estimated for `x` after inserting
the data themselves, coin for coin and panic for panic. -/
theorem C113_quantile [FloatFmt.Exact K] (s i : ScaleFn K) (cf : Fl K) (ops : List (TDigest.TOp K)) {a : K} (ha : 0 < a) (b : K)
    (hg : AffineData a b (TDigest.supplied ops)) (x : K) :
    ((TDigest.new s i cf).execOps (ops.map (TDigest.TOp.affine a b)) >>= fun d => d.estQuantileAtValue (.fin (a * x + b))) =
      ((TDigest.new s i cf).execOps ops >>= fun d => d.estQuantileAtValue (.fin x)) := by
  refine rel_eq_eq (rel_bind (TDigest.affine_runs ha (P := fun w => 0 < w) ⟨fun _ h => h, fun _ _ => add_pos⟩ s i cf ops hg
    (fun c hc => (hg c hc).1.weight_pos)) ?_)
  rintro d d' ⟨h1, -⟩
  rw [h1.estQuantileAtValue ha x]
  exact rel_refl (fun _ => rfl) _

section
variable [FloorRing K]

/-- C113. Shifting the data shifts the answers to value queries, coin for coin and panic for panic (weights of at least 1). -/
theorem C113_value_shift [FloatFmt.Exact K] (s i : ScaleFn K) (cf : Fl K) (ops : List (TDigest.TOp K)) (b : K)
    (hne : TDigest.supplied ops ≠ []) (hg : AffineData 1 b (TDigest.supplied ops))
    (hw : ∀ c ∈ TDigest.supplied ops, 1 ≤ c.weight.toK) (q : K) :
    ((TDigest.new s i cf).execOps (ops.map (TDigest.TOp.affine 1 b)) >>= fun d => d.estValueAtQuantile (.fin q)) =
      ((TDigest.new s i cf).execOps ops >>= fun d => d.estValueAtQuantile (.fin q) >>= fun v => .ret (v.affine 1 b)) := by
  have hP : WPred (fun w : K => 1 ≤ w) := ⟨fun w h => by linarith, fun v w h h' => by linarith⟩
  have key := rel_bind (S := TDigest.VAff 1 b) (f := fun d => d.estValueAtQuantile (.fin q)) (g := fun d => d.estValueAtQuantile (.fin q))
    (TDigest.affine_runs one_pos hP s i cf ops hg hw) (by
      rintro d d' ⟨h1, h2⟩
      exact h1.estValueAtQuantile one_pos hP (fun w h => h) (fun h => hne (h2.empty.1 h)) ((TDigest.weightSum_exact h2.good).trans (by rw [h2.weight])) q (Or.inl rfl))
  rw [rel_eq (g := Fl.affine 1 b) (fun _ _ h => h) key, bind_assoc']

/-- C113. Changing unit and origin transforms the answers to value queries in the same way, unless the target falls into the right
half of the last centroid but not into the last unit of weight. -/
theorem C113_value_scale [FloatFmt.Exact K] (s i : ScaleFn K) (cf : Fl K) (ops : List (TDigest.TOp K)) {a : K} (ha : 0 < a) (b : K)
    (hne : TDigest.supplied ops ≠ []) (hg : AffineData a b (TDigest.supplied ops))
    (hw : ∀ c ∈ TDigest.supplied ops, 1 ≤ c.weight.toK) :
    Always ((TDigest.new s i cf).execOps ops) (fun d => ∀ (last : Centroid K) (q : K), d.centroids.getLast? = some last →
      ¬ InLastTail (totalW (TDigest.supplied ops)) last.weight.toK q →
      (d.affine a b).estValueAtQuantile (.fin q) = (d.estValueAtQuantile (.fin q) >>= fun v => .ret (v.affine a b))) := by
  have hP : WPred (fun w : K => 1 ≤ w) := ⟨fun w h => by linarith, fun v w h h' => by linarith⟩
  have h2 := TDigest.execOps_inv ops (TDigest.new s i cf) [] (TDigest.new_inv s i cf) (by simp)
    (fun c hc => ⟨(hg c hc).1, (hg c hc).2.1⟩)
  have h3 := rel_partially_left (TDigest.affine_runs ha hP s i cf ops hg hw)
  refine (h2.and h3).mono ?_
  rintro d ⟨hi, d', h1, -⟩ last q hlast ht
  rw [List.nil_append] at hi
  have hd := h1.eq_affine (fun h => hne (hi.empty.1 h))
  subst hd
  refine rel_eq (fun _ _ h => h) (h1.estValueAtQuantile ha hP (fun w h => h) (fun h => hne (hi.empty.1 h)) ((TDigest.weightSum_exact hi.good).trans (by rw [hi.weight])) q (Or.inr ?_))
  intro z hz
  rw [hlast] at hz
  cases hz
  exact ht

/-- C113 for histories that also use `add_cluster`, and a change of unit (no shift): the quantile estimated for `a·x` after inserting
the data times `a` is the quantile estimated for `x` after inserting the data themselves, coin for coin and panic for panic. -/
theorem C113_cluster_quantile [FloatFmt.Exact K] (s i : ScaleFn K) (cf : Fl K) (ops : List (TDigest.AOp K)) {a : K} (ha : 0 < a)
    (ht : ∀ cs g, TDigest.AOp.clusterTree cs g ∉ ops) (hg : AffineData a 0 (TDigest.suppliedA ops)) (x : K) :
    ((TDigest.new s i cf).execAOps (ops.map (TDigest.AOp.affine a 0)) >>= fun d => d.estQuantileAtValue (.fin (a * x))) =
      ((TDigest.new s i cf).execAOps ops >>= fun d => d.estQuantileAtValue (.fin x)) := by
  have h0 : TDigest.Aff a 0 (fun w => 0 < w) (TDigest.new s i cf) (TDigest.new s i cf) :=
    ⟨.nil, rfl, rfl, rfl, Or.inl ⟨rfl, rfl, rfl, rfl, rfl⟩⟩
  refine rel_eq_eq (rel_bind (TDigest.execAOps_aff ha ⟨fun _ h => h, fun _ _ => add_pos⟩ ops h0 ht (fun c hc => (hg c hc).1)
    (fun c hc => (hg c hc).1.weight_pos) (fun c hc => (hg c hc).2)) ?_)
  intro d d' h1
  have := h1.estQuantileAtValue ha x
  rw [add_zero] at this
  rw [this]
  exact rel_refl (fun _ => rfl) _

end

section examples
attribute [local instance] ratExact ratExact_exact

/-- Two batches, the second one weighted. -/
def affineOps : List (TDigest.TOp ℚ) :=
  [.addBuffer [.fin 3, .fin 1, .fin 2, .fin 2, .fin 7], .add (.fin 5), .addCentroids [⟨.fin 4, .fin 3⟩]]

/-- The hypotheses of C113 (temperatures in degrees Celsius and Fahrenheit). -/
example : TDigest.supplied affineOps ≠ [] ∧ AffineData (9 / 5) 32 (TDigest.supplied affineOps) ∧
    ∀ c ∈ TDigest.supplied affineOps, 1 ≤ c.weight.toK := by
  refine ⟨by decide, ?_, by decide +kernel⟩
  intro c hc
  simp only [affineOps, TDigest.supplied, TDigest.TOp.supplied, List.flatMap_cons, List.map_cons, List.map_nil, List.flatMap_nil,
    List.cons_append, List.nil_append, List.append_nil, List.mem_cons, List.not_mem_nil, or_false] at hc
  rcases hc with rfl | rfl | rfl | rfl | rfl | rfl | rfl <;>
    exact ⟨⟨⟨_, rfl⟩, _, by norm_num, rfl⟩, by unfold InRange; decide +kernel, by unfold InRange; decide +kernel⟩

/-- C113. The exception for value queries is needed: eight items in one centroid, quantile 3/4. The answer is 7 - 1/3 for the items
0 … 7 and 70 - 1/3 for the items 0, 10, …, 70, because the interpolation towards the maximum does not take the distance into account
(see C84). -/
theorem C113_last_tail_not_scaled :
    Always ((TDigest.new k0 invK0 (.fin 2) : TDigest ℚ).addBuffer ((List.range 8).map (fun j => .fin (j : ℚ))) >>= fun d =>
      d.estValueAtQuantile (.fin (3 / 4))) (fun v => v = .fin (20 / 3)) ∧
    Always ((TDigest.new k0 invK0 (.fin 2) : TDigest ℚ).addBuffer ((List.range 8).map (fun j => .fin (10 * (j : ℚ)))) >>= fun d =>
      d.estValueAtQuantile (.fin (3 / 4))) (fun v => v = .fin (209 / 3)) := by
  decide +kernel

/-- C113. `add_cluster` does depend on the origin: the cluster 5 is merged into 0 (weight 1) or 10 (weight 2), whichever has the
smaller product of mean and weight. With 100 subtracted from everything it is the other one, and the quantile estimated for 5 (-95)
changes. -/
theorem C113_cluster_shift_differs :
    Always ((TDigest.new k0 invK0 (.fin 3) : TDigest ℚ).execAOps [.ins (.addCentroids [⟨.fin 0, .fin 1⟩, ⟨.fin 10, .fin 2⟩]),
        .cluster [⟨.fin 5, .fin 1⟩] (.fin 10)] >>= fun d => d.estQuantileAtValue (.fin 5)) (fun v => v = .fin (5 / 12)) ∧
    Always ((TDigest.new k0 invK0 (.fin 3) : TDigest ℚ).execAOps ([.ins (.addCentroids [⟨.fin 0, .fin 1⟩, ⟨.fin 10, .fin 2⟩]),
        .cluster [⟨.fin 5, .fin 1⟩] (.fin 10)].map (TDigest.AOp.affine 1 (-100))) >>= fun d =>
      d.estQuantileAtValue (.fin (1 * 5 + -100))) (fun v => v = .fin (19 / 40)) := by
  decide +kernel

/-- C113. `add_cluster_tree` does depend on the unit: adding 100 twice panics, adding 1/100 twice does not. -/
theorem C113_cluster_tree_not_scaled :
    Panics ((TDigest.new k0 invK0 (.fin 10) : TDigest ℚ).execAOps [.clusterTree [⟨.fin 100, .fin 1⟩, ⟨.fin 100, .fin 1⟩] (.fin 10)]) ∧
    Always ((TDigest.new k0 invK0 (.fin 10) : TDigest ℚ).execAOps ([.clusterTree [⟨.fin 100, .fin 1⟩, ⟨.fin 100, .fin 1⟩] (.fin 10)].map
        (TDigest.AOp.affine (1 / 10000) 0))) (fun d => d.centroids = [⟨.fin (1 / 100), .fin 2⟩]) := by
  decide +kernel

end examples

end AQ

/-
Property C104: `add_cluster` and `add_cluster_tree` in floating point.
-/
import Verif.Model.ScaleK0
import Verif.Proofs.F64Roomy
import Verif.Proofs.TDRoundQuery
import Verif.Proofs.TDRoundCluster

set_option linter.unusedSectionVars false
set_option linter.unusedVariables false

namespace AQ
open Prog Spec
variable {K : Type} [Field K] [LinearOrder K] [IsStrictOrderedRing K] [FloatFmt K]

/-- What is promised of a digest that was supplied `all`: the total weight is exact, all centroids have means between `A` and `B`
and positive integer weights, there is none only if nothing was supplied, `min` and `max` enclose everything supplied without
leaving `A`, `B`, and, if something was supplied, quantile queries answer with a number between 0 and 1, value queries return, and
the extreme quantiles are `min` and `max`. -/
def SafeDigest [FloorRing K] (A B : K) (all : List (Centroid K)) (d : TDigest K) : Prop :=
  d.totalWeight = .fin (totalW all) ∧
  (∀ c ∈ d.centroids, Within A B c) ∧
  (d.centroids = [] ↔ all = []) ∧
  (∀ c ∈ all, .fin A ≤ d.min ∧ d.min ≤ c.mean ∧ c.mean ≤ d.max ∧ d.max ≤ .fin B) ∧
  (all ≠ [] → (∀ v : Fl K, v ≠ .nan → Always (d.estQuantileAtValue v) (fun r => ∃ p : K, r = .fin p ∧ 0 ≤ p ∧ p ≤ 1) ∧
      Always (d.estValueAtQuantile v) (fun _ => True)) ∧
    d.estValueAtQuantile (.fin 0) = .ret d.min ∧ d.estValueAtQuantile (.fin 1) = .ret d.max)

theorem safeDigest_of_rinv [FloorRing K] [FloatFmt.Mono K] {N : Nat} {A B : K} (R : Roomy N A B) (h64 : N < 2 ^ 64)
    {all : List (Centroid K)} {d : TDigest K} (h : TDigest.RInv A B d all) (hN : totalW all ≤ N) : SafeDigest A B all d := by
  obtain ⟨⟨x, hx, hx1, -⟩, ⟨y, hy, hy1, -⟩⟩ := h.range
  have hN' : totalW d.centroids ≤ N := by rw [h.weight]; exact hN
  refine ⟨?_, h.within, h.empty, ?_, ?_⟩
  · rw [← h.weight]
    exact TDigest.weightSum_roomy R h.within hN'
  · intro c hc
    have hne : all ≠ [] := List.ne_nil_of_mem hc
    have := h.limits c hc
    refine ⟨?_, this.1, this.2, ?_⟩
    · rw [hx]; exact Fl.fin_le_fin.2 (hx1 hne).1
    · rw [hy]; exact Fl.fin_le_fin.2 (hy1 hne).2
  · intro hne
    have hcn : d.centroids ≠ [] := fun e => hne (h.empty.1 e)
    refine ⟨fun v hv => ⟨?_, ?_⟩, TDigest.value_ends R h.within hcn hN'⟩
    · exact TDigest.quantile_roomy R h.within hcn hN' hx hy (hx1 hne) (hy1 hne) hv
    · exact TDigest.value_roomy R h.within hcn hN' h64 hv

/-- C104. In any monotone rounding arithmetic with room for `N` items between `A` and `B`: a history of `add`, `add_buffer`,
`add_centroid_buffer` and `add_cluster` supplying integer weights of at most `N` in total, with means between `A` and `B`, whose growth
limits times the compression factor can be converted to a number of centroids, never panics, for any scale functions, and leaves a
digest that is safe to query. -/
theorem C104_cluster_safe [FloorRing K] [FloatFmt.Mono K] {N : Nat} {A B : K} (R : Roomy N A B) (h64 : N < 2 ^ 64) (s i : ScaleFn K)
    (cf : Fl K) (ops : List (TDigest.AOp K)) (ht : ∀ cs g, TDigest.AOp.clusterTree cs g ∉ ops)
    (hg : ∀ cs g, TDigest.AOp.cluster cs g ∈ ops → ∃ lim, Fl.toUsize (g * cf) = some lim)
    (hs : ∀ c ∈ TDigest.suppliedA ops, Within A B c) (hN : totalW (TDigest.suppliedA ops) ≤ N) :
    Always ((TDigest.new s i cf).execAOps ops) (SafeDigest A B (TDigest.suppliedA ops)) := by
  refine (TDigest.execAOps_rinv R cf ops _ [] (TDigest.new_rinv A B s i cf) rfl ht hg (by simpa using hs) (by simpa using hN)).mono ?_
  rintro d ⟨h, -⟩
  rw [List.nil_append] at h
  exact safeDigest_of_rinv R h64 h hN

/-- C104. The growth limits are fine whenever `γ·δ` is between 0 and `N`. -/
theorem C104_growth_limit [FloorRing K] [FloatFmt.Mono K] {N : Nat} {A B : K} (R : Roomy N A B) (h64 : N < 2 ^ 64) (γ δ : K)
    (h0 : 0 ≤ γ * δ) (h1 : γ * δ ≤ N) : ∃ lim, Fl.toUsize (.fin γ * .fin δ : Fl K) = some lim := by
  obtain ⟨y, hy, y1, y2⟩ := rnd_between (l := (0 : K)) (u := (N : K)) FloatFmt.Mono.rnd_zero (R.counts.rnd_nat le_rfl) h0 h1
  refine ⟨⌊y⌋₊, ?_⟩
  rw [Fl.mul_fin, hy]
  refine TDigest.toUsize_fin y1 (lt_of_le_of_lt y2 ?_)
  have : (N : K) < ((2 ^ 64 : ℕ) : K) := Nat.cast_lt.2 h64
  rwa [Nat.cast_pow, Nat.cast_ofNat] at this

/-- C104. If `add_cluster_tree` takes part, which may panic (C43), every execution that returns leaves a digest that is safe to
query. No assumption on the growth limits. -/
theorem C104_tree_safe [FloorRing K] [FloatFmt.Mono K] {N : Nat} {A B : K} (R : Roomy N A B) (h64 : N < 2 ^ 64) (s i : ScaleFn K)
    (cf : Fl K) (ops : List (TDigest.AOp K)) (hs : ∀ c ∈ TDigest.suppliedA ops, Within A B c)
    (hN : totalW (TDigest.suppliedA ops) ≤ N) (d : TDigest K) (hd : CanReturn ((TDigest.new s i cf).execAOps ops) d) :
    SafeDigest A B (TDigest.suppliedA ops) d := by
  have h := ((partially_iff _ _).1 (TDigest.execAOps_rinv_partially R ops _ [] (TDigest.new_rinv A B s i cf) (by simpa using hs)
    (by simpa using hN)) d hd).1
  rw [List.nil_append] at h
  exact safeDigest_of_rinv R h64 h hN

/-- C104. After `add_cluster_tree` the means are strictly increasing, in rounding arithmetic too. -/
theorem C104_tree_sorted [FloorRing K] [FloatFmt.Mono K] {N : Nat} {A B : K} (R : Roomy N A B) (s i : ScaleFn K) (cf g : Fl K)
    (ops : List (TDigest.AOp K)) (cs : List (Centroid K)) (hs : ∀ c ∈ TDigest.suppliedA ops ++ cs, Within A B c)
    (hN : totalW (TDigest.suppliedA ops ++ cs) ≤ N) :
    Partially ((TDigest.new s i cf).execAOps ops >>= fun d => d.addClusterTree cs g) (fun d =>
      d.centroids.Pairwise (fun a b => a.mean < b.mean)) := by
  rw [partially_bind]
  refine (TDigest.execAOps_rinv_partially R ops _ [] (TDigest.new_rinv A B s i cf) (fun c hc => hs c (by
    rw [List.nil_append] at hc; simp [hc])) (by
    rw [List.nil_append]
    exact TDigest.totalW_append_le (fun c hc => hs c (List.mem_append_right _ hc)) hN)).mono ?_
  rintro d ⟨h, -⟩
  rw [List.nil_append] at h
  exact (TDigest.addClusterTree_rinv R h hs hN).mono (fun d' h' => h'.2)

section doubles
attribute [local instance] f64Fmt f64_mono

/-- C104 for `f64`: clusters of integer weights, at most `2^52` in total, and means of magnitude at most `2^970`, added in any way. -/
theorem C104_f64 (s i : ScaleFn ℚ) (δ : ℚ) (ops : List (TDigest.AOp ℚ)) (ht : ∀ cs g, TDigest.AOp.clusterTree cs g ∉ ops)
    (hg : ∀ cs g, TDigest.AOp.cluster cs g ∈ ops → ∃ γ : ℚ, g = .fin γ ∧ 0 ≤ γ * δ ∧ γ * δ ≤ 2 ^ 52)
    (hs : ∀ c ∈ TDigest.suppliedA ops, Within (-2 ^ (970 : ℤ)) (2 ^ (970 : ℤ)) c)
    (hN : totalW (TDigest.suppliedA ops) ≤ 2 ^ 52) :
    Always ((TDigest.new s i (.fin δ)).execAOps ops) (SafeDigest (-2 ^ (970 : ℤ)) (2 ^ (970 : ℤ)) (TDigest.suppliedA ops)) := by
  have R := f64_roomy (e := 970) (by norm_num) le_rfl
  refine C104_cluster_safe R (by norm_num) s i (.fin δ) ops ht ?_ hs (by rw [Nat.cast_pow, Nat.cast_ofNat]; exact hN)
  intro cs g hm
  obtain ⟨γ, rfl, h0, h1⟩ := hg cs g hm
  exact C104_growth_limit R (by norm_num) γ δ h0 (by rw [Nat.cast_pow, Nat.cast_ofNat]; exact h1)

/-- A history meeting the hypotheses of C104 in which the arithmetic does round: 0.1 twice, then clusters at 0.3 and 0.3. -/
def dClusterOps : List (TDigest.AOp ℚ) :=
  [.ins (.addBuffer [Ieee.double.rnd (1 / 10), Ieee.double.rnd (1 / 10)]),
    .cluster [⟨Ieee.double.rnd (3 / 10), .fin 2⟩, ⟨Ieee.double.rnd (3 / 10), .fin 1⟩] (.fin 3)]

theorem C104_example : TDigest.suppliedA dClusterOps = [⟨.fin (3602879701896397 / 36028797018963968), .fin 1⟩,
      ⟨.fin (3602879701896397 / 36028797018963968), .fin 1⟩, ⟨.fin (5404319552844595 / 18014398509481984), .fin 2⟩,
      ⟨.fin (5404319552844595 / 18014398509481984), .fin 1⟩] ∧
    (∀ c ∈ TDigest.suppliedA dClusterOps, Within (-2 ^ (970 : ℤ)) (2 ^ (970 : ℤ)) c) ∧
    totalW (TDigest.suppliedA dClusterOps) ≤ 2 ^ 52 ∧
    Always ((TDigest.new k0 invK0 (.fin 1) : TDigest ℚ).execAOps dClusterOps) (fun d =>
      d.centroids = [⟨.fin (3963167672086037 / 18014398509481984), .fin 5⟩] ∧
      d.min = .fin (3602879701896397 / 36028797018963968) ∧ d.max = .fin (5404319552844595 / 18014398509481984)) := by
  have e : TDigest.suppliedA dClusterOps = [⟨.fin (3602879701896397 / 36028797018963968), .fin 1⟩,
      ⟨.fin (3602879701896397 / 36028797018963968), .fin 1⟩, ⟨.fin (5404319552844595 / 18014398509481984), .fin 2⟩,
      ⟨.fin (5404319552844595 / 18014398509481984), .fin 1⟩] := by decide +kernel
  have big : (1 : ℚ) ≤ 2 ^ (970 : ℤ) := by decide +kernel
  refine ⟨e, ?_, ?_, by decide +kernel⟩
  · intro c hc
    rw [e] at hc
    simp only [List.mem_cons, List.not_mem_nil, or_false] at hc
    generalize (2 : ℚ) ^ (970 : ℤ) = M at big ⊢
    rcases hc with rfl | rfl | rfl | rfl
    · exact ⟨_, 1, rfl, by linarith, by linarith, by norm_num, le_rfl⟩
    · exact ⟨_, 1, rfl, by linarith, by linarith, by norm_num, le_rfl⟩
    · exact ⟨_, 2, rfl, by linarith, by linarith, by norm_num, by norm_num⟩
    · exact ⟨_, 1, rfl, by linarith, by linarith, by norm_num, le_rfl⟩
  · rw [e]; decide +kernel

/-- `add_cluster_tree` can return: here with a merged centroid of weight 3 whose mean is rounded. -/
theorem C104_tree_example :
    CanReturn ((TDigest.new k0 invK0 (.fin 5) : TDigest ℚ).execAOps
      [.ins (.addBuffer [Ieee.double.rnd (1 / 10), Ieee.double.rnd (2 / 10)]),
        .clusterTree [⟨Ieee.double.rnd (3 / 10), .fin 2⟩] (.fin 3)] >>= fun d => .ret d.centroids)
      [⟨.fin (3602879701896397 / 36028797018963968), .fin 1⟩, ⟨.fin (4803839602528529 / 18014398509481984), .fin 3⟩] := by
  decide +kernel

end doubles
end AQ

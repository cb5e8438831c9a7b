/-
C117: size and resolution of a TDigest with the uniform scale function in floating point.
-/
import Verif.Proofs.TDRoundSize
import Verif.Proofs.F64Roomy

set_option linter.unusedSectionVars false
set_option linter.unusedVariables false

namespace AQ
open Prog Spec
variable {K : Type} [Field K] [LinearOrder K] [IsStrictOrderedRing K] [FloatFmt K]

/-- C117. In an arithmetic with relative error `u` a digest with `k0` and compression factor `δ ≥ 1` has, after any history of insertions of
centroids with integer weights, fewer than `1 + 2/(2/δ - 40u)` centroids, and no centroid is heavier than `n (2/δ + 40u)`, unless a heavier one was supplied. -/
theorem C117_size_round [FloatFmt.Mono K] {A B : K} {N : Nat} (R : Roomy N A B) {u η Rm δ M0 : K} (E : RelErr u η Rm) (hηu : η ≤ u)
    (hu : u ≤ 1 / 2 ^ 10) (hδ : 1 ≤ δ) (hR1 : 12 * δ ≤ Rm) (hR2 : 12 * (N : K) ≤ Rm) (ops : List (TDigest.TOp K))
    (hs : ∀ c ∈ TDigest.supplied ops, Within A B c) (hM : ∀ c ∈ TDigest.supplied ops, c.weight ≤ .fin M0)
    (hN : totalW (TDigest.supplied ops) ≤ N) :
    Always ((TDigest.new k0 invK0 (.fin δ)).execOps ops) (fun d =>
      ((d.centroids.length : K) - 1) * (2 / δ - 40 * u) < 2 ∧
      ∀ c ∈ d.centroids, c.weight ≤ .fin (Max.max M0 (totalW (TDigest.supplied ops) * (2 / δ + 40 * u)))) := by
  refine (TDigest.execOps_k0Size R E hηu hu hδ hR1 hR2 ops _ [] (TDigest.new_rinv A B k0 invK0 (.fin δ))
    (TDigest.new_k0Size E.u_nonneg hu hδ) (by simp) hs hM (by simpa using hN)).mono ?_
  intro d h
  refine ⟨h.size, fun c hc => ?_⟩
  obtain ⟨w, hw, hle⟩ := h.weights c hc
  rw [hw]
  simpa using hle

/-- A size bound up to a small factor is off by less than one centroid. -/
theorem size_le_of_round {u : ℚ} {D L : Nat} (hD : 1 ≤ D) (h20 : 20 * u * (D * (D + 1)) ≤ 1) (hu : 0 ≤ u)
    (h : ((L : ℚ) - 1) * (2 / D - 40 * u) < 2) : L ≤ D + 1 := by
  by_contra hcon
  have hD0 : (0 : ℚ) < D := by exact_mod_cast hD
  have h1 : (D : ℚ) + 1 ≤ (L : ℚ) - 1 := by
    have : D + 1 + 1 ≤ L := by omega
    have : ((D + 1 + 1 : ℕ) : ℚ) ≤ L := by exact_mod_cast this
    push_cast at this
    linarith
  have h2 : 40 * u ≤ 2 / (D * (D + 1)) := by
    rw [le_div_iff₀ (by positivity)]
    linarith
  have h3 : (2 : ℚ) / (D * (D + 1)) ≤ 2 / D := by
    apply div_le_div_of_nonneg_left (by norm_num) hD0
    nlinarith
  have h4 : ((D : ℚ) + 1) * (2 / D - 40 * u) ≤ ((L : ℚ) - 1) * (2 / D - 40 * u) := mul_le_mul_of_nonneg_right h1 (by linarith)
  have h5 : ((D : ℚ) + 1) * (2 / D - 2 / (D * (D + 1))) ≤ ((D : ℚ) + 1) * (2 / D - 40 * u) := mul_le_mul_of_nonneg_left (by linarith) (by linarith)
  have h6 : ((D : ℚ) + 1) * (2 / D - 2 / (D * (D + 1))) = 2 := by
    field_simp
    ring
  linarith

section F64
attribute [local instance] f64Fmt f64_mono

/-- C117. `TDigest::<f64>::new(&k0, &inv_k0, D)`, `1 ≤ D ≤ 10^7`: after any history of at most `2^52` items of magnitude up to `2^970` there are at
most `D + 1` centroids, each of weight 1 or at most `n (2/D + 40/2^53)`. -/
theorem C117_f64 (D : Nat) (hD : 1 ≤ D) (hD7 : D ≤ 10 ^ 7) (ops : List (TDigest.TOp ℚ))
    (hs : ∀ c ∈ TDigest.supplied ops, ∃ x : ℚ, c = ⟨.fin x, .fin 1⟩ ∧ |x| ≤ 2 ^ 970) (hN : (TDigest.supplied ops).length ≤ 2 ^ 52) :
    Always ((TDigest.new k0 invK0 (.fin (D : ℚ))).execOps ops) (fun d => d.centroids.length ≤ D + 1 ∧
      ∀ c ∈ d.centroids, c.weight ≤ .fin (Max.max 1 ((TDigest.supplied ops).length * (2 / D + 40 / 2 ^ 53)))) := by
  have hw := TDigest.within_of_unit hs
  have hDq : (1 : ℚ) ≤ D := by exact_mod_cast hD
  have hD7q : (D : ℚ) ≤ 10 ^ 7 := by exact_mod_cast hD7
  have hmax : (12 * 2 ^ 52 : ℚ) ≤ Ieee.double.max := by decide +kernel
  refine (C117_size_round (M0 := 1) (f64_roomy (e := 970) (by norm_num) le_rfl) f64_relErr (by decide +kernel) (by decide +kernel) hDq
    (by linarith) (by push_cast; linarith) ops hw.1 (fun c hc => by obtain ⟨x, rfl, -⟩ := hs c hc; exact le_rfl)
    (by rw [hw.2]; exact_mod_cast hN)).mono ?_
  rintro d ⟨h1, h2⟩
  have e : (2 : ℚ) ^ (-53 : ℤ) = 1 / 2 ^ 53 := by decide +kernel
  rw [e] at h1
  rw [e, hw.2] at h2
  refine ⟨size_le_of_round hD ?_ (by norm_num) h1, fun c hc => ?_⟩
  · have : (D : ℚ) * (D + 1) ≤ 10 ^ 7 * (10 ^ 7 + 1) := by nlinarith
    nlinarith
  · have := h2 c hc
    rwa [show (40 : ℚ) * (1 / 2 ^ 53) = 40 / 2 ^ 53 by ring] at this

/-- A digest of 8 doubles with compression factor 3: at most 4 centroids by the theorem. -/
example : (∀ c ∈ TDigest.supplied [TDigest.TOp.addBuffer [.fin 1, .fin 2, .fin 3, .fin 4], .addBuffer [.fin 5, .fin 6, .fin 7, .fin 8]],
      ∃ x : ℚ, c = ⟨.fin x, .fin 1⟩ ∧ |x| ≤ 2 ^ 970) ∧
    Always ((TDigest.new k0 invK0 (.fin (3 : ℚ))).execOps [.addBuffer [.fin 1, .fin 2, .fin 3, .fin 4], .addBuffer [.fin 5, .fin 6, .fin 7, .fin 8]])
      (fun d => d.centroids.length ≤ 4 ∧ d.totalWeight = .fin 8) := by
  refine ⟨?_, by decide +kernel⟩
  intro c hc
  simp only [TDigest.supplied, TDigest.TOp.supplied, List.flatMap_cons, List.flatMap_nil, List.map_cons, List.map_nil, List.append_nil,
    List.cons_append, List.nil_append, List.mem_cons, List.not_mem_nil, or_false] at hc
  rcases hc with rfl | rfl | rfl | rfl | rfl | rfl | rfl | rfl <;> exact ⟨_, rfl, by decide +kernel⟩

/-- C117. Rounding does change the number of centroids: 0, 1, ..., 54 with compression factor 22 give 12 centroids in doubles and 11 in exact
arithmetic. -/
theorem C117_f64_one_more :
    Always ((TDigest.new k0 invK0 (.fin (22 : ℚ))).addBuffer ((List.range 55).map (fun i => .fin (i : ℚ)))) (fun d => d.centroids.length = 12) ∧
    Always (@TDigest.addBuffer ℚ _ _ ratExact (@TDigest.new ℚ _ ratExact (@k0 ℚ _ _ ratExact) (@invK0 ℚ _ _ ratExact) (.fin (22 : ℚ)))
      ((List.range 55).map (fun i => .fin (i : ℚ)))) (fun d => d.centroids.length = 11) := by
  decide +kernel

end F64

section F32
attribute [local instance] f32Fmt f32_mono

/-- C117. `TDigest::<f32>::new(&k0, &inv_k0, D)`, `1 ≤ D ≤ 900`: at most `D + 1` centroids after at most `2^23` items of magnitude up to `2^103`. -/
theorem C117_f32 (D : Nat) (hD : 1 ≤ D) (hD9 : D ≤ 900) (ops : List (TDigest.TOp ℚ))
    (hs : ∀ c ∈ TDigest.supplied ops, ∃ x : ℚ, c = ⟨.fin x, .fin 1⟩ ∧ |x| ≤ 2 ^ 103) (hN : (TDigest.supplied ops).length ≤ 2 ^ 23) :
    Always ((TDigest.new k0 invK0 (.fin (D : ℚ))).execOps ops) (fun d => d.centroids.length ≤ D + 1 ∧
      ∀ c ∈ d.centroids, c.weight ≤ .fin (Max.max 1 ((TDigest.supplied ops).length * (2 / D + 40 / 2 ^ 24)))) := by
  have hw : (∀ c ∈ TDigest.supplied ops, Within (-2 ^ (103 : ℤ)) (2 ^ (103 : ℤ)) c) := by
    intro c hc
    obtain ⟨x, rfl, hx⟩ := hs c hc
    obtain ⟨h1, h2⟩ := abs_le.1 hx
    exact ⟨x, 1, rfl, by norm_cast at h1 ⊢, by norm_cast at h2 ⊢, by simp, le_rfl⟩
  have hw2 : totalW (TDigest.supplied ops) = ((TDigest.supplied ops).length : ℚ) := by
    have : ∀ l : List (Centroid ℚ), (∀ c ∈ l, ∃ x : ℚ, c = ⟨.fin x, .fin 1⟩ ∧ |x| ≤ 2 ^ 103) → totalW l = (l.length : ℚ) := by
      intro l
      induction l with
      | nil => simp
      | cons a l ih =>
        intro h
        obtain ⟨x, rfl, -⟩ := h a (by simp)
        rw [totalW_cons, ih (fun c hc => h c (by simp [hc]))]
        simp [Fl.toK, add_comm]
    exact this _ hs
  have hDq : (1 : ℚ) ≤ D := by exact_mod_cast hD
  have hD9q : (D : ℚ) ≤ 900 := by exact_mod_cast hD9
  have hmax : (12 * 2 ^ 23 : ℚ) ≤ Ieee.single.max := by decide +kernel
  refine (C117_size_round (M0 := 1) (f32_roomy (e := 103) (by norm_num) le_rfl) f32_relErr (by decide +kernel) (by decide +kernel) hDq
    (by linarith) (by push_cast; linarith) ops hw (fun c hc => by obtain ⟨x, rfl, -⟩ := hs c hc; exact le_rfl)
    (by rw [hw2]; exact_mod_cast hN)).mono ?_
  rintro d ⟨h1, h2⟩
  have e : (2 : ℚ) ^ (-24 : ℤ) = 1 / 2 ^ 24 := by decide +kernel
  rw [e] at h1
  rw [e, hw2] at h2
  refine ⟨size_le_of_round hD ?_ (by norm_num) h1, fun c hc => ?_⟩
  · have : (D : ℚ) * (D + 1) ≤ 900 * (900 + 1) := by nlinarith
    nlinarith
  · have := h2 c hc
    rwa [show (40 : ℚ) * (1 / 2 ^ 24) = 40 / 2 ^ 24 by ring] at this
end F32
end AQ

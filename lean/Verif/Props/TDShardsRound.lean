/-
C136: accuracy of TDigests merged in any shape, in floating point.
-/
import Verif.Proofs.TDShardsRound
import Verif.Props.TDShards

set_option linter.unusedSectionVars false
set_option linter.unusedVariables false

namespace AQ
open Prog Spec
variable {K : Type} [Field K] [LinearOrder K] [IsStrictOrderedRing K] [FloatFmt K]

namespace TTree
open TDigest

theorem weightAround_mono {l : List (Centroid K)} (hg : ∀ c ∈ l, Good c) {r x s s' e e' : K} (h : WeightAround l r x s e) (hs : s ≤ s') (he : e ≤ e') :
    WeightAround l r x s' e' := by
  obtain ⟨h1, h2⟩ := h
  rw [weightBelow_eq_lw _ hg] at h1
  rw [weightUpTo_eq_uw _ hg] at h2
  have h3 := uw_mono (show x + s ≤ x + s' by linarith) hg
  have h4 := lw_mono (show x - s' ≤ x - s by linarith) hg
  unfold WeightAround
  rw [weightBelow_eq_lw _ hg, weightUpTo_eq_uw _ hg]
  constructor <;> linarith

end TTree

/-- C136. In an arithmetic with relative error `u` (and `η` near zero), digests with `k0` and factor `δ` filled with together `n` plain items of
magnitude up to `X` and merged in any shape: with `ρ = 2/δ + 40u` and `M = max 1 (n ρ)` the quantile answered for `x` is the rank of a value
within `depth (u X + η) (M + 1)` of `x`, up to `passes ρ + 2 M` and the rounding of the answer itself. The digest has at most about `δ`
centroids, of weight at most `M`. -/
theorem C136_quantile_round [FloatFmt.Mono K] {N : Nat} {A B u η Rm X δ M : K} (H : TDigest.K0Room N A B u η Rm X δ) (hR1 : 1 ≤ Rm) (t : TTree K)
    (hk : t.Uniform k0 invK0 (.fin δ)) (hne : t.supplied ≠ []) (hs : ∀ c ∈ t.supplied, Within A B c) (hu : ∀ c ∈ t.supplied, c.weight = .fin 1)
    (hN : totalW t.supplied ≤ N) (hM : M = Max.max 1 (totalW t.supplied * (2 / δ + 40 * u))) :
    Always t.run (fun d => ((d.centroids.length : K) - 1) * (2 / δ - 40 * u) < 2 ∧ (∀ c ∈ d.centroids, c.weight ≤ .fin M) ∧
      ∀ x : K, ∃ y : K, d.estQuantileAtValue (.fin x) = .ret (.fin y) ∧
        WeightAround t.supplied (y * totalW t.supplied) x (t.depth * ((u * X + η) * (M + 1)))
          (t.passes * (2 / δ + 40 * u) + 2 * M + 2 * (u + η) * totalW t.supplied)) := by
  have hM1 : 1 ≤ M := by rw [hM]; exact le_max_left _ _
  have hM2 : totalW t.supplied * (2 / δ + 40 * u) ≤ M := by rw [hM]; exact le_max_right _ _
  have hg : ∀ c ∈ t.supplied, Good c := fun c hc => (hs c hc).good
  refine ((TTree.run_rinv H.roomy t hs hN).and (TTree.run_rk H hM1 t hk hs hu hN hM2).partially).mono ?_
  rintro d ⟨⟨got, hi, hgot, hW, hE⟩, hr⟩
  have hgn : got ≠ [] := fun e => hne (hE.1 e)
  have hcn : d.centroids ≠ [] := fun e => hgn (hi.empty.1 e)
  obtain ⟨⟨a, ha, ha1, -⟩, ⟨b, hb, hb1, -⟩⟩ := hi.range
  obtain ⟨S, s', E', k1, k2, k3, k4, k5, k6, k7⟩ := hr.last hcn
  have hwM : ∀ c ∈ d.centroids, c.weight.toK ≤ M := hr.size.le hM1 hM2
  refine ⟨hr.size.size, ?_, fun x => ?_⟩
  · intro c hc
    obtain ⟨w, hw, -⟩ := (hi.within c hc).nat
    have := hwM c hc
    rw [hw] at this ⊢
    exact Fl.fin_le_fin.2 this
  · obtain ⟨y, hy, l1, l2⟩ := TDigest.closeTo_query H.roomy H.err hR1 H.shift_nonneg hi.within hcn hg (hi.weight.trans hW) hN ⟨a, ha, ha1 hgn⟩
      ⟨b, hb, hb1 hgn⟩ k1 k2 k3 k7 k4 hwM x
    refine ⟨y, hy, TTree.weightAround_mono hg ⟨?_, ?_⟩ k5 (by linarith : E' + 2 * M + 2 * (u + η) * totalW t.supplied ≤ _)⟩
    · rw [TDigest.weightBelow_eq_lw _ hg]; exact l1
    · rw [TDigest.weightUpTo_eq_uw _ hg]; exact l2

/-- C136 for values: the value answered for a quantile `q` with `n q < n - M/2 - 2 (u + η) n` is within `(depth (M + 1) + 12) (u X + η)` of a value whose
rank is `n q`, up to the same number of items. -/
theorem C136_value_round [FloorRing K] [FloatFmt.Mono K] {N : Nat} {A B u η Rm X δ M : K} (H : TDigest.K0Room N A B u η Rm X δ) (hX : 8 * (X + η) ≤ Rm)
    (hNR : (N : K) ≤ Rm) (h64 : N < 2 ^ 64) (t : TTree K)
    (hk : t.Uniform k0 invK0 (.fin δ)) (hne : t.supplied ≠ []) (hs : ∀ c ∈ t.supplied, Within A B c) (hu : ∀ c ∈ t.supplied, c.weight = .fin 1)
    (hN : totalW t.supplied ≤ N) (hM : M = Max.max 1 (totalW t.supplied * (2 / δ + 40 * u))) :
    Always t.run (fun d => ∀ q : K, 0 ≤ q → totalW t.supplied * q < totalW t.supplied - M / 2 - 2 * (u + η) * totalW t.supplied →
      ∃ v : K, d.estValueAtQuantile (.fin q) = .ret (.fin v) ∧
        WeightAround t.supplied (totalW t.supplied * q) v (t.depth * ((u * X + η) * (M + 1)) + 12 * (u * X + η))
          (t.passes * (2 / δ + 40 * u) + 2 * M + 2 * (u + η) * totalW t.supplied)) := by
  have hM1 : 1 ≤ M := by rw [hM]; exact le_max_left _ _
  have hM2 : totalW t.supplied * (2 / δ + 40 * u) ≤ M := by rw [hM]; exact le_max_right _ _
  have hg : ∀ c ∈ t.supplied, Good c := fun c hc => (hs c hc).good
  have hu0 := H.err.u_nonneg
  have hη0 := H.err.eta_nonneg
  refine ((TTree.run_rinv H.roomy t hs hN).and (TTree.run_rk H hM1 t hk hs hu hN hM2).partially).mono ?_
  rintro d ⟨⟨got, hi, hgot, hW, hE⟩, hr⟩ q hq0 hq
  have hgn : got ≠ [] := fun e => hne (hE.1 e)
  have hcn : d.centroids ≠ [] := fun e => hgn (hi.empty.1 e)
  have hW0 : 0 < totalW t.supplied := totalW_pos hg hne
  have hq1 : q ≤ 1 := by
    have h0 : 0 ≤ 2 * (u + η) * totalW t.supplied := by positivity
    have : totalW t.supplied * q ≤ totalW t.supplied * 1 := by linarith
    exact le_of_mul_le_mul_left this hW0
  obtain ⟨⟨a, ha, ha1, -⟩, ⟨b, hb, hb1, -⟩⟩ := hi.range
  obtain ⟨S, s', E', k1, k2, k3, k4, k5, k6, k7⟩ := hr.last hcn
  obtain ⟨v, hv, l1, l2⟩ := TDigest.closeTo_value H.roomy H.err (H.small.trans (by norm_num)) H.lo H.hi hX hNR h64 hi.within hcn hg (hi.weight.trans hW) hN
    ⟨a, ha, ha1 hgn⟩ ⟨b, hb, hb1 hgn⟩ k1 k2 k3 k7 k4 (hr.size.le hM1 hM2) hq0 hq1 hq
  refine ⟨v, hv, TTree.weightAround_mono hg ⟨?_, ?_⟩ (by linarith : s' + (u * X + η) * (M + 1) + 12 * (u * X + η) ≤ _)
    (by linarith : E' + 2 * M + 2 * (u + η) * totalW t.supplied ≤ _)⟩
  · rw [TDigest.weightBelow_eq_lw _ hg]; exact l1
  · rw [TDigest.weightUpTo_eq_uw _ hg]; exact l2

/-- A centroid that is a plain item of magnitude up to `X`. -/
def Spec.PlainUpTo (X : K) (c : Centroid K) : Prop := ∃ m : K, c = ⟨.fin m, .fin 1⟩ ∧ |m| ≤ X

theorem Spec.PlainUpTo.within {X : K} {c : Centroid K} (h : PlainUpTo X c) : Within (-X) X c := by
  obtain ⟨m, rfl, hm⟩ := h
  obtain ⟨m1, m2⟩ := abs_le.1 hm
  exact ⟨m, 1, rfl, m1, m2, by simp, le_rfl⟩

theorem Spec.PlainUpTo.weight {X : K} {c : Centroid K} (h : PlainUpTo X c) : c.weight = .fin 1 := by
  obtain ⟨m, rfl, hm⟩ := h
  rfl

/-- In `f64` at most `D + 1` centroids. -/
theorem f64_size {D L : Nat} (hD : 1 ≤ D) (hD7 : D ≤ 10 ^ 7) (h : ((L : ℚ) - 1) * (2 / D - 40 * 2 ^ (-53 : ℤ)) < 2) : L ≤ D + 1 := by
  rw [show (2 : ℚ) ^ (-53 : ℤ) = 1 / 2 ^ 53 by decide +kernel] at h
  have hD7q : (D : ℚ) ≤ 10 ^ 7 := by exact_mod_cast hD7
  have hDq : (1 : ℚ) ≤ D := by exact_mod_cast hD
  refine size_le_of_round hD ?_ (by norm_num) h
  have : (D : ℚ) * (D + 1) ≤ 10 ^ 7 * (10 ^ 7 + 1) := by nlinarith
  nlinarith

section F64
attribute [local instance] f64Fmt f64_mono

/-- C136. Trees of `TDigest::<f64>` with `k0`, `inv_k0` and a factor `1 ≤ D ≤ 10^7`, together `n ≤ 2^52` items of magnitude up to `2^e`: with `ρ = 2/D + 40/2^53`
and `M = max 1 (n ρ)` there are at most `D + 1` centroids, and the quantile answered for `x` is the rank of a value within
`depth (M + 1) 2^e / 2^52` of `x`, up to `ρ passes + 2 M + n / 2^51` items. -/
theorem C136_quantile_f64 (D : Nat) (hD : 1 ≤ D) (hD7 : D ≤ 10 ^ 7) (e : ℤ) (he1 : -1022 ≤ e) (he2 : e ≤ 970) (t : TTree ℚ)
    (hk : t.Uniform k0 invK0 (.fin (D : ℚ))) (hs : ∀ c ∈ t.supplied, PlainUpTo (2 ^ e) c) (n : Nat) (hn : n = t.supplied.length) (hn0 : n ≠ 0)
    (hN : n ≤ 2 ^ 52) (ρ M : ℚ) (hρ : ρ = 2 / D + 40 / 2 ^ 53) (hM : M = Max.max 1 (n * ρ)) :
    Always t.run (fun d => d.centroids.length ≤ D + 1 ∧ ∀ x : ℚ, ∃ y : ℚ, d.estQuantileAtValue (.fin x) = .ret (.fin y) ∧
      WeightAround t.supplied (y * n) x (t.depth * ((M + 1) * 2 ^ e / 2 ^ 52)) (t.passes * ρ + 2 * M + n / 2 ^ 51)) := by
  have hne : t.supplied ≠ [] := fun h => hn0 (by rw [hn, h]; rfl)
  have e53 : 2 / (D : ℚ) + 40 * 2 ^ (-53 : ℤ) = ρ := by
    rw [hρ, show (2 : ℚ) ^ (-53 : ℤ) = 1 / 2 ^ 53 by decide +kernel]; ring
  have hw : totalW t.supplied = n := by rw [TTree.totalW_ones (fun c hc => (hs c hc).weight), hn]
  have hM1 : 1 ≤ M := by rw [hM]; exact le_max_left _ _
  have hg : ∀ c ∈ t.supplied, Good c := fun c hc => (hs c hc).within.good
  have h := C136_quantile_round (f64_k0Room D hD hD7 e he1 he2) (by decide +kernel) t hk hne (fun c hc => (hs c hc).within)
    (fun c hc => (hs c hc).weight) (by rw [hw]; exact_mod_cast hN) (M := M) (by rw [hM, e53, hw])
  rw [hw, e53] at h
  refine h.mono ?_
  rintro d ⟨h1, -, h2⟩
  refine ⟨f64_size hD hD7 h1, fun x => ?_⟩
  obtain ⟨y, hy, h3⟩ := h2 x
  refine ⟨y, hy, TTree.weightAround_mono hg h3 ?_ ?_⟩
  · refine mul_le_mul_of_nonneg_left ?_ (Nat.cast_nonneg _)
    have := mul_le_mul_of_nonneg_right (f64_shift he1) (show 0 ≤ M + 1 by linarith)
    calc _ ≤ 2 ^ e / 2 ^ 52 * (M + 1) := this
      _ = (M + 1) * 2 ^ e / 2 ^ 52 := by ring
  · have := f64_answer (n : ℚ) (by positivity)
    linarith

/-- C136 for values: the value answered for a quantile `q ≥ 0` with `n q < n - M/2 - n/2^51` is within `(depth (M + 1) + 12) 2^e / 2^52` of a value whose rank
is `n q`, up to the same number of items. -/
theorem C136_value_f64 (D : Nat) (hD : 1 ≤ D) (hD7 : D ≤ 10 ^ 7) (e : ℤ) (he1 : -1022 ≤ e) (he2 : e ≤ 970) (t : TTree ℚ)
    (hk : t.Uniform k0 invK0 (.fin (D : ℚ))) (hs : ∀ c ∈ t.supplied, PlainUpTo (2 ^ e) c) (n : Nat) (hn : n = t.supplied.length) (hn0 : n ≠ 0)
    (hN : n ≤ 2 ^ 52) (ρ M : ℚ) (hρ : ρ = 2 / D + 40 / 2 ^ 53) (hM : M = Max.max 1 (n * ρ)) :
    Always t.run (fun d => ∀ q : ℚ, 0 ≤ q → n * q < n - M / 2 - n / 2 ^ 51 → ∃ v : ℚ, d.estValueAtQuantile (.fin q) = .ret (.fin v) ∧
      WeightAround t.supplied (n * q) v ((t.depth * (M + 1) + 12) * 2 ^ e / 2 ^ 52) (t.passes * ρ + 2 * M + n / 2 ^ 51)) := by
  have hne : t.supplied ≠ [] := fun h => hn0 (by rw [hn, h]; rfl)
  have e53 : 2 / (D : ℚ) + 40 * 2 ^ (-53 : ℤ) = ρ := by
    rw [hρ, show (2 : ℚ) ^ (-53 : ℤ) = 1 / 2 ^ 53 by decide +kernel]; ring
  have hw : totalW t.supplied = n := by rw [TTree.totalW_ones (fun c hc => (hs c hc).weight), hn]
  have hM1 : 1 ≤ M := by rw [hM]; exact le_max_left _ _
  have hg : ∀ c ∈ t.supplied, Good c := fun c hc => (hs c hc).within.good
  have hX8 : 8 * ((2 : ℚ) ^ e + 2 ^ (-1075 : ℤ)) ≤ Ieee.double.max := by
    have h1 : (2 : ℚ) ^ e ≤ 2 ^ (970 : ℤ) := zpow_le_zpow_right₀ (by norm_num) he2
    have h2 : 8 * ((2 : ℚ) ^ (970 : ℤ) + 2 ^ (-1075 : ℤ)) ≤ Ieee.double.max := by decide +kernel
    generalize Ieee.double.max = R at h2 ⊢
    linarith
  have h := C136_value_round (f64_k0Room D hD hD7 e he1 he2) hX8 (by decide +kernel) (by norm_num) t hk hne (fun c hc => (hs c hc).within)
    (fun c hc => (hs c hc).weight) (by rw [hw]; exact_mod_cast hN) (M := M) (by rw [hM, e53, hw])
  rw [hw, e53] at h
  have hans := f64_answer (n : ℚ) (by positivity)
  refine h.mono ?_
  intro d h2 q hq0 hq
  obtain ⟨v, hv, h3⟩ := h2 q hq0 (by linarith)
  refine ⟨v, hv, TTree.weightAround_mono hg h3 ?_ ?_⟩
  · have h1 := f64_shift he1
    generalize (2 : ℚ) ^ (-53 : ℤ) * 2 ^ e + 2 ^ (-1075 : ℤ) = κ at h1 ⊢
    have h2 : (t.depth : ℚ) * (κ * (M + 1)) + 12 * κ = κ * (t.depth * (M + 1) + 12) := by ring
    rw [h2]
    calc _ ≤ 2 ^ e / 2 ^ 52 * (t.depth * (M + 1) + 12) := mul_le_mul_of_nonneg_right h1 (by positivity)
      _ = (t.depth * (M + 1) + 12) * 2 ^ e / 2 ^ 52 := by ring
  · linarith

/-- C136, shards: `2 ^ h` digests over `f64`, each given one batch of any size, merged in pairs. Up to values moved by `(h + 1) (M + 1) 2^e / 2^52` the
rank answered is wrong by at most `(h + 1) n ρ + 2 M + n / 2^51` items. -/
theorem C136_shards_f64 (D : Nat) (hD : 1 ≤ D) (hD7 : D ≤ 10 ^ 7) (e : ℤ) (he1 : -1022 ≤ e) (he2 : e ≤ 970) (h : Nat) (f : Nat → List (Fl ℚ))
    (xs : List (Fl ℚ)) (hxs : xs = (List.range (2 ^ h)).flatMap f) (hne : xs ≠ []) (hs : ∀ y ∈ xs, ∃ m : ℚ, y = .fin m ∧ |m| ≤ 2 ^ e)
    (hN : xs.length ≤ 2 ^ 52) (ρ M : ℚ) (hρ : ρ = 2 / D + 40 / 2 ^ 53) (hM : M = Max.max 1 (xs.length * ρ)) :
    Always (TTree.shards k0 invK0 (.fin (D : ℚ)) h f).run (fun d => d.centroids.length ≤ D + 1 ∧ ∀ x : ℚ, ∃ y : ℚ,
      d.estQuantileAtValue (.fin x) = .ret (.fin y) ∧
      RankAround xs (y * xs.length) x ((h + 1) * ((M + 1) * 2 ^ e / 2 ^ 52)) ((h + 1) * (xs.length * ρ) + 2 * M + xs.length / 2 ^ 51)) := by
  have hsup := TTree.shards_supplied (k0 : ScaleFn ℚ) invK0 (.fin (D : ℚ)) h f
  have hp := TTree.shards_passes (k0 : ScaleFn ℚ) invK0 (.fin (D : ℚ)) h f
  have hd := TTree.shards_depth (k0 : ScaleFn ℚ) invK0 (.fin (D : ℚ)) h f
  rw [← hxs] at hsup hp
  have hfin : ∀ y ∈ xs, ∃ m : ℚ, y = .fin m := fun y hy => by obtain ⟨m, h, -⟩ := hs y hy; exact ⟨m, h⟩
  have h1 := C136_quantile_f64 D hD hD7 e he1 he2 _ (TTree.shards_uniform k0 invK0 (.fin (D : ℚ)) h f) (by
    intro c hc
    rw [hsup] at hc
    obtain ⟨y, hy, rfl⟩ := List.mem_map.1 hc
    obtain ⟨m, rfl, hm⟩ := hs y hy
    exact ⟨m, rfl, hm⟩) xs.length (by rw [hsup, List.length_map]) (by simpa using hne) hN ρ M hρ hM
  rw [hd, hp, hsup] at h1
  refine h1.mono ?_
  rintro d ⟨h2, h3⟩
  refine ⟨h2, fun x => ?_⟩
  obtain ⟨y, hy, l1, l2⟩ := h3 x
  rw [TDigest.weightBelow_units _ _ hfin] at l1
  rw [TDigest.weightUpTo_units _ _ hfin] at l2
  have e1 : ((h : ℚ) + 1) * (xs.length : ℚ) * ρ = (h + 1) * (xs.length * ρ) := by ring
  have e2 : ((h + 1 : ℕ) : ℚ) = (h : ℚ) + 1 := by push_cast; rfl
  rw [e2, e1] at l1 l2
  exact ⟨y, hy, l1, l2⟩

/-- Two digests of ninths in `f64`, merged. -/
def ninthsTree : TTree ℚ := TTree.shards k0 invK0 (.fin ((6 : ℕ) : ℚ)) 1 (fun _ => ninths64)

/-- Non-vacuity: the hypotheses of `C136_shards_f64` are met by two shards of 36 ninths and ones each, with centroids that were merged (and rounded). -/
theorem C136_example : (∀ y ∈ (List.range (2 ^ 1)).flatMap (fun _ => ninths64), ∃ m : ℚ, y = .fin m ∧ |m| ≤ 2 ^ (0 : ℤ)) ∧
    ((List.range (2 ^ 1)).flatMap (fun _ => ninths64)).length = 72 ∧
    Always ninthsTree.run (fun d => d.totalWeight = .fin 72 ∧ d.centroids.length ≤ 7) := by
  have hy : ∀ y ∈ (List.range (2 ^ 1)).flatMap (fun _ => ninths64), ∃ m : ℚ, y = .fin m ∧ |m| ≤ 2 ^ (0 : ℤ) := by
    intro y hy
    obtain ⟨-, -, hy⟩ := List.mem_flatMap.1 hy
    exact ninths64_size y (by simpa using hy)
  have hl : ((List.range (2 ^ 1)).flatMap (fun _ => ninths64)).length = 72 := by decide +kernel
  refine ⟨hy, hl, ?_⟩
  have hsup := TTree.shards_supplied (k0 : ScaleFn ℚ) invK0 (.fin ((6 : ℕ) : ℚ)) 1 (fun _ => ninths64)
  have h1 := C136_shards_f64 6 (by norm_num) (by norm_num) 0 (by norm_num) (by norm_num) 1 (fun _ => ninths64) _ rfl
    (by rw [← List.length_pos_iff_ne_nil, hl]; norm_num) hy (by rw [hl]; norm_num) _ _ rfl rfl
  have hP : ∀ c ∈ ninthsTree.supplied, ∃ x : ℚ, c = ⟨.fin x, .fin 1⟩ ∧ |x| ≤ 2 ^ 970 := by
    intro c hc
    unfold ninthsTree at hc
    rw [hsup] at hc
    obtain ⟨y, hy', rfl⟩ := List.mem_map.1 hc
    obtain ⟨m, rfl, hm⟩ := hy y hy'
    refine ⟨m, rfl, hm.trans ?_⟩
    rw [zpow_zero]
    exact one_le_pow₀ (by norm_num)
  have hw := TDigest.within_of_unit hP
  have hlen : ninthsTree.supplied.length = 72 := by
    unfold ninthsTree
    rw [hsup, List.length_map, hl]
  have h2 := C135_round (f64_roomy (e := 970) (by norm_num) le_rfl) (by norm_num) ninthsTree hw.1 (by rw [hw.2, hlen]; norm_num)
  refine (h1.and h2.partially).mono ?_
  rintro d ⟨⟨h3, -⟩, h4, -⟩
  rw [hw.2, hlen] at h4
  exact ⟨by rw [h4]; norm_num, h3⟩

end F64

/-- In `f32` at most `D + 1` centroids. -/
theorem f32_size {D L : Nat} (hD : 1 ≤ D) (hD9 : D ≤ 900) (h : ((L : ℚ) - 1) * (2 / D - 40 * 2 ^ (-24 : ℤ)) < 2) : L ≤ D + 1 := by
  rw [show (2 : ℚ) ^ (-24 : ℤ) = 1 / 2 ^ 24 by decide +kernel] at h
  have hD9q : (D : ℚ) ≤ 900 := by exact_mod_cast hD9
  have hDq : (1 : ℚ) ≤ D := by exact_mod_cast hD
  refine size_le_of_round hD ?_ (by norm_num) h
  have : (D : ℚ) * (D + 1) ≤ 900 * (900 + 1) := by nlinarith
  nlinarith

section F32
attribute [local instance] f32Fmt f32_mono

/-- C136. Trees of `TDigest::<f32>` with `k0`, `inv_k0` and a factor `1 ≤ D ≤ 900`, together `n ≤ 2^23` items of magnitude up to `2^e`: with `ρ = 2/D + 40/2^24`
and `M = max 1 (n ρ)` there are at most `D + 1` centroids, and the quantile answered for `x` is the rank of a value within
`depth (M + 1) 2^e / 2^23` of `x`, up to `ρ passes + 2 M + n / 2^22` items. -/
theorem C136_quantile_f32 (D : Nat) (hD : 1 ≤ D) (hD9 : D ≤ 900) (e : ℤ) (he1 : -126 ≤ e) (he2 : e ≤ 103) (t : TTree ℚ)
    (hk : t.Uniform k0 invK0 (.fin (D : ℚ))) (hs : ∀ c ∈ t.supplied, PlainUpTo (2 ^ e) c) (n : Nat) (hn : n = t.supplied.length) (hn0 : n ≠ 0)
    (hN : n ≤ 2 ^ 23) (ρ M : ℚ) (hρ : ρ = 2 / D + 40 / 2 ^ 24) (hM : M = Max.max 1 (n * ρ)) :
    Always t.run (fun d => d.centroids.length ≤ D + 1 ∧ ∀ x : ℚ, ∃ y : ℚ, d.estQuantileAtValue (.fin x) = .ret (.fin y) ∧
      WeightAround t.supplied (y * n) x (t.depth * ((M + 1) * 2 ^ e / 2 ^ 23)) (t.passes * ρ + 2 * M + n / 2 ^ 22)) := by
  have hne : t.supplied ≠ [] := fun h => hn0 (by rw [hn, h]; rfl)
  have e24 : 2 / (D : ℚ) + 40 * 2 ^ (-24 : ℤ) = ρ := by
    rw [hρ, show (2 : ℚ) ^ (-24 : ℤ) = 1 / 2 ^ 24 by decide +kernel]; ring
  have hw : totalW t.supplied = n := by rw [TTree.totalW_ones (fun c hc => (hs c hc).weight), hn]
  have hM1 : 1 ≤ M := by rw [hM]; exact le_max_left _ _
  have hg : ∀ c ∈ t.supplied, Good c := fun c hc => (hs c hc).within.good
  have h := C136_quantile_round (f32_k0Room D hD hD9 e he1 he2) (by decide +kernel) t hk hne (fun c hc => (hs c hc).within)
    (fun c hc => (hs c hc).weight) (by rw [hw]; exact_mod_cast hN) (M := M) (by rw [hM, e24, hw])
  rw [hw, e24] at h
  refine h.mono ?_
  rintro d ⟨h1, -, h2⟩
  refine ⟨f32_size hD hD9 h1, fun x => ?_⟩
  obtain ⟨y, hy, h3⟩ := h2 x
  refine ⟨y, hy, TTree.weightAround_mono hg h3 ?_ ?_⟩
  · refine mul_le_mul_of_nonneg_left ?_ (Nat.cast_nonneg _)
    have := mul_le_mul_of_nonneg_right (f32_shift he1) (show 0 ≤ M + 1 by linarith)
    calc _ ≤ 2 ^ e / 2 ^ 23 * (M + 1) := this
      _ = (M + 1) * 2 ^ e / 2 ^ 23 := by ring
  · have := f32_answer (n : ℚ) (by positivity)
    linarith

/-- C136 for values: the value answered for a quantile `q ≥ 0` with `n q < n - M/2 - n/2^22` is within `(depth (M + 1) + 12) 2^e / 2^23` of a value whose rank
is `n q`, up to the same number of items. -/
theorem C136_value_f32 (D : Nat) (hD : 1 ≤ D) (hD9 : D ≤ 900) (e : ℤ) (he1 : -126 ≤ e) (he2 : e ≤ 103) (t : TTree ℚ)
    (hk : t.Uniform k0 invK0 (.fin (D : ℚ))) (hs : ∀ c ∈ t.supplied, PlainUpTo (2 ^ e) c) (n : Nat) (hn : n = t.supplied.length) (hn0 : n ≠ 0)
    (hN : n ≤ 2 ^ 23) (ρ M : ℚ) (hρ : ρ = 2 / D + 40 / 2 ^ 24) (hM : M = Max.max 1 (n * ρ)) :
    Always t.run (fun d => ∀ q : ℚ, 0 ≤ q → n * q < n - M / 2 - n / 2 ^ 22 → ∃ v : ℚ, d.estValueAtQuantile (.fin q) = .ret (.fin v) ∧
      WeightAround t.supplied (n * q) v ((t.depth * (M + 1) + 12) * 2 ^ e / 2 ^ 23) (t.passes * ρ + 2 * M + n / 2 ^ 22)) := by
  have hne : t.supplied ≠ [] := fun h => hn0 (by rw [hn, h]; rfl)
  have e24 : 2 / (D : ℚ) + 40 * 2 ^ (-24 : ℤ) = ρ := by
    rw [hρ, show (2 : ℚ) ^ (-24 : ℤ) = 1 / 2 ^ 24 by decide +kernel]; ring
  have hw : totalW t.supplied = n := by rw [TTree.totalW_ones (fun c hc => (hs c hc).weight), hn]
  have hM1 : 1 ≤ M := by rw [hM]; exact le_max_left _ _
  have hg : ∀ c ∈ t.supplied, Good c := fun c hc => (hs c hc).within.good
  have hX8 : 8 * ((2 : ℚ) ^ e + 2 ^ (-150 : ℤ)) ≤ Ieee.single.max := by
    have h1 : (2 : ℚ) ^ e ≤ 2 ^ (103 : ℤ) := zpow_le_zpow_right₀ (by norm_num) he2
    have h2 : 8 * ((2 : ℚ) ^ (103 : ℤ) + 2 ^ (-150 : ℤ)) ≤ Ieee.single.max := by decide +kernel
    generalize Ieee.single.max = R at h2 ⊢
    linarith
  have h := C136_value_round (f32_k0Room D hD hD9 e he1 he2) hX8 (by decide +kernel) (by norm_num) t hk hne (fun c hc => (hs c hc).within)
    (fun c hc => (hs c hc).weight) (by rw [hw]; exact_mod_cast hN) (M := M) (by rw [hM, e24, hw])
  rw [hw, e24] at h
  have hans := f32_answer (n : ℚ) (by positivity)
  refine h.mono ?_
  intro d h2 q hq0 hq
  obtain ⟨v, hv, h3⟩ := h2 q hq0 (by linarith)
  refine ⟨v, hv, TTree.weightAround_mono hg h3 ?_ ?_⟩
  · have h1 := f32_shift he1
    generalize (2 : ℚ) ^ (-24 : ℤ) * 2 ^ e + 2 ^ (-150 : ℤ) = κ at h1 ⊢
    have h2 : (t.depth : ℚ) * (κ * (M + 1)) + 12 * κ = κ * (t.depth * (M + 1) + 12) := by ring
    rw [h2]
    calc _ ≤ 2 ^ e / 2 ^ 23 * (t.depth * (M + 1) + 12) := mul_le_mul_of_nonneg_right h1 (by positivity)
      _ = (t.depth * (M + 1) + 12) * 2 ^ e / 2 ^ 23 := by ring
  · linarith
end F32
end AQ

/-
C120: accuracy of TDigest value queries in floating point.
-/
import Verif.Proofs.TDRoundValue
import Verif.Props.TDRoundRank

set_option linter.unusedSectionVars false
set_option linter.unusedVariables false

namespace AQ
open Prog Spec

section
variable {K : Type} [Field K] [LinearOrder K] [IsStrictOrderedRing K] [FloorRing K] [FloatFmt K]

namespace Spec

/-- `q` lies in the outer half of a last centroid of weight `wl`, widened by the relative rounding slack `e` of the target. -/
def NearLastTail (W wl e q : K) : Prop := W - wl / 2 - e * W ≤ W * q ∧ W * q ≤ W - 1 + e * W

end Spec

/-- C120. In an arithmetic with relative error `u` (and `η` near zero), after `p` calls of `add`, `add_buffer` and `add_centroid_buffer` with any scale
functions and data of magnitude up to `X`, the value answered for a quantile `q` outside the outer half of the last centroid is within
`(p (M + 1) + 12) (u X + η)` of a value whose rank is `q W`, up to `(p + 1) M` and the rounding of `q W`; `M` is the weight of the heaviest centroid. -/
theorem C120_value_round [FloatFmt.Mono K] {A B : K} {N : Nat} (R : Roomy N A B) {u η Rm X : K} (E : RelErr u η Rm) (hu : u ≤ 1 / 2) (hA : -X ≤ A) (hB : B ≤ X)
    (hXR : X * N ≤ Rm) (hX : 8 * (X + η) ≤ Rm) (hNR : (N : K) ≤ Rm) (h64 : N < 2 ^ 64)
    (s i : ScaleFn K) (cf : Fl K) (ops : List (TDigest.TOp K)) (hne : TDigest.supplied ops ≠ [])
    (hs : ∀ c ∈ TDigest.supplied ops, Within A B c) (hN : totalW (TDigest.supplied ops) ≤ N) :
    Always ((TDigest.new s i cf).execOps ops) (fun d => ∀ M : K, (∀ c ∈ d.centroids, c.weight ≤ .fin M) →
      ∀ (last : Centroid K) (q : K), d.centroids.getLast? = some last → 0 ≤ q → q ≤ 1 →
      ¬ NearLastTail (totalW (TDigest.supplied ops)) last.weight.toK (2 * (u + η)) q →
      ∃ v : K, d.estValueAtQuantile (.fin q) = .ret (.fin v) ∧
        WeightAround (TDigest.supplied ops) (q * totalW (TDigest.supplied ops)) v (ops.length * ((u * X + η) * (M + 1)) + 12 * (u * X + η))
          ((ops.length + 1) * M + 2 * (u + η) * totalW (TDigest.supplied ops))) := by
  refine (TDigest.execOps_rankInv R E hA hB hXR ops 0 _ [] (TDigest.new_rinv A B s i cf) (TDigest.new_rankInv _ s i cf) (by simp) hs
    (by simpa using hN)).mono ?_
  rintro d ⟨h1, h2⟩ M hM last q hlast hq0 hq1 ht
  simp only [List.nil_append, Nat.zero_add] at h1 h2
  have hM' : ∀ c ∈ d.centroids, c.weight.toK ≤ M := by
    intro c hc
    obtain ⟨w, hw, -⟩ := (h1.within c hc).nat
    have := hM c hc
    rw [hw] at this ⊢
    exact Fl.fin_le_fin.1 this
  obtain ⟨v, hv, l1, l2⟩ := h2.value R E hu hA hB hX hNR h64 h1 hs hne hN hM' hq0 hq1 hlast ht
  have hg : ∀ c ∈ TDigest.supplied ops, Good c := fun c hc => (hs c hc).good
  refine ⟨v, hv, ?_, ?_⟩
  · rw [TDigest.weightBelow_eq_lw _ hg, mul_comm q]; exact l1
  · rw [TDigest.weightUpTo_eq_uw _ hg, mul_comm q]; exact l2

end

section F64
attribute [local instance] f64Fmt f64_mono

/-- C120. `TDigest::<f64>` with `k0`, `inv_k0` and a factor `1 ≤ D ≤ 10^7`, after `p` batches of together `n ≤ 2^52` items of magnitude up to `2^e`:
with `M = max 1 (n (2/D + 40/2^53))` the value answered for a quantile `q ≥ 0` with `n q < n - M/2 - n/2^51` is within
`(p (M + 1) + 12) 2^e / 2^52` of a value whose rank is `n q`, up to `(p + 1) M + n / 2^51` items. -/
theorem C120_f64 (D : Nat) (hD : 1 ≤ D) (hD7 : D ≤ 10 ^ 7) (e : ℤ) (he1 : -1022 ≤ e) (he2 : e ≤ 970) (batches : List (List (Fl ℚ)))
    (hs : ∀ y ∈ batches.flatten, ∃ m : ℚ, y = .fin m ∧ |m| ≤ 2 ^ e) (hne : batches.flatten ≠ []) (hN : batches.flatten.length ≤ 2 ^ 52) :
    Always ((TDigest.new k0 invK0 (.fin (D : ℚ))).execOps (batches.map TDigest.TOp.addBuffer)) (fun d => ∀ M : ℚ,
      M = Max.max 1 ((batches.flatten.length : ℚ) * (2 / D + 40 / 2 ^ 53)) → ∀ q : ℚ, 0 ≤ q →
        batches.flatten.length * q < batches.flatten.length - M / 2 - batches.flatten.length / 2 ^ 51 →
        ∃ v : ℚ, d.estValueAtQuantile (.fin q) = .ret (.fin v) ∧
        RankAround batches.flatten (q * batches.flatten.length) v ((batches.length * (M + 1) + 12) * 2 ^ e / 2 ^ 52)
          ((batches.length + 1) * M + batches.flatten.length / 2 ^ 51)) := by
  have hsup := TDigest.supplied_batches batches
  have hfin : ∀ y ∈ batches.flatten, ∃ m : ℚ, y = .fin m := fun y hy => by obtain ⟨m, h, -⟩ := hs y hy; exact ⟨m, h⟩
  have hw : ∀ c ∈ TDigest.supplied (batches.map TDigest.TOp.addBuffer), Within (-2 ^ e) (2 ^ e) c := by
    intro c hc
    rw [hsup] at hc
    obtain ⟨y, hy, rfl⟩ := List.mem_map.1 hc
    obtain ⟨m, rfl, hm⟩ := hs y hy
    obtain ⟨m1, m2⟩ := abs_le.1 hm
    exact ⟨m, 1, rfl, m1, m2, by simp, le_rfl⟩
  have htot : totalW (TDigest.supplied (batches.map TDigest.TOp.addBuffer)) = (batches.flatten.length : ℚ) := by
    rw [hsup, TDigest.totalW_items]
  have hsne : TDigest.supplied (batches.map TDigest.TOp.addBuffer) ≠ [] := by rw [hsup]; simpa using hne
  have hNq : (batches.flatten.length : ℚ) ≤ 2 ^ 52 := by exact_mod_cast hN
  have hn0 : (1 : ℚ) ≤ batches.flatten.length := by exact_mod_cast List.length_pos_iff.2 hne
  have hDq : (1 : ℚ) ≤ D := by exact_mod_cast hD
  have hD7q : (D : ℚ) ≤ 10 ^ 7 := by exact_mod_cast hD7
  have hmax : (12 * 2 ^ 52 : ℚ) ≤ Ieee.double.max := by decide +kernel
  have hXN : (2 : ℚ) ^ e * ((2 ^ 52 : ℕ) : ℚ) ≤ Ieee.double.max := by
    have h1 : (2 : ℚ) ^ e ≤ 2 ^ (970 : ℤ) := zpow_le_zpow_right₀ (by norm_num) he2
    have h2 : (2 : ℚ) ^ (970 : ℤ) * ((2 ^ 52 : ℕ) : ℚ) ≤ Ieee.double.max := by decide +kernel
    exact (mul_le_mul_of_nonneg_right h1 (by positivity)).trans h2
  have hX8 : 8 * ((2 : ℚ) ^ e + 2 ^ (-1075 : ℤ)) ≤ Ieee.double.max := by
    have h1 : (2 : ℚ) ^ e ≤ 2 ^ (970 : ℤ) := zpow_le_zpow_right₀ (by norm_num) he2
    have h2 : 8 * ((2 : ℚ) ^ (970 : ℤ) + 2 ^ (-1075 : ℤ)) ≤ Ieee.double.max := by decide +kernel
    refine le_trans ?_ h2
    generalize (2 : ℚ) ^ (-1075 : ℤ) = η
    generalize (2 : ℚ) ^ (970 : ℤ) = Y at h1 ⊢
    linarith
  have hR := f64_roomy (e := e) (by omega) he2
  have h1 := C120_value_round hR f64_relErr (by decide +kernel) le_rfl le_rfl hXN hX8 (by decide +kernel) (by norm_num) (k0 : ScaleFn ℚ) invK0 (.fin (D : ℚ))
    (batches.map TDigest.TOp.addBuffer) hsne hw (by rw [htot]; exact_mod_cast hN)
  have h2 := TDigest.execOps_k0Size (M0 := 1) hR f64_relErr (by decide +kernel) (by decide +kernel) hDq (by linarith) (by push_cast; linarith)
    (batches.map TDigest.TOp.addBuffer) _ [] (TDigest.new_rinv _ _ k0 invK0 (.fin (D : ℚ)))
    (TDigest.new_k0Size f64_relErr.u_nonneg (by decide +kernel) hDq) (by simp) hw (by
      intro c hc
      rw [hsup] at hc
      obtain ⟨y, hy, rfl⟩ := List.mem_map.1 hc
      exact le_rfl) (by rw [List.nil_append, htot]; exact_mod_cast hN)
  have h0 := TDigest.execOps_rinv hR (batches.map TDigest.TOp.addBuffer) (TDigest.new k0 invK0 (.fin (D : ℚ))) [] (TDigest.new_rinv _ _ k0 invK0 (.fin (D : ℚ)))
    (by simp) hw (by rw [List.nil_append, htot]; exact_mod_cast hN)
  refine ((h0.and h1.partially).and h2.partially).mono ?_
  rintro d ⟨⟨hri, h3⟩, h4⟩ M hM q hq0 hqt
  have e53 : (2 : ℚ) ^ (-53 : ℤ) = 1 / 2 ^ 53 := by decide +kernel
  have hM0 : 1 ≤ M := by rw [hM]; exact le_max_left _ _
  have hMw : ∀ c ∈ d.centroids, c.weight ≤ .fin M := by
    intro c hc
    obtain ⟨w, hw, hle⟩ := h4.weights c hc
    rw [List.nil_append, htot, e53, show (40 : ℚ) * (1 / 2 ^ 53) = 40 / 2 ^ 53 by ring] at hle
    rw [hw, hM]
    exact Fl.fin_le_fin.2 hle
  have hcne : d.centroids ≠ [] := fun h => hsne (by simpa using hri.empty.1 h)
  have hlast : d.centroids.getLast? = some (d.centroids.getLast hcne) := List.getLast?_eq_some_getLast hcne
  obtain ⟨wl, hwl, -⟩ := (hri.within _ (List.getLast_mem hcne)).nat
  have hwlM : (wl : ℚ) ≤ M := by
    have := hMw _ (List.getLast_mem hcne)
    rw [hwl] at this
    exact Fl.fin_le_fin.1 this
  have hη' : (2 : ℚ) ^ (-1075 : ℤ) ≤ 2 ^ (-53 : ℤ) := zpow_le_zpow_right₀ (by norm_num) (by norm_num)
  have hη : (2 : ℚ) ^ (-1075 : ℤ) ≤ 2 ^ (-53 : ℤ) * 2 ^ e := by
    rw [← zpow_add₀ (by norm_num)]
    exact zpow_le_zpow_right₀ (by norm_num) (by omega)
  have h2e : (0 : ℚ) < 2 ^ e := by positivity
  have h3 := h3 M hMw _ q hlast hq0
  rw [htot, hsup, hwl] at h3
  generalize (2 : ℚ) ^ (-1075 : ℤ) = η at h3 hη' hη ⊢
  generalize (2 : ℚ) ^ (-53 : ℤ) = u at h3 hη' hη e53 ⊢
  generalize (2 : ℚ) ^ e = X at h3 hη h2e ⊢
  have herr : 2 * (u + η) * batches.flatten.length ≤ batches.flatten.length / 2 ^ 51 := by
    have : 2 * (u + η) ≤ 1 / 2 ^ 51 := by
      rw [e53] at hη' ⊢
      linarith
    have := mul_le_mul_of_nonneg_right this (show (0 : ℚ) ≤ batches.flatten.length by positivity)
    calc _ ≤ _ := this
      _ = (batches.flatten.length : ℚ) / 2 ^ 51 := by ring
  have hq1 : q ≤ 1 := by
    by_contra hc
    have h5 : (batches.flatten.length : ℚ) * 1 < batches.flatten.length * q := mul_lt_mul_of_pos_left (not_le.1 hc) (by linarith)
    have h6 : (0 : ℚ) ≤ batches.flatten.length / 2 ^ 51 := by positivity
    linarith
  obtain ⟨v, hv, l1, l2⟩ := h3 hq1 (by
    rintro ⟨g1, -⟩
    have : Fl.toK (.fin (wl : ℚ)) = wl := rfl
    rw [this] at g1
    linarith)
  refine ⟨v, hv, ?_⟩
  rw [TDigest.weightBelow_units _ _ hfin] at l1
  rw [TDigest.weightUpTo_units _ _ hfin] at l2
  rw [List.length_map] at l1 l2
  have hshift : (batches.length : ℚ) * ((u * X + η) * (M + 1)) + 12 * (u * X + η) ≤ (batches.length * (M + 1) + 12) * X / 2 ^ 52 := by
    have h5 : u * X + η ≤ X / 2 ^ 52 := by
      have : u * X + u * X = X / 2 ^ 52 := by rw [e53]; ring
      linarith
    have h6 : (0 : ℚ) ≤ batches.length * (M + 1) + 12 := by positivity
    calc (batches.length : ℚ) * ((u * X + η) * (M + 1)) + 12 * (u * X + η) = (batches.length * (M + 1) + 12) * (u * X + η) := by ring
      _ ≤ (batches.length * (M + 1) + 12) * (X / 2 ^ 52) := mul_le_mul_of_nonneg_left h5 h6
      _ = _ := by ring
  generalize (batches.length : ℚ) * ((u * X + η) * (M + 1)) + 12 * (u * X + η) = s0 at l1 l2 hshift
  generalize (batches.length * (M + 1) + 12) * X / 2 ^ 52 = s1 at hshift ⊢
  constructor
  · refine le_trans ?_ (l1.trans ?_)
    · have : List.countP (fun y => Fl.lt y (.fin (v - s1))) batches.flatten ≤ List.countP (fun y => Fl.lt y (.fin (v - s0))) batches.flatten := by
        refine List.countP_mono_left ?_
        intro z hz h
        obtain ⟨m, rfl⟩ := hfin z hz
        rw [Fl.lt_fin, decide_eq_true_eq] at h ⊢
        linarith
      exact_mod_cast this
    · linarith
  · refine l2.trans ?_
    have : List.countP (fun y => Fl.le y (.fin (v + s0))) batches.flatten ≤ List.countP (fun y => Fl.le y (.fin (v + s1))) batches.flatten := by
      refine List.countP_mono_left ?_
      intro z hz h
      obtain ⟨m, rfl⟩ := hfin z hz
      rw [Fl.le_fin, decide_eq_true_eq] at h ⊢
      linarith
    have : ((List.countP (fun y => Fl.le y (.fin (v + s0))) batches.flatten : ℕ) : ℚ) ≤ (List.countP (fun y => Fl.le y (.fin (v + s1))) batches.flatten : ℕ) := by
      exact_mod_cast this
    linarith

/-- The hypotheses are met by two batches of tenths with `D = 20`: the median is answered, up to its rank error. -/
example : Always ((TDigest.new k0 invK0 (.fin ((20 : ℕ) : ℚ))).execOps (([ninths64, ninths64]).map TDigest.TOp.addBuffer)) (fun d =>
    ∃ v : ℚ, d.estValueAtQuantile (.fin (1 / 2)) = .ret (.fin v)) := by
  have h := C120_f64 20 (by norm_num) (by norm_num) 0 (by norm_num) (by norm_num) [ninths64, ninths64] (by
    intro y hy
    refine ninths64_size y ?_
    simp only [List.flatten_cons, List.flatten_nil, List.append_nil, List.mem_append] at hy ⊢
    exact hy.elim id id) (by decide +kernel) (by decide +kernel)
  refine h.mono ?_
  intro d hd
  have e : ([ninths64, ninths64].flatten).length = 72 := by decide +kernel
  rw [e] at hd
  obtain ⟨v, hv, -⟩ := hd _ rfl (1 / 2) (by norm_num) (by
    have : Max.max 1 (((72 : ℕ) : ℚ) * (2 / ((20 : ℕ) : ℚ) + 40 / 2 ^ 53)) ≤ 10 := by norm_num
    push_cast at this ⊢
    linarith)
  exact ⟨v, hv⟩

end F64

section F32
attribute [local instance] f32Fmt f32_mono

/-- C120. `TDigest::<f32>` with `k0`, `inv_k0` and a factor `1 ≤ D ≤ 900`, after `p` batches of together `n ≤ 2^23` items of magnitude up to `2^e`:
with `M = max 1 (n (2/D + 40/2^24))` the value answered for a quantile `q ≥ 0` with `n q < n - M/2 - n/2^22` is within
`(p (M + 1) + 12) 2^e / 2^23` of a value whose rank is `n q`, up to `(p + 1) M + n / 2^22` items. -/
theorem C120_f32 (D : Nat) (hD : 1 ≤ D) (hD7 : D ≤ 900) (e : ℤ) (he1 : -126 ≤ e) (he2 : e ≤ 103) (batches : List (List (Fl ℚ)))
    (hs : ∀ y ∈ batches.flatten, ∃ m : ℚ, y = .fin m ∧ |m| ≤ 2 ^ e) (hne : batches.flatten ≠ []) (hN : batches.flatten.length ≤ 2 ^ 23) :
    Always ((TDigest.new k0 invK0 (.fin (D : ℚ))).execOps (batches.map TDigest.TOp.addBuffer)) (fun d => ∀ M : ℚ,
      M = Max.max 1 ((batches.flatten.length : ℚ) * (2 / D + 40 / 2 ^ 24)) → ∀ q : ℚ, 0 ≤ q →
        batches.flatten.length * q < batches.flatten.length - M / 2 - batches.flatten.length / 2 ^ 22 →
        ∃ v : ℚ, d.estValueAtQuantile (.fin q) = .ret (.fin v) ∧
        RankAround batches.flatten (q * batches.flatten.length) v ((batches.length * (M + 1) + 12) * 2 ^ e / 2 ^ 23)
          ((batches.length + 1) * M + batches.flatten.length / 2 ^ 22)) := by
  have hsup := TDigest.supplied_batches batches
  have hfin : ∀ y ∈ batches.flatten, ∃ m : ℚ, y = .fin m := fun y hy => by obtain ⟨m, h, -⟩ := hs y hy; exact ⟨m, h⟩
  have hw : ∀ c ∈ TDigest.supplied (batches.map TDigest.TOp.addBuffer), Within (-2 ^ e) (2 ^ e) c := by
    intro c hc
    rw [hsup] at hc
    obtain ⟨y, hy, rfl⟩ := List.mem_map.1 hc
    obtain ⟨m, rfl, hm⟩ := hs y hy
    obtain ⟨m1, m2⟩ := abs_le.1 hm
    exact ⟨m, 1, rfl, m1, m2, by simp, le_rfl⟩
  have htot : totalW (TDigest.supplied (batches.map TDigest.TOp.addBuffer)) = (batches.flatten.length : ℚ) := by
    rw [hsup, TDigest.totalW_items]
  have hsne : TDigest.supplied (batches.map TDigest.TOp.addBuffer) ≠ [] := by rw [hsup]; simpa using hne
  have hNq : (batches.flatten.length : ℚ) ≤ 2 ^ 23 := by exact_mod_cast hN
  have hn0 : (1 : ℚ) ≤ batches.flatten.length := by exact_mod_cast List.length_pos_iff.2 hne
  have hDq : (1 : ℚ) ≤ D := by exact_mod_cast hD
  have hD7q : (D : ℚ) ≤ 900 := by exact_mod_cast hD7
  have hmax : (12 * 2 ^ 23 : ℚ) ≤ Ieee.single.max := by decide +kernel
  have hXN : (2 : ℚ) ^ e * ((2 ^ 23 : ℕ) : ℚ) ≤ Ieee.single.max := by
    have h1 : (2 : ℚ) ^ e ≤ 2 ^ (103 : ℤ) := zpow_le_zpow_right₀ (by norm_num) he2
    have h2 : (2 : ℚ) ^ (103 : ℤ) * ((2 ^ 23 : ℕ) : ℚ) ≤ Ieee.single.max := by decide +kernel
    exact (mul_le_mul_of_nonneg_right h1 (by positivity)).trans h2
  have hX8 : 8 * ((2 : ℚ) ^ e + 2 ^ (-150 : ℤ)) ≤ Ieee.single.max := by
    have h1 : (2 : ℚ) ^ e ≤ 2 ^ (103 : ℤ) := zpow_le_zpow_right₀ (by norm_num) he2
    have h2 : 8 * ((2 : ℚ) ^ (103 : ℤ) + 2 ^ (-150 : ℤ)) ≤ Ieee.single.max := by decide +kernel
    refine le_trans ?_ h2
    generalize (2 : ℚ) ^ (-150 : ℤ) = η
    generalize (2 : ℚ) ^ (103 : ℤ) = Y at h1 ⊢
    linarith
  have hR := f32_roomy (e := e) (by omega) he2
  have h1 := C120_value_round hR f32_relErr (by decide +kernel) le_rfl le_rfl hXN hX8 (by decide +kernel) (by norm_num) (k0 : ScaleFn ℚ) invK0 (.fin (D : ℚ))
    (batches.map TDigest.TOp.addBuffer) hsne hw (by rw [htot]; exact_mod_cast hN)
  have h2 := TDigest.execOps_k0Size (M0 := 1) hR f32_relErr (by decide +kernel) (by decide +kernel) hDq (by linarith) (by push_cast; linarith)
    (batches.map TDigest.TOp.addBuffer) _ [] (TDigest.new_rinv _ _ k0 invK0 (.fin (D : ℚ)))
    (TDigest.new_k0Size f32_relErr.u_nonneg (by decide +kernel) hDq) (by simp) hw (by
      intro c hc
      rw [hsup] at hc
      obtain ⟨y, hy, rfl⟩ := List.mem_map.1 hc
      exact le_rfl) (by rw [List.nil_append, htot]; exact_mod_cast hN)
  have h0 := TDigest.execOps_rinv hR (batches.map TDigest.TOp.addBuffer) (TDigest.new k0 invK0 (.fin (D : ℚ))) [] (TDigest.new_rinv _ _ k0 invK0 (.fin (D : ℚ)))
    (by simp) hw (by rw [List.nil_append, htot]; exact_mod_cast hN)
  refine ((h0.and h1.partially).and h2.partially).mono ?_
  rintro d ⟨⟨hri, h3⟩, h4⟩ M hM q hq0 hqt
  have e53 : (2 : ℚ) ^ (-24 : ℤ) = 1 / 2 ^ 24 := by decide +kernel
  have hM0 : 1 ≤ M := by rw [hM]; exact le_max_left _ _
  have hMw : ∀ c ∈ d.centroids, c.weight ≤ .fin M := by
    intro c hc
    obtain ⟨w, hw, hle⟩ := h4.weights c hc
    rw [List.nil_append, htot, e53, show (40 : ℚ) * (1 / 2 ^ 24) = 40 / 2 ^ 24 by ring] at hle
    rw [hw, hM]
    exact Fl.fin_le_fin.2 hle
  have hcne : d.centroids ≠ [] := fun h => hsne (by simpa using hri.empty.1 h)
  have hlast : d.centroids.getLast? = some (d.centroids.getLast hcne) := List.getLast?_eq_some_getLast hcne
  obtain ⟨wl, hwl, -⟩ := (hri.within _ (List.getLast_mem hcne)).nat
  have hwlM : (wl : ℚ) ≤ M := by
    have := hMw _ (List.getLast_mem hcne)
    rw [hwl] at this
    exact Fl.fin_le_fin.1 this
  have hη' : (2 : ℚ) ^ (-150 : ℤ) ≤ 2 ^ (-24 : ℤ) := zpow_le_zpow_right₀ (by norm_num) (by norm_num)
  have hη : (2 : ℚ) ^ (-150 : ℤ) ≤ 2 ^ (-24 : ℤ) * 2 ^ e := by
    rw [← zpow_add₀ (by norm_num)]
    exact zpow_le_zpow_right₀ (by norm_num) (by omega)
  have h2e : (0 : ℚ) < 2 ^ e := by positivity
  have h3 := h3 M hMw _ q hlast hq0
  rw [htot, hsup, hwl] at h3
  generalize (2 : ℚ) ^ (-150 : ℤ) = η at h3 hη' hη ⊢
  generalize (2 : ℚ) ^ (-24 : ℤ) = u at h3 hη' hη e53 ⊢
  generalize (2 : ℚ) ^ e = X at h3 hη h2e ⊢
  have herr : 2 * (u + η) * batches.flatten.length ≤ batches.flatten.length / 2 ^ 22 := by
    have : 2 * (u + η) ≤ 1 / 2 ^ 22 := by
      rw [e53] at hη' ⊢
      linarith
    have := mul_le_mul_of_nonneg_right this (show (0 : ℚ) ≤ batches.flatten.length by positivity)
    calc _ ≤ _ := this
      _ = (batches.flatten.length : ℚ) / 2 ^ 22 := by ring
  have hq1 : q ≤ 1 := by
    by_contra hc
    have h5 : (batches.flatten.length : ℚ) * 1 < batches.flatten.length * q := mul_lt_mul_of_pos_left (not_le.1 hc) (by linarith)
    have h6 : (0 : ℚ) ≤ batches.flatten.length / 2 ^ 22 := by positivity
    linarith
  obtain ⟨v, hv, l1, l2⟩ := h3 hq1 (by
    rintro ⟨g1, -⟩
    have : Fl.toK (.fin (wl : ℚ)) = wl := rfl
    rw [this] at g1
    linarith)
  refine ⟨v, hv, ?_⟩
  rw [TDigest.weightBelow_units _ _ hfin] at l1
  rw [TDigest.weightUpTo_units _ _ hfin] at l2
  rw [List.length_map] at l1 l2
  have hshift : (batches.length : ℚ) * ((u * X + η) * (M + 1)) + 12 * (u * X + η) ≤ (batches.length * (M + 1) + 12) * X / 2 ^ 23 := by
    have h5 : u * X + η ≤ X / 2 ^ 23 := by
      have : u * X + u * X = X / 2 ^ 23 := by rw [e53]; ring
      linarith
    have h6 : (0 : ℚ) ≤ batches.length * (M + 1) + 12 := by positivity
    calc (batches.length : ℚ) * ((u * X + η) * (M + 1)) + 12 * (u * X + η) = (batches.length * (M + 1) + 12) * (u * X + η) := by ring
      _ ≤ (batches.length * (M + 1) + 12) * (X / 2 ^ 23) := mul_le_mul_of_nonneg_left h5 h6
      _ = _ := by ring
  generalize (batches.length : ℚ) * ((u * X + η) * (M + 1)) + 12 * (u * X + η) = s0 at l1 l2 hshift
  generalize (batches.length * (M + 1) + 12) * X / 2 ^ 23 = s1 at hshift ⊢
  constructor
  · refine le_trans ?_ (l1.trans ?_)
    · have : List.countP (fun y => Fl.lt y (.fin (v - s1))) batches.flatten ≤ List.countP (fun y => Fl.lt y (.fin (v - s0))) batches.flatten := by
        refine List.countP_mono_left ?_
        intro z hz h
        obtain ⟨m, rfl⟩ := hfin z hz
        rw [Fl.lt_fin, decide_eq_true_eq] at h ⊢
        linarith
      exact_mod_cast this
    · linarith
  · refine l2.trans ?_
    have : List.countP (fun y => Fl.le y (.fin (v + s0))) batches.flatten ≤ List.countP (fun y => Fl.le y (.fin (v + s1))) batches.flatten := by
      refine List.countP_mono_left ?_
      intro z hz h
      obtain ⟨m, rfl⟩ := hfin z hz
      rw [Fl.le_fin, decide_eq_true_eq] at h ⊢
      linarith
    have : ((List.countP (fun y => Fl.le y (.fin (v + s0))) batches.flatten : ℕ) : ℚ) ≤ (List.countP (fun y => Fl.le y (.fin (v + s1))) batches.flatten : ℕ) := by
      exact_mod_cast this
    linarith

end F32

end AQ

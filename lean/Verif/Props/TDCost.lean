/-
C155: the rank error of digests with any of the six scale functions, `k2n` and `k2_asym` included, pass by pass (over the real numbers).
-/
import Verif.Proofs.TDCost
import Verif.Proofs.TDLow
import Verif.Props.TDFrac
import Verif.Props.TDRoot

set_option linter.unusedSectionVars false
set_option linter.unusedVariables false

namespace AQ
open Prog Spec

/-- Compression factor that `k2n` gives to `k2` when the weight is `n`: `δ/10·log10(n)²`. -/
noncomputable def Spec.k2nFactor (δ n : ℝ) : ℝ := δ / 10 * Real.logb 10 n ^ 2

/-- Largest weight of a merged centroid after a pass of `k2n`, the weight being `n`. -/
noncomputable def Spec.k2nStep (δ n : ℝ) : ℝ := oddsFrac (k2nFactor δ n) n 24 * n

/-- Largest weight of a merged centroid after a pass of `k2_asym`, the weight being `n`. -/
noncomputable def Spec.asymStep (δ n : ℝ) : ℝ := ((10 : ℝ) ^ ((4 * Real.logb 10 (n / (2 * δ)) + 24) / (2 * δ)) - 1) / 2 * n

section
variable [FloatFmt ℝ] [FloatFmt.Exact ℝ]

/-- Scale functions and compression factors with which a pass, after which the digest has weight `n`, puts at most `G n` into one centroid (for `n` up
to `W`). -/
def Spec.StepScale (G : ℝ → ℝ) (W : ℝ) (s i : ScaleFn ℝ) (cf : Fl ℝ) : Prop :=
  ∃ δ : ℝ, cf = .fin δ ∧ 0 < δ ∧
    (s = k0 ∧ i = invK0 ∧ (∀ n, 2 ≤ n → n ≤ W → 2 / δ * n ≤ G n) ∨
      s = k1 ∧ i = invK1 ∧ (∀ n, 2 ≤ n → n ≤ W → Real.pi / δ * n ≤ G n) ∨
      s = k2 ∧ i = invK2 ∧ δ ≤ 10 ^ 5 ∧ (∀ n, 2 ≤ n → n ≤ W → oddsFrac δ n 24 * n ≤ G n) ∨
      s = k3 ∧ i = invK3 ∧ δ ≤ 10 ^ 5 ∧ (∀ n, 2 ≤ n → n ≤ W → oddsFrac δ n 21 * n ≤ G n) ∨
      s = k2Asym ∧ i = invK2Asym ∧ 2 * δ ≤ 10 ^ 5 ∧ (∀ n, 2 ≤ n → n ≤ W → asymStep δ n ≤ G n) ∨
      s = k2n ∧ i = invK2n ∧ k2nFactor δ W ≤ 10 ^ 5 ∧ ∀ n, 2 ≤ n → n ≤ W → k2nStep δ n ≤ G n)

namespace TDigest

theorem k2nFactor_mono {δ n W : ℝ} (h0 : 0 < δ) (h1 : 1 ≤ n) (h : n ≤ W) : k2nFactor δ n ≤ k2nFactor δ W := by
  unfold k2nFactor
  have h2 : 0 ≤ Real.logb 10 n := Real.logb_nonneg (by norm_num) h1
  have h3 : Real.logb 10 n ≤ Real.logb 10 W := Real.logb_le_logb_of_le (by norm_num) (by linarith) h
  have := pow_le_pow_left₀ h2 h3 2
  exact mul_le_mul_of_nonneg_left this (by positivity)

theorem k2nFactor_pos {δ n : ℝ} (h0 : 0 < δ) (h1 : 1 < n) : 0 < k2nFactor δ n := by
  unfold k2nFactor
  have h2 : 0 < Real.logb 10 n := Real.logb_pos (by norm_num) h1
  positivity

/-- `k2n` at weight `n` is `k2` with the compression factor `k2nFactor δ n`. -/
theorem sizeLimit_k2n {δ n : ℝ} (hn : 0 < n) (a : ℝ) : sizeLimit k2n invK2n (.fin δ) n a = sizeLimit k2 invK2 (.fin (k2nFactor δ n)) n a := by
  have hmod : modCompFactor (.fin δ) (.fin n) = .fin (k2nFactor δ n) := by
    unfold modCompFactor k2nFactor
    rw [Fl.log10_pos hn, Fl.square_fin, Fl.lit_exact, Fl.div_exact _ (by norm_num), Fl.mul_exact]
  rw [← hmod]; rfl

theorem stepScale_limit {G : ℝ → ℝ} {W : ℝ} {s i : ScaleFn ℝ} {cf : Fl ℝ} (h : StepScale G W s i cf) : LimitStep G W s i cf := by
  obtain ⟨δ, rfl, hδ, h⟩ := h
  intro n a w b hn ha hw hb hs hl
  have h2 : 2 ≤ n := by linarith
  have hn1 : 1 ≤ n := by linarith
  have hw1 : 1 ≤ w := by linarith
  rcases h with ⟨rfl, rfl, h⟩ | ⟨rfl, rfl, h⟩ | ⟨rfl, rfl, h5, h⟩ | ⟨rfl, rfl, h5, h⟩ | ⟨rfl, rfl, h5, h⟩ | ⟨rfl, rfl, h5, h⟩
  · exact (k0_limitFrac hδ n a w b le_rfl ha hw1 hb hs hl).trans (h n h2 hn)
  · exact (k1_limitFrac hδ n a w b le_rfl ha hw1 hb hs hl).trans (h n h2 hn)
  · refine ((odds_limitFrac (k2_limitRel hδ h5 hn1) ?_) n a w b le_rfl ha hw1 hb hs hl).trans (h n h2 hn)
    exact Real.one_le_rpow (by norm_num) (div_nonneg (norm_pos_of (c := 24) 5 hδ hn1 (by norm_num) h5).le hδ.le)
  · refine ((odds_limitFrac (k3_limitRel hδ h5 hn1) ?_) n a w b le_rfl ha hw1 hb hs hl).trans (h n h2 hn)
    exact Real.one_le_rpow (by norm_num) (div_nonneg (norm_pos_of (c := 21) 5 hδ hn1 (by norm_num) h5).le hδ.le)
  · exact ((k2Asym_limitLow hδ h5 hn1).2.2 n a w b le_rfl ha hw1 hb hs hl).trans (h n h2 hn)
  · have hf := k2nFactor_pos hδ (by linarith : 1 < n)
    have hf5 := (k2nFactor_mono hδ hn1 hn).trans h5
    rw [sizeLimit_k2n (by linarith)] at hl
    refine ((odds_limitFrac (k2_limitRel hf hf5 hn1) ?_) n a w b le_rfl ha hw1 hb hs hl).trans (h n h2 hn)
    exact Real.one_le_rpow (by norm_num) (div_nonneg (norm_pos_of (c := 24) 5 hf hn1 (by norm_num) hf5).le hf.le)

theorem k2nStep_nonneg {δ W n : ℝ} (h0 : 0 < δ) (h5 : k2nFactor δ W ≤ 10 ^ 5) (hn : n ≤ W) (h : n = 0 ∨ 1 ≤ n) : 0 ≤ k2nStep δ n := by
  unfold k2nStep
  rcases h with rfl | h
  · rw [mul_zero]
  · rcases h.eq_or_lt with rfl | h1
    · unfold oddsFrac k2nFactor; simp
    · have hf := k2nFactor_pos h0 h1
      have hf5 := (k2nFactor_mono h0 h hn).trans h5
      have h2 : (1 : ℝ) ≤ (10 : ℝ) ^ ((4 * Real.logb 10 (n / k2nFactor δ n) + 24) / k2nFactor δ n) :=
        Real.one_le_rpow (by norm_num) (div_nonneg (norm_pos_of (c := 24) 5 hf h (by norm_num) hf5).le hf.le)
      exact mul_nonneg (div_nonneg (by linarith) (by linarith)) (by linarith)

end TDigest

/-- C155. Digests with any of the six scale functions, of whatever compression factors, filled and merged in any shape. If every pass that leaves the weight `n`
puts at most `G n` into one centroid, and `P` is at least all these `G n`, then no centroid is heavier than `P` (or a supplied cluster), and quantile
queries are off by at most half of that plus the sum of `G n` over the passes. -/
theorem C155_error (G : ℝ → ℝ) (P : ℝ) (t : TTree ℝ) (hk : t.Made (StepScale G (totalW t.supplied))) (hP : t.Peak G P)
    (hG : ∀ n, n ≤ totalW t.supplied → n = 0 ∨ 1 ≤ n → 0 ≤ G n) (hne : t.supplied ≠ [])
    (hg : ∀ e ∈ t.supplied, Good e ∧ InRange e) (hw : ∀ e ∈ t.supplied, 1 ≤ e.weight.toK) (M : ℝ) (hM1 : 1 ≤ M) (hM : ∀ e ∈ t.supplied, e.weight.toK ≤ M) :
    Always t.run (fun d => (∀ a ∈ d.centroids, a.weight ≤ .fin (Max.max M P)) ∧ ∀ x : ℝ, ∃ e : ℝ,
      d.estQuantileAtValue (.fin x) = .ret (.fin e) ∧
      WeightWithin t.supplied (totalW t.supplied * e) x (Max.max M (P / 2) + t.cost G)) := by
  have hl := TTree.Made.mono (fun s i cf h => TDigest.stepScale_limit h) t hk
  refine ((TTree.run_inv t hg).and (TTree.run_sinv hG t hl hP hg hw hM le_rfl)).mono ?_
  rintro d ⟨hi, hd⟩
  obtain ⟨l, a, b, hv, hwt, -⟩ := hi.view hne
  obtain ⟨got, hi', -⟩ := hi
  refine ⟨fun a ha => ?_, fun x => ?_⟩
  · have h1 := hd.wt a ha
    obtain ⟨-, w, hw0, he⟩ := hi'.good a ha
    rw [he] at h1 ⊢
    rw [Fl.fin_le_fin]
    exact h1
  · exact TDigest.Near.query hd.near (fun c hc => (hg c hc).1) hv hwt (le_max_of_le_left hM1) (fun c hc => TTree.half_step hM1 (hd.wt c hc)) x

/-- C155 for value queries, not right of the middle of the last centroid (see C84). -/
theorem C155_value (G : ℝ → ℝ) (P : ℝ) (t : TTree ℝ) (hk : t.Made (StepScale G (totalW t.supplied))) (hP : t.Peak G P)
    (hG : ∀ n, n ≤ totalW t.supplied → n = 0 ∨ 1 ≤ n → 0 ≤ G n) (hne : t.supplied ≠ [])
    (hg : ∀ e ∈ t.supplied, Good e ∧ InRange e) (hw : ∀ e ∈ t.supplied, 1 ≤ e.weight.toK) (h64 : totalW t.supplied < 2 ^ 64)
    (M : ℝ) (hM1 : 1 ≤ M) (hM : ∀ e ∈ t.supplied, e.weight.toK ≤ M) :
    Always t.run (fun d => ∀ (last : Centroid ℝ) (q : ℝ), d.centroids.getLast? = some last → 0 ≤ q → q ≤ 1 →
      ¬ InLastTail (totalW t.supplied) last.weight.toK q →
      ∃ v : ℝ, d.estValueAtQuantile (.fin q) = .ret (.fin v) ∧
        WeightWithin t.supplied (totalW t.supplied * q) v (Max.max M (P / 2) + t.cost G)) := by
  have hl := TTree.Made.mono (fun s i cf h => TDigest.stepScale_limit h) t hk
  refine ((TTree.run_inv t hg).and (TTree.run_sinv hG t hl hP hg hw hM le_rfl)).mono ?_
  rintro d ⟨hi, hd⟩ last q hlast hq0 hq1 ht
  obtain ⟨l, a, b, hv, hwt, hcl, -⟩ := hi.view hne
  exact TDigest.Near.value hd.near (fun c hc => (hg c hc).1) hv hwt (hcl _ TDigest.one_le_closed hw) h64 (le_max_of_le_left hM1)
    (fun c hc => TTree.half_step hM1 (hd.wt c hc)) hlast hq0 hq1 ht

/-- C155, one digest with `k2n` through any history of insertion calls: call `j` leaves the weight `n_j` and costs `(r - 1)/(r + 1)·n_j` with
`r = 10^((4·log10(n_j/δ_j) + 24)/δ_j)`, where `δ_j = δ/10·log10(n_j)²`. -/
theorem C155_history_k2n (δ P : ℝ) (hδ : 0 < δ) (ops : List (TDigest.TOp ℝ)) (hne : TDigest.supplied ops ≠ [])
    (hg : ∀ e ∈ TDigest.supplied ops, Good e ∧ InRange e) (hw : ∀ e ∈ TDigest.supplied ops, 1 ≤ e.weight.toK)
    (h5 : k2nFactor δ (totalW (TDigest.supplied ops)) ≤ 10 ^ 5)
    (hP : ∀ j < ops.length, k2nStep δ (totalW (TDigest.supplied (ops.take (j + 1)))) ≤ P)
    (M : ℝ) (hM1 : 1 ≤ M) (hM : ∀ e ∈ TDigest.supplied ops, e.weight.toK ≤ M) :
    Always ((TDigest.new k2n invK2n (.fin δ)).execOps ops) (fun d => (∀ a ∈ d.centroids, a.weight ≤ .fin (Max.max M P)) ∧
      ∀ x : ℝ, ∃ e : ℝ, d.estQuantileAtValue (.fin x) = .ret (.fin e) ∧
        WeightWithin (TDigest.supplied ops) (totalW (TDigest.supplied ops) * e) x
          (Max.max M (P / 2) + ((List.range ops.length).map (fun j => k2nStep δ (totalW (TDigest.supplied (ops.take (j + 1)))))).sum)) := by
  have e1 := TTree.ofOps_supplied ops (.new k2n invK2n (.fin δ))
  have e3 := TTree.run_ofOps ops (.new k2n invK2n (.fin δ))
  have e4 : (TTree.new k2n invK2n (.fin δ) : TTree ℝ).supplied = [] := rfl
  have e6 : (TTree.new k2n invK2n (.fin δ) : TTree ℝ).run = .ret (TDigest.new k2n invK2n (.fin δ)) := rfl
  rw [e4, List.nil_append] at e1
  have := C155_error (k2nStep δ) P (ops.foldl .ins (.new k2n invK2n (.fin δ)))
    (TTree.ofOps_made ops _ ⟨δ, rfl, hδ, Or.inr (Or.inr (Or.inr (Or.inr (Or.inr ⟨rfl, rfl, by rw [e1]; exact h5, fun n _ _ => le_rfl⟩))))⟩)
    (TTree.ofOps_peak _ _ _ _ _ ops hP) (by rw [e1]; exact fun n hn h => TDigest.k2nStep_nonneg hδ h5 hn h) (by rw [e1]; exact hne)
    (by rw [e1]; exact hg) (by rw [e1]; exact hw) M hM1 (by rw [e1]; exact hM)
  rw [e1, TTree.ofOps_cost, e3] at this
  exact this

end

/-- Non-vacuity: 500 items into a digest with `k2n` and `δ = 1000`, then 500 more. Quantile queries are off by at most 75 of the 1000 items and no centroid is
heavier than 34. -/
theorem C155_example : let _ := realExact; let _ := realExact_exact;
    Always ((TDigest.new k2n invK2n (.fin (1000 : ℝ))).execOps [.addBuffer (relShard 0), .addBuffer (relShard 1)]) (fun d =>
      (∀ a ∈ d.centroids, a.weight ≤ .fin 34) ∧ ∀ x : ℝ, ∃ e : ℝ,
        d.estQuantileAtValue (.fin x) = .ret (.fin e) ∧ RankWithin (relShard 0 ++ relShard 1) (1000 * e) x 75) := by
  intro i1 i2
  have hlen' : ∀ j, (relShard j).length = 500 := fun j => by rw [relShard, List.length_map, List.length_range]
  have hit : ∀ x ∈ relShard 0 ++ relShard 1, Item x := relShard_item
  have frac : ∀ r c : ℝ, 0 < r → r ≤ 1 + c → 0 ≤ c → (r - 1) / (r + 1) ≤ c / (2 + c) := by
    intro r c h0 h hc
    rw [div_le_div_iff₀ (by linarith) (by linarith)]
    nlinarith
  have k1000 : k2nFactor 1000 1000 = 900 := by
    unfold k2nFactor
    rw [show (1000 : ℝ) = 10 ^ (3 : ℝ) by norm_num, Real.logb_rpow (by norm_num) (by norm_num)]
    norm_num
  have s1000 : k2nStep 1000 1000 ≤ 34 := by
    unfold k2nStep oddsFrac
    rw [k1000]
    have h1 : Real.logb 10 ((1000 : ℝ) / 900) ≤ 1 / 4 := by
      rw [Real.logb_le_iff_le_rpow (by norm_num) (by norm_num)]
      have : ((1000 / 900 : ℝ) ^ (4 : ℝ)) ^ (1 / 4 : ℝ) ≤ (10 : ℝ) ^ (1 / 4 : ℝ) :=
        Real.rpow_le_rpow (by positivity) (by norm_num) (by norm_num)
      rwa [← Real.rpow_mul (by norm_num), show (4 : ℝ) * (1 / 4) = 1 by norm_num, Real.rpow_one] at this
    have h2 : (10 : ℝ) ^ ((4 * Real.logb 10 ((1000 : ℝ) / 900) + 24) / 900) ≤ 1 + 7 / 100 := by
      refine (Real.rpow_le_rpow_of_exponent_le (by norm_num) (by linarith : _ ≤ (1 / 36 : ℝ))).trans ?_
      have : (10 : ℝ) ^ (1 / 36 : ℝ) ≤ ((1 + 7 / 100 : ℝ) ^ (36 : ℝ)) ^ (1 / 36 : ℝ) :=
        Real.rpow_le_rpow (by norm_num) (by norm_num) (by norm_num)
      rwa [← Real.rpow_mul (by norm_num), show (36 : ℝ) * (1 / 36) = 1 by norm_num, Real.rpow_one] at this
    have h3 := frac _ _ (Real.rpow_pos_of_pos (by norm_num) _) h2 (by norm_num)
    have h4 := mul_le_mul_of_nonneg_right h3 (by norm_num : (0 : ℝ) ≤ 1000)
    refine h4.trans (by norm_num)
  have s500 : k2nStep 1000 500 ≤ 24 := by
    unfold k2nStep oddsFrac
    have hk : 625 ≤ k2nFactor 1000 500 := by
      unfold k2nFactor
      have h1 : 5 / 2 ≤ Real.logb 10 (500 : ℝ) := by
        rw [Real.le_logb_iff_rpow_le (by norm_num) (by norm_num)]
        have : ((10 : ℝ) ^ (5 : ℝ)) ^ (1 / 2 : ℝ) ≤ ((500 : ℝ) ^ (2 : ℝ)) ^ (1 / 2 : ℝ) :=
          Real.rpow_le_rpow (by norm_num) (by norm_num) (by norm_num)
        rwa [← Real.rpow_mul (by norm_num), ← Real.rpow_mul (by norm_num), show (2 : ℝ) * (1 / 2) = 1 by norm_num, Real.rpow_one,
          show (5 : ℝ) * (1 / 2) = 5 / 2 by norm_num] at this
      have := pow_le_pow_left₀ (by norm_num) h1 2
      nlinarith
    generalize k2nFactor 1000 500 = κ at hk ⊢
    have h1 : Real.logb 10 ((500 : ℝ) / κ) ≤ 0 := by
      refine Real.logb_nonpos (by norm_num) (by positivity) ?_
      rw [div_le_one (by linarith)]
      linarith
    have h2 : (10 : ℝ) ^ ((4 * Real.logb 10 ((500 : ℝ) / κ) + 24) / κ) ≤ 1 + 1 / 10 := by
      refine (Real.rpow_le_rpow_of_exponent_le (by norm_num) (?_ : _ ≤ (1 / 26 : ℝ))).trans ?_
      · rw [div_le_iff₀ (by linarith)]
        linarith
      · have : (10 : ℝ) ^ (1 / 26 : ℝ) ≤ ((1 + 1 / 10 : ℝ) ^ (26 : ℝ)) ^ (1 / 26 : ℝ) :=
          Real.rpow_le_rpow (by norm_num) (by norm_num) (by norm_num)
        rwa [← Real.rpow_mul (by norm_num), show (26 : ℝ) * (1 / 26) = 1 by norm_num, Real.rpow_one] at this
    have h3 := frac _ _ (Real.rpow_pos_of_pos (by norm_num) _) h2 (by norm_num)
    have h4 := mul_le_mul_of_nonneg_right h3 (by norm_num : (0 : ℝ) ≤ 500)
    refine h4.trans (by norm_num)
  have l0 := hlen' 0
  have l1 := hlen' 1
  generalize relShard 0 = xs at *
  generalize relShard 1 = ys at *
  have w1 : totalW (TDigest.supplied [TDigest.TOp.addBuffer xs]) = (500 : ℝ) := by
    have : TDigest.supplied [TDigest.TOp.addBuffer xs] = xs.map (fun x => (⟨x, .fin 1⟩ : Centroid ℝ)) := by
      simp [TDigest.supplied, TDigest.TOp.supplied]
    rw [this, TDigest.totalW_items, l0]
    norm_num
  have hsup : TDigest.supplied [TDigest.TOp.addBuffer xs, .addBuffer ys] = (xs ++ ys).map (fun x => (⟨x, .fin 1⟩ : Centroid ℝ)) := by
    simp [TDigest.supplied, TDigest.TOp.supplied]
  have w2 : totalW (TDigest.supplied [TDigest.TOp.addBuffer xs, .addBuffer ys]) = (1000 : ℝ) := by
    rw [hsup, TDigest.totalW_items, List.length_append, l0, l1]
    norm_num
  have hall : ∀ c ∈ TDigest.supplied [TDigest.TOp.addBuffer xs, .addBuffer ys], ∃ x, Item x ∧ c = (⟨x, .fin 1⟩ : Centroid ℝ) := by
    intro c hc
    rw [hsup] at hc
    obtain ⟨x, hx, rfl⟩ := List.mem_map.1 hc
    exact ⟨x, hit x hx, rfl⟩
  have h := C155_history_k2n 1000 34 (by norm_num) [.addBuffer xs, .addBuffer ys] (by intro h; rw [h] at w2; simp at w2) (by
    intro c hc
    obtain ⟨x, hx, rfl⟩ := hall c hc
    exact ⟨⟨hx.1, 1, zero_lt_one, rfl⟩, hx.2⟩) (by
    intro c hc
    obtain ⟨x, hx, rfl⟩ := hall c hc
    exact le_of_eq rfl) (by rw [w2, k1000]; norm_num) (by
    intro j hj
    match j with
    | 0 =>
      show k2nStep 1000 (totalW (TDigest.supplied [TDigest.TOp.addBuffer xs])) ≤ 34
      rw [w1]; linarith
    | 1 =>
      show k2nStep 1000 (totalW (TDigest.supplied [TDigest.TOp.addBuffer xs, .addBuffer ys])) ≤ 34
      rw [w2]; exact s1000
    | j + 2 => simp at hj) 1 le_rfl (by
    intro c hc
    obtain ⟨x, hx, rfl⟩ := hall c hc
    exact le_of_eq rfl)
  rw [show Max.max (1 : ℝ) 34 = 34 by norm_num] at h
  refine Always.mono h ?_
  rintro d ⟨h1, h2⟩
  refine ⟨h1, fun x => ?_⟩
  obtain ⟨e, h3, h4⟩ := h2 x
  refine ⟨e, h3, ?_⟩
  have hsum : ((List.range [TDigest.TOp.addBuffer xs, .addBuffer ys].length).map
      (fun j => k2nStep 1000 (totalW (TDigest.supplied ([TDigest.TOp.addBuffer xs, .addBuffer ys].take (j + 1)))))).sum ≤ 58 := by
    show ([k2nStep 1000 (totalW (TDigest.supplied [TDigest.TOp.addBuffer xs])),
      k2nStep 1000 (totalW (TDigest.supplied [TDigest.TOp.addBuffer xs, .addBuffer ys]))] : List ℝ).sum ≤ 58
    rw [w1, w2, List.sum_cons, List.sum_singleton]
    linarith
  generalize ((List.range [TDigest.TOp.addBuffer xs, .addBuffer ys].length).map
      (fun j => k2nStep 1000 (totalW (TDigest.supplied ([TDigest.TOp.addBuffer xs, .addBuffer ys].take (j + 1)))))).sum = S at h4 hsum
  rw [w2, hsup, TDigest.weightWithin_items hit] at h4
  have hm : Max.max (1 : ℝ) (34 / 2) = 17 := by norm_num
  rw [hm] at h4
  exact ⟨by linarith [h4.1], by linarith [h4.2]⟩

end AQ

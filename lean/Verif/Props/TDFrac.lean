/-
C139: the rank error of digests with `k0`, `k1`, `k2` and `k3`, mixed as one likes, through any number of batches and merges (over the real numbers).
-/
import Verif.Proofs.TDFrac
import Verif.Props.TDRelDrift
import Verif.Props.TDShards
import Mathlib.Analysis.SpecialFunctions.Trigonometric.Bounds

set_option linter.unusedSectionVars false
set_option linter.unusedVariables false

namespace AQ
open Prog Spec

/-- `(r - 1) / (r + 1)` for the factor `r = 10^((4·log10(W/δ) + m)/δ)` by which one step of `k2` (`m = 24`) or `k3` (`m = 21`) multiplies the odds. -/
noncomputable def Spec.oddsFrac (δ W m : ℝ) : ℝ :=
  ((10 : ℝ) ^ ((4 * Real.logb 10 (W / δ) + m) / δ) - 1) / ((10 : ℝ) ^ ((4 * Real.logb 10 (W / δ) + m) / δ) + 1)

section
variable [FloatFmt ℝ] [FloatFmt.Exact ℝ]

/-- Scale functions and compression factors with which a digest of weight up to `W` may put the fraction `c` of it into one centroid. -/
def Spec.FracScale (c W : ℝ) (s i : ScaleFn ℝ) (cf : Fl ℝ) : Prop :=
  ∃ δ : ℝ, cf = .fin δ ∧ 0 < δ ∧
    (s = k0 ∧ i = invK0 ∧ 2 / δ ≤ c ∨ s = k1 ∧ i = invK1 ∧ Real.pi / δ ≤ c ∨
      s = k2 ∧ i = invK2 ∧ δ ≤ 10 ^ 5 ∧ oddsFrac δ W 24 ≤ c ∨ s = k3 ∧ i = invK3 ∧ δ ≤ 10 ^ 5 ∧ oddsFrac δ W 21 ≤ c)

namespace TDigest

theorem k0_limitFrac {δ N : ℝ} (hδ : 0 < δ) : LimitFrac (2 / δ) N k0 invK0 (.fin δ) := by
  intro n a w b hn ha hw hb hs hl
  rw [sizeLimit_k0 hδ.ne' (by linarith), Fl.le_fin, decide_eq_true_eq] at hl
  rw [div_mul_eq_mul_div]
  linarith

/-- One step of `k1` is at most `π/δ` of the weight, also where `inv_k1` turns back. -/
theorem k1_limitFrac {δ N : ℝ} (hδ : 0 < δ) : LimitFrac (Real.pi / δ) N k1 invK1 (.fin δ) := by
  intro n a w b hn ha hw hb hs hl
  have hn0 : 0 < n := by linarith
  have hp := Real.pi_pos
  have h0 : 0 ≤ a / n := by positivity
  have h1 : a / n ≤ 1 := by rw [div_le_one hn0]; linarith
  rw [sizeLimit_fin (k1_fin _ h0 h1) (invK1_fin _ hδ.ne'), Fl.le_fin, decide_eq_true_eq] at hl
  set θ := Real.arcsin (2 * (a / n) - 1) with hθ
  have hsin : Real.sin θ = 2 * (a / n) - 1 := Real.sin_arcsin (by linarith) (by linarith)
  have hang : 2 * Real.pi * (δ / (2 * Real.pi) * θ + 1) / δ = θ + 2 * (Real.pi / δ) := by field_simp
  rw [hang] at hl
  have hβ0 : 0 < Real.pi / δ := by positivity
  have h2 : Real.sin (θ + 2 * (Real.pi / δ)) - Real.sin θ ≤ 2 * (Real.pi / δ) := by
    have := (le_abs_self _).trans (Real.abs_sin_sub_sin_le (θ + 2 * (Real.pi / δ)) θ)
    rwa [add_sub_cancel_left, abs_of_pos (by positivity)] at this
  have h4 : (1 + Real.sin (θ + 2 * (Real.pi / δ))) / 2 ≤ a / n + Real.pi / δ := by linarith
  have h5 := mul_le_mul_of_nonneg_right h4 hn0.le
  rw [add_mul, div_mul_cancel₀ _ hn0.ne'] at h5
  linarith

theorem odds_limitFrac {s i : ScaleFn ℝ} {cf : Fl ℝ} {N r : ℝ} (h : LimitRel s i cf (r - 1) N) (hr : 1 ≤ r) : LimitFrac ((r - 1) / (r + 1)) N s i cf := by
  have := h.frac (by linarith)
  rwa [show 2 + (r - 1) = r + 1 by ring] at this

theorem fracScale_limit {c W : ℝ} (hW : 1 ≤ W) {s i : ScaleFn ℝ} {cf : Fl ℝ} (h : FracScale c W s i cf) : LimitFrac c W s i cf := by
  obtain ⟨δ, rfl, hδ, ⟨rfl, rfl, h⟩ | ⟨rfl, rfl, h⟩ | ⟨rfl, rfl, h5, h⟩ | ⟨rfl, rfl, h5, h⟩⟩ := h
  · exact (k0_limitFrac hδ).mono h
  · exact (k1_limitFrac hδ).mono h
  · refine (odds_limitFrac (k2_limitRel hδ h5 hW) ?_).mono h
    exact Real.one_le_rpow (by norm_num) (div_nonneg (norm_pos_of (c := 24) 5 hδ hW (by norm_num) h5).le hδ.le)
  · refine (odds_limitFrac (k3_limitRel hδ h5 hW) ?_).mono h
    exact Real.one_le_rpow (by norm_num) (div_nonneg (norm_pos_of (c := 21) 5 hδ hW (by norm_num) h5).le hδ.le)

theorem fracScale_nonneg {c W : ℝ} (hW : 1 ≤ W) {s i : ScaleFn ℝ} {cf : Fl ℝ} (h : FracScale c W s i cf) : 0 ≤ c := by
  obtain ⟨δ, -, hδ, ⟨-, -, h⟩ | ⟨-, -, h⟩ | ⟨-, -, h5, h⟩ | ⟨-, -, h5, h⟩⟩ := h
  · exact le_trans (by positivity) h
  · exact le_trans (div_nonneg Real.pi_pos.le hδ.le) h
  · refine le_trans ?_ h
    have h1 : (1 : ℝ) ≤ (10 : ℝ) ^ ((4 * Real.logb 10 (W / δ) + 24) / δ) :=
      Real.one_le_rpow (by norm_num) (div_nonneg (norm_pos_of (c := 24) 5 hδ hW (by norm_num) h5).le hδ.le)
    exact div_nonneg (by linarith) (by linarith)
  · refine le_trans ?_ h
    have h1 : (1 : ℝ) ≤ (10 : ℝ) ^ ((4 * Real.logb 10 (W / δ) + 21) / δ) :=
      Real.one_le_rpow (by norm_num) (div_nonneg (norm_pos_of (c := 21) 5 hδ hW (by norm_num) h5).le hδ.le)
    exact div_nonneg (by linarith) (by linarith)

end TDigest

/-- A pass over all the data for every level of the tree. -/
theorem TTree.passes_le_depth : ∀ t : TTree ℝ, (∀ e ∈ t.supplied, Good e) → t.passes ≤ t.depth * totalW t.supplied
  | .new s i cf, _ => by simp [TTree.passes, TTree.depth]
  | .ins t o, h => by
    have ih := TTree.passes_le_depth t (fun e he => h e (by simp [TTree.supplied, he]))
    have ho := totalW_nonneg (l := o.supplied) (fun e he => h e (by simp [TTree.supplied, he]))
    have ht := totalW_nonneg (l := t.supplied) (fun e he => h e (by simp [TTree.supplied, he]))
    simp only [TTree.passes, TTree.depth, TTree.supplied, totalW_append, Nat.cast_add, Nat.cast_one]
    have hd : (0 : ℝ) ≤ t.depth := Nat.cast_nonneg _
    nlinarith
  | .merge a b, h => by
    have iha := TTree.passes_le_depth a (fun e he => h e (by simp [TTree.supplied, he]))
    have ihb := TTree.passes_le_depth b (fun e he => h e (by simp [TTree.supplied, he]))
    have ha := totalW_nonneg (l := a.supplied) (fun e he => h e (by simp [TTree.supplied, he]))
    have hb := totalW_nonneg (l := b.supplied) (fun e he => h e (by simp [TTree.supplied, he]))
    simp only [TTree.passes, TTree.depth, TTree.supplied, totalW_append, Nat.cast_add, Nat.cast_one]
    have h1 : (a.depth : ℝ) ≤ (max a.depth b.depth : ℕ) := by exact_mod_cast le_max_left _ _
    have h2 : (b.depth : ℝ) ≤ (max a.depth b.depth : ℕ) := by exact_mod_cast le_max_right _ _
    have h3 := mul_le_mul_of_nonneg_right h1 ha
    have h4 := mul_le_mul_of_nonneg_right h2 hb
    linarith

/-- C139. Digests with `k0`, `k1`, `k2` and `k3`, of whatever compression factors, filled and merged in any shape. If none of them may put more than the
fraction `c` of the weight into a centroid, then quantile queries are off by at most half a centroid and `c` times the weight represented after every
pass, no centroid is heavier than `c` times the weight (or a supplied cluster), and that sum over the passes is at most `depth` times the weight. -/
theorem C139_error (c : ℝ) (t : TTree ℝ) (hk : t.Made (FracScale c (totalW t.supplied))) (hne : t.supplied ≠ [])
    (hg : ∀ e ∈ t.supplied, Good e ∧ InRange e) (hw : ∀ e ∈ t.supplied, 1 ≤ e.weight.toK) (M : ℝ) (hM1 : 1 ≤ M) (hM : ∀ e ∈ t.supplied, e.weight.toK ≤ M) :
    Always t.run (fun d => (∀ a ∈ d.centroids, a.weight ≤ .fin (Max.max M (c * totalW t.supplied))) ∧ ∀ x : ℝ, ∃ e : ℝ,
      d.estQuantileAtValue (.fin x) = .ret (.fin e) ∧
      WeightWithin t.supplied (totalW t.supplied * e) x (Max.max M (c * totalW t.supplied / 2) + c * t.passes)) ∧
    t.passes ≤ t.depth * totalW t.supplied := by
  have hW := TTree.one_le_totalW hne (fun e he => (hg e he).1) hw
  have hl := TTree.Made.mono (fun s i cf h => TDigest.fracScale_limit hW h) t hk
  have hc := TDigest.fracScale_nonneg hW (TTree.made_root t hk)
  refine ⟨?_, TTree.passes_le_depth t (fun e he => (hg e he).1)⟩
  refine ((TTree.run_inv t hg).and (TTree.run_finv hc t hl hg hw hM le_rfl)).mono ?_
  rintro d ⟨hi, hd⟩
  obtain ⟨l, a, b, hv, hwt, -⟩ := hi.view hne
  obtain ⟨got, hi', -⟩ := hi
  refine ⟨fun a ha => ?_, fun x => ?_⟩
  · have h1 := hd.wt a ha
    obtain ⟨-, w, hw0, he⟩ := hi'.good a ha
    rw [he] at h1 ⊢
    rw [Fl.fin_le_fin]
    exact h1
  · exact TDigest.Near.query hd.near (fun c hc => (hg c hc).1) hv hwt (le_max_of_le_left hM1) (fun c hc => TTree.half_frac hM1 (hd.wt c hc)) x

/-- C139 for value queries, not right of the middle of the last centroid (see C84). -/
theorem C139_value (c : ℝ) (t : TTree ℝ) (hk : t.Made (FracScale c (totalW t.supplied))) (hne : t.supplied ≠ [])
    (hg : ∀ e ∈ t.supplied, Good e ∧ InRange e) (hw : ∀ e ∈ t.supplied, 1 ≤ e.weight.toK) (h64 : totalW t.supplied < 2 ^ 64)
    (M : ℝ) (hM1 : 1 ≤ M) (hM : ∀ e ∈ t.supplied, e.weight.toK ≤ M) :
    Always t.run (fun d => ∀ (last : Centroid ℝ) (q : ℝ), d.centroids.getLast? = some last → 0 ≤ q → q ≤ 1 →
      ¬ InLastTail (totalW t.supplied) last.weight.toK q →
      ∃ v : ℝ, d.estValueAtQuantile (.fin q) = .ret (.fin v) ∧
        WeightWithin t.supplied (totalW t.supplied * q) v (Max.max M (c * totalW t.supplied / 2) + c * t.passes)) := by
  have hW := TTree.one_le_totalW hne (fun e he => (hg e he).1) hw
  have hl := TTree.Made.mono (fun s i cf h => TDigest.fracScale_limit hW h) t hk
  have hc := TDigest.fracScale_nonneg hW (TTree.made_root t hk)
  refine ((TTree.run_inv t hg).and (TTree.run_finv hc t hl hg hw hM le_rfl)).mono ?_
  rintro d ⟨hi, hd⟩ last q hlast hq0 hq1 ht
  obtain ⟨l, a, b, hv, hwt, hcl, -⟩ := hi.view hne
  exact TDigest.Near.value hd.near (fun c hc => (hg c hc).1) hv hwt (hcl _ TDigest.one_le_closed hw) h64 (le_max_of_le_left hM1)
    (fun c hc => TTree.half_frac hM1 (hd.wt c hc)) hlast hq0 hq1 ht

/-- C139, shards: `2 ^ h` digests with `k1` and the same compression factor, each given one batch of any size, merged in pairs, are off by at most
`max 1 (π n / 2δ) + (h + 1) * π n / δ` items. -/
theorem C139_shards_k1 (δ : ℝ) (hδ : 0 < δ) (h : Nat) (f : Nat → List (Fl ℝ))
    (hne : (List.range (2 ^ h)).flatMap f ≠ []) (hg : ∀ x ∈ (List.range (2 ^ h)).flatMap f, Item x) :
    Always (TTree.shards k1 invK1 (.fin δ) h f).run (fun d => ∀ x : ℝ, ∃ e : ℝ, d.estQuantileAtValue (.fin x) = .ret (.fin e) ∧
      RankWithin ((List.range (2 ^ h)).flatMap f) (((List.range (2 ^ h)).flatMap f).length * e) x
        (Max.max 1 (Real.pi / δ * ((List.range (2 ^ h)).flatMap f).length / 2) +
          (h + 1) * (Real.pi / δ * ((List.range (2 ^ h)).flatMap f).length))) := by
  have hs := TTree.shards_supplied (k1 : ScaleFn ℝ) invK1 (.fin δ) h f
  have hp := TTree.shards_passes (k1 : ScaleFn ℝ) invK1 (.fin δ) h f
  have hall : ∀ c ∈ (TTree.shards k1 invK1 (.fin δ) h f).supplied, ∃ x, Item x ∧ c = ⟨x, .fin 1⟩ := by
    intro c hc
    rw [hs] at hc
    obtain ⟨x, hx, rfl⟩ := List.mem_map.1 hc
    exact ⟨x, hg x hx, rfl⟩
  refine (C139_error (Real.pi / δ) _ (TTree.shards_made ⟨δ, rfl, hδ, Or.inr (Or.inl ⟨rfl, rfl, le_rfl⟩)⟩ h f) (by rw [hs]; simpa using hne) (by
    intro c hc
    obtain ⟨x, hx, rfl⟩ := hall c hc
    exact ⟨⟨hx.1, 1, zero_lt_one, rfl⟩, hx.2⟩) (by
    intro c hc
    obtain ⟨x, hx, rfl⟩ := hall c hc
    exact le_of_eq rfl) 1 le_rfl (by
    intro c hc
    obtain ⟨x, hx, rfl⟩ := hall c hc
    exact le_of_eq rfl)).1.mono ?_
  intro d hd x
  obtain ⟨e, h1, h2⟩ := hd.2 x
  refine ⟨e, h1, ?_⟩
  rw [hs, hp, TDigest.totalW_items, TDigest.weightWithin_items hg] at h2
  have e1 : Real.pi / δ * ((h + 1) * (((List.range (2 ^ h)).flatMap f).length : ℝ)) =
      (h + 1) * (Real.pi / δ * (((List.range (2 ^ h)).flatMap f).length : ℝ)) := by ring
  rw [e1] at h2
  exact h2

/-- C139, one digest with `k1` through any history of insertion calls: off by at most `max M (π W / 2δ) + B * π W / δ` after `B` calls. -/
theorem C139_history_k1 (δ : ℝ) (hδ : 0 < δ) (ops : List (TDigest.TOp ℝ)) (hne : TDigest.supplied ops ≠ [])
    (hg : ∀ e ∈ TDigest.supplied ops, Good e ∧ InRange e) (hw : ∀ e ∈ TDigest.supplied ops, 1 ≤ e.weight.toK)
    (M : ℝ) (hM1 : 1 ≤ M) (hM : ∀ e ∈ TDigest.supplied ops, e.weight.toK ≤ M) :
    Always ((TDigest.new k1 invK1 (.fin δ)).execOps ops) (fun d => ∀ x : ℝ, ∃ e : ℝ, d.estQuantileAtValue (.fin x) = .ret (.fin e) ∧
      WeightWithin (TDigest.supplied ops) (totalW (TDigest.supplied ops) * e) x
        (Max.max M (Real.pi / δ * totalW (TDigest.supplied ops) / 2) + ops.length * (Real.pi / δ * totalW (TDigest.supplied ops)))) := by
  have e1 := TTree.ofOps_supplied ops (.new k1 invK1 (.fin δ))
  have e2 := TTree.ofOps_depth ops (.new k1 invK1 (.fin δ))
  have e3 := TTree.run_ofOps ops (.new k1 invK1 (.fin δ))
  have e4 : (TTree.new k1 invK1 (.fin δ) : TTree ℝ).supplied = [] := rfl
  have e5 : (TTree.new k1 invK1 (.fin δ) : TTree ℝ).depth = 0 := rfl
  rw [e4, List.nil_append] at e1
  rw [e5, zero_add] at e2
  have := C139_error (Real.pi / δ) (ops.foldl .ins (.new k1 invK1 (.fin δ)))
    (TTree.ofOps_made ops _ ⟨δ, rfl, hδ, Or.inr (Or.inl ⟨rfl, rfl, le_rfl⟩)⟩) (by rw [e1]; exact hne)
    (by rw [e1]; exact hg) (by rw [e1]; exact hw) M hM1 (by rw [e1]; exact hM)
  rw [e1, e2, e3] at this
  obtain ⟨h1, h2⟩ := this
  refine Always.mono h1 ?_
  intro d hd x
  obtain ⟨e, h3, h4⟩ := hd.2 x
  have h5 : 0 ≤ Real.pi / δ := div_nonneg Real.pi_pos.le hδ.le
  have := mul_le_mul_of_nonneg_left h2 h5
  exact ⟨e, h3, by linarith [h4.1], by linarith [h4.2]⟩

end

/-- Non-vacuity: 500 items into a digest with `k2` and `δ = 1000`, 500 more into one with `k1` and `δ = 200`, merged into the first. Quantile queries are off
by at most 75 of the 1000 items and no centroid is heavier than 30. -/
theorem C139_example : let _ := realExact; let _ := realExact_exact;
    Always (TTree.merge (.ins (.new k2 invK2 (.fin (1000 : ℝ))) (.addBuffer (relShard 0)))
        (.ins (.new k1 invK1 (.fin (200 : ℝ))) (.addBuffer (relShard 1)))).run (fun d => (∀ a ∈ d.centroids, a.weight ≤ .fin 30) ∧ ∀ x : ℝ, ∃ e : ℝ,
      d.estQuantileAtValue (.fin x) = .ret (.fin e) ∧ RankWithin (relShard 0 ++ relShard 1) (1000 * e) x 75) := by
  intro i1 i2
  have hlen : (relShard 0 ++ relShard 1).length = 1000 := by
    have h : ∀ j, (relShard j).length = 500 := fun j => by rw [relShard, List.length_map, List.length_range]
    rw [List.length_append, h, h]
  have hlen' : ∀ j, (relShard j).length = 500 := fun j => by rw [relShard, List.length_map, List.length_range]
  have hit : ∀ x ∈ relShard 0 ++ relShard 1, Item x := by
    have key : ∀ j < 2, ∀ x ∈ relShard j, Item x := by
      intro j hj x hx
      obtain ⟨k, hk, rfl⟩ := List.mem_map.1 hx
      have hk' := List.mem_range.1 hk
      have h1 : ((500 * j + k : ℕ) : ℝ) ≤ 1000 := by exact_mod_cast (by omega : 500 * j + k ≤ 1000)
      have h2 : (1000 : ℝ) ≤ 10 ^ 300 := by
        calc (1000 : ℝ) = 10 ^ 3 := by norm_num
          _ ≤ 10 ^ 300 := pow_le_pow_right₀ (by norm_num) (by norm_num)
      have h3 : (0 : ℝ) ≤ ((500 * j + k : ℕ) : ℝ) := Nat.cast_nonneg _
      refine ⟨⟨_, rfl⟩, ?_, h1.trans h2⟩
      show -((10 : ℝ) ^ 300) ≤ _
      have : (0 : ℝ) ≤ 10 ^ 300 := by positivity
      exact (neg_nonpos.2 this).trans h3
    intro x hx
    rcases List.mem_append.1 hx with hx | hx
    · exact key 0 (by norm_num) x hx
    · exact key 1 (by norm_num) x hx
  have hsup : (TTree.merge (.ins (.new k2 invK2 (.fin (1000 : ℝ))) (.addBuffer (relShard 0)))
      (.ins (.new k1 invK1 (.fin (200 : ℝ))) (.addBuffer (relShard 1)))).supplied =
      (relShard 0 ++ relShard 1).map (fun x => ⟨x, .fin 1⟩) := by
    simp only [TTree.supplied, TDigest.TOp.supplied, List.nil_append, List.map_append]
  have hpas : (TTree.merge (.ins (.new k2 invK2 (.fin (1000 : ℝ))) (.addBuffer (relShard 0)))
      (.ins (.new k1 invK1 (.fin (200 : ℝ))) (.addBuffer (relShard 1)))).passes = 2000 := by
    have e : ∀ j, totalW ((relShard j).map (fun x => (⟨x, .fin 1⟩ : Centroid ℝ))) = 500 := by
      intro j
      rw [TDigest.totalW_items, hlen' j]
      norm_num
    simp only [TTree.passes, TTree.supplied, TDigest.TOp.supplied, List.nil_append, totalW_append]
    rw [e 0, e 1]
    norm_num
  have hc1 : Real.pi / 200 ≤ 3 / 100 := by have := Real.pi_le_four; linarith
  have hc2 : oddsFrac 1000 1000 24 ≤ 3 / 100 := by
    have hr : (10 : ℝ) ^ ((4 * Real.logb 10 ((1000 : ℝ) / 1000) + 24) / 1000) ≤ 53 / 50 := by
      rw [div_self (by norm_num), Real.logb_one, mul_zero, zero_add]
      have h : ((10 : ℝ) ^ ((24 : ℝ) / 1000)) ^ (1000 / 24 : ℝ) ≤ (53 / 50 : ℝ) ^ (1000 / 24 : ℝ) := by
        rw [← Real.rpow_mul (by norm_num)]
        norm_num
        calc (10 : ℝ) ≤ (53 / 50 : ℝ) ^ (40 : ℕ) := by norm_num
          _ = (53 / 50 : ℝ) ^ (40 : ℝ) := by norm_num
          _ ≤ _ := Real.rpow_le_rpow_of_exponent_le (by norm_num) (by norm_num)
      exact (Real.rpow_le_rpow_iff (by positivity) (by norm_num) (by norm_num)).1 h
    unfold oddsFrac
    have h0 : (0 : ℝ) < (10 : ℝ) ^ ((4 * Real.logb 10 ((1000 : ℝ) / 1000) + 24) / 1000) := by positivity
    generalize (10 : ℝ) ^ ((4 * Real.logb 10 ((1000 : ℝ) / 1000) + 24) / 1000) = r at hr h0 ⊢
    rw [div_le_iff₀ (by linarith)]
    linarith
  have hmade : ∀ W : ℝ, W = 1000 → (TTree.merge (.ins (.new k2 invK2 (.fin (1000 : ℝ))) (.addBuffer (relShard 0)))
      (.ins (.new k1 invK1 (.fin (200 : ℝ))) (.addBuffer (relShard 1)))).Made (FracScale (3 / 100) W) := by
    rintro W rfl
    exact ⟨⟨1000, rfl, by norm_num, Or.inr (Or.inr (Or.inl ⟨rfl, rfl, by norm_num, hc2⟩))⟩,
      ⟨200, rfl, by norm_num, Or.inr (Or.inl ⟨rfl, rfl, hc1⟩)⟩⟩
  generalize TTree.merge (.ins (.new k2 invK2 (.fin (1000 : ℝ))) (.addBuffer (relShard 0)))
      (.ins (.new k1 invK1 (.fin (200 : ℝ))) (.addBuffer (relShard 1))) = t at hsup hpas hmade ⊢
  have hW : totalW t.supplied = 1000 := by rw [hsup, TDigest.totalW_items, hlen]; norm_num
  have hall : ∀ c ∈ t.supplied, ∃ x, Item x ∧ c = ⟨x, .fin 1⟩ := by
    intro c hc
    rw [hsup] at hc
    obtain ⟨x, hx, rfl⟩ := List.mem_map.1 hc
    exact ⟨x, hit x hx, rfl⟩
  have h := (C139_error (3 / 100) t (hmade _ hW) (by intro h; rw [h] at hW; simp at hW) (by
    intro c hc
    obtain ⟨x, hx, rfl⟩ := hall c hc
    exact ⟨⟨hx.1, 1, zero_lt_one, rfl⟩, hx.2⟩) (by
    intro c hc
    obtain ⟨x, hx, rfl⟩ := hall c hc
    exact le_of_eq rfl) 1 le_rfl (by
    intro c hc
    obtain ⟨x, hx, rfl⟩ := hall c hc
    exact le_of_eq rfl)).1
  rw [hW, hpas] at h
  rw [show Max.max (1 : ℝ) (3 / 100 * 1000) = 30 by norm_num, show Max.max (1 : ℝ) (3 / 100 * 1000 / 2) + 3 / 100 * 2000 = 75 by norm_num] at h
  refine Always.mono h ?_
  rintro d ⟨h1, h2⟩
  refine ⟨h1, fun x => ?_⟩
  obtain ⟨e, h3, h4⟩ := h2 x
  rw [hsup, TDigest.weightWithin_items hit] at h4
  exact ⟨e, h3, h4⟩

end AQ

/-
Properties C77 - C80: the number of centroids kept with the transcendental scale functions, over the real numbers.
-/
import Mathlib.Tactic.Linarith
import Mathlib.Tactic.NormNum
import Mathlib.Tactic.Positivity
import Verif.Proofs.ScaleSize
import Verif.Props.ScaleFns

set_option linter.unusedSectionVars false
set_option linter.unusedVariables false

namespace AQ
open Prog Spec
section
variable [FloatFmt ℝ] [FloatFmt.Exact ℝ]
open ScaleR

theorem norm_split {δ n : ℝ} (c : ℝ) (hδ : 0 < δ) (hn : 0 < n) :
    norm δ n c = 4 * Real.logb 10 n - 4 * Real.logb 10 δ + c := by
  unfold ScaleR.norm
  rw [Real.logb_div hn.ne' hδ.ne']
  ring

theorem logb_le_of_le_pow {δ : ℝ} (m : ℕ) (hδ : 0 < δ) (h : δ ≤ 10 ^ m) : Real.logb 10 δ ≤ m := by
  have := Real.logb_le_logb_of_le (by norm_num : (1 : ℝ) < 10) hδ h
  rwa [← Real.rpow_natCast, Real.logb_rpow (by norm_num) (by norm_num)] at this

theorem sizeLimit_fin {scale inv : ScaleFn ℝ} {δ n a s x : ℝ} (h1 : scale (.fin (a / n)) (.fin δ) (.fin n) = .fin s)
    (h2 : inv (.fin (s + 1)) (.fin δ) (.fin n) = .fin x) : sizeLimit scale inv (.fin δ) n a = .fin (x * n - a) := by
  unfold sizeLimit
  rw [h1, Fl.add_exact, h2, Fl.mul_exact, Fl.sub_exact]

/-- The steps of `k2`. -/
theorem k2_steps {δ n : ℝ} (hδ : 0 < δ) (hn : 0 < n) (hN : 0 < norm δ n 24) :
    Steps k2 invK2 (.fin δ) n (fun q => δ / norm δ n 24 * odds q) := by
  have hc : 0 < δ / norm δ n 24 := by positivity
  refine ⟨?_, ?_⟩
  · intro a b h0 hab h1
    rcases hab.eq_or_lt with rfl | hab
    · exact le_refl _
    · exact mul_le_mul_of_nonneg_left (odds_lt h0 hab h1).le hc.le
  · intro a w ha hw haw hle
    have h1 : 0 < a / n := by positivity
    have h2 : a / n < 1 := by rw [div_lt_one hn]; linarith
    have h3 : (a + w) / n < 1 := by rw [div_lt_one hn]; exact haw
    rw [sizeLimit_fin (k2_fin h1 h2 hδ hn hN.ne') (invK2_fin hδ hn), Fl.le_fin] at hle
    have hle := of_decide_eq_false hle
    set y := (δ / norm δ n 24 * odds (a / n) + 1) * norm δ n 24 / δ with hy
    have h4 : unodds y < (a + w) / n := by rw [lt_div_iff₀ hn]; linarith
    have h5 := odds_lt (unodds_pos y) h4 h3
    rw [odds_unodds] at h5
    have h6 := mul_lt_mul_of_pos_left h5 hc
    have h7 : δ / norm δ n 24 * y = δ / norm δ n 24 * odds (a / n) + 1 := by rw [hy]; field_simp
    rw [h7] at h6
    exact h6.le

/-- The steps of `k3`. -/
theorem k3_steps {δ n : ℝ} (hδ : 0 < δ) (hn : 0 < n) (hN : 0 < norm δ n 21) :
    Steps k3 invK3 (.fin δ) n (fun q => δ / norm δ n 21 * fold q) := by
  have hc : 0 < δ / norm δ n 21 := by positivity
  refine ⟨?_, ?_⟩
  · intro a b h0 hab h1
    rcases hab.eq_or_lt with rfl | hab
    · exact le_refl _
    · exact mul_le_mul_of_nonneg_left (fold_lt h0 hab h1).le hc.le
  · intro a w ha hw haw hle
    have h1 : 0 < a / n := by positivity
    have h2 : a / n < 1 := by rw [div_lt_one hn]; linarith
    have h3 : (a + w) / n < 1 := by rw [div_lt_one hn]; exact haw
    rw [sizeLimit_fin (k3_fin h1 h2 hδ hn hN.ne') (invK3_fin hδ hn), Fl.le_fin] at hle
    have hle := of_decide_eq_false hle
    set y := (δ / norm δ n 21 * fold (a / n) + 1) * norm δ n 21 / δ with hy
    have h4 : unfold' y < (a + w) / n := by rw [lt_div_iff₀ hn]; linarith
    have h5 := fold_lt (unfold_pos y) h4 h3
    rw [fold_unfold] at h5
    have h6 := mul_lt_mul_of_pos_left h5 hc
    have h7 : δ / norm δ n 21 * y = δ / norm δ n 21 * fold (a / n) + 1 := by rw [hy]; field_simp
    rw [h7] at h6
    exact h6.le

theorem odds_ends {n : ℝ} (hn : 2 ≤ n) : odds (1 - 1 / n) - odds (1 / n) = 2 * Real.logb 10 (n - 1) := by
  have h1 : (1 - 1 / n) / (1 - (1 - 1 / n)) = n - 1 := by field_simp; ring
  have h2 : (1 / n) / (1 - 1 / n) = (n - 1)⁻¹ := by
    have : n - 1 ≠ 0 := by linarith
    field_simp
  unfold odds
  rw [h1, h2, Real.logb_inv]
  ring

theorem logb_pred_le {n : ℝ} (hn : 2 ≤ n) : Real.logb 10 (n - 1) ≤ Real.logb 10 n :=
  Real.logb_le_logb_of_le (by norm_num) (by linarith) (by linarith)

theorem logb_nonneg' {n : ℝ} (hn : 1 ≤ n) : 0 ≤ Real.logb 10 n := Real.logb_nonneg (by norm_num) hn

/-- C77. With `k2` and a compression factor of at most a million, after any history of items (or centroids of weight at least
one) the digest has at most `compress_factor + 3` centroids. -/
theorem C77_k2_size (δ : ℝ) (h0 : 0 < δ) (h6 : δ ≤ 10 ^ 6) (ops : List (TDigest.TOp ℝ))
    (hg : ∀ c ∈ TDigest.supplied ops, c.mean.IsFin ∧ ∃ w : ℝ, 1 ≤ w ∧ c.weight = .fin w) :
    Always ((TDigest.new k2 invK2 (.fin δ)).execOps ops) (fun d => (d.centroids.length : ℝ) ≤ δ + 3) := by
  have hl := logb_le_of_le_pow 6 h0 h6
  push_cast at hl
  have hz : ∀ n : ℝ, 2 ≤ n → 4 * Real.logb 10 n ≤ norm δ n 24 := fun n hn => by
    rw [norm_split 24 h0 (by linarith)]; linarith
  refine TDigest.scale_size_all k2 invK2 (.fin δ) δ h0.le (fun n hn => ?_) ops hg
  have hlp : 0 < Real.logb 10 n := Real.logb_pos (by norm_num) (by linarith)
  have hN : 0 < norm δ n 24 := lt_of_lt_of_le (by linarith) (hz n hn)
  refine ⟨_, k2_steps h0 (by linarith) hN, ?_⟩
  rw [← mul_sub, odds_ends hn, show 2 * (δ / norm δ n 24 * (2 * Real.logb 10 (n - 1))) =
    δ * ((4 * Real.logb 10 (n - 1)) / norm δ n 24) by ring]
  have : (4 * Real.logb 10 (n - 1)) / norm δ n 24 ≤ 1 := by
    rw [div_le_one hN]
    have := logb_pred_le hn
    have := hz n hn
    linarith
  nlinarith

theorem fold_ends {n : ℝ} (hn : 2 ≤ n) : fold (1 - 1 / n) - fold (1 / n) = 2 * Real.logb 10 (n / 2) := by
  have h1 : 1 / n ≤ 1 / 2 := one_div_le_one_div_of_le (by norm_num) hn
  have e1 : fold (1 / n) = -Real.logb 10 (n / 2) := by
    unfold fold
    rw [if_pos h1, ← Real.logb_inv]
    congr 1
    field_simp
  have e2 : fold (1 - 1 / n) = Real.logb 10 (n / 2) := by
    unfold fold
    split
    · have : (1 : ℝ) / n = 1 / 2 := by linarith
      have hn2 : n = 2 := by field_simp at this; linarith
      rw [hn2]; norm_num
    · rw [← Real.logb_inv]
      congr 1
      field_simp
      ring
  rw [e1, e2]; ring

/-- C78. With `k3` and a compression factor of at most a hundred thousand, after any history of items (or centroids of weight
at least one) the digest has at most `compress_factor + 3` centroids. -/
theorem C78_k3_size (δ : ℝ) (h0 : 0 < δ) (h5 : δ ≤ 10 ^ 5) (ops : List (TDigest.TOp ℝ))
    (hg : ∀ c ∈ TDigest.supplied ops, c.mean.IsFin ∧ ∃ w : ℝ, 1 ≤ w ∧ c.weight = .fin w) :
    Always ((TDigest.new k3 invK3 (.fin δ)).execOps ops) (fun d => (d.centroids.length : ℝ) ≤ δ + 3) := by
  have hl := logb_le_of_le_pow 5 h0 h5
  push_cast at hl
  have hz : ∀ n : ℝ, 2 ≤ n → 4 * Real.logb 10 n ≤ norm δ n 21 := fun n hn => by
    rw [norm_split 21 h0 (by linarith)]; linarith
  refine TDigest.scale_size_all k3 invK3 (.fin δ) δ h0.le (fun n hn => ?_) ops hg
  have hlp : 0 < Real.logb 10 n := Real.logb_pos (by norm_num) (by linarith)
  have hN : 0 < norm δ n 21 := lt_of_lt_of_le (by linarith) (hz n hn)
  refine ⟨_, k3_steps h0 (by linarith) hN, ?_⟩
  rw [← mul_sub, fold_ends hn, show 2 * (δ / norm δ n 21 * (2 * Real.logb 10 (n / 2))) =
    δ * ((4 * Real.logb 10 (n / 2)) / norm δ n 21) by ring]
  have : (4 * Real.logb 10 (n / 2)) / norm δ n 21 ≤ 1 := by
    rw [div_le_one hN]
    have : Real.logb 10 (n / 2) ≤ Real.logb 10 n := Real.logb_le_logb_of_le (by norm_num) (by linarith) (by linarith)
    have := hz n hn
    linarith
  nlinarith

/-- C80. With `k2n` the number of centroids grows at most with the square of the logarithm of the total weight `W`:
`compress_factor / 10 * log10(W)^2 + 3`, as long as that stays below a million. -/
theorem C80_k2n_size (δ : ℝ) (h0 : 0 < δ) (ops : List (TDigest.TOp ℝ))
    (hg : ∀ c ∈ TDigest.supplied ops, c.mean.IsFin ∧ ∃ w : ℝ, 1 ≤ w ∧ c.weight = .fin w)
    (hne : TDigest.supplied ops ≠ [])
    (h6 : δ / 10 * Real.logb 10 (totalW (TDigest.supplied ops)) ^ 2 ≤ 10 ^ 6) :
    Always ((TDigest.new k2n invK2n (.fin δ)).execOps ops)
      (fun d => (d.centroids.length : ℝ) ≤ δ / 10 * Real.logb 10 (totalW (TDigest.supplied ops)) ^ 2 + 3) := by
  have hcase : ∀ n : ℝ, 2 ≤ n → δ / 10 * Real.logb 10 n ^ 2 ≤ 10 ^ 6 →
      ∃ κ, Steps k2n invK2n (.fin δ) n κ ∧ 2 * (κ (1 - 1 / n) - κ (1 / n)) ≤ δ / 10 * Real.logb 10 n ^ 2 := by
    intro n hn h6
    have hlp : 0 < Real.logb 10 n := Real.logb_pos (by norm_num) (by linarith)
    set δ' := δ / 10 * Real.logb 10 n ^ 2 with hδ'
    have h0' : 0 < δ' := by positivity
    have hl := logb_le_of_le_pow 6 h0' h6
    push_cast at hl
    have hz : 4 * Real.logb 10 n ≤ norm δ' n 24 := by rw [norm_split 24 h0' (by linarith)]; linarith
    have hN : 0 < norm δ' n 24 := lt_of_lt_of_le (by linarith) hz
    obtain ⟨hm, hs⟩ := k2_steps h0' (show 0 < n by linarith) hN
    refine ⟨_, ⟨hm, ?_⟩, ?_⟩
    · intro a w ha hw haw hle
      refine hs a w ha hw haw ?_
      rw [← hle]
      unfold sizeLimit
      rw [k2n_eq _ _ _ (by linarith), invK2n_eq _ _ _ (by linarith)]
    · rw [← mul_sub, odds_ends hn, show 2 * (δ' / norm δ' n 24 * (2 * Real.logb 10 (n - 1))) =
        δ' * ((4 * Real.logb 10 (n - 1)) / norm δ' n 24) by ring]
      have : (4 * Real.logb 10 (n - 1)) / norm δ' n 24 ≤ 1 := by
        rw [div_le_one hN]
        have := logb_pred_le hn
        linarith
      nlinarith
  refine (TDigest.scale_size_history' k2n invK2n (.fin δ) (fun n => δ / 10 * Real.logb 10 n ^ 2) ?_ ops hg hne ?_).mono ?_
  · intro n _; positivity
  · intro n hn hle
    refine hcase n hn (le_trans ?_ h6)
    have h1 := Real.logb_le_logb_of_le (by norm_num : (1 : ℝ) < 10) (show 0 < n by linarith) hle
    have h2 := logb_nonneg' (show 1 ≤ n by linarith)
    have : Real.logb 10 n ^ 2 ≤ Real.logb 10 (totalW (TDigest.supplied ops)) ^ 2 := pow_le_pow_left₀ h2 h1 2
    have : 0 < δ / 10 := by positivity
    nlinarith
  · intro d h
    linarith

/-- The steps of `k2_asym`. -/
theorem k2Asym_steps {δ n : ℝ} (hδ : 0 < δ) (hn : 0 < n) (hN : 0 < norm (δ * 2) n 24) :
    Steps k2Asym invK2Asym (.fin δ) n (fun q => δ * 2 / norm (δ * 2) n 24 * odds (q * (1 / 2))) := by
  have hδ2 : 0 < δ * 2 := by linarith
  have hc : 0 < δ * 2 / norm (δ * 2) n 24 := by positivity
  refine ⟨?_, ?_⟩
  · intro a b h0 hab h1
    rcases hab.eq_or_lt with rfl | hab
    · exact le_refl _
    · exact mul_le_mul_of_nonneg_left (odds_lt (by linarith) (by linarith) (by linarith)).le hc.le
  · intro a w ha hw haw hle
    have h1 : 0 < a / n := by positivity
    have h2 : a / n < 1 := by rw [div_lt_one hn]; linarith
    have h3 : (a + w) / n < 1 := by rw [div_lt_one hn]; exact haw
    have e1 : k2Asym (.fin (a / n)) (.fin δ) (.fin n) =
        .fin (δ * 2 / norm (δ * 2) n 24 * odds (a / n * (1 / 2))) := by
      unfold k2Asym
      simp only [Fl.lit_exact, Fl.mul_exact]
      rw [k2_fin (by linarith) (by linarith) hδ2 hn hN.ne']
    have e2 : ∀ s : ℝ, invK2Asym (.fin s) (.fin δ) (.fin n) = .fin (unodds (s * norm (δ * 2) n 24 / (δ * 2)) * 2) := by
      intro s
      unfold invK2Asym
      simp only [Fl.lit_exact, Fl.mul_exact]
      rw [invK2_fin hδ2 hn, Fl.mul_exact]
    rw [sizeLimit_fin e1 (e2 _), Fl.le_fin] at hle
    have hle := of_decide_eq_false hle
    set y := (δ * 2 / norm (δ * 2) n 24 * odds (a / n * (1 / 2)) + 1) * norm (δ * 2) n 24 / (δ * 2) with hy
    have h4 : unodds y < (a + w) / n * (1 / 2) := by
      have : unodds y * 2 < (a + w) / n := by rw [lt_div_iff₀ hn]; linarith
      linarith
    have h5 := odds_lt (unodds_pos y) h4 (by linarith)
    rw [odds_unodds] at h5
    have h6 := mul_lt_mul_of_pos_left h5 hc
    have h7 : δ * 2 / norm (δ * 2) n 24 * y = δ * 2 / norm (δ * 2) n 24 * odds (a / n * (1 / 2)) + 1 := by
      rw [hy]; field_simp
    rw [h7] at h6
    exact h6.le

/-- C77. The same bound with `k2_asym`, for a compression factor of at most a quarter million. -/
theorem C77_k2_asym_size (δ : ℝ) (h0 : 0 < δ) (h6 : 4 * δ ≤ 10 ^ 6) (ops : List (TDigest.TOp ℝ))
    (hg : ∀ c ∈ TDigest.supplied ops, c.mean.IsFin ∧ ∃ w : ℝ, 1 ≤ w ∧ c.weight = .fin w) :
    Always ((TDigest.new k2Asym invK2Asym (.fin δ)).execOps ops) (fun d => (d.centroids.length : ℝ) ≤ δ + 3) := by
  have hl := logb_le_of_le_pow 6 (show 0 < 4 * δ by linarith) h6
  rw [show 4 * δ = 2 * (δ * 2) by ring, Real.logb_mul (by norm_num) (by positivity)] at hl
  push_cast at hl
  refine TDigest.scale_size_all k2Asym invK2Asym (.fin δ) δ h0.le (fun n hn => ?_) ops hg
  have hlp : 0 < Real.logb 10 n := Real.logb_pos (by norm_num) (by linarith)
  have hz : 4 * Real.logb 10 n + 4 * Real.logb 10 2 ≤ norm (δ * 2) n 24 := by
    rw [norm_split 24 (by linarith) (by linarith)]; linarith
  have hl2 : 0 < Real.logb 10 2 := Real.logb_pos (by norm_num) (by norm_num)
  have hN : 0 < norm (δ * 2) n 24 := lt_of_lt_of_le (by linarith) hz
  refine ⟨_, k2Asym_steps h0 (by linarith) hN, ?_⟩
  have h1 : odds ((1 - 1 / n) * (1 / 2)) ≤ 0 := by
    have hn0 : 0 < 1 / n := by positivity
    have hn1 : 1 / n < 1 := by rw [div_lt_one (by linarith)]; linarith
    refine Real.logb_nonpos (by norm_num) ?_ ?_
    · exact div_nonneg (by linarith) (by linarith)
    · rw [div_le_one (by linarith)]; linarith
  have h2 : -odds (1 / n * (1 / 2)) ≤ Real.logb 10 n + Real.logb 10 2 := by
    unfold odds
    rw [← Real.logb_inv, ← Real.logb_mul (by linarith) (by norm_num)]
    have e : (1 / n * (1 / 2) / (1 - 1 / n * (1 / 2)))⁻¹ = n * 2 - 1 := by
      have : n * 2 - 1 ≠ 0 := by linarith
      field_simp
    rw [e]
    exact Real.logb_le_logb_of_le (by norm_num) (by linarith) (by linarith)
  rw [← mul_sub]
  have h3 : odds ((1 - 1 / n) * (1 / 2)) - odds (1 / n * (1 / 2)) ≤ norm (δ * 2) n 24 / 4 := by linarith
  have h4 : 0 < δ * 2 / norm (δ * 2) n 24 := by positivity
  calc 2 * (δ * 2 / norm (δ * 2) n 24 * (odds ((1 - 1 / n) * (1 / 2)) - odds (1 / n * (1 / 2))))
      ≤ 2 * (δ * 2 / norm (δ * 2) n 24 * (norm (δ * 2) n 24 / 4)) := by
        have := mul_le_mul_of_nonneg_left h3 h4.le
        linarith
    _ = δ := by
      generalize norm (δ * 2) n 24 = N at hN ⊢
      field_simp
      norm_num

/-- Beyond `π/2 - π/δ` one more step of `inv_k1` goes down. -/
theorem k1_limit_nonpos {δ n a : ℝ} (hδ : 2 ≤ δ) (hn : 0 < n) (ha0 : 0 ≤ a) (han : a ≤ n)
    (ha : 1 + Real.cos (Real.pi / δ) ≤ 2 * (a / n)) :
    ∃ x : ℝ, sizeLimit k1 invK1 (.fin δ) n a = .fin x ∧ x ≤ 0 := by
  have hδ0 : 0 < δ := by linarith
  have hp := Real.pi_pos
  have h0 : 0 ≤ a / n := by positivity
  have h1 : a / n ≤ 1 := by rw [div_le_one hn]; exact han
  refine ⟨_, sizeLimit_fin (k1_fin _ h0 h1) (invK1_fin _ hδ0.ne'), ?_⟩
  set θ := Real.arcsin (2 * (a / n) - 1) with hθ
  have hsin : Real.sin θ = 2 * (a / n) - 1 := Real.sin_arcsin (by linarith) (by linarith)
  have hang : 2 * Real.pi * (δ / (2 * Real.pi) * θ + 1) / δ = θ + 2 * (Real.pi / δ) := by field_simp
  rw [hang]
  have hβ0 : 0 < Real.pi / δ := by positivity
  have hβ1 : Real.pi / δ ≤ Real.pi / 2 := div_le_div_of_nonneg_left hp.le (by norm_num) hδ
  have hlow : Real.pi / 2 - Real.pi / δ ≤ θ := by
    rw [hθ]
    refine (Real.le_arcsin_iff_sin_le' ⟨by linarith, by linarith⟩).2 ?_
    rw [Real.sin_pi_div_two_sub]
    linarith
  have hhigh : θ ≤ Real.pi / 2 := Real.arcsin_le_pi_div_two _
  have hdiff : Real.sin (θ + 2 * (Real.pi / δ)) ≤ Real.sin θ := by
    have e := Real.sin_sub_sin (θ + 2 * (Real.pi / δ)) θ
    rw [show (θ + 2 * (Real.pi / δ) - θ) / 2 = Real.pi / δ by ring,
      show (θ + 2 * (Real.pi / δ) + θ) / 2 = θ + Real.pi / δ by ring] at e
    have hs : 0 ≤ Real.sin (Real.pi / δ) := Real.sin_nonneg_of_nonneg_of_le_pi hβ0.le (by linarith)
    have hc : Real.cos (θ + Real.pi / δ) ≤ 0 := Real.cos_nonpos_of_pi_div_two_le_of_le (by linarith) (by linarith)
    have := mul_nonneg hs (neg_nonneg.2 hc)
    nlinarith
  rw [hsin] at hdiff
  have hfin : (1 + Real.sin (θ + 2 * (Real.pi / δ))) / 2 ≤ a / n := by linarith
  have := mul_le_mul_of_nonneg_right hfin hn.le
  rw [div_mul_cancel₀ _ hn.ne'] at this
  linarith

/-- C79. The scale function `k1` does not merge anything in the upper tail: `inv_k1` wraps around beyond the top, so every new
centroid that starts at or above the fraction `(1 + cos(π/δ))/2` of the total weight is a single old one. -/
theorem C79_k1_upper_tail_unmerged (d : TDigest ℝ) (δ : ℝ) (hδ : 2 ≤ δ) (hs : d.scaleFunc = k1)
    (hi : d.inverseScaleFunc = invK1) (hc : d.compressFactor = .fin δ) (batch : List (Centroid ℝ))
    (hd : ∀ c ∈ d.centroids, Good c) (hb : ∀ c ∈ batch, Good c) (hne : batch ++ d.centroids ≠ []) :
    Always (d.addCentroidBuffer batch) (fun d' =>
      ∃ (l : List (Centroid ℝ)) (runs : List (List (Centroid ℝ))), l.Perm (batch ++ d.centroids) ∧
        IsPartition runs l ∧ d'.centroids = runs.map weightedMean ∧
        ∀ pre r post, runs = pre ++ r :: post →
          (1 + Real.cos (Real.pi / δ)) / 2 * totalW (batch ++ d.centroids) ≤ totalW pre.flatten → r.length = 1) := by
  have hg : ∀ c ∈ batch ++ d.centroids, Good c := by
    intro c hc
    rcases List.mem_append.1 hc with hc | hc
    · exact hb c hc
    · exact hd c hc
  refine (C33_merge_joins_neighbours d batch hd hb hne).mono ?_
  rintro d' ⟨l, runs, h1, -, h3, h4, h5⟩
  rw [hs, hi, hc] at h5
  refine ⟨l, runs, h1, h3, h4, ?_⟩
  intro pre r post he hle
  have hlg : ∀ c ∈ l, Good c := fun c hc => hg c (h1.mem_iff.1 hc)
  have hgr : ∀ q ∈ runs, ∀ c ∈ q, Good c := fun q hq c hc => hlg c (h3.mem hq hc)
  have hnpos : 0 < totalW (batch ++ d.centroids) := totalW_pos hg hne
  have hr : r ≠ [] := h3.2 r (by rw [he]; simp)
  have hrpos : 0 < totalW r := totalW_pos (hgr r (by rw [he]; simp)) hr
  have hpre : 0 ≤ totalW pre.flatten := totalW_nonneg (by
    intro c hc
    obtain ⟨q, hq, hc⟩ := List.mem_flatten.1 hc
    exact hgr q (by rw [he]; simp [hq]) c hc)
  have hpost : 0 ≤ totalW post.flatten := totalW_nonneg (by
    intro c hc
    obtain ⟨q, hq, hc⟩ := List.mem_flatten.1 hc
    exact hgr q (by rw [he]; simp [hq]) c hc)
  have htot : totalW pre.flatten + (totalW r + totalW post.flatten) = totalW (batch ++ d.centroids) := by
    rw [← totalW_perm h1, ← h3.1, he]
    simp
  obtain ⟨x, hx, hx0⟩ := k1_limit_nonpos (a := totalW pre.flatten) hδ hnpos hpre (by linarith) (by
    rw [mul_div_assoc', le_div_iff₀ hnpos]
    linarith)
  by_contra hlen
  have hlen2 : 2 ≤ r.length := by
    have := List.length_pos_iff.2 hr
    omega
  have h6 := (h5 pre r post he).1 hlen2
  rw [hx, Fl.le_fin] at h6
  have := of_decide_eq_true h6
  linarith

/-- A potential for `k1`: up to one step below the top the scale function itself, from there half the weight. -/
noncomputable def k1Pot (δ n q : ℝ) : ℝ :=
  if 2 * q ≤ 1 + Real.cos (2 * Real.pi / δ) then δ / (2 * Real.pi) * Real.arcsin (2 * q - 1)
  else δ / 4 + (2 * q - (1 + Real.cos (2 * Real.pi / δ))) / 4 * n

theorem k1_low {δ q : ℝ} (hδ : 2 ≤ δ) (h : 2 * q ≤ 1 + Real.cos (2 * Real.pi / δ)) :
    Real.arcsin (2 * q - 1) ≤ Real.pi / 2 - 2 * Real.pi / δ := by
  have hp := Real.pi_pos
  have h1 : 2 * Real.pi / δ ≤ Real.pi := by
    rw [div_le_iff₀ (by linarith)]
    nlinarith
  have h2 : 0 < 2 * Real.pi / δ := by positivity
  refine (Real.arcsin_le_iff_le_sin' ⟨by linarith, by linarith⟩).2 ?_
  rw [Real.sin_pi_div_two_sub]
  linarith

theorem k1_steps {δ n : ℝ} (hδ : 2 ≤ δ) (hn : 0 < n) : Steps k1 invK1 (.fin δ) n (k1Pot δ n) := by
  have hp := Real.pi_pos
  have hδ0 : 0 < δ := by linarith
  have hc : 0 < δ / (2 * Real.pi) := by positivity
  -- below the threshold the potential is at least one below the top
  have hlow : ∀ q, 2 * q ≤ 1 + Real.cos (2 * Real.pi / δ) →
      δ / (2 * Real.pi) * Real.arcsin (2 * q - 1) + 1 ≤ δ / 4 := by
    intro q h
    have h1 := mul_le_mul_of_nonneg_left (k1_low hδ h) hc.le
    have h2 : δ / (2 * Real.pi) * (Real.pi / 2 - 2 * Real.pi / δ) = δ / 4 - 1 := by field_simp; ring
    linarith
  refine ⟨?_, ?_⟩
  · intro a b h0 hab h1
    unfold k1Pot
    by_cases hb : 2 * b ≤ 1 + Real.cos (2 * Real.pi / δ)
    · rw [if_pos hb, if_pos (by linarith)]
      exact mul_le_mul_of_nonneg_left (Real.monotone_arcsin (by linarith)) hc.le
    · rw [if_neg hb]
      by_cases ha : 2 * a ≤ 1 + Real.cos (2 * Real.pi / δ)
      · rw [if_pos ha]
        have h2 := hlow a ha
        have h3 : 0 ≤ (2 * b - (1 + Real.cos (2 * Real.pi / δ))) / 4 * n := mul_nonneg (by linarith) hn.le
        linarith
      · rw [if_neg ha]
        have : (2 * a - (1 + Real.cos (2 * Real.pi / δ))) / 4 * n ≤ (2 * b - (1 + Real.cos (2 * Real.pi / δ))) / 4 * n :=
          mul_le_mul_of_nonneg_right (by linarith) hn.le
        linarith
  · intro a w ha hw haw hle
    have h1 : 0 ≤ a / n := by positivity
    have h2 : a / n ≤ 1 := by rw [div_le_one hn]; linarith
    have h3 : (a + w) / n ≤ 1 := by rw [div_le_one hn]; linarith
    have h4 : a / n ≤ (a + w) / n := div_le_div_of_nonneg_right (by linarith) hn.le
    rw [sizeLimit_fin (k1_fin _ h1 h2) (invK1_fin _ hδ0.ne'), Fl.le_fin] at hle
    have hle := of_decide_eq_false hle
    unfold k1Pot
    by_cases hb : 2 * ((a + w) / n) ≤ 1 + Real.cos (2 * Real.pi / δ)
    · have ha' : 2 * (a / n) ≤ 1 + Real.cos (2 * Real.pi / δ) := by linarith
      rw [if_pos hb, if_pos ha']
      set θ := Real.arcsin (2 * (a / n) - 1) with hθ
      have hang : 2 * Real.pi * (δ / (2 * Real.pi) * θ + 1) / δ = θ + 2 * Real.pi / δ := by field_simp
      rw [hang] at hle
      have h5 : Real.sin (θ + 2 * Real.pi / δ) < 2 * ((a + w) / n) - 1 := by
        have : (1 + Real.sin (θ + 2 * Real.pi / δ)) / 2 < (a + w) / n := by rw [lt_div_iff₀ hn]; linarith
        linarith
      have h6 := k1_low hδ ha'
      have h7 : -(Real.pi / 2) ≤ θ := Real.neg_pi_div_two_le_arcsin _
      have h8 : 0 < 2 * Real.pi / δ := by positivity
      have h9 : θ + 2 * Real.pi / δ ≤ Real.arcsin (2 * ((a + w) / n) - 1) :=
        (Real.le_arcsin_iff_sin_le ⟨by linarith, by linarith⟩ ⟨by linarith, by linarith⟩).2 h5.le
      have h10 := mul_le_mul_of_nonneg_left h9 hc.le
      have h11 : δ / (2 * Real.pi) * (θ + 2 * Real.pi / δ) = δ / (2 * Real.pi) * θ + 1 := by field_simp
      linarith
    · rw [if_neg hb]
      have hb' := not_le.1 hb
      by_cases ha' : 2 * (a / n) ≤ 1 + Real.cos (2 * Real.pi / δ)
      · rw [if_pos ha']
        have h5 := hlow _ ha'
        have h6 : 0 ≤ (2 * ((a + w) / n) - (1 + Real.cos (2 * Real.pi / δ))) / 4 * n := mul_nonneg (by linarith) hn.le
        linarith
      · rw [if_neg ha']
        have e : ∀ x : ℝ, (2 * (x / n) - (1 + Real.cos (2 * Real.pi / δ))) / 4 * n =
            x / 2 - (1 + Real.cos (2 * Real.pi / δ)) / 4 * n := by intro x; field_simp; ring
        rw [e, e]
        linarith

/-- C79 (full claim: the number of centroids kept with `k1` is bounded in terms of the compression factor alone; false by
`C79_k1_size_unbounded`). What holds: after any history with total weight `W` there are at most
`δ + 3 + (1 - cos(2π/δ))/2 · W` centroids. -/
theorem C79_k1_size_partial (δ : ℝ) (hδ : 2 ≤ δ) (ops : List (TDigest.TOp ℝ))
    (hg : ∀ c ∈ TDigest.supplied ops, c.mean.IsFin ∧ ∃ w : ℝ, 1 ≤ w ∧ c.weight = .fin w)
    (hne : TDigest.supplied ops ≠ []) :
    Always ((TDigest.new k1 invK1 (.fin δ)).execOps ops) (fun d => (d.centroids.length : ℝ) ≤
      δ + 3 + (1 - Real.cos (2 * Real.pi / δ)) / 2 * totalW (TDigest.supplied ops)) := by
  have hp := Real.pi_pos
  have hcos := Real.cos_le_one (2 * Real.pi / δ)
  refine (TDigest.scale_size_history' k1 invK1 (.fin δ) (fun n => δ + (1 - Real.cos (2 * Real.pi / δ)) / 2 * n) ?_ ops hg hne
    ?_).mono ?_
  · intro n hn
    have : 0 ≤ (1 - Real.cos (2 * Real.pi / δ)) / 2 * n := mul_nonneg (by linarith) (by linarith)
    linarith
  · intro n hn _
    refine ⟨_, k1_steps hδ (by linarith), ?_⟩
    have hc : 0 < δ / (2 * Real.pi) := by positivity
    have hm : δ / (2 * Real.pi) * (Real.pi / 2) = δ / 4 := by field_simp; norm_num
    have hT : 0 ≤ (1 - Real.cos (2 * Real.pi / δ)) / 4 * n := mul_nonneg (by linarith) (by linarith)
    have hlo : -(δ / 4) ≤ k1Pot δ n (1 / n) := by
      unfold k1Pot
      split
      · have := mul_le_mul_of_nonneg_left (Real.neg_pi_div_two_le_arcsin (2 * (1 / n) - 1)) hc.le
        linarith
      · have : 0 ≤ (2 * (1 / n) - (1 + Real.cos (2 * Real.pi / δ))) / 4 * n := mul_nonneg (by linarith) (by linarith)
        linarith
    have hhi : k1Pot δ n (1 - 1 / n) ≤ δ / 4 + (1 - Real.cos (2 * Real.pi / δ)) / 4 * n := by
      unfold k1Pot
      split
      · have := mul_le_mul_of_nonneg_left (Real.arcsin_le_pi_div_two (2 * (1 - 1 / n) - 1)) hc.le
        linarith
      · have hn0 : 0 < 1 / n := by positivity
        have := mul_le_mul_of_nonneg_right (show (2 * (1 - 1 / n) - (1 + Real.cos (2 * Real.pi / δ))) / 4 ≤
          (1 - Real.cos (2 * Real.pi / δ)) / 4 by linarith) (show 0 ≤ n by linarith)
        linarith
    linarith
  · intro d h
    linarith

theorem totalW_unit {l : List (Centroid ℝ)} (h : ∀ c ∈ l, c.weight = .fin 1) : totalW l = (l.length : ℝ) := by
  induction l with
  | nil => simp
  | cons c l ih =>
    rw [totalW_cons, ih (fun e he => h e (by simp [he])), h c (by simp)]
    show (1 : ℝ) + _ = _
    push_cast [List.length_cons]
    ring

/-- C79. The number of centroids kept with `k1` is not bounded by any function of the compression factor: with compression
factor 3, any `4m` items given as one batch leave exactly `m + 1` centroids. -/
theorem C79_k1_size_unbounded (m : ℕ) (hm : 1 ≤ m) (xs : List (Fl ℝ)) (hx : ∀ x ∈ xs, x.IsFin) (hlen : xs.length = 4 * m) :
    Always ((TDigest.new k1 invK1 (.fin 3)).addBuffer xs) (fun d => d.centroids.length = m + 1) := by
  set d : TDigest ℝ := TDigest.new k1 invK1 (.fin 3) with hd
  have hadd : d.addBuffer xs = d.addCentroidBuffer (xs.map (fun x => ⟨x, .fin 1⟩)) := by
    unfold TDigest.addBuffer TDigest.unit
    simp only [Fl.lit_exact]
  set batch : List (Centroid ℝ) := xs.map (fun x => ⟨x, .fin 1⟩) with hbatch
  have hd0 : d.centroids = [] := rfl
  have happ : batch ++ d.centroids = batch := by rw [hd0, List.append_nil]
  have hw : ∀ c ∈ batch, c.weight = .fin 1 := by
    intro c hc
    obtain ⟨x, -, rfl⟩ := List.mem_map.1 hc
    rfl
  have hb : ∀ c ∈ batch, Good c := by
    intro c hc
    obtain ⟨x, hx', rfl⟩ := List.mem_map.1 hc
    exact ⟨hx x hx', 1, one_pos, rfl⟩
  have hbl : batch.length = 4 * m := by rw [hbatch, List.length_map, hlen]
  have hne : batch ++ d.centroids ≠ [] := by
    rw [happ]
    intro h
    rw [h] at hbl
    simp at hbl
    omega
  have hm' : (1 : ℝ) ≤ m := by exact_mod_cast hm
  have hn : totalW (batch ++ d.centroids) = 4 * m := by
    rw [happ, totalW_unit hw, hbl]; push_cast; ring
  rw [hadd]
  refine (C33_merge_joins_neighbours d batch (by simp [hd0]) hb hne).mono ?_
  rintro d' ⟨l, runs, h1, -, h3, h4, h5⟩
  rw [hn] at h5
  rw [happ] at h1
  have hlw : ∀ c ∈ l, c.weight = .fin 1 := fun c hc => hw c (h1.mem_iff.1 hc)
  have hll : l.length = 4 * m := by rw [h1.length_eq, hbl]
  have hrw : ∀ r ∈ runs, totalW r = (r.length : ℝ) := fun r hr => totalW_unit (fun c hc => hlw c (h3.mem hr hc))
  have hp := Real.pi_pos
  -- the limit at the start is three quarters of the items
  have hlim0 : sizeLimit k1 invK1 (.fin 3) (4 * m) 0 = .fin (3 * (m : ℝ)) := by
    rw [sizeLimit_fin (k1_fin (.fin (4 * (m : ℝ))) (by simp) (by simp)) (invK1_fin _ (by norm_num))]
    have e : 2 * Real.pi * ((3 : ℝ) / (2 * Real.pi) * Real.arcsin (2 * (0 / (4 * (m : ℝ))) - 1) + 1) / 3 = Real.pi / 6 := by
      rw [zero_div, mul_zero, zero_sub, Real.arcsin_neg_one]
      field_simp
      ring
    rw [e, Real.sin_pi_div_six]
    congr 1
    ring
  have hlen' : runs.flatten.length = 4 * m := by rw [h3.1, hll]
  rw [h4, List.length_map]
  match runs, hlen', h3, h5, hrw with
  | [], hl, _, _, _ =>
    exfalso
    simp at hl
    omega
  | r :: rest, hl, h3, h5, hrw =>
    have hr : r ≠ [] := h3.2 r (by simp)
    have hrl : 1 ≤ r.length := List.length_pos_iff.2 hr
    have h6 := h5 [] r rest rfl
    simp only [List.flatten_nil, totalW_nil] at h6
    change (2 ≤ r.length → Fl.le (.fin (totalW r)) (sizeLimit k1 invK1 (.fin 3) (4 * m) 0) = true) ∧
      (∀ c, rest.flatten.head? = some c →
        Fl.le (.fin (totalW (r ++ [c]))) (sizeLimit k1 invK1 (.fin 3) (4 * m) 0) = false) at h6
    rw [hlim0] at h6
    have hup : r.length ≤ 3 * m := by
      by_cases h2 : 2 ≤ r.length
      · have h7 := h6.1 h2
        rw [Fl.le_fin, hrw r (by simp)] at h7
        have := of_decide_eq_true h7
        exact_mod_cast this
      · omega
    have hfl : r.length + rest.flatten.length = 4 * m := by simpa using hl
    have hrest : rest.flatten ≠ [] := by
      intro h
      rw [h] at hfl
      simp at hfl
      omega
    obtain ⟨c, cs, hcs⟩ := List.exists_cons_of_ne_nil hrest
    have hdown : 3 * m ≤ r.length := by
      have h7 := h6.2 c (by rw [hcs]; rfl)
      have hcw : c.weight = .fin 1 := hlw c (by
        rw [← h3.1, List.flatten_cons]
        exact List.mem_append_right _ (by rw [hcs]; simp))
      rw [Fl.le_fin, totalW_append, hrw r (by simp), totalW_cons, totalW_nil, hcw] at h7
      have h8 := of_decide_eq_false h7
      change ¬ ((r.length : ℝ) + (1 + 0) ≤ 3 * (m : ℝ)) at h8
      by_contra hcon
      apply h8
      have : r.length + 1 ≤ 3 * m := by omega
      rw [add_zero]
      exact_mod_cast this
    have hr3 : r.length = 3 * m := le_antisymm hup hdown
    -- every later run starts in the tail
    have hsingle : ∀ pre q post, rest = pre ++ q :: post → q.length = 1 := by
      intro pre q post he
      have hq : q ≠ [] := h3.2 q (by simp [he])
      have hqpos : 1 ≤ q.length := List.length_pos_iff.2 hq
      have hpw : totalW (r :: pre).flatten = ((r :: pre).flatten.length : ℝ) := totalW_unit (by
        intro c hc
        refine hlw c ?_
        rw [← h3.1, he]
        simp only [List.flatten_cons, List.flatten_append, List.mem_append] at hc ⊢
        tauto)
      have hprel : (r :: pre).flatten.length ≤ 4 * m := by
        rw [he] at hfl
        simp only [List.flatten_cons, List.flatten_append, List.length_append] at hfl ⊢
        omega
      have hpre3 : 3 * m ≤ (r :: pre).flatten.length := by
        simp only [List.flatten_cons, List.length_append]
        omega
      obtain ⟨x, hx, hx0⟩ := k1_limit_nonpos (δ := 3) (n := 4 * (m : ℝ)) (a := totalW (r :: pre).flatten) (by norm_num)
        (by linarith) (by rw [hpw]; positivity) (by rw [hpw]; exact_mod_cast hprel) (by
          rw [Real.cos_pi_div_three, mul_div_assoc', le_div_iff₀ (by linarith), hpw]
          have : (3 : ℝ) * m ≤ ((r :: pre).flatten.length : ℝ) := by exact_mod_cast hpre3
          linarith)
      by_contra hcon
      have h7 := (h5 (r :: pre) q post (by rw [he]; rfl)).1 (by omega)
      change Fl.le (.fin (totalW q)) (sizeLimit k1 invK1 (.fin 3) (4 * m) (totalW (r :: pre).flatten)) = true at h7
      rw [hx, Fl.le_fin, hrw q (by simp [he])] at h7
      have h8 := of_decide_eq_true h7
      have : (1 : ℝ) ≤ q.length := by exact_mod_cast hqpos
      linarith
    have hcount : ∀ rs : List (List (Centroid ℝ)), (∀ pre q post, rs = pre ++ q :: post → q.length = 1) →
        rs.flatten.length = rs.length := by
      intro rs
      induction rs with
      | nil => simp
      | cons q rs ih =>
        intro h
        have hq := h [] q rs rfl
        have := ih (fun pre q' post he => h (q :: pre) q' post (by rw [he]; rfl))
        simp only [List.flatten_cons, List.length_append, List.length_cons]
        omega
    have := hcount rest hsingle
    simp only [List.length_cons]
    omega

end

section examples

/-- Exact arithmetic on the reals. -/
@[reducible] noncomputable def realExact : FloatFmt ℝ where
  rnd := .fin
  rnd64 := .fin
  maxVal := 10 ^ 300

theorem realExact_exact : @FloatFmt.Exact ℝ realExact := @FloatFmt.Exact.mk ℝ realExact (fun _ => rfl) (fun _ => rfl)

/-- The hypotheses of C77 - C80 are met, for instance by a digest with compression factor 100 fed two batches. -/
example : ∀ c ∈ TDigest.supplied [.addBuffer [.fin (3 : ℝ), .fin 1], .add (.fin 2)],
    c.mean.IsFin ∧ ∃ w : ℝ, 1 ≤ w ∧ c.weight = .fin w := by
  intro c hc
  simp [TDigest.supplied, TDigest.TOp.supplied] at hc
  rcases hc with rfl | rfl | rfl <;> exact ⟨⟨_, rfl⟩, 1, le_refl _, rfl⟩

/-- With the compression factor 100 and 1000 items the normalisers are positive. -/
example : 0 < 4 * Real.logb 10 ((1000 : ℝ) / 100) + 21 := by
  have : 0 < Real.logb 10 ((1000 : ℝ) / 100) := Real.logb_pos (by norm_num) (by norm_num)
  linarith

/-- Eight items with `k1` and compression factor 3: three centroids, for instance with exact arithmetic. -/
example : letI := realExact; Always ((TDigest.new k1 invK1 (.fin 3)).addBuffer [.fin 1, .fin 2, .fin 3, .fin 4, .fin 5, .fin 6, .fin 7, .fin 8])
    (fun d => d.centroids.length = 3) := by
  let _ := realExact
  have := realExact_exact
  refine C79_k1_size_unbounded 2 (by norm_num) _ ?_ rfl
  intro x hx
  simp at hx
  rcases hx with rfl | rfl | rfl | rfl | rfl | rfl | rfl | rfl <;> exact ⟨_, rfl⟩

end examples
end AQ

/-
Property C86: with the scale functions `k2` and `k3` the error after one batch is relative to the distance from the nearer
end of the data (over the real numbers).
-/
import Mathlib.Tactic.Linarith
import Verif.Proofs.TDRelative
import Verif.Props.ScaleSize

set_option linter.unusedSectionVars false
set_option linter.unusedVariables false

namespace AQ
open Prog Spec
namespace TDigest
section
variable {K : Type} [Field K] [LinearOrder K] [IsStrictOrderedRing K] [FloatFmt K]

theorem relative_queries [FloorRing K] [FloatFmt.Exact K] (s i : ScaleFn K) (cf : Fl K) (xs : List (Fl K)) (hne : xs ≠ [])
    (hg : ∀ x ∈ xs, Item x) (h64 : (xs.length : K) < 2 ^ 64) (c : K) (hc : 0 ≤ c)
    (hlim : ∀ a w b : K, 0 ≤ a → 1 ≤ w → 0 ≤ b → a + w + b = xs.length →
      Fl.le (.fin w) (sizeLimit s i cf (xs.length : K) a) = true → w ≤ c * a ∧ w ≤ c * b) :
    Always ((TDigest.new s i cf).addBuffer xs) (fun d =>
      (∀ x : K, ∃ e : K, d.estQuantileAtValue (.fin x) = .ret (.fin e) ∧
        RankWithin xs (xs.length * e) x (3 / 2 * Max.max 1 (c * (1 + c) * endDistance xs x))) ∧
      ∀ q : K, 0 ≤ q → q ≤ 1 → ∃ v : K, d.estValueAtQuantile (.fin q) = .ret (.fin v) ∧
        RankWithin xs (xs.length * q) v (3 / 2 * Max.max 1 (c * (1 + c) * endDistance xs v))) := by
  refine (batch_runs s i cf xs hne hg).mono ?_
  rintro d ⟨runs, a, b, hv, hr, hp, hperm, ha, hb, ham, hbm, hl⟩
  have hlen := len_perm hperm
  have hrel : Relative c runs := by
    intro pre r post he h2
    have h3 := hl pre r post he h2
    rw [hlen] at h3
    refine hlim _ _ _ (len_nonneg _) (one_le_len (hr r (by rw [he]; simp))) (len_nonneg _) ?_ h3
    rw [← hlen, he]
    simp only [List.flatten_append, List.flatten_cons, len_append]
    ring
  have hdist : ∀ x, endDistance xs x = Min.min (les x runs.flatten) (xs.countP (fun y => Fl.le (.fin x) y) : K) := by
    intro x
    unfold endDistance
    rw [les_eq hg hperm x]
  have close : ∀ E x, Close E x runs → RankWithin xs E x (3 / 2 * Max.max 1 (c * (1 + c) * endDistance xs x)) := by
    intro E x h
    obtain ⟨h1, h2⟩ := Close.relative hr hc hrel h (lts_add_ge hg hperm x)
    rw [← hdist] at h1 h2
    exact rankWithin_of hg hperm h1 h2
  refine ⟨fun x => ?_, fun q h0 h1 => ?_⟩
  · obtain ⟨e, h1, h2⟩ := batch_quantile hv hr hp ha hb ham hbm x
    rw [hlen] at h2
    exact ⟨e, h1, close _ _ h2⟩
  · have hne' : runs ≠ [] := by rintro rfl; exact hv.ne rfl
    have hW : wt (runs.map mw) = (xs.length : K) := by rw [wt_mw, hlen]
    have hn0 : (0 : K) ≤ xs.length := Nat.cast_nonneg _
    have hw1 : ∀ p ∈ runs.map mw, 1 ≤ p.2 := by
      intro p hp'
      obtain ⟨r, hrm, rfl⟩ := List.mem_map.1 hp'
      exact one_le_len (hr r hrm)
    obtain ⟨v, h2, h3⟩ := estV_close hv.ne hr hp ha hb ham hbm (t := xs.length * q) (mul_nonneg hn0 h0)
      (by rw [hlen]; nlinarith) (by
        unfold InTail
        rw [hW, List.getLast_map]
        have : (mw (runs.getLast hne')).2 = 1 := hrel.last hr hne'
        rw [this]
        rintro ⟨h5, h6⟩
        linarith)
    refine ⟨v, ?_, close _ _ h3⟩
    rw [estValue_eq hv hw1 (by rw [hW]; exact h64), hW, h2]

end
end TDigest
section
variable [FloatFmt ℝ] [FloatFmt.Exact ℝ]

theorem norm_pos_of {δ n c : ℝ} (m : ℕ) (hδ : 0 < δ) (hn : 1 ≤ n) (hm : (4 * m : ℝ) < c) (h : δ ≤ 10 ^ m) :
    0 < ScaleR.norm δ n c := by
  rw [norm_split c hδ (by linarith)]
  have := logb_le_of_le_pow m hδ h
  have := logb_nonneg' hn
  linarith

/-- C86 with `k2`: after one `add_buffer` call on a new digest every quantile and every value query is accurate to a multiple
of the distance from the nearer end of the data (or one and a half items). With `r = 10^((4·log10(n/δ)+24)/δ)` the multiple is
`3/2·r·(r-1)`. -/
theorem C86_k2_relative (δ : ℝ) (h0 : 0 < δ) (h5 : δ ≤ 10 ^ 5) (xs : List (Fl ℝ)) (hne : xs ≠ []) (hg : ∀ x ∈ xs, Item x)
    (h64 : (xs.length : ℝ) < 2 ^ 64) (r : ℝ) (hr : r = (10 : ℝ) ^ ((4 * Real.logb 10 (xs.length / δ) + 24) / δ)) :
    Always ((TDigest.new k2 invK2 (.fin δ)).addBuffer xs) (fun d =>
      (∀ x : ℝ, ∃ e : ℝ, d.estQuantileAtValue (.fin x) = .ret (.fin e) ∧
        RankWithin xs (xs.length * e) x (3 / 2 * Max.max 1 (r * (r - 1) * endDistance xs x))) ∧
      ∀ q : ℝ, 0 ≤ q → q ≤ 1 → ∃ v : ℝ, d.estValueAtQuantile (.fin q) = .ret (.fin v) ∧
        RankWithin xs (xs.length * q) v (3 / 2 * Max.max 1 (r * (r - 1) * endDistance xs v))) := by
  have hn : (1 : ℝ) ≤ xs.length := by exact_mod_cast List.length_pos_iff.2 hne
  have hN : 0 < ScaleR.norm δ xs.length 24 := norm_pos_of 5 h0 hn (by norm_num) h5
  have hr' : r = (10 : ℝ) ^ (ScaleR.norm δ xs.length 24 / δ) := hr
  have h1 : 1 ≤ r := by rw [hr']; exact Real.one_le_rpow (by norm_num) (by positivity)
  have := TDigest.relative_queries k2 invK2 (.fin δ) xs hne hg h64 (r - 1) (by linarith) (by
    intro a w b ha hw hb hs h
    rw [hr']
    exact TDigest.k2_run h0 hN ha hw hb hs h)
  rw [show (r - 1) * (1 + (r - 1)) = r * (r - 1) by ring] at this
  exact this

/-- C86 with `k3` (the constant 24 becomes 21). -/
theorem C86_k3_relative (δ : ℝ) (h0 : 0 < δ) (h5 : δ ≤ 10 ^ 5) (xs : List (Fl ℝ)) (hne : xs ≠ []) (hg : ∀ x ∈ xs, Item x)
    (h64 : (xs.length : ℝ) < 2 ^ 64) (r : ℝ) (hr : r = (10 : ℝ) ^ ((4 * Real.logb 10 (xs.length / δ) + 21) / δ)) :
    Always ((TDigest.new k3 invK3 (.fin δ)).addBuffer xs) (fun d =>
      (∀ x : ℝ, ∃ e : ℝ, d.estQuantileAtValue (.fin x) = .ret (.fin e) ∧
        RankWithin xs (xs.length * e) x (3 / 2 * Max.max 1 (r * (r - 1) * endDistance xs x))) ∧
      ∀ q : ℝ, 0 ≤ q → q ≤ 1 → ∃ v : ℝ, d.estValueAtQuantile (.fin q) = .ret (.fin v) ∧
        RankWithin xs (xs.length * q) v (3 / 2 * Max.max 1 (r * (r - 1) * endDistance xs v))) := by
  have hn : (1 : ℝ) ≤ xs.length := by exact_mod_cast List.length_pos_iff.2 hne
  have hN : 0 < ScaleR.norm δ xs.length 21 := norm_pos_of 5 h0 hn (by norm_num) h5
  have hr' : r = (10 : ℝ) ^ (ScaleR.norm δ xs.length 21 / δ) := hr
  have h1 : 1 ≤ r := by rw [hr']; exact Real.one_le_rpow (by norm_num) (by positivity)
  have := TDigest.relative_queries k3 invK3 (.fin δ) xs hne hg h64 (r - 1) (by linarith) (by
    intro a w b ha hw hb hs h
    rw [hr']
    exact TDigest.k3_run h0 hN ha hw hb hs h)
  rw [show (r - 1) * (1 + (r - 1)) = r * (r - 1) by ring] at this
  exact this

/-- C86 with `k2n`: the formula of `k2` with the compression factor `δ/10·log10(n)²`. -/
theorem C86_k2n_relative (δ : ℝ) (h0 : 0 < δ) (xs : List (Fl ℝ)) (h2 : 2 ≤ xs.length) (hg : ∀ x ∈ xs, Item x)
    (h64 : (xs.length : ℝ) < 2 ^ 64) (δ' r : ℝ) (hδ' : δ' = δ / 10 * Real.logb 10 xs.length ^ 2) (h5 : δ' ≤ 10 ^ 5)
    (hr : r = (10 : ℝ) ^ ((4 * Real.logb 10 (xs.length / δ') + 24) / δ')) :
    Always ((TDigest.new k2n invK2n (.fin δ)).addBuffer xs) (fun d =>
      (∀ x : ℝ, ∃ e : ℝ, d.estQuantileAtValue (.fin x) = .ret (.fin e) ∧
        RankWithin xs (xs.length * e) x (3 / 2 * Max.max 1 (r * (r - 1) * endDistance xs x))) ∧
      ∀ q : ℝ, 0 ≤ q → q ≤ 1 → ∃ v : ℝ, d.estValueAtQuantile (.fin q) = .ret (.fin v) ∧
        RankWithin xs (xs.length * q) v (3 / 2 * Max.max 1 (r * (r - 1) * endDistance xs v))) := by
  have hn : (2 : ℝ) ≤ xs.length := by exact_mod_cast h2
  have hlog : 0 < Real.logb 10 (xs.length : ℝ) := Real.logb_pos (by norm_num) (by linarith)
  have h0' : 0 < δ' := by rw [hδ']; positivity
  have hmod : modCompFactor (.fin δ) (.fin (xs.length : ℝ)) = .fin δ' := by
    unfold modCompFactor
    rw [Fl.log10_pos (by linarith), Fl.square_fin, Fl.lit_exact, Fl.div_exact _ (by norm_num), Fl.mul_exact, hδ']
  have hN : 0 < ScaleR.norm δ' xs.length 24 := norm_pos_of 5 h0' (by linarith) (by norm_num) h5
  have hr' : r = (10 : ℝ) ^ (ScaleR.norm δ' xs.length 24 / δ') := hr
  have h1 : 1 ≤ r := by rw [hr']; exact Real.one_le_rpow (by norm_num) (by positivity)
  have := TDigest.relative_queries k2n invK2n (.fin δ) xs (by rintro rfl; simp at h2) hg h64 (r - 1) (by linarith) (by
    intro a w b ha hw hb hs h
    rw [hr']
    refine TDigest.k2_run h0' hN ha hw hb hs ?_
    have e : sizeLimit k2n invK2n (.fin δ) (xs.length : ℝ) a = sizeLimit k2 invK2 (.fin δ') (xs.length : ℝ) a := by
      rw [← hmod]; rfl
    rw [← e]; exact h)
  rw [show (r - 1) * (1 + (r - 1)) = r * (r - 1) by ring] at this
  exact this

end

/-- Non-vacuity: data meeting the hypotheses of C86, with a multiple `r·(r-1)` below 1/2. -/
example : letI := realExact; ∃ (δ : ℝ) (xs : List (Fl ℝ)), 0 < δ ∧ δ ≤ 10 ^ 5 ∧ 2 ≤ xs.length ∧ (∀ x ∈ xs, Item x) ∧
    (xs.length : ℝ) < 2 ^ 64 ∧ (10 : ℝ) ^ ((4 * Real.logb 10 (xs.length / δ) + 24) / δ) ≤ 6 / 5 := by
  let _ := realExact
  refine ⟨1000, List.replicate 1000 (.fin 1), by norm_num, by norm_num, by rw [List.length_replicate]; norm_num,
    ?_, by rw [List.length_replicate]; norm_num, ?_⟩
  · intro x hx
    rw [List.eq_of_mem_replicate hx]
    have h1 : (1 : ℝ) ≤ 10 ^ 300 := one_le_pow₀ (by norm_num)
    refine ⟨⟨_, rfl⟩, ?_, h1⟩
    show -((10 : ℝ) ^ 300) ≤ 1
    exact (neg_nonpos.2 (zero_le_one.trans h1)).trans zero_le_one
  · rw [List.length_replicate, Nat.cast_ofNat]
    rw [div_self (by norm_num), Real.logb_one, mul_zero, zero_add]
    have h : ((10 : ℝ) ^ ((24 : ℝ) / 1000)) ^ (1000 / 24 : ℝ) ≤ (6 / 5 : ℝ) ^ (1000 / 24 : ℝ) := by
      rw [← Real.rpow_mul (by norm_num)]
      norm_num
      calc (10 : ℝ) ≤ (6 / 5 : ℝ) ^ (40 : ℕ) := by norm_num
        _ = (6 / 5 : ℝ) ^ (40 : ℝ) := by norm_num
        _ ≤ _ := Real.rpow_le_rpow_of_exponent_le (by norm_num) (by norm_num)
    exact (Real.rpow_le_rpow_iff (by positivity) (by norm_num) (by norm_num)).1 h

end AQ

/-
Exponential moments of the rank error of RCSketch2: a compaction at level `h` multiplies the mean of `a ^ error` by at most
`((a + 1/a) / 2) ^ 4^h`.
-/
import Verif.Proofs.Tail
import Verif.Proofs.RC2Exp
import Verif.Props.RC2Accuracy

set_option linter.unusedSectionVars false
set_option linter.unusedVariables false

namespace AQ
open Prog Spec
variable {K : Type} [Field K] [LinearOrder K] [IsStrictOrderedRing K] [FloatFmt K]

namespace RCSketch2
open RCSketch (everyOther_rank everyOther_sum GoodFor goodFor_default)
variable {sec : Nat → Nat} {fast : Bool}

theorem rank_flipZ (upper : List (Fl K)) (hs : upper.Pairwise (· ≤ ·)) (x : Fl K) :
    ∃ ε : ℤ, |ε| ≤ 1 ∧ 2 * (rank (everyOther false upper) x : ℤ) = rank upper x + ε ∧
      2 * (rank (everyOther true upper) x : ℤ) = rank upper x - ε := by
  obtain ⟨⟨h1, h2⟩, h3, h4⟩ := everyOther_rank hs x
  have h5 : rank (everyOther false upper) x + rank (everyOther true upper) x = rank upper x := by
    unfold rank; exact everyOther_sum _ upper
  refine ⟨2 * (rank (everyOther false upper) x : ℤ) - rank upper x, ?_, by ring, by omega⟩
  rw [abs_le]
  omega

/-- The potential of `mgf_compress`: offset, level and accumulated compaction variance; remaining levels. -/
def mgfPot (a : ℚ) (σ : ℤ) (x : Fl K) (s : ℤ × Nat × Nat) (ls : List (Level2 K)) : ℚ :=
  a ^ (σ * (s.1 + 2 ^ s.2.1 * (Wt (fun b => rank b x) ls : ℤ))) / rcosh a ^ (s.2.2 + 4 ^ s.2.1 * comps4 ls)

theorem mgf_compress (hs : SecOK sec) {G : Fl K → Prop} (hG : GoodFor G .default) (x : Fl K) {a : ℚ} (ha : 1 ≤ a) {σ : ℤ} (hσ : |σ| = 1)
    (ls : List (Level2 K)) (size N : Nat) (z : ℤ) (h : Ok G size N ls) :
    exp (compressFrom sec fast .default size none ls)
      (fun r => a ^ (σ * (z + (Wt (fun b => rank b x) r.2 : ℤ))) / rcosh a ^ comps4 r.2) ≤
      a ^ (σ * (z + (Wt (fun b => rank b x) ls : ℤ))) / rcosh a ^ comps4 ls := by
  have ha0 : 0 < a := by linarith
  have hc0 : 0 < rcosh a := lt_of_lt_of_le zero_lt_one (one_le_rcosh ha0)
  have := compress_super (fast := fast) hs hG (S := ℤ × Nat × Nat) (mgfPot a σ x)
    (fun s l => (s.1 + 2 ^ s.2.1 * rank l.buf x, s.2.1 + 1, s.2.2 + 4 ^ s.2.1 * l.compactions)) ?_ ?_ ls size N none (z, 0, 0)
    (by simpa using h)
  · simpa [mgfPot] using this
  · intro s l ls
    simp only [mgfPot, Wt_cons, comps4_cons]
    congr 2
    · push_cast; ring
    · ring
  · intro s size N l ls hok hfull
    obtain ⟨low, upper, l2, hp, hsrt, hlow, hc, -, he⟩ := compactLevel_flip (fast := fast) hs hG hok hfull
    obtain ⟨z, h, v⟩ := s
    rw [he, exp_flip]
    simp only [mgfPot, exp_ret, Wt_ext (additive_rank x), Option.getD_some, Wt_cons, comps4_cons, comps4_ext, hlow, hc]
    obtain ⟨ε, hε, h0, h1⟩ := rank_flipZ upper hsrt x
    have hr : (rank l.buf x : ℤ) = rank low x + rank upper x := by
      have : rank l.buf x = rank low x + rank upper x := by
        rw [← (additive_rank x).app]; exact ((additive_rank x).perm _ _ hp).symm
      exact_mod_cast this
    have key := zpow_sym_le ha (h := h) (δ := σ * (2 ^ h * ε)) (by
      rw [abs_mul, hσ, one_mul, abs_mul, abs_of_nonneg (by positivity : (0 : ℤ) ≤ 2 ^ h)]
      exact mul_le_of_le_one_right (by positivity) hε)
    push_cast
    rw [hr]
    generalize (Wt (fun b => rank b x) ls : ℤ) = w at *
    generalize comps4 ls = q
    have e0 : σ * (z + 2 ^ h * (rank low x : ℤ) + 2 ^ (h + 1) * ((rank (everyOther false upper) x : ℤ) + w)) =
        σ * (z + 2 ^ h * ((rank low x + rank upper x : ℤ) + 2 * w)) + σ * (2 ^ h * ε) := by
      have : (2 : ℤ) ^ (h + 1) * (rank (everyOther false upper) x : ℤ) = 2 ^ h * (rank upper x + ε) := by rw [← h0]; ring
      rw [mul_add ((2 : ℤ) ^ (h + 1)), this]; ring
    have e1 : σ * (z + 2 ^ h * (rank low x : ℤ) + 2 ^ (h + 1) * ((rank (everyOther true upper) x : ℤ) + w)) =
        σ * (z + 2 ^ h * ((rank low x + rank upper x : ℤ) + 2 * w)) + -(σ * (2 ^ h * ε)) := by
      have : (2 : ℤ) ^ (h + 1) * (rank (everyOther true upper) x : ℤ) = 2 ^ h * (rank upper x - ε) := by rw [← h1]; ring
      rw [mul_add ((2 : ℤ) ^ (h + 1)), this]; ring
    have e2 : v + 4 ^ h * (l.compactions + 1) + 4 ^ (h + 1) * q = (v + 4 ^ h * (l.compactions + 4 * q)) + 4 ^ h := by ring
    first
      | rw [e0, e1]
      | (have f0 : ∀ u w : ℤ, u + w = w + u := Int.add_comm
         simp only [add_comm w] at *; rw [e0, e1])
    rw [e2, zpow_add₀ ha0.ne', zpow_add₀ ha0.ne', pow_add]
    have hA : 0 < a ^ (σ * (z + 2 ^ h * ((rank low x + rank upper x : ℤ) + 2 * w))) := zpow_pos ha0 _
    generalize a ^ (σ * (z + 2 ^ h * ((rank low x + rank upper x : ℤ) + 2 * w))) = A at *
    have h4 : 0 < rcosh a ^ 4 ^ h := by positivity
    have hq : 0 < rcosh a ^ (v + 4 ^ h * (l.compactions + 4 * q)) := by positivity
    generalize rcosh a ^ 4 ^ h = C at *
    generalize rcosh a ^ (v + 4 ^ h * (l.compactions + 4 * q)) = D at *
    generalize a ^ (σ * (2 ^ h * ε)) = y at *
    generalize a ^ (-(σ * (2 ^ h * ε))) = y' at *
    have : (A * y / (D * C) + A * y' / (D * C)) / 2 = A * ((y + y') / 2) / (D * C) := by ring
    rw [this, div_le_div_iff₀ (by positivity) hq]
    have := mul_le_mul_of_nonneg_left key (mul_nonneg hA.le hq.le)
    nlinarith

theorem mgf_super2 (hs : SecOK sec) (x : Fl K) {a : ℚ} (ha : 1 ≤ a) {σ : ℤ} (hσ : |σ| = 1) :
    Super2 (K := K) sec (· ≠ .nan) (fun _ m => m = .default)
    (fun l ls => a ^ (σ * ((Wt (fun b => rank b x) ls : ℤ) - rank l x)) / rcosh a ^ comps4 ls) where
  good fast m hm := hm ▸ goodFor_default (fun _ h => h)
  push l ls xs hne := by
    rw [Wt_push (additive_rank x) hne, RCSketch.rank_append, (comps_push ls xs).2]; push_cast; apply le_of_eq; congr 2; ring
  comp l ls size N fast m hm h := by
    subst hm
    have := mgf_compress (fast := fast) hs (goodFor_default (fun _ h => h)) x ha hσ ls size N (- rank l x) h
    have e : ∀ w : ℤ, w - rank l x = - rank l x + w := by intro w; ring
    simp only [e]; exact this

section
variable {w M : Nat} (k : Nat) (ops : List (InsOp K)) (h : Spec.Rc2Size sec w M (insItems ops).length) (hm : ∀ o ∈ ops, o.method = .default)
  (hlen : (insItems ops).length < 2 ^ 32) (hnan : ∀ y ∈ insItems ops, y ≠ .nan)
include h hm hlen hnan

/-- The variance bound of C98. -/
theorem hist_mgf (x : Fl K) {a : ℚ} (ha : 1 ≤ a) {σ : ℤ} (hσ : |σ| = 1) :
    exp (runHist sec k ops) (fun s => a ^ (σ * ((weightedRank s.buffers x : ℤ) - rank (insItems ops) x))) ≤
      rcosh a ^ ⌊((insItems ops).length : ℚ) ^ 2 * (1 + 1 / w) ^ (2 * (M - 1)) / (3 * w * sec 0)⌋₊ := by
  have ha0 : 0 < a := by linarith
  have hc1 := one_le_rcosh ha0
  have hc0 : 0 < rcosh a := lt_of_lt_of_le zero_lt_one hc1
  have hw := (rc2_geo k ops h).mono (fun s hs => hs.2.2)
  generalize ((insItems ops).length : ℚ) ^ 2 * (1 + 1 / w) ^ (2 * (M - 1)) / (3 * w * sec 0) = V at hw ⊢
  have h1 := hist2_exp h.ok (mgf_super2 h.ok x ha hσ) k ops (fun o ho => hm o ho) hlen hnan
  have h0 : a ^ (σ * ((Wt (fun b => rank b x) [newLevel ([] : List (Fl K))] : ℤ) - rank ([] : List (Fl K)) x)) /
      rcosh a ^ comps4 [newLevel ([] : List (Fl K))] = 1 := by
    simp [Wt, newLevel, wsum, rank, comps4, wsum4]
  rw [h0] at h1
  have h2 : exp (runHist sec k ops) (fun s => (rcosh a ^ ⌊V⌋₊)⁻¹ * a ^ (σ * ((weightedRank s.buffers x : ℤ) - rank (insItems ops) x))) ≤ 1 := by
    refine le_trans (exp_mono (hw.mono (fun s hs => ?_))) h1
    rw [Wt_buffers, mul_comm, ← div_eq_mul_inv]
    refine div_le_div_of_nonneg_left (zpow_pos ha0 _).le (by positivity) (pow_le_pow_right₀ hc1 ?_)
    exact Nat.le_floor hs
  rw [exp_mul_left, inv_mul_le_iff₀ (by positivity), mul_one] at h2
  exact h2

/-- One-sided exponential tails of the stored rank. -/
theorem one_sided2 (x : Fl K) (d : ℚ) (hd : 0 ≤ d) (V : ℚ)
    (hV : ((insItems ops).length : ℚ) ^ 2 * (1 + 1 / w) ^ (2 * (M - 1)) / (3 * w * sec 0) ≤ V) :
    ((exp (runHist sec k ops) (fun s => if d ≤ (((weightedRank s.buffers x : ℤ) - rank (insItems ops) x : ℤ) : ℚ) then 1 else 0) : ℚ) : ℝ) ≤
      Real.exp (-((d : ℝ) ^ 2 / (2 * (V : ℝ)))) ∧
    ((exp (runHist sec k ops) (fun s => if d ≤ (((rank (insItems ops) x : ℤ) - weightedRank s.buffers x : ℤ) : ℚ) then 1 else 0) : ℚ) : ℝ) ≤
      Real.exp (-((d : ℝ) ^ 2 / (2 * (V : ℝ)))) := by
  have hM : ((⌊((insItems ops).length : ℚ) ^ 2 * (1 + 1 / w) ^ (2 * (M - 1)) / (3 * w * sec 0)⌋₊ : Nat) : ℝ) ≤ (V : ℝ) := by
    have := (Nat.floor_le (by positivity : 0 ≤ ((insItems ops).length : ℚ) ^ 2 * (1 + 1 / w) ^ (2 * (M - 1)) / (3 * w * sec 0))).trans hV
    exact_mod_cast this
  constructor
  · refine tail_of_mgf _ _ _ _ hM (fun a ha => ?_) d hd
    have := hist_mgf k ops h hm hlen hnan x ha (σ := 1) (by simp)
    simpa only [one_mul] using this
  · refine tail_of_mgf _ _ _ _ hM (fun a ha => ?_) d hd
    have := hist_mgf k ops h hm hlen hnan x ha (σ := -1) (by simp)
    simpa only [neg_one_mul, neg_sub] using this

end

/-- The stored weight up to `x` counts supplied items. -/
theorem stored_counts2 (sec : Nat → Nat) (k : Nat) (ops : List (InsOp K)) (hm : ∀ o ∈ ops, o.method = .default) :
    Partially (runHist sec k ops) (fun s => Counts (insItems ops) (weightedRank s.buffers)) := by
  refine (hist2_partially (sec := sec) (pres_hist (G := fun y => y ∈ insItems ops)) k ops
    (fun o ho => by rw [hm o ho]; exact RCSketch.pres_default _) (by simp [newLevel])).mono ?_
  rintro s ⟨-, hmem⟩
  have hmem : ∀ b ∈ s.buffers, ∀ y ∈ b, y ∈ insItems ops := by
    have h1 := buffers_mem (hmem (fun y hy => hy))
    exact fun b hb y hy => h1 y (List.mem_flatten.2 ⟨b, hb, hy⟩)
  refine ⟨fun x y h => weightedRank_mono _ h, fun x f h => ?_, fun x h => ?_⟩
  · unfold weightedRank
    refine congrArg wsum (List.map_congr_left (fun b hb => ?_))
    exact List.countP_congr (fun y hy => by simpa using h y (hmem b hb y hy))
  · have : ∀ L : List (List (Fl K)), (∀ b ∈ L, ∀ y ∈ b, ¬ y ≤ x) → weightedRank L x = 0 := by
      intro L
      induction L with
      | nil => intro _; rfl
      | cons b L ih =>
        intro h
        show rank b x + 2 * wsum (L.map (fun b => rank b x)) = 0
        have h1 := ih (fun b hb => h b (by simp [hb]))
        have h2 : rank b x = 0 := by
          rw [rank, List.countP_eq_zero]
          intro y hy
          simpa using h b (by simp) y hy
        unfold weightedRank at h1
        omega
    exact this _ (fun b hb y hy => h y (hmem b hb y hy))

end RCSketch2
end AQ

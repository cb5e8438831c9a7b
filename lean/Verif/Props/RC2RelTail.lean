/-
Properties C165 and C166: the rank error of RCSketch2 relative to the rank itself has exponentially small tails, and all ranks and
quantiles are accurate relative to the rank at once.
-/
import Verif.Proofs.RC2RelTail
import Verif.Props.RCRelTail
import Verif.Props.RC2Tail
import Verif.Props.RC2Relative

set_option linter.unusedSectionVars false
set_option linter.unusedVariables false

namespace AQ
open Prog Spec RCSketch2
variable {K : Type} [Field K] [LinearOrder K] [IsStrictOrderedRing K] [FloatFmt K]

section
variable {sec : Nat → Nat} {w M : Nat} (k : Nat) (ops : List (InsOp K)) (h : Spec.Rc2Size sec w M (insItems ops).length)
  (hm : ∀ o ∈ ops, o.method = .default) (hlen : (insItems ops).length < 2 ^ 32) (hnan : ∀ y ∈ insItems ops, y ≠ .nan)
include h hm hlen hnan

theorem rel_stored2 (x : Fl K) (hR : 0 < rank (insItems ops) x) (ε : ℚ) (hε : 0 ≤ ε) :
    ((exp (RCSketch2.runHist sec k ops) (fun s => if ε * rank (insItems ops) x ≤
        |(weightedRank s.buffers x : ℚ) - rank (insItems ops) x| then 1 else 0) : ℚ) : ℝ) ≤ relFail (6 * sec 0) M ε :=
  relative_tail2 (w := w) (c := 6 * sec 0) h.ok h.low le_rfl k ops hm hlen hnan x ((rc2_geo k ops h).mono (fun s hs => hs.1)) hR ε hε

open Classical in
theorem rel_all2 (hne : insItems ops ≠ []) (ε : ℚ) (hε : 0 ≤ ε) (hε1 : ε ≤ 1) (m : Nat)
    (hpow : ((insItems ops).length : ℚ) ≤ (1 + ε) ^ m) :
    ((exp (RCSketch2.runHist sec k ops) (fun s => if ∃ x, 3 * ε * rank (insItems ops) x <
        |(weightedRank s.buffers x : ℚ) - rank (insItems ops) x| then 1 else 0) : ℚ) : ℝ) ≤ 2 * (m + 1) * relFail (6 * sec 0) M ε := by
  have hc := stored_counts2 sec k ops hm
  have hs : ∀ x ∈ insItems ops, _ := fun x hx => rel_stored2 k ops h hm hlen hnan x (List.countP_pos_iff.2 ⟨x, hx, by simp⟩) ε hε
  generalize RCSketch2.runHist sec k ops = p at *
  generalize insItems ops = I at *
  exact all_ranks_rel p I hne (fun s => weightedRank s.buffers) hc ε hε hε1 m hpow _ hs

end

section
variable {sec : Nat → Nat} {k : Nat} (hk : Spec.Sections sec k) (ops : List (InsOp K)) (hm : ∀ o ∈ ops, o.method = .default)
  (hlen : (insItems ops).length < 2 ^ 32) (hnan : ∀ y ∈ insItems ops, y ≠ .nan)

omit [FloatFmt K] in
theorem relFail_k {sec : Nat → Nat} {k : Nat} (hk : Spec.Sections sec k) (ε : ℚ) :
    relFail (6 * sec 0) 22 ε = 2 * Real.exp (-(3 * (ε : ℝ) ^ 2 * k / 16)) + 22 * Real.exp (-(3 * (k : ℝ) / 16)) := by
  unfold relFail
  rw [hk.zero]
  congr 2
  · congr 2; ring
  · congr 2; ring

include hk hm hlen hnan

/-- C165. Fair coins, any mix of default and fast insertions of fewer than `2^32` items, section sizes of exact arithmetic or of the code
(`sections_real`, `sections_f32`): a rank query is off by more than the fraction `ε` of the rank itself with probability at most
`2 exp(-3 ε² k / 16) + 22 exp(-3 k / 16)`. -/
theorem C165_relative_tail (x : Fl K) (hx : x ≠ .nan) (ε : ℚ) (hε : 0 ≤ ε) :
    ((exp (RCSketch2.runHist sec k ops >>= fun s => s.interpolateRank x)
      (fun r => if ε * rank (insItems ops) x < |(r : ℚ) - rank (insItems ops) x| then 1 else 0) : ℚ) : ℝ) ≤
      2 * Real.exp (-(3 * (ε : ℝ) ^ 2 * k / 16)) + 22 * Real.exp (-(3 * (k : ℝ) / 16)) := by
  rw [← relFail_k hk]
  have h0 : exp (RCSketch2.runHist sec k ops >>= fun s => s.interpolateRank x)
      (fun r => if ε * rank (insItems ops) x < |(r : ℚ) - rank (insItems ops) x| then 1 else 0) =
      exp (RCSketch2.runHist sec k ops) (fun s => if ε * rank (insItems ops) x <
        |(weightedRank s.buffers x : ℚ) - rank (insItems ops) x| then 1 else 0) := by
    rw [exp_bind]
    refine exp_congr ((rc2_geo k ops (hk.size hlen)).mono (fun s hs => ?_))
    rw [rc2_rank_eq s (by omega) x hx, exp_ret]
  rw [h0]
  rcases Nat.eq_zero_or_pos (rank (insItems ops) x) with h0 | h0
  · refine le_trans (le_of_eq ?_) (relFail_nonneg _ _ _)
    have hz : exp (RCSketch2.runHist sec k ops) (fun _ => (0 : ℚ)) = 0 := by
      simpa using exp_mul_left (RCSketch2.runHist sec k ops) 0 (fun _ => 0)
    rw [Rat.cast_eq_zero]
    refine Eq.trans (exp_congr (g' := fun _ => (0 : ℚ)) ?_) hz
    refine (stored_counts2 sec k ops hm).mono (fun s hs => ?_)
    have := hs.zero x (fun y hy hyx => by
      have : 0 < rank (insItems ops) x := List.countP_pos_iff.2 ⟨y, hy, by simpa using hyx⟩
      omega)
    simp [h0, this]
  · refine le_trans ?_ (rel_stored2 k ops (hk.size hlen) hm hlen hnan x h0 ε hε)
    rw [Rat.cast_le]
    refine exp_mono ((partially_true _).mono (fun s _ => ?_))
    split
    · rename_i h; rw [if_pos h.le]
    · split <;> norm_num

/-! ### C166: all queries at once -/

open Classical in
/-- C166. For `0 ≤ ε ≤ 1` and `(1 + ε)^m ≥ N`: except with probability at most `2 (m + 1)` times the bound of C165 every rank query
whatsoever is off by at most the fraction `3 ε` of the rank itself. -/
theorem C166_all_ranks (hne : insItems ops ≠ []) (ε : ℚ) (hε : 0 ≤ ε) (hε1 : ε ≤ 1) (m : Nat)
    (hpow : ((insItems ops).length : ℚ) ≤ (1 + ε) ^ m) :
    ((exp (RCSketch2.runHist sec k ops) (fun s => if ∀ x, x ≠ .nan → ∃ r, s.interpolateRank x = .ret r ∧
        |(r : ℚ) - rank (insItems ops) x| ≤ 3 * ε * rank (insItems ops) x then 0 else 1) : ℚ) : ℝ) ≤
      2 * (m + 1) * (2 * Real.exp (-(3 * (ε : ℝ) ^ 2 * k / 16)) + 22 * Real.exp (-(3 * (k : ℝ) / 16))) := by
  rw [← relFail_k hk]
  refine le_trans ?_ (rel_all2 k ops (hk.size hlen) hm hlen hnan hne ε hε hε1 m hpow)
  rw [Rat.cast_le]
  refine exp_mono ((rc2_geo k ops (hk.size hlen)).mono (fun s hs => ?_))
  split
  · split <;> norm_num
  · rename_i hc
    rw [if_pos]
    by_contra hall
    push Not at hall
    exact hc (fun x hx => ⟨_, rc2_rank_eq s (by omega) x hx, hall x⟩)

open Classical in
/-- C166. With that probability every value query whatsoever returns an item `v` such that, for `r = q·N` as computed, `(1 - 3 ε)` times the
number of items below `v` is at most `r` and `(1 + 3 ε)` times the number of items not above `v` is at least `(1 - 3 ε) r`. -/
theorem C166_all_values (hne : insItems ops ≠ [])
    (hex : ∀ m : Nat, m ≤ 2 * (insItems ops).length → FloatFmt.rnd (m : K) = .fin (m : K)) (ε : ℚ) (hε : 0 ≤ ε) (hε1 : ε ≤ 1) (m : Nat)
    (hpow : ((insItems ops).length : ℚ) ≤ (1 + ε) ^ m) :
    ((exp (RCSketch2.runHist sec k ops) (fun s => if ∀ (q : Fl K) (r : K), q * Fl.ofNat (insItems ops).length = .fin r → 0 ≤ r →
        r ≤ ((insItems ops).length : K) → ∃ v, s.estValueAtQuantile q = .ret v ∧ v ∈ insItems ops ∧
          (1 - 3 * (ε : K)) * ((insItems ops).countP (fun y => y < v) : K) ≤ r ∧
          (1 - 3 * (ε : K)) * r ≤ (1 + 3 * (ε : K)) * (rank (insItems ops) v : K) then 0 else 1) : ℚ) : ℝ) ≤
      2 * (m + 1) * (2 * Real.exp (-(3 * (ε : ℝ) ^ 2 * k / 16)) + 22 * Real.exp (-(3 * (k : ℝ) / 16))) := by
  rw [← relFail_k hk]
  have hεK : (0 : K) ≤ (ε : K) := by exact_mod_cast hε
  have hex' : ∀ m : Nat, (m : ℚ) ≤ (insItems ops).length * (1 + 1 / (secLow k : ℚ)) ^ 22 → FloatFmt.rnd (m : K) = .fin (m : K) := by
    intro m hm'
    refine hex m ?_
    have hw := secLow_ge k
    have h3 : 1 + 1 / (secLow k : ℚ) ≤ 1 + 1 / 64 := by
      have := one_div_le_one_div_of_le (by norm_num : (0 : ℚ) < 64) hw
      linarith
    have h4 : (1 + 1 / (secLow k : ℚ)) ^ 22 ≤ 2 :=
      (pow_le_pow_left₀ (by positivity) h3 22).trans (by norm_num)
    have h5 := mul_le_mul_of_nonneg_left h4 (Nat.cast_nonneg (α := ℚ) (insItems ops).length)
    have : (m : ℚ) ≤ ((2 * (insItems ops).length : Nat) : ℚ) := by push_cast; linarith
    exact_mod_cast this
  have hv : Partially (RCSketch2.runHist sec k ops) (fun s => ∀ (i : Fl K × K), i.1 * Fl.ofNat (insItems ops).length = .fin i.2 → 0 ≤ i.2 →
      ∃ v, s.estValueAtQuantile i.1 = .ret v ∧ v ∈ insItems ops ∧ (∀ x, x < v → (weightedRank s.buffers x : K) ≤ i.2) ∧
      ∀ x, v ≤ x → min i.2 (weightedRank s.buffers .nan : K) ≤ (weightedRank s.buffers x : K)) := by
    refine Prog.partially_forall (fun i => ?_)
    by_cases hc : i.1 * Fl.ofNat (insItems ops).length = .fin i.2 ∧ 0 ≤ i.2
    · exact (rc2_value_sides k ops (hk.size hlen) (by norm_num) hm hlen hnan hne hex' i.1 i.2 hc.1 hc.2).partially.mono (fun s hs _ _ => hs)
    · exact (partially_true _).mono (fun s _ a b => absurd ⟨a, b⟩ hc)
  refine le_trans ?_ (rel_all2 k ops (hk.size hlen) hm hlen hnan hne ε hε hε1 m hpow)
  rw [Rat.cast_le]
  refine exp_mono (hv.mono (fun s hs => ?_))
  split
  · split <;> norm_num
  · rename_i hc
    rw [if_pos]
    by_contra hall
    push Not at hall
    refine hc (fun q r hr h0 h1 => ?_)
    obtain ⟨v, hv1, hv2, hl, hr'⟩ := hs (q, r) hr h0
    have bound : ∀ x, (1 - 3 * (ε : K)) * (rank (insItems ops) x : K) ≤ weightedRank s.buffers x ∧
        (weightedRank s.buffers x : K) ≤ (1 + 3 * (ε : K)) * rank (insItems ops) x := by
      intro x
      obtain ⟨a1, a2⟩ := abs_le.1 (hall x)
      constructor
      · have : (1 - 3 * ε) * (rank (insItems ops) x : ℚ) ≤ weightedRank s.buffers x := by linarith
        have h2 : (((1 - 3 * ε) * (rank (insItems ops) x : ℚ) : ℚ) : K) ≤ ((weightedRank s.buffers x : ℚ) : K) := by exact_mod_cast this
        push_cast at h2; exact h2
      · have : (weightedRank s.buffers x : ℚ) ≤ (1 + 3 * ε) * rank (insItems ops) x := by linarith
        have h2 : ((weightedRank s.buffers x : ℚ) : K) ≤ (((1 + 3 * ε) * (rank (insItems ops) x : ℚ) : ℚ) : K) := by exact_mod_cast this
        push_cast at h2; exact h2
    refine ⟨v, hv1, hv2, ?_, ?_⟩
    · by_cases hz : (insItems ops).filter (fun y => decide (y < v)) = []
      · rw [List.countP_eq_length_filter, hz]
        simpa using h0
      · obtain ⟨f, hf1, hf2⟩ := exists_max _ hz
        obtain ⟨hfI, hfv⟩ := List.mem_filter.1 hf1
        have hfv : f < v := by simpa using hfv
        have hcount : (insItems ops).countP (fun y => y < v) = rank (insItems ops) f := by
          refine List.countP_congr (fun y hy => ?_)
          simp only [decide_eq_true_eq]
          exact ⟨fun h => hf2 y (List.mem_filter.2 ⟨hy, by simpa using h⟩), fun h => lt_of_le_of_lt h hfv⟩
        rw [hcount]
        exact (bound f).1.trans (hl f hfv)
    · have h3 := (hr' v le_rfl).trans (bound v).2
      have h4 := (bound .nan).1
      rw [rank_nan] at h4
      refine le_trans (le_min ?_ ?_) h3
      · nlinarith
      · rcases le_total 0 (1 - 3 * (ε : K)) with h5 | h5
        · exact (mul_le_mul_of_nonneg_left h1 h5).trans h4
        · have : (1 - 3 * (ε : K)) * r ≤ 0 := mul_nonpos_of_nonpos_of_nonneg h5 h0
          exact this.trans (Nat.cast_nonneg _)

end

/-! ### Concrete cases -/

theorem relFail_twelve : 2 * Real.exp (-(3 * ((1 / 10 : ℚ) : ℝ) ^ 2 * (12000 : Nat) / 16)) + 22 * Real.exp (-(3 * ((12000 : Nat) : ℝ) / 16)) ≤
    24 / 10 ^ 9 := by
  have h1 : Real.exp (-(3 * ((1 / 10 : ℚ) : ℝ) ^ 2 * (12000 : Nat) / 16)) ≤ Real.exp (-21) := Real.exp_le_exp.2 (by norm_num)
  have h2 : Real.exp (-(3 * ((12000 : Nat) : ℝ) / 16)) ≤ Real.exp (-21) := Real.exp_le_exp.2 (by norm_num)
  have h3 := exp_twentyone
  linarith

/-- `new(12000)`, section sizes as the code computes them, any million non-NaN items in one batch: a rank query is off by more than 10% of
the rank itself with probability below `3·10⁻⁸` (C100 gives 4%). -/
theorem C165_example (xs : List (Fl K)) (hl : xs.length = 1000000) (hxs : ∀ y ∈ xs, y ≠ .nan) (x : Fl K) (hx : x ≠ .nan) :
    ((exp (RCSketch2.runHist (f32Sec 12000) 12000 [.addBuffer xs] >>= fun s => s.interpolateRank x)
      (fun r => if (1 / 10 : ℚ) * rank xs x < |(r : ℚ) - rank xs x| then 1 else 0) : ℚ) : ℝ) ≤ 24 / 10 ^ 9 := by
  have he : insItems [InsOp.addBuffer xs] = xs := by simp [insItems, InsOp.items]
  have h := C165_relative_tail (K := K) (sections_f32 (k := 12000) (by norm_num) (by norm_num)) [.addBuffer xs] (by simp [InsOp.method])
    (by rw [he, hl]; norm_num) (by rw [he]; exact hxs) x hx (1 / 10) (by norm_num)
  rw [he] at h
  exact h.trans relFail_twelve

open Classical in
/-- With probability at least `1 - 10⁻⁵` all rank queries of that sketch are at once within 30% of the rank itself. -/
theorem C166_example (xs : List (Fl K)) (hl : xs.length = 1000000) (hxs : ∀ y ∈ xs, y ≠ .nan) :
    ((exp (RCSketch2.runHist (f32Sec 12000) 12000 [.addBuffer xs]) (fun s => if ∀ x, x ≠ .nan → ∃ r, s.interpolateRank x = .ret r ∧
        |(r : ℚ) - rank xs x| ≤ 3 * (1 / 10) * rank xs x then 0 else 1) : ℚ) : ℝ) ≤ 1 / 10 ^ 5 := by
  have he : insItems [InsOp.addBuffer xs] = xs := by simp [insItems, InsOp.items]
  have h := C166_all_ranks (K := K) (sections_f32 (k := 12000) (by norm_num) (by norm_num)) [.addBuffer xs] (by simp [InsOp.method])
    (by rw [he, hl]; norm_num) (by rw [he]; exact hxs) (by rw [he]; intro h; rw [h] at hl; simp at hl) (1 / 10)
    (by norm_num) (by norm_num) 145 (by rw [he, hl]; norm_num)
  rw [he] at h
  have h2 := mul_le_mul_of_nonneg_left relFail_twelve (show (0 : ℝ) ≤ 2 * ((145 : Nat) + 1) by positivity)
  exact h.trans (h2.trans (by norm_num))

end AQ

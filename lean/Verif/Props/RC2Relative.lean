/-
Property C100: the error of `RCSketch2` is small compared with the rank itself.
-/
import Verif.Proofs.RC2Relative
import Verif.Props.RC2Accuracy

set_option linter.unusedSectionVars false
set_option linter.unusedVariables false

namespace AQ
open Spec Prog RCSketch2
variable {K : Type} [Field K] [LinearOrder K] [IsStrictOrderedRing K] [FloatFmt K]

theorem rc2_stored_relative {sec : Nat → Nat} {w M : Nat} (k : Nat) (ops : List (InsOp K))
    (h : Spec.Rc2Size sec w M (insItems ops).length) (hm : ∀ o ∈ ops, o.method = .default)
    (hlen : (insItems ops).length < 2 ^ 32) (hnan : ∀ y ∈ insItems ops, y ≠ .nan) (x : Fl K) :
    exp (RCSketch2.runHist sec k ops) (fun s => ((weightedRank s.buffers x : ℚ) - rank (insItems ops) x) ^ 2) ≤
      (rank (insItems ops) x : ℚ) ^ 2 * ((1 + 1 / (12 * sec 0 : Nat)) ^ M - 1) :=
  relative_error2 (w := w) (c := 6 * sec 0) h.ok h.low le_rfl k ops hm hlen hnan x ((rc2_geo k ops h).mono (fun s hs => hs.1))

/-- C100. With fair coins and any mix of default and fast insertions of `N < 2^32` items, the mean squared error of the estimated
rank of `x` is at most `R² ((1 + 1/(12 sec(0)))^M − 1)`, `R` the number of items `≤ x`. -/
theorem C100_relative_rank_error {sec : Nat → Nat} {w M : Nat} (k : Nat) (ops : List (InsOp K))
    (h : Spec.Rc2Size sec w M (insItems ops).length) (hM : M ≤ 63) (hm : ∀ o ∈ ops, o.method = .default)
    (hlen : (insItems ops).length < 2 ^ 32) (hnan : ∀ y ∈ insItems ops, y ≠ .nan) (x : Fl K) (hx : x ≠ .nan) :
    exp (RCSketch2.runHist sec k ops >>= fun s => s.interpolateRank x) (fun r => ((r : ℚ) - rank (insItems ops) x) ^ 2) ≤
      (rank (insItems ops) x : ℚ) ^ 2 * ((1 + 1 / (12 * sec 0 : Nat)) ^ M - 1) := by
  rw [exp_bind]
  refine le_trans (le_of_eq (exp_congr ((rc2_geo k ops h).mono (fun s hs => ?_)))) (rc2_stored_relative k ops h hm hlen hnan x)
  rw [rc2_rank_eq s (by omega) x hx, exp_ret]

theorem rc2_relative_k {sec : Nat → Nat} {k : Nat} (hk : Spec.Sections sec k) (R : ℚ) :
    R ^ 2 * ((1 + 1 / (12 * sec 0 : Nat)) ^ 22 - 1) ≤ 4 * R ^ 2 / k := by
  rw [hk.zero]
  have hkq : (256 : ℚ) ≤ k := by exact_mod_cast hk.base
  have hk0 : (0 : ℚ) < k := by linarith
  have hy : (1 : ℚ) / (12 * k : Nat) = 1 / 12 / k := by push_cast; field_simp
  have h1 : (1 : ℚ) / 12 / k ≤ 1 / 12 / 256 := div_le_div_of_nonneg_left (by norm_num) (by norm_num) hkq
  have h0 : (0 : ℚ) ≤ 1 / 12 / k := by positivity
  have h2 := RCSketch.one_add_pow_le (1 / 12 / k) h0 22 (by push_cast; linarith)
  rw [hy]
  have e : 4 * R ^ 2 / k = R ^ 2 * (4 / k) := by ring
  rw [e]
  refine mul_le_mul_of_nonneg_left ?_ (sq_nonneg R)
  have h3 : (4 : ℚ) / k = 48 * (1 / 12 / k) := by ring
  rw [h3]
  push_cast at h2
  linarith

theorem rc2_stored_relative_k {sec : Nat → Nat} {k : Nat} (hk : Spec.Sections sec k) (ops : List (InsOp K))
    (hm : ∀ o ∈ ops, o.method = .default) (hlen : (insItems ops).length < 2 ^ 32) (hnan : ∀ y ∈ insItems ops, y ≠ .nan) (x : Fl K) :
    exp (RCSketch2.runHist sec k ops) (fun s => ((weightedRank s.buffers x : ℚ) - rank (insItems ops) x) ^ 2) ≤
      4 * (rank (insItems ops) x : ℚ) ^ 2 / k :=
  (rc2_stored_relative k ops (hk.size hlen) hm hlen hnan x).trans (rc2_relative_k hk _)

/-- C100 in terms of `k` (section sizes of exact arithmetic or of the code, `sections_real`, `sections_f32`): the mean squared error
is at most `4 R² / k`. -/
theorem C100_relative_rank_error_k {sec : Nat → Nat} {k : Nat} (hk : Spec.Sections sec k) (ops : List (InsOp K))
    (hm : ∀ o ∈ ops, o.method = .default) (hlen : (insItems ops).length < 2 ^ 32) (hnan : ∀ y ∈ insItems ops, y ≠ .nan)
    (x : Fl K) (hx : x ≠ .nan) :
    exp (RCSketch2.runHist sec k ops >>= fun s => s.interpolateRank x) (fun r => ((r : ℚ) - rank (insItems ops) x) ^ 2) ≤
      4 * (rank (insItems ops) x : ℚ) ^ 2 / k :=
  (C100_relative_rank_error k ops (hk.size hlen) (by norm_num) hm hlen hnan x hx).trans (rc2_relative_k hk _)

/-- C100. The chance that the estimated rank is off by more than the fraction `ε` of the rank is at most `4 / (k ε²)`. -/
theorem C100_relative_tail {sec : Nat → Nat} {k : Nat} (hk : Spec.Sections sec k) (ops : List (InsOp K))
    (hm : ∀ o ∈ ops, o.method = .default) (hlen : (insItems ops).length < 2 ^ 32) (hnan : ∀ y ∈ insItems ops, y ≠ .nan)
    (x : Fl K) (hx : x ≠ .nan) (hR : rank (insItems ops) x ≠ 0) (ε : ℚ) (hε : 0 < ε) :
    exp (RCSketch2.runHist sec k ops >>= fun s => s.interpolateRank x)
      (fun r => if ε * rank (insItems ops) x ≤ |(r : ℚ) - rank (insItems ops) x| then 1 else 0) ≤ 4 / (k * ε ^ 2) := by
  have hRq : (0 : ℚ) < rank (insItems ops) x := by exact_mod_cast Nat.pos_of_ne_zero hR
  have hkq : (0 : ℚ) < k := by exact_mod_cast (by have := hk.base; omega : 0 < k)
  refine (RCValue.chebyshev _ (fun r : Nat => (r : ℚ) - rank (insItems ops) x) _ _ (by positivity)
    (C100_relative_rank_error_k hk ops hm hlen hnan x hx)).trans (le_of_eq ?_)
  field_simp

/-- C100, value queries: for `0 < ε ≤ 1`, except with probability at most `48 / (k ε²)`, at most `(1 + ε)·q·N` items lie below the
answer and at least `(1 − ε)·q·N` are not above it. -/
theorem C100_value_relative {sec : Nat → Nat} {k : Nat} (hk : Spec.Sections sec k) (ops : List (InsOp K))
    (hm : ∀ o ∈ ops, o.method = .default) (hlen : (insItems ops).length < 2 ^ 32) (hnan : ∀ y ∈ insItems ops, y ≠ .nan)
    (hne : insItems ops ≠ []) (hex : ∀ m : Nat, m ≤ 2 * (insItems ops).length → FloatFmt.rnd (m : K) = .fin (m : K))
    (q : Fl K) (t : K) (ht : q * Fl.ofNat (insItems ops).length = .fin t) (h0 : 0 ≤ t) (h1 : t ≤ ((insItems ops).length : K))
    (ε : ℚ) (hε : 0 < ε) (hε1 : ε ≤ 1) :
    exp (RCSketch2.runHist sec k ops >>= fun s => s.estValueAtQuantile q) (fun v =>
      if ((insItems ops).countP (fun y => y < v) : K) ≤ (1 + (ε : K)) * t ∧ (1 - (ε : K)) * t ≤ (rank (insItems ops) v : K)
      then 0 else 1) ≤ 48 / (k * ε ^ 2) := by
  have hkq : (0 : ℚ) < k := by exact_mod_cast (by have := hk.base; omega : 0 < k)
  have hNq : (0 : ℚ) < (insItems ops).length := by exact_mod_cast List.length_pos_of_ne_nil hne
  have hNK : (0 : K) < (insItems ops).length := by exact_mod_cast List.length_pos_of_ne_nil hne
  have hεK : (0 : K) < (ε : K) := by exact_mod_cast hε
  have hε1K : (ε : K) ≤ 1 := by exact_mod_cast hε1
  have tail : ∀ x, rank (insItems ops) x ≠ 0 →
      exp (RCSketch2.runHist sec k ops) (fun s => if ε / 2 * rank (insItems ops) x ≤
        |(weightedRank s.buffers x : ℚ) - rank (insItems ops) x| then 1 else 0) ≤ 16 / (k * ε ^ 2) := by
    intro x hx
    have hRq : (0 : ℚ) < rank (insItems ops) x := by exact_mod_cast Nat.pos_of_ne_zero hx
    refine (RCValue.chebyshev _ (fun s : RCSketch2 K => (weightedRank s.buffers x : ℚ) - rank (insItems ops) x) _
      (ε / 2 * rank (insItems ops) x) (by positivity) (rc2_stored_relative_k hk ops hm hlen hnan x)).trans (le_of_eq ?_)
    field_simp; norm_num
  have hpos : ∀ x ∈ insItems ops, rank (insItems ops) x ≠ 0 := fun x hx =>
    Nat.pos_iff_ne_zero.1 (List.countP_pos_iff.2 ⟨x, hx, by simp⟩)
  have hnanR : rank (insItems ops) .nan ≠ 0 := by rw [rank_nan]; exact (List.length_pos_of_ne_nil hne).ne'
  have hex' : ∀ m : Nat, (m : ℚ) ≤ (insItems ops).length * (1 + 1 / (secLow k : ℚ)) ^ 22 → FloatFmt.rnd (m : K) = .fin (m : K) := by
    intro m hm'
    refine hex m ?_
    have hw := secLow_ge k
    have h3 : 1 + 1 / (secLow k : ℚ) ≤ 1 + 1 / 64 := by
      have := one_div_le_one_div_of_le (by norm_num : (0 : ℚ) < 64) hw
      linarith
    have h4 : (1 + 1 / (secLow k : ℚ)) ^ 22 ≤ 2 :=
      (pow_le_pow_left₀ (by positivity) h3 22).trans (by norm_num)
    have h5 := mul_le_mul_of_nonneg_left h4 hNq.le
    have : (m : ℚ) ≤ ((2 * (insItems ops).length : Nat) : ℚ) := by push_cast; linarith
    exact_mod_cast this
  have ind : ∀ (p : Prop) [Decidable p], (0 : ℚ) ≤ if p then 1 else 0 := fun p _ => by split <;> norm_num
  have hsplit : (48 : ℚ) / (k * ε ^ 2) = 16 / (k * ε ^ 2) + (16 / (k * ε ^ 2) + 16 / (k * ε ^ 2)) := by ring
  rw [hsplit]
  refine RCValue.value_events (RCSketch2.runHist sec k ops) (fun s => s.estValueAtQuantile q) (insItems ops)
    (fun x s => (weightedRank s.buffers x : K) ≤ t)
    (fun x s => min t (weightedRank s.buffers .nan : K) ≤ (weightedRank s.buffers x : K))
    (rc2_value_sides k ops (hk.size hlen) (by norm_num) hm hlen hnan hne hex' q t ht h0).partially _ _ (by positivity) _ _
    (by positivity) (by positivity) ?_ ?_
  · -- `W ≤ t` and `(1 + ε) t < R`, so `R − W ≥ ε / 2 · R`
    intro x hx hR
    refine le_trans (exp_mono ((partially_true _).mono (fun s _ => ?_))) (tail x (hpos x hx))
    split
    · rename_i hW
      rw [if_pos]
      have h2 : (ε / 2 : K) * rank (insItems ops) x ≤ rank (insItems ops) x - weightedRank s.buffers x := by
        have : (1 + (ε : K)) * weightedRank s.buffers x ≤ (1 + (ε : K)) * t := mul_le_mul_of_nonneg_left hW (by positivity)
        have hW0 : (0 : K) ≤ weightedRank s.buffers x := Nat.cast_nonneg _
        have a1 : (1 - (ε : K) / 2) * ((1 + (ε : K)) * weightedRank s.buffers x) ≤ (1 - (ε : K) / 2) * rank (insItems ops) x :=
          mul_le_mul_of_nonneg_left (this.trans hR.le) (by linarith)
        have a2 : 0 ≤ (ε : K) * (1 - ε) * weightedRank s.buffers x :=
          mul_nonneg (mul_nonneg hεK.le (by linarith)) hW0
        linarith
      have h3 : (ε / 2) * rank (insItems ops) x ≤ (rank (insItems ops) x - weightedRank s.buffers x : ℚ) := by
        have : (((ε / 2) * rank (insItems ops) x : ℚ) : K) ≤ ((rank (insItems ops) x - weightedRank s.buffers x : ℚ) : K) := by
          push_cast; exact h2
        exact_mod_cast this
      rw [abs_sub_comm]
      exact h3.trans (le_abs_self _)
    · exact ind _
  · intro x hx hR
    refine le_trans (exp_mono (g' := fun s =>
      (if ε / 2 * rank (insItems ops) x ≤ |(weightedRank s.buffers x : ℚ) - rank (insItems ops) x| then 1 else 0) +
      (if ε / 2 * rank (insItems ops) .nan ≤ |(weightedRank s.buffers .nan : ℚ) - rank (insItems ops) .nan| then 1 else 0))
      ((partially_true _).mono (fun s _ => ?_)))
      (by rw [exp_add]; exact add_le_add (tail x (hpos x hx)) (tail .nan hnanR))
    split
    · rename_i hW
      -- either the rank of `x` is overestimated by the fraction `ε / 2` or the total weight underestimated by it
      by_cases h5 : (1 - (ε : K) / 2) * t ≤ (weightedRank s.buffers x : K)
      · rw [if_pos]
        · have := ind (ε / 2 * rank (insItems ops) .nan ≤ |(weightedRank s.buffers .nan : ℚ) - rank (insItems ops) .nan|); linarith
        · have h2 : (ε / 2 : K) * rank (insItems ops) x ≤ weightedRank s.buffers x - rank (insItems ops) x := by
            have a1 : (1 + (ε : K) / 2) * rank (insItems ops) x ≤ (1 + (ε : K) / 2) * ((1 - (ε : K)) * t) :=
              mul_le_mul_of_nonneg_left hR.le (by linarith)
            have a2 : 0 ≤ (ε : K) * ε * t := by positivity
            linarith
          have h3 : ε / 2 * rank (insItems ops) x ≤ (weightedRank s.buffers x - rank (insItems ops) x : ℚ) := by
            have : ((ε / 2 * rank (insItems ops) x : ℚ) : K) ≤ ((weightedRank s.buffers x - rank (insItems ops) x : ℚ) : K) := by
              push_cast; exact h2
            exact_mod_cast this
          exact h3.trans (le_abs_self _)
      · push Not at h5
        have h6 : (weightedRank s.buffers .nan : K) < (1 - (ε : K) / 2) * t := by
          refine lt_of_le_of_lt ?_ h5
          rcases le_total t (weightedRank s.buffers .nan : K) with h7 | h7
          · rw [min_eq_left h7] at hW
            have : 0 ≤ (ε : K) / 2 * t := by positivity
            linarith
          · rwa [min_eq_right h7] at hW
        have h8 : (1 - (ε : K) / 2) * t ≤ (1 - (ε : K) / 2) * (insItems ops).length :=
          mul_le_mul_of_nonneg_left h1 (by linarith)
        rw [if_pos (c := ε / 2 * rank (insItems ops) .nan ≤ |(weightedRank s.buffers .nan : ℚ) - rank (insItems ops) .nan|)]
        · have := ind (ε / 2 * rank (insItems ops) x ≤ |(weightedRank s.buffers x : ℚ) - rank (insItems ops) x|); linarith
        · have h3 : ε / 2 * rank (insItems ops) .nan ≤ (rank (insItems ops) .nan - weightedRank s.buffers .nan : ℚ) := by
            have : ((ε / 2 * rank (insItems ops) .nan : ℚ) : K) ≤ ((rank (insItems ops) .nan - weightedRank s.buffers .nan : ℚ) : K) := by
              push_cast; rw [rank_nan]; linarith
            exact_mod_cast this
          rw [abs_sub_comm]
          exact h3.trans (le_abs_self _)
    · exact add_nonneg (ind _) (ind _)

section examples
attribute [local instance] ratExact ratExact_exact

/-- 60 items into `new(8)`, fast: the item 44 of rank 45 is estimated with mean squared error 1; the bound is `45² ((1 + 1/96)^4 − 1)`. -/
example : exp (RCSketch2.runHist (realSec 8) 8 [.addBufferFast (upTo 60 : List (Fl ℚ))] >>= fun s => s.interpolateRank (.fin 44))
    (fun r => ((r : ℚ) - 45) ^ 2) = 1 := by decide +kernel
example : Spec.Rc2Size (realSec 8) 2 4 60 := ⟨realSec_ok (by norm_num), by norm_num, by decide +kernel, by rw [realSec_zero]; norm_num⟩
end examples

section rounding
attribute [local instance] f64Fmt f64_binary f64_mono

/-- A million items into `new(1000)`, section sizes as the code computes them, `f64`: the rank of any item has a mean squared error of at
most `R² / 250` (a standard error of 6.4%). -/
example (x : Fl ℚ) (hx : x ≠ .nan) :
    exp (RCSketch2.runHist (f32Sec 1000) 1000 (rc2One 1000000) >>= fun s => s.interpolateRank x)
      (fun r => ((r : ℚ) - rank (upTo 1000000) x) ^ 2) ≤ (rank (upTo 1000000) x : ℚ) ^ 2 / 250 := by
  have hlen : (insItems (rc2One 1000000)).length = 1000000 := by rw [rc2One_items, upTo_len]
  have h := C100_relative_rank_error_k (K := ℚ) (sections_f32 (k := 1000) (by norm_num) (by norm_num)) (rc2One 1000000)
    (by simp [rc2One, InsOp.method]) (by rw [hlen]; norm_num) (by rw [rc2One_items]; exact upTo_fin _) x hx
  rw [rc2One_items] at h
  refine h.trans (le_of_eq ?_)
  generalize rank (upTo 1000000) x = R
  push_cast
  ring

/-- With `k = 100000` and a tolerance of 10%, `q = 1/64`: with probability at least 95% at most 17187 items lie below the answer
and at least 14063 are not above it. -/
example :
    exp (RCSketch2.runHist (f32Sec 100000) 100000 (rc2One 1000000) >>= fun s => s.estValueAtQuantile (.fin (1 / 64) : Fl ℚ)) (fun v =>
      if ((upTo 1000000 : List (Fl ℚ)).countP (fun y => y < v) : ℚ) ≤ (1 + 1 / 10) * 15625 ∧
        (1 - 1 / 10) * 15625 ≤ (rank (upTo 1000000) v : ℚ) then 0 else 1) ≤ 5 / 100 := by
  have hlen : (insItems (rc2One 1000000)).length = 1000000 := by rw [rc2One_items, upTo_len]
  have h := C100_value_relative (K := ℚ) (sections_f32 (k := 100000) (by norm_num) (by norm_num)) (rc2One 1000000)
    (by simp [rc2One, InsOp.method])
    (by rw [hlen]; norm_num) (by rw [rc2One_items]; exact upTo_fin _) (by intro h; rw [h] at hlen; simp at hlen)
    (by intro m hm; rw [hlen] at hm; exact ExactCounts.rnd_nat f64_exactCounts (hm.trans (by norm_num)))
    (.fin (1 / 64)) 15625 ?_ (by norm_num) (by rw [hlen]; norm_num) (1 / 10) (by norm_num) (by norm_num)
  · rw [rc2One_items] at h
    norm_num at h ⊢
    exact h.trans (by norm_num)
  · rw [hlen]
    show (.fin (1 / 64) : Fl ℚ) * FloatFmt.rnd ((1000000 : Nat) : ℚ) = _
    rw [ExactCounts.rnd_nat f64_exactCounts (m := 1000000) (by norm_num)]
    have := ExactCounts.rnd_nat f64_exactCounts (m := 15625) (by norm_num)
    show FloatFmt.rnd ((1 / 64 : ℚ) * ((1000000 : Nat) : ℚ)) = _
    have e : (1 / 64 : ℚ) * ((1000000 : Nat) : ℚ) = ((15625 : Nat) : ℚ) := by norm_num
    rw [e, this]
    norm_num
end rounding

end AQ

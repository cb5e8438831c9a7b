/-
Property C132: an RCSketch fed more items than it was declared for stays accurate, up to its capacity.
-/
import Verif.Props.RCMerge

set_option linter.unusedSectionVars false
set_option linter.unusedVariables false

namespace AQ
open Prog Spec
variable {K : Type} [Field K] [LinearOrder K] [IsStrictOrderedRing K] [FloatFmt K]
namespace RCSketch

theorem plain_interpolate (n k : Nat) (hk2 : k % 2 = 0) (ops : List (InsOp K)) (hN : (insItems ops).length < 2 ^ 63) {x : Fl K}
    (hx : x ≠ .nan) : Partially (runHist n k ops) (fun s => s.interpolateRank x = .ret (weightedRank s.buffers x)) := by
  rw [runHist_any]
  refine (C130_interpolate_rank n k hk2 _ (fun o ho => ?_) (by rw [suppliedWeight_plain]; exact hN)).mono (fun s hs => hs x hx)
  obtain ⟨o', ho', rfl⟩ := List.mem_map.1 ho
  simp [AnyIns.lvl]

theorem exp_plain_interpolate (n k : Nat) (hk2 : k % 2 = 0) (ops : List (InsOp K)) (hN : (insItems ops).length < 2 ^ 63) {x : Fl K}
    (hx : x ≠ .nan) (f : ℚ → ℚ) : exp (runHist n k ops >>= fun s => s.interpolateRank x) (fun r => f r) =
      exp (runHist n k ops) (fun s => f (weightedRank s.buffers x)) := by
  rw [exp_bind]
  exact exp_congr ((plain_interpolate n k hk2 ops hN hx).mono (fun s hs => by rw [hs]; rfl))

variable (n k : Nat) (hk : 1 ≤ k) (hk2 : k % 2 = 0) (ops : List (InsOp K)) (hm : ∀ o ∈ ops, o.method = .default)
  (hlen : (insItems ops).length < rcCapacity n k) (hN : (insItems ops).length < 2 ^ 63) (hnan : ∀ y ∈ insItems ops, y ≠ .nan)
  (x : Fl K) (hx : x ≠ .nan)
include hk hk2 hm hlen hN hnan hx

/-- C132. Rank queries are unbiased for any number of items below the capacity, not only below the declared length. -/
theorem C132_unbiased : exp (runHist n k ops >>= fun s => s.interpolateRank x) (fun r => (r : ℚ)) = rank (insItems ops) x := by
  rw [exp_plain_interpolate n k hk2 ops hN hx (fun r => r)]
  exact plain_unbiased n k hk ops hm hlen hnan x

/-- C132. Their mean squared error is at most `2 N² / (k · buffer_size)`, with the buffer size of the declared length. -/
theorem C132_mean_squared_error : exp (runHist n k ops >>= fun s => s.interpolateRank x) (fun r => ((r : ℚ) - rank (insItems ops) x) ^ 2) ≤
    2 * ((insItems ops).length : ℚ) ^ 2 / (k * (max (2 * k * Nat.clog 2 (n / k)) (2 * k) : Nat)) := by
  rw [exp_plain_interpolate n k hk2 ops hN hx (fun r => (r - rank (insItems ops) x) ^ 2)]
  exact plain_mse n k hk hk2 ops hm hlen hnan x

/-- C132. The probability of an error of `ε N` or more is at most `2 / (k · buffer_size · ε²)`: it does not depend on the number of
items. -/
theorem C132_tail (hne : insItems ops ≠ []) (ε : ℚ) (hε : 0 < ε) :
    exp (runHist n k ops >>= fun s => s.interpolateRank x)
      (fun r => if ε * (insItems ops).length ≤ |(r : ℚ) - rank (insItems ops) x| then 1 else 0) ≤
      2 / (k * (max (2 * k * Nat.clog 2 (n / k)) (2 * k) : Nat) * ε ^ 2) := by
  have h := C132_mean_squared_error n k hk hk2 ops hm hlen hN hnan x hx
  have hNq : (0 : ℚ) < (insItems ops).length := by exact_mod_cast List.length_pos_of_ne_nil hne
  have hkq : (0 : ℚ) < k := by exact_mod_cast hk
  have hBq : (0 : ℚ) < (max (2 * k * Nat.clog 2 (n / k)) (2 * k) : Nat) := by
    exact_mod_cast lt_of_lt_of_le (by omega : 0 < 2 * k) (le_max_right _ _)
  generalize ((max (2 * k * Nat.clog 2 (n / k)) (2 * k) : Nat) : ℚ) = B at h hBq ⊢
  generalize ((insItems ops).length : ℚ) = M at h hNq ⊢
  have h1 : (ε * M) ^ 2 * exp (runHist n k ops >>= fun s => s.interpolateRank x)
      (fun r => if ε * M ≤ |(r : ℚ) - rank (insItems ops) x| then 1 else 0) ≤ 2 * M ^ 2 / (k * B) := by
    rw [← exp_mul_left]
    refine le_trans (exp_mono ((partially_true _).mono (fun r _ => ?_))) h
    split
    · rename_i hr
      rw [mul_one, ← sq_abs ((r : ℚ) - _)]
      exact pow_le_pow_left₀ (by positivity) hr 2
    · rw [mul_zero]; positivity
  rw [le_div_iff₀ (by positivity)] at h1 ⊢
  generalize exp (runHist n k ops >>= fun s => s.interpolateRank x)
      (fun r => if ε * M ≤ |(r : ℚ) - rank (insItems ops) x| then 1 else 0) = p at h1 ⊢
  have e : (ε * M) ^ 2 * p * (k * B) = M ^ 2 * (p * (k * B * ε ^ 2)) := by ring
  rw [e, mul_comm 2] at h1
  exact le_of_mul_le_mul_left h1 (by positivity)

omit hk hk2 hm hlen hN hnan hx in
/-- Non-vacuity: a sketch declared for 1000 items with `k = 10` may be fed any 300 000 non-NaN items; the tail bound for `ε = 1/10` is
`2 / (10 · 140 · 1/100) = 1/7`. -/
theorem C132_example (xs : List (Fl K)) (hl : xs.length = 300000) (hxs : ∀ y ∈ xs, y ≠ .nan) (x : Fl K) (hx : x ≠ .nan) :
    exp (runHist 1000 10 [.addBuffer xs] >>= fun s => s.interpolateRank x)
      (fun r => if (30000 : ℚ) ≤ |(r : ℚ) - rank xs x| then 1 else 0) ≤ 1 / 7 := by
  have hc : rcCapacity 1000 10 = 327660 := by decide +kernel
  have hB : max (2 * 10 * Nat.clog 2 (1000 / 10)) (2 * 10) = 140 := by decide +kernel
  have he : insItems [InsOp.addBuffer xs] = xs := by simp [insItems, InsOp.items]
  have h := C132_tail (K := K) 1000 10 (by norm_num) (by norm_num) [.addBuffer xs] (by simp [InsOp.method]) (by rw [hc, he, hl]; norm_num)
    (by rw [he, hl]; norm_num) (by rw [he]; exact hxs) x hx (by rw [he]; intro h; rw [h] at hl; simp at hl) (1 / 10) (by norm_num)
  rw [hB, he, hl] at h
  norm_num at h ⊢
  exact h

end RCSketch
end AQ

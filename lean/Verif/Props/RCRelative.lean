/-
Property C92: accuracy of `RCSketch` relative to the rank itself.
-/
import Verif.Proofs.RCRelative
import Verif.Props.MultiDigest

set_option linter.unusedSectionVars false
set_option linter.unusedVariables false

namespace AQ
open Spec Prog RCSketch
variable {K : Type} [Field K] [LinearOrder K] [IsStrictOrderedRing K] [FloatFmt K]

/-- Levels that can have been compacted after `N` items (even `k`). -/
theorem rc_levels_compacted (n k : Nat) (hk1 : 1 ≤ k) (hk : k % 2 = 0) (ops : List (InsOp K)) (hlen : (insItems ops).length ≤ n) :
    ∃ H, H ≤ Nat.log 2 ((insItems ops).length / bsize n k) + 1 ∧ H ≤ Nat.clog 2 (n / k) ∧
      Partially (runHist n k ops) (fun s => s.buffers.length ≤ H + 1 ∧
        ∀ (h c : Nat), s.compactions[h]? = some c → c ≠ 0 → h < H) := by
  have hBk := bsize_ge n k
  have hB0 : 0 < bsize n k := by omega
  set N := (insItems ops).length with hN
  rcases Nat.lt_or_ge N (bsize n k) with hlt | hge
  · refine ⟨0, by omega, by omega, (rc_flow n k hk ops).mono ?_⟩
    rintro s ⟨hb, hf, -, hB, -, h4⟩
    obtain ⟨-, b2, b3⟩ := hf.bounds
    rw [hB] at b2 b3
    have hp : ∀ h, bsize n k ≤ 2 ^ h * bsize n k := fun h => Nat.le_mul_of_pos_left _ (by positivity)
    refine ⟨?_, fun h c hc h0 => ?_⟩
    · by_contra h
      have := b2 0 (by omega)
      simp at this; omega
    · have := b3 h c hc h0
      have := hp h
      omega
  · have hd : N / bsize n k ≠ 0 := by
      have := Nat.div_pos hge hB0; omega
    refine ⟨Nat.log 2 (N / bsize n k) + 1, le_refl _, ?_, (rc_flow n k hk ops).mono ?_⟩
    · -- 2^log ≤ N / B ≤ (n / k) / (2 L)
      have h1 : 2 ^ Nat.log 2 (N / bsize n k) ≤ N / bsize n k := Nat.pow_log_le_self 2 hd
      have h2 : N / bsize n k * bsize n k ≤ N := Nat.div_mul_le_self _ _
      have h3 : 2 ^ Nat.log 2 (N / bsize n k) * (2 * k) ≤ n :=
        (Nat.mul_le_mul h1 hBk).trans (h2.trans hlen)
      have h4 : 2 ^ (Nat.log 2 (N / bsize n k) + 1) ≤ n / k := by
        rw [Nat.le_div_iff_mul_le hk1, pow_succ]
        calc _ = 2 ^ Nat.log 2 (N / bsize n k) * (2 * k) := by ring
          _ ≤ n := h3
      exact (Nat.pow_le_pow_iff_right (by norm_num : 1 < 2)).1 (h4.trans (Nat.le_pow_clog (by norm_num) _))
    · rintro s ⟨hb, hf, -, hB, -, h4⟩
      obtain ⟨-, b2, b3⟩ := hf.bounds
      rw [hB] at b2 b3
      have key : ∀ h, 2 ^ h * bsize n k ≤ N → h < Nat.log 2 (N / bsize n k) + 1 := by
        intro h hh
        have h6 : 2 ^ h ≤ N / bsize n k := (Nat.le_div_iff_mul_le hB0).2 hh
        have := Nat.le_log_of_pow_le (by norm_num) h6
        omega
      refine ⟨?_, fun h c hc h0 => key h (b3 h c hc h0)⟩
      by_contra h
      have := key _ (b2 (Nat.log 2 (N / bsize n k) + 1) (by omega))
      omega

/-- Price `κ` per odd compaction: mean squared error at most `4 H R² / (κ · buffer_size)`, provided `κ` is large enough. -/
theorem rc_relative (n k κ : Nat) (hk : 1 ≤ k) (hk2 : k % 2 = 0) (hκ : 1 ≤ κ) (hn : n < 2 ^ 32) (ops : List (InsOp K))
    (hm : ∀ o ∈ ops, o.method = .default) (hlen : (insItems ops).length ≤ n) (hnan : ∀ y ∈ insItems ops, y ≠ .nan) (x : Fl K)
    (hprice : Partially (runHist n k ops) (fun s => ∀ h buf, s.buffers[h]? = some buf →
      κ * oddAt x h s.log ≤ rank buf x + movedAt x h s.log)) :
    ∃ H : Nat, H ≤ Nat.log 2 ((insItems ops).length / bsize n k) + 1 ∧ H ≤ Nat.clog 2 (n / k) ∧
    exp (runHist n k ops) (fun s => ((weightedRank s.buffers x : ℚ) - rank (insItems ops) x) ^ 2) ≤
      4 * H * (rank (insItems ops) x : ℚ) ^ 2 / (κ * bsize n k : Nat) := by
  obtain ⟨H, h1, h2, hH⟩ := rc_levels_compacted n k hk hk2 ops hlen
  refine ⟨H, h1, h2, (relative_error n k κ H hk hκ hn ops hm hlen hnan x hprice hH).trans ?_⟩
  have hB : 2 * k * Nat.clog 2 (n / k) ≤ bsize n k := le_max_left _ _
  have hB0 : 0 < bsize n k := by have := bsize_ge n k; omega
  have hy : (0 : ℚ) < (κ * bsize n k : Nat) := by exact_mod_cast Nat.mul_pos hκ hB0
  have h3 : 4 * H ≤ κ * bsize n k := by
    have : 2 * 2 * H ≤ 2 * k * Nat.clog 2 (n / k) := Nat.mul_le_mul (by omega) h2
    have := Nat.le_mul_of_pos_left (bsize n k) hκ
    omega
  have h4 := one_add_pow_le (2 / (κ * bsize n k : Nat)) (by positivity) H (by
    rw [← mul_div_assoc, ← mul_div_assoc, div_le_one hy]
    have : ((4 * H : Nat) : ℚ) ≤ (κ * bsize n k : Nat) := by exact_mod_cast h3
    push_cast at this ⊢
    linarith)
  have h5 : (0 : ℚ) ≤ (rank (insItems ops) x : ℚ) ^ 2 := by positivity
  calc _ ≤ (rank (insItems ops) x : ℚ) ^ 2 * (2 * (H * (2 / (κ * bsize n k : Nat)))) :=
        mul_le_mul_of_nonneg_left (by linarith) h5
    _ = _ := by ring

/-- C92, in terms of the stored items: without fast compactions, for even `k` and within the declared input length, the mean
squared error of the estimated rank of `x` is at most `4 · (log2(N / buffer_size) + 1) · R² / (k · buffer_size)` where `R` is the true
rank, hence at most `2 (R / k)²`. -/
theorem C92_stored_rank_relative (n k : Nat) (hk : 1 ≤ k) (hk2 : k % 2 = 0) (hn : n < 2 ^ 32) (ops : List (InsOp K))
    (hm : ∀ o ∈ ops, o.method = .default) (hf : ∀ o ∈ ops, o.fast = false) (hlen : (insItems ops).length ≤ n)
    (hnan : ∀ y ∈ insItems ops, y ≠ .nan) (x : Fl K) :
    exp (runHist n k ops) (fun s => ((weightedRank s.buffers x : ℚ) - rank (insItems ops) x) ^ 2) ≤
      4 * (Nat.log 2 ((insItems ops).length / (max (2 * k * Nat.clog 2 (n / k)) (2 * k))) + 1 : Nat) *
        (rank (insItems ops) x : ℚ) ^ 2 / (k * (max (2 * k * Nat.clog 2 (n / k)) (2 * k)) : Nat) ∧
    exp (runHist n k ops) (fun s => ((weightedRank s.buffers x : ℚ) - rank (insItems ops) x) ^ 2) ≤
      2 * ((rank (insItems ops) x : ℚ) / k) ^ 2 := by
  obtain ⟨H, h1, h2, h3⟩ := rc_relative n k k hk hk2 hk hn ops hm hlen hnan x
    ((odd_paid n k ops hm hlen hnan x).mono (fun s hs => hs.2 hf))
  have hB : 2 * k * Nat.clog 2 (n / k) ≤ bsize n k := le_max_left _ _
  have hB0 : 0 < bsize n k := by have := bsize_ge n k; omega
  have hy : (0 : ℚ) < (k * bsize n k : Nat) := by exact_mod_cast Nat.mul_pos hk hB0
  have hkq : (0 : ℚ) < k := by exact_mod_cast hk
  have h5 : (0 : ℚ) ≤ (rank (insItems ops) x : ℚ) ^ 2 := by positivity
  refine ⟨h3.trans ?_, h3.trans ?_⟩
  · change _ ≤ 4 * (Nat.log 2 ((insItems ops).length / bsize n k) + 1 : Nat) * (rank (insItems ops) x : ℚ) ^ 2 / (k * bsize n k : Nat)
    rw [div_le_div_iff_of_pos_right hy]
    apply mul_le_mul_of_nonneg_right _ h5
    have : (H : ℚ) ≤ (Nat.log 2 ((insItems ops).length / bsize n k) + 1 : Nat) := by exact_mod_cast h1
    linarith
  · rw [div_le_iff₀ hy]
    have h6 : k * (2 * k * H) ≤ k * bsize n k :=
      Nat.mul_le_mul_left k ((Nat.mul_le_mul_left (2 * k) h2).trans hB)
    have h7 : (k : ℚ) * (2 * k * H) ≤ (k * bsize n k : Nat) := by exact_mod_cast h6
    calc 4 * (H : ℚ) * (rank (insItems ops) x : ℚ) ^ 2 = 2 * ((rank (insItems ops) x : ℚ) / k) ^ 2 * (k * (2 * k * H)) := by
          field_simp; ring
      _ ≤ _ := mul_le_mul_of_nonneg_left h7 (by positivity)

theorem C92_stored_rank_relative_fast (n k : Nat) (hk : 1 ≤ k) (hk2 : k % 2 = 0) (hn : n < 2 ^ 32) (ops : List (InsOp K))
    (hm : ∀ o ∈ ops, o.method = .default) (hlen : (insItems ops).length ≤ n)
    (hnan : ∀ y ∈ insItems ops, y ≠ .nan) (x : Fl K) :
    exp (runHist n k ops) (fun s => ((weightedRank s.buffers x : ℚ) - rank (insItems ops) x) ^ 2) ≤
      2 * (rank (insItems ops) x : ℚ) ^ 2 / k := by
  obtain ⟨H, h1, h2, h3⟩ := rc_relative n k 1 hk hk2 (le_refl _) hn ops hm hlen hnan x
    ((partially_true _).mono (fun s _ h buf _ => by have := oddAt_le_moved x h s.log; omega))
  have hB : 2 * k * Nat.clog 2 (n / k) ≤ bsize n k := le_max_left _ _
  have hB0 : 0 < bsize n k := by have := bsize_ge n k; omega
  rw [Nat.one_mul] at h3
  have hy : (0 : ℚ) < (bsize n k : Nat) := by exact_mod_cast hB0
  have hkq : (0 : ℚ) < k := by exact_mod_cast hk
  refine h3.trans ?_
  rw [div_le_iff₀ hy]
  have h7 : (2 : ℚ) * k * H ≤ (bsize n k : Nat) := by exact_mod_cast (Nat.mul_le_mul_left (2 * k) h2).trans hB
  calc 4 * (H : ℚ) * (rank (insItems ops) x : ℚ) ^ 2 = 2 * (rank (insItems ops) x : ℚ) ^ 2 / k * (2 * k * H) := by
        field_simp; ring
    _ ≤ _ := mul_le_mul_of_nonneg_left h7 (by positivity)

/-- `interpolate_rank` after a history, as an expectation over the stored items (even `k`). -/
theorem exp_interpolateRank (n k : Nat) (hk2 : k % 2 = 0) (ops : List (InsOp K)) (hlen : (insItems ops).length < 2 ^ 32)
    (x : Fl K) (hx : x ≠ .nan) (g : ℚ → ℚ) :
    exp (runHist n k ops >>= fun s => s.interpolateRank x) (fun r => g r) =
      exp (runHist n k ops) (fun s => g (weightedRank s.buffers x : ℚ)) := by
  rw [exp_bind]
  apply exp_congr
  refine (rc_levels n k hk2 ops hlen).mono (fun s hs => ?_)
  unfold interpolateRank
  rw [rankFrom_eq hx _ _ _ (by omega)]
  simp

/-- C61. The mean squared error of the answer of `interpolate_rank`. -/
theorem C61_interpolate_rank_error (n k : Nat) (hk : 1 ≤ k) (hk2 : k % 2 = 0) (hn : n < 2 ^ 32) (ops : List (InsOp K))
    (hm : ∀ o ∈ ops, o.method = .default) (hlen : (insItems ops).length ≤ n) (hnan : ∀ y ∈ insItems ops, y ≠ .nan)
    (x : Fl K) (hx : x ≠ .nan) :
    exp (runHist n k ops >>= fun s => s.interpolateRank x) (fun r => ((r : ℚ) - rank (insItems ops) x) ^ 2) ≤
      2 * ((insItems ops).length : ℚ) ^ 2 / (k * (max (2 * k * Nat.clog 2 (n / k)) (2 * k) : Nat)) := by
  rw [exp_interpolateRank n k hk2 ops (by omega) x hx (fun r => (r - rank (insItems ops) x) ^ 2)]
  exact C61_mean_squared_error n k hk hk2 hn ops hm hlen hnan x

/-- C62. The tail probability of the answer of `interpolate_rank`. -/
theorem C62_interpolate_rank_tail (n k : Nat) (hk : 1 ≤ k) (hk2 : k % 2 = 0) (hn : n < 2 ^ 32) (ops : List (InsOp K))
    (hm : ∀ o ∈ ops, o.method = .default) (hlen : (insItems ops).length ≤ n) (hnan : ∀ y ∈ insItems ops, y ≠ .nan)
    (x : Fl K) (hx : x ≠ .nan) (t : ℚ) (ht : 0 < t) :
    exp (runHist n k ops >>= fun s => s.interpolateRank x) (fun r => if t ≤ |(r : ℚ) - rank (insItems ops) x| then 1 else 0) ≤
      2 * ((insItems ops).length : ℚ) ^ 2 / (k * (max (2 * k * Nat.clog 2 (n / k)) (2 * k) : Nat)) / t ^ 2 := by
  rw [exp_interpolateRank n k hk2 ops (by omega) x hx (fun r => if t ≤ |r - rank (insItems ops) x| then 1 else 0)]
  exact C62_rank_error_tail n k hk hk2 hn ops hm hlen hnan x t ht

/-- C92. The error of `interpolate_rank` is small compared with the rank itself: for even `k`, within the declared input length and
without fast insertions, `E[(estimate − R)²] ≤ 2 (R / k)²` where `R` is the number of items `≤ x`, whatever the items, the number of
items and the order of insertion. -/
theorem C92_relative_rank_error (n k : Nat) (hk : 1 ≤ k) (hk2 : k % 2 = 0) (hn : n < 2 ^ 32) (ops : List (InsOp K))
    (hm : ∀ o ∈ ops, o.method = .default) (hf : ∀ o ∈ ops, o.fast = false) (hlen : (insItems ops).length ≤ n)
    (hnan : ∀ y ∈ insItems ops, y ≠ .nan) (x : Fl K) (hx : x ≠ .nan) :
    exp (runHist n k ops >>= fun s => s.interpolateRank x) (fun r => ((r : ℚ) - rank (insItems ops) x) ^ 2) ≤
      2 * ((rank (insItems ops) x : ℚ) / k) ^ 2 := by
  rw [exp_interpolateRank n k hk2 ops (by omega) x hx (fun r => (r - rank (insItems ops) x) ^ 2)]
  exact (C92_stored_rank_relative n k hk hk2 hn ops hm hf hlen hnan x).2

/-- C92. With fast insertions (in any mixture) the bound is `2 R² / k`. -/
theorem C92_relative_rank_error_fast (n k : Nat) (hk : 1 ≤ k) (hk2 : k % 2 = 0) (hn : n < 2 ^ 32) (ops : List (InsOp K))
    (hm : ∀ o ∈ ops, o.method = .default) (hlen : (insItems ops).length ≤ n)
    (hnan : ∀ y ∈ insItems ops, y ≠ .nan) (x : Fl K) (hx : x ≠ .nan) :
    exp (runHist n k ops >>= fun s => s.interpolateRank x) (fun r => ((r : ℚ) - rank (insItems ops) x) ^ 2) ≤
      2 * (rank (insItems ops) x : ℚ) ^ 2 / k := by
  rw [exp_interpolateRank n k hk2 ops (by omega) x hx (fun r => (r - rank (insItems ops) x) ^ 2)]
  exact C92_stored_rank_relative_fast n k hk hk2 hn ops hm hlen hnan x

/-- C92. Tail probability: the chance that the estimated rank is off by more than the fraction `ε` of the rank is at most
`2 / (k ε)²`. -/
theorem C92_relative_tail (n k : Nat) (hk : 1 ≤ k) (hk2 : k % 2 = 0) (hn : n < 2 ^ 32) (ops : List (InsOp K))
    (hm : ∀ o ∈ ops, o.method = .default) (hf : ∀ o ∈ ops, o.fast = false) (hlen : (insItems ops).length ≤ n)
    (hnan : ∀ y ∈ insItems ops, y ≠ .nan) (x : Fl K) (hx : x ≠ .nan) (ε : ℚ) (hε : 0 < ε) :
    exp (runHist n k ops >>= fun s => s.interpolateRank x)
      (fun r => if ε * rank (insItems ops) x < |(r : ℚ) - rank (insItems ops) x| then 1 else 0) ≤ 2 / (k * ε) ^ 2 := by
  have h := C92_relative_rank_error n k hk hk2 hn ops hm hf hlen hnan x hx
  have hkq : (0 : ℚ) < k := by exact_mod_cast hk
  rcases Nat.eq_zero_or_pos (rank (insItems ops) x) with h0 | h0
  · simp only [h0, Nat.cast_zero, mul_zero, sub_zero] at h ⊢
    refine le_trans (exp_mono ((partially_true _).mono (fun r _ => ?_))) (h.trans ?_)
    · split
      · rename_i h1
        have h2 : r ≠ 0 := by rintro rfl; simp at h1
        have : (1 : ℚ) ≤ r := by exact_mod_cast Nat.one_le_iff_ne_zero.2 h2
        nlinarith
      · positivity
    · have : (0 : ℚ) < 2 / (k * ε) ^ 2 := by positivity
      simpa using this.le
  · have hR : (0 : ℚ) < rank (insItems ops) x := by exact_mod_cast h0
    rw [le_div_iff₀ (by positivity)]
    have h1 : exp (runHist n k ops >>= fun s => s.interpolateRank x) (fun r => (ε * rank (insItems ops) x) ^ 2 *
        (if ε * rank (insItems ops) x < |(r : ℚ) - rank (insItems ops) x| then 1 else 0)) ≤
        2 * ((rank (insItems ops) x : ℚ) / k) ^ 2 := by
      refine le_trans (exp_mono ((partially_true _).mono (fun r _ => ?_))) h
      split
      · rename_i h1
        rw [← sq_abs ((r : ℚ) - _), mul_one]
        exact pow_le_pow_left₀ (by positivity) h1.le 2
      · rw [mul_zero]; positivity
    rw [exp_mul_left] at h1
    set p := exp (runHist n k ops >>= fun s => s.interpolateRank x)
        (fun r => (if ε * rank (insItems ops) x < |(r : ℚ) - rank (insItems ops) x| then 1 else 0 : ℚ))
    have e : 2 * ((rank (insItems ops) x : ℚ) / k) ^ 2 = (rank (insItems ops) x : ℚ) ^ 2 / k ^ 2 * 2 := by ring
    have e2 : (ε * (rank (insItems ops) x : ℚ)) ^ 2 * p = (rank (insItems ops) x : ℚ) ^ 2 / k ^ 2 * (p * (k * ε) ^ 2) := by
      field_simp
    rw [e, e2] at h1
    exact le_of_mul_le_mul_left h1 (by positivity)

section multi
attribute [local instance] ratExact ratExact_exact

/-- C92. A MultiDigest of `m` RCSketches: the mean squared error of the quantile estimate is at most `2 (R / (N k))² / m`. -/
theorem C92_multi_relative (n k m : Nat) (hm : 1 ≤ m) (hk : 1 ≤ k) (hk2 : k % 2 = 0) (hn : n < 2 ^ 32)
    (ops : List (Op (Fl ℚ))) (hins : ∀ o ∈ ops, (∃ x, o = .add x) ∨ ∃ xs, o = .addBuffer xs)
    (hlen : (itemsOf ops).length ≤ n) (hnan : ∀ y ∈ itemsOf ops, y ≠ .nan) (hne : itemsOf ops ≠ []) (x : Fl ℚ) (hx : x ≠ .nan) :
    exp ((RCSketch.new n k : Prog (RCSketch ℚ)) >>= fun s => execAll (MultiDigest.built (List.replicate m s)) ops >>=
      fun d => d.estQuantileAtValue x) (fun r => (r.1.toK - (rank (itemsOf ops) x : ℚ) / (itemsOf ops).length) ^ 2) ≤
        2 * ((rank (itemsOf ops) x : ℚ) / (itemsOf ops).length / k) ^ 2 / m := by
  have hN : (0 : ℚ) < (itemsOf ops).length := Nat.cast_pos.2 (List.length_pos_of_ne_nil hne)
  refine (multi_rcsketch n k m hm hk hk2 hn ops hins hlen hnan hne x hx _ (fun iops hit hmeth hf => ?_)).2
  rw [← hit] at hlen hnan hN ⊢
  refine (C92_stored_rank_relative n k hk hk2 hn iops hmeth hf hlen hnan x).2.trans (le_of_eq ?_)
  field_simp

/-- C92: 16 items `0 … 15` into `new(16, 2)`, without fast compactions; buffer size 12. -/
def relHist : List (InsOp ℚ) := [.add (.fin 0), .addBuffer ((upTo 16).drop 1)]
example : (insItems relHist).length = 16 ∧ rank (insItems relHist) (.fin 10) = 11 ∧ ∀ o ∈ relHist, o.fast = false := by
  decide +kernel
/-- The estimate of that rank really depends on the coins; its mean squared error 1 is below the bound `2 (11/2)²`. -/
example : exp (runHist 16 2 relHist >>= fun s => s.interpolateRank (.fin 10))
    (fun r => ((r : ℚ) - rank (insItems relHist) (.fin 10)) ^ 2) = 1 := by decide +kernel
/-- Far from the compacted end the estimate is exact. -/
example : exp (runHist 16 2 relHist >>= fun s => s.interpolateRank (.fin 3))
    (fun r => ((r : ℚ) - rank (insItems relHist) (.fin 3)) ^ 2) = 0 := by decide +kernel

end multi
end AQ

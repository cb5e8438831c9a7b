/-
Properties C163 and C164: the rank error of RCSketch relative to the rank itself has exponentially small tails, and all ranks and
quantiles are accurate relative to the rank at once.
-/
import Verif.Proofs.RCRelTail
import Verif.Props.RCTail
import Verif.Props.RCValue

set_option linter.unusedSectionVars false
set_option linter.unusedVariables false

namespace AQ
open Prog Spec RCSketch

/-! ### All ranks at once, relative to the rank -/

section
variable {α : Type} [LinearOrder α]

/-- One of `m + 1` upper or `m + 1` lower pivots is off by the fraction `ε` when any rank is off by more than the fraction `3 ε`. -/
theorem rel_pivots (I : List α) (hI : I ≠ []) (ε : ℚ) (hε : 0 ≤ ε) (hε1 : ε ≤ 1) (m : Nat) (hm : (I.length : ℚ) ≤ (1 + ε) ^ m) :
    ∃ u v : Nat → α, (∀ j, u j ∈ I ∧ v j ∈ I) ∧
    ∀ (E : α → Nat), Counts I E → ∀ x, 3 * ε * rank I x < |(E x : ℚ) - rank I x| →
      ∃ j < m + 1, ε * rank I (u j) ≤ |(E (u j) : ℚ) - rank I (u j)| ∨ ε * rank I (v j) ≤ |(E (v j) : ℚ) - rank I (v j)| := by
  choose u hu using fun j : Nat => upper_pivot I hI (fun r => (r : ℚ) ≤ (1 + ε) ^ j)
  choose v hv using fun j : Nat => lower_pivot I hI (fun r => ∀ i < j, (1 + ε) ^ i < (r : ℚ))
  refine ⟨u, v, fun j => ⟨(hu j).1, (hv j).1⟩, fun E hE x hx => ?_⟩
  by_cases hr : rank I x = 0
  · exfalso
    have h0 : E x = 0 := hE.zero x (by
      intro y hy hyx
      have : 0 < rank I x := List.countP_pos_iff.2 ⟨y, hy, by simpa using hyx⟩
      omega)
    rw [h0, hr] at hx
    simp at hx
  · obtain ⟨f, hfI, hfx, hiff, hrf⟩ := rank_pos_item hr
    rw [hE.same x f hiff, hrf] at hx
    rw [hrf] at hr
    have hle : (rank I f : ℚ) ≤ I.length := by exact_mod_cast (List.countP_le_length : rank I f ≤ I.length)
    have hr1 : (1 : ℚ) ≤ rank I f := by exact_mod_cast Nat.one_le_iff_ne_zero.2 hr
    have hex : ∃ j, (rank I f : ℚ) ≤ (1 + ε) ^ j := ⟨m, hle.trans hm⟩
    classical
    have hj1 := Nat.find_spec hex
    have hj2 : ∀ i < Nat.find hex, (1 + ε) ^ i < (rank I f : ℚ) := fun i hi => not_le.1 (Nat.find_min hex hi)
    have hjm : Nat.find hex ≤ m := Nat.find_min' hex (hle.trans hm)
    generalize Nat.find hex = j at hj1 hj2 hjm
    refine ⟨j, by omega, ?_⟩
    obtain ⟨h2, h3⟩ := (hu j).2 f hfI hj1
    obtain ⟨h4, h5⟩ := (hv j).2 f hfI hj2
    have hpos : ∀ y ∈ I, (1 : ℚ) ≤ rank I y := fun y hy => by
      have : 0 < rank I y := List.countP_pos_iff.2 ⟨y, hy, by simp⟩
      exact_mod_cast this
    have hv1 := hpos _ (hv j).1
    have h6 : (rank I (u j) : ℚ) ≤ (1 + ε) * rank I f := by
      cases j with
      | zero => rw [pow_zero] at h3; nlinarith
      | succ i =>
        have := hj2 i (by omega)
        rw [pow_succ, mul_comm] at h3
        exact h3.trans (mul_le_mul_of_nonneg_left this.le (by linarith))
    have h7 : (rank I f : ℚ) ≤ (1 + ε) * rank I (v j) := by
      cases j with
      | zero => rw [pow_zero] at hj1; nlinarith
      | succ i =>
        have := h5 i (by omega)
        rw [pow_succ, mul_comm] at hj1
        exact hj1.trans (mul_le_mul_of_nonneg_left this.le (by linarith))
    have h8 : (E f : ℚ) ≤ E (u j) := by exact_mod_cast hE.mono _ _ h2
    have h9 : (E (v j) : ℚ) ≤ E f := by exact_mod_cast hE.mono _ _ h4
    by_contra hc
    push Not at hc
    obtain ⟨c1, c2⟩ := hc
    have c1 := (abs_lt.1 c1).2
    have c2 := (abs_lt.1 c2).1
    rcases lt_abs.1 hx with hx | hx
    · have : (1 + ε) * (rank I (u j) : ℚ) ≤ (1 + ε) * ((1 + ε) * rank I f) := mul_le_mul_of_nonneg_left h6 (by linarith)
      nlinarith [mul_nonneg hε (mul_nonneg (sub_nonneg.2 hε1) (le_trans zero_le_one hr1))]
    · -- `E f ≥ E v > (1 - ε) rank v` and `(1 - ε) (rank v) ≥ (1 - 2 ε) rank f`
      have a1 : (1 - ε) * (rank I f : ℚ) ≤ (1 - ε) * ((1 + ε) * rank I (v j)) := mul_le_mul_of_nonneg_left h7 (by linarith)
      have a2 : (rank I (v j) : ℚ) ≤ rank I f := by exact_mod_cast rank_le_rank I h4
      nlinarith [mul_nonneg hε (le_trans zero_le_one hv1), mul_nonneg hε (sub_nonneg.2 a2), mul_nonneg (mul_nonneg hε hε) (le_trans zero_le_one hv1)]

open Classical in
theorem all_ranks_rel {S : Type} (p : Prog S) (I : List α) (hI : I ≠ []) (E : S → α → Nat) (hE : Partially p (fun s => Counts I (E s)))
    (ε : ℚ) (hε : 0 ≤ ε) (hε1 : ε ≤ 1) (m : Nat) (hm : (I.length : ℚ) ≤ (1 + ε) ^ m) (P : ℝ)
    (hP : ∀ x ∈ I, ((exp p (fun s => if ε * rank I x ≤ |(E s x : ℚ) - rank I x| then 1 else 0) : ℚ) : ℝ) ≤ P) :
    ((exp p (fun s => if ∃ x, 3 * ε * rank I x < |(E s x : ℚ) - rank I x| then 1 else 0) : ℚ) : ℝ) ≤ 2 * (m + 1) * P := by
  obtain ⟨u, v, huv, key⟩ := rel_pivots I hI ε hε hε1 m hm
  have h1 : exp p (fun s => if ∃ x, 3 * ε * rank I x < |(E s x : ℚ) - rank I x| then 1 else 0) ≤
      (∑ j ∈ Finset.range (m + 1), exp p (fun s => if ε * rank I (u j) ≤ |(E s (u j) : ℚ) - rank I (u j)| then 1 else 0)) +
      ∑ j ∈ Finset.range (m + 1), exp p (fun s => if ε * rank I (v j) ≤ |(E s (v j) : ℚ) - rank I (v j)| then 1 else 0) := by
    rw [← exp_finsum, ← exp_finsum, ← exp_add]
    refine exp_mono (hE.mono (fun s hs => ?_))
    have hn : ∀ w : Nat → α, ∀ j ∈ Finset.range (m + 1), (0 : ℚ) ≤ if ε * rank I (w j) ≤ |(E s (w j) : ℚ) - rank I (w j)| then 1 else 0 :=
      fun w j _ => by split <;> norm_num
    split
    · rename_i hx
      obtain ⟨x, hx⟩ := hx
      obtain ⟨j, hj, h | h⟩ := key (E s) hs x hx
      · have := Finset.single_le_sum (hn u) (Finset.mem_range.2 hj)
        rw [if_pos h] at this
        have := Finset.sum_nonneg (hn v)
        linarith
      · have := Finset.single_le_sum (hn v) (Finset.mem_range.2 hj)
        rw [if_pos h] at this
        have := Finset.sum_nonneg (hn u)
        linarith
    · exact add_nonneg (Finset.sum_nonneg (hn u)) (Finset.sum_nonneg (hn v))
  have h2 : ((exp p (fun s => if ∃ x, 3 * ε * rank I x < |(E s x : ℚ) - rank I x| then 1 else 0) : ℚ) : ℝ) ≤
      (∑ j ∈ Finset.range (m + 1), ((exp p (fun s => if ε * rank I (u j) ≤ |(E s (u j) : ℚ) - rank I (u j)| then 1 else 0) : ℚ) : ℝ)) +
      ∑ j ∈ Finset.range (m + 1), ((exp p (fun s => if ε * rank I (v j) ≤ |(E s (v j) : ℚ) - rank I (v j)| then 1 else 0) : ℚ) : ℝ) := by
    exact_mod_cast h1
  refine h2.trans ?_
  have a1 := Finset.sum_le_card_nsmul (Finset.range (m + 1)) _ P (fun j _ => hP (u j) (huv j).1)
  have a2 := Finset.sum_le_card_nsmul (Finset.range (m + 1)) _ P (fun j _ => hP (v j) (huv j).2)
  rw [Finset.card_range, nsmul_eq_mul] at a1 a2
  push_cast at a1 a2
  linarith
end

variable {K : Type} [Field K] [LinearOrder K] [IsStrictOrderedRing K] [FloatFmt K]

/-- The failure probability: `2 exp(-ε² c / 32) + L exp(-c / 32)`. -/
noncomputable def relFail (c : ℝ) (L : Nat) (ε : ℚ) : ℝ := 2 * Real.exp (-((ε : ℝ) ^ 2 * c / 32)) + L * Real.exp (-(c / 32))

theorem relFail_nonneg (c : ℝ) (L : Nat) (ε : ℚ) : 0 ≤ relFail c L ε := by unfold relFail; positivity

section
variable (n k κ : Nat) (hk : 1 ≤ k) (hk2 : k % 2 = 0) (hκ : 1 ≤ κ) (hn : n < 2 ^ 32) (ops : List (InsOp K))
    (hm : ∀ o ∈ ops, o.method = .default) (hlen : (insItems ops).length ≤ n) (hnan : ∀ y ∈ insItems ops, y ≠ .nan)
    (hprice : ∀ x, Partially (runHist n k ops) (fun s => ∀ h buf, s.buffers[h]? = some buf →
      κ * oddAt x h s.log ≤ rank buf x + movedAt x h s.log))
include hk hk2 hκ hn hm hlen hnan hprice

theorem rel_stored (x : Fl K) (hR : 0 < rank (insItems ops) x) (ε : ℚ) (hε : 0 ≤ ε) :
    ((exp (runHist n k ops) (fun s => if ε * rank (insItems ops) x ≤ |(weightedRank s.buffers x : ℚ) - rank (insItems ops) x|
        then 1 else 0) : ℚ) : ℝ) ≤ relFail (κ * bsize n k) (Nat.clog 2 (n / k)) ε := by
  obtain ⟨H, h1, h2, hH⟩ := rc_levels_compacted n k hk hk2 ops hlen
  refine (relative_tail n k κ H hk hκ hn ops hm hlen hnan x (hprice x) hH hR ε hε).trans ?_
  unfold relFail
  have : (H : ℝ) ≤ Nat.clog 2 (n / k) := by exact_mod_cast h2
  have := mul_le_mul_of_nonneg_right this (Real.exp_pos (-((κ * bsize n k : ℝ) / 32))).le
  linarith

omit hk hκ hn hlen hnan hprice in
theorem hist_counts : Partially (runHist n k ops) (fun s => Counts (insItems ops) (weightedRank s.buffers)) := by
  obtain ⟨c1, c2, c3, c4, c5, c6, c7⟩ := MergeTree.foldl_ops ops (MergeTree.new n k : MergeTree K)
  have c1 : (MergeTree.ofHist n k ops).ops = ops := by unfold MergeTree.ofHist; rw [c1]; simp [MergeTree.ops]
  have h := MergeTree.stored_counts (MergeTree.ofHist n k ops) (c4 hk2) (by rw [c1]; exact hm)
  have e : (MergeTree.ofHist n k ops).run = runHist n k ops := c6
  rw [c1, e] at h
  exact h

omit hk hκ hn hlen hnan hprice in
theorem hist_interpolate (hN : (insItems ops).length < 2 ^ 63) :
    Partially (runHist n k ops) (fun s => ∀ x, x ≠ .nan → s.interpolateRank x = .ret (weightedRank s.buffers x)) := by
  obtain ⟨c1, c2, c3, c4, c5, c6, c7⟩ := MergeTree.foldl_ops ops (MergeTree.new n k : MergeTree K)
  have c1 : (MergeTree.ofHist n k ops).ops = ops := by unfold MergeTree.ofHist; rw [c1]; simp [MergeTree.ops]
  have h := MergeTree.C133_interpolate_rank (MergeTree.ofHist n k ops) (c4 hk2) (by rw [c1]; exact hm) (by rw [c1]; exact hN)
  have e : (MergeTree.ofHist n k ops).run = runHist n k ops := c6
  rw [e] at h
  exact h

open Classical in
theorem rel_all (hne : insItems ops ≠ []) (ε : ℚ) (hε : 0 ≤ ε) (hε1 : ε ≤ 1) (m : Nat)
    (hpow : ((insItems ops).length : ℚ) ≤ (1 + ε) ^ m) :
    ((exp (runHist n k ops) (fun s => if ∃ x, 3 * ε * rank (insItems ops) x <
        |(weightedRank s.buffers x : ℚ) - rank (insItems ops) x| then 1 else 0) : ℚ) : ℝ) ≤
      2 * (m + 1) * relFail (κ * bsize n k) (Nat.clog 2 (n / k)) ε := by
  have hc := hist_counts n k hk2 ops hm
  have hs : ∀ x ∈ insItems ops, _ := fun x hx => rel_stored n k κ hk hk2 hκ hn ops hm hlen hnan hprice x
    (List.countP_pos_iff.2 ⟨x, hx, by simp⟩) ε hε
  generalize runHist n k ops = p at *
  generalize insItems ops = I at *
  exact all_ranks_rel p I hne (fun s => weightedRank s.buffers) hc ε hε hε1 m hpow _ hs

end

/-! ### C163: one query -/

omit [FloatFmt K] in
theorem relFail_le (c : ℝ) (hc : 0 ≤ c) (L : Nat) (ε : ℚ) (hε : 0 ≤ ε) (hε1 : ε ≤ 1) :
    relFail c L ε ≤ (2 + L) * Real.exp (-((ε : ℝ) ^ 2 * c / 32)) := by
  unfold relFail
  have h0 : (0 : ℝ) ≤ ε := by exact_mod_cast hε
  have h1 : (ε : ℝ) ≤ 1 := by exact_mod_cast hε1
  have h2 : (ε : ℝ) ^ 2 * c ≤ 1 * c := mul_le_mul_of_nonneg_right (pow_le_one₀ h0 h1) hc
  have h3 : Real.exp (-(c / 32)) ≤ Real.exp (-((ε : ℝ) ^ 2 * c / 32)) := Real.exp_le_exp.2 (by linarith)
  have := mul_le_mul_of_nonneg_left h3 (Nat.cast_nonneg (α := ℝ) L)
  linarith

section
variable (n k : Nat) (hk : 1 ≤ k) (hk2 : k % 2 = 0) (hn : n < 2 ^ 32) (ops : List (InsOp K))
    (hm : ∀ o ∈ ops, o.method = .default) (hlen : (insItems ops).length ≤ n) (hnan : ∀ y ∈ insItems ops, y ≠ .nan)
include hk hk2 hn hm hlen hnan

theorem rel_query (κ : Nat) (hκ : 1 ≤ κ)
    (hprice : ∀ x, Partially (runHist n k ops) (fun s => ∀ h buf, s.buffers[h]? = some buf →
      κ * oddAt x h s.log ≤ rank buf x + movedAt x h s.log)) (x : Fl K) (hx : x ≠ .nan) (ε : ℚ) (hε : 0 ≤ ε) :
    ((exp (runHist n k ops >>= fun s => s.interpolateRank x)
      (fun r => if ε * rank (insItems ops) x < |(r : ℚ) - rank (insItems ops) x| then 1 else 0) : ℚ) : ℝ) ≤
      relFail (κ * bsize n k) (Nat.clog 2 (n / k)) ε := by
  rw [exp_interpolateRank n k hk2 ops (by omega) x hx (fun r => if ε * rank (insItems ops) x < |r - rank (insItems ops) x| then 1 else 0)]
  rcases Nat.eq_zero_or_pos (rank (insItems ops) x) with h0 | h0
  · refine le_trans (le_of_eq ?_) (relFail_nonneg _ _ _)
    have hz : exp (runHist n k ops) (fun _ => (0 : ℚ)) = 0 := by simpa using exp_mul_left (runHist n k ops) 0 (fun _ => 0)
    rw [Rat.cast_eq_zero]
    refine Eq.trans (exp_congr (g' := fun _ => (0 : ℚ)) ?_) hz
    refine (hist_counts n k hk2 ops hm).mono (fun s hs => ?_)
    have := hs.zero x (fun y hy hyx => by
      have : 0 < rank (insItems ops) x := List.countP_pos_iff.2 ⟨y, hy, by simpa using hyx⟩
      omega)
    simp [h0, this]
  · refine le_trans ?_ (rel_stored n k κ hk hk2 hκ hn ops hm hlen hnan hprice x h0 ε hε)
    rw [Rat.cast_le]
    refine exp_mono ((partially_true _).mono (fun s _ => ?_))
    split
    · rename_i h; rw [if_pos h.le]
    · split <;> norm_num

/-- C163. Even section size `k`, within the declared length, no fast insertions; `B` the buffer size, `L = ⌈log2(n/k)⌉`: a rank query is off by
more than the fraction `ε` of the rank itself with probability at most `2 exp(-ε² k B / 32) + L exp(-k B / 32)`. -/
theorem C163_relative_tail (hf : ∀ o ∈ ops, o.fast = false) (x : Fl K) (hx : x ≠ .nan) (ε : ℚ) (hε : 0 ≤ ε) :
    ((exp (runHist n k ops >>= fun s => s.interpolateRank x)
      (fun r => if ε * rank (insItems ops) x < |(r : ℚ) - rank (insItems ops) x| then 1 else 0) : ℚ) : ℝ) ≤
      2 * Real.exp (-((ε : ℝ) ^ 2 * (k * (max (2 * k * Nat.clog 2 (n / k)) (2 * k) : Nat)) / 32)) +
        Nat.clog 2 (n / k) * Real.exp (-((k * (max (2 * k * Nat.clog 2 (n / k)) (2 * k) : Nat) : ℝ) / 32)) :=
  rel_query n k hk hk2 hn ops hm hlen hnan k hk (fun x => (odd_paid n k ops hm hlen hnan x).mono (fun s hs => hs.2 hf)) x hx ε hε

/-- C163 with fast insertions in any mixture: `k B` is replaced by `B`. -/
theorem C163_relative_tail_fast (x : Fl K) (hx : x ≠ .nan) (ε : ℚ) (hε : 0 ≤ ε) :
    ((exp (runHist n k ops >>= fun s => s.interpolateRank x)
      (fun r => if ε * rank (insItems ops) x < |(r : ℚ) - rank (insItems ops) x| then 1 else 0) : ℚ) : ℝ) ≤
      2 * Real.exp (-((ε : ℝ) ^ 2 * ((max (2 * k * Nat.clog 2 (n / k)) (2 * k) : Nat) : ℝ) / 32)) +
        Nat.clog 2 (n / k) * Real.exp (-(((max (2 * k * Nat.clog 2 (n / k)) (2 * k) : Nat) : ℝ) / 32)) := by
  have h := rel_query n k hk hk2 hn ops hm hlen hnan 1 le_rfl
    (fun x => (partially_true _).mono (fun s _ h buf _ => by have := oddAt_le_moved x h s.log; omega)) x hx ε hε
  rw [Nat.cast_one, one_mul] at h
  exact h

/-! ### C164: all queries at once -/

open Classical in
/-- C164. Under the conditions of C163, for `0 ≤ ε ≤ 1` and `(1 + ε)^m ≥ N`: except with probability at most
`2 (m + 1) (2 exp(-ε² k B / 32) + L exp(-k B / 32))` every rank query whatsoever is off by at most the fraction `3 ε` of the rank itself. -/
theorem C164_all_ranks (hf : ∀ o ∈ ops, o.fast = false) (hne : insItems ops ≠ []) (ε : ℚ) (hε : 0 ≤ ε) (hε1 : ε ≤ 1) (m : Nat)
    (hpow : ((insItems ops).length : ℚ) ≤ (1 + ε) ^ m) :
    ((exp (runHist n k ops) (fun s => if ∀ x, x ≠ .nan → ∃ r, s.interpolateRank x = .ret r ∧
        |(r : ℚ) - rank (insItems ops) x| ≤ 3 * ε * rank (insItems ops) x then 0 else 1) : ℚ) : ℝ) ≤
      2 * (m + 1) * (2 * Real.exp (-((ε : ℝ) ^ 2 * (k * (max (2 * k * Nat.clog 2 (n / k)) (2 * k) : Nat)) / 32)) +
        Nat.clog 2 (n / k) * Real.exp (-((k * (max (2 * k * Nat.clog 2 (n / k)) (2 * k) : Nat) : ℝ) / 32))) := by
  have h := rel_all n k k hk hk2 hk hn ops hm hlen hnan
    (fun x => (odd_paid n k ops hm hlen hnan x).mono (fun s hs => hs.2 hf)) hne ε hε hε1 m hpow
  refine le_trans ?_ h
  rw [Rat.cast_le]
  refine exp_mono ((hist_interpolate n k hk2 ops hm (by omega)).mono (fun s hs => ?_))
  split
  · split <;> norm_num
  · rename_i hc
    rw [if_pos]
    by_contra hall
    push Not at hall
    exact hc (fun x hx => ⟨_, hs x hx, hall x⟩)

open Classical in
/-- C164. With that probability every value query whatsoever returns an item `v` such that, for `r = q·N` as computed, `(1 - 3 ε)` times the number
of items below `v` is at most `r` and `(1 + 3 ε)` times the number of items not above `v` is at least `r`. -/
theorem C164_all_values (hf : ∀ o ∈ ops, o.fast = false) (hne : insItems ops ≠ [])
    (hex : ∀ m : Nat, m ≤ (insItems ops).length → FloatFmt.rnd (m : K) = .fin (m : K)) (ε : ℚ) (hε : 0 ≤ ε) (hε1 : ε ≤ 1) (m : Nat)
    (hpow : ((insItems ops).length : ℚ) ≤ (1 + ε) ^ m) :
    ((exp (runHist n k ops) (fun s => if ∀ (q : Fl K) (r : K), q * Fl.ofNat (insItems ops).length = .fin r → 0 ≤ r →
        r ≤ ((insItems ops).length : K) → ∃ v, s.estValueAtQuantile q = .ret v ∧ v ∈ insItems ops ∧
          (1 - 3 * (ε : K)) * ((insItems ops).countP (fun y => y < v) : K) ≤ r ∧
          r ≤ (1 + 3 * (ε : K)) * (rank (insItems ops) v : K) then 0 else 1) : ℚ) : ℝ) ≤
      2 * (m + 1) * (2 * Real.exp (-((ε : ℝ) ^ 2 * (k * (max (2 * k * Nat.clog 2 (n / k)) (2 * k) : Nat)) / 32)) +
        Nat.clog 2 (n / k) * Real.exp (-((k * (max (2 * k * Nat.clog 2 (n / k)) (2 * k) : Nat) : ℝ) / 32))) := by
  have h := rel_all n k k hk hk2 hk hn ops hm hlen hnan
    (fun x => (odd_paid n k ops hm hlen hnan x).mono (fun s hs => hs.2 hf)) hne ε hε hε1 m hpow
  have hv : Partially (runHist n k ops) (fun s => ∀ (i : Fl K × K), i.1 * Fl.ofNat (insItems ops).length = .fin i.2 → 0 ≤ i.2 →
      i.2 ≤ ((insItems ops).length : K) → ∃ v, s.estValueAtQuantile i.1 = .ret v ∧ v ∈ insItems ops ∧
      (∀ x, x < v → (weightedRank s.buffers x : K) ≤ i.2) ∧ ∀ x, v ≤ x → i.2 ≤ (weightedRank s.buffers x : K)) := by
    refine Prog.partially_forall (fun i => ?_)
    by_cases hc : i.1 * Fl.ofNat (insItems ops).length = .fin i.2 ∧ 0 ≤ i.2 ∧ i.2 ≤ ((insItems ops).length : K)
    · exact (rc_value_sides n k hk hk2 hn ops hm hlen hnan hne hex i.1 i.2 hc.1 hc.2.1 hc.2.2).partially.mono (fun s hs _ _ _ => hs)
    · exact (partially_true _).mono (fun s _ a b c => absurd ⟨a, b, c⟩ hc)
  refine le_trans ?_ h
  rw [Rat.cast_le]
  refine exp_mono (hv.mono (fun s hs => ?_))
  split
  · split <;> norm_num
  · rename_i hc
    rw [if_pos]
    by_contra hall
    push Not at hall
    refine hc (fun q r hr h0 h1 => ?_)
    obtain ⟨v, hv1, hv2, hl, hr'⟩ := hs (q, r) hr h0 h1
    have bound : ∀ x, (1 - 3 * (ε : K)) * (rank (insItems ops) x : K) ≤ weightedRank s.buffers x ∧
        (weightedRank s.buffers x : K) ≤ (1 + 3 * (ε : K)) * rank (insItems ops) x := by
      intro x
      obtain ⟨a1, a2⟩ := abs_le.1 (hall x)
      constructor
      · have : (1 - 3 * ε) * (rank (insItems ops) x : ℚ) ≤ weightedRank s.buffers x := by linarith
        have h2 : (((1 - 3 * ε) * (rank (insItems ops) x : ℚ) : ℚ) : K) ≤ ((weightedRank s.buffers x : ℚ) : K) := by exact_mod_cast this
        push_cast at h2; exact h2
      · have : (weightedRank s.buffers x : ℚ) ≤ (1 + 3 * ε) * rank (insItems ops) x := by linarith
        have h2 : ((weightedRank s.buffers x : ℚ) : K) ≤ (((1 + 3 * ε) * (rank (insItems ops) x : ℚ) : ℚ) : K) := by exact_mod_cast this
        push_cast at h2; exact h2
    refine ⟨v, hv1, hv2, ?_, (hr' v le_rfl).trans (bound v).2⟩
    by_cases hz : (insItems ops).filter (fun y => decide (y < v)) = []
    · rw [List.countP_eq_length_filter, hz]
      simpa using h0
    · obtain ⟨f, hf1, hf2⟩ := exists_max _ hz
      obtain ⟨hfI, hfv⟩ := List.mem_filter.1 hf1
      have hfv : f < v := by simpa using hfv
      have hcount : (insItems ops).countP (fun y => y < v) = rank (insItems ops) f := by
        refine List.countP_congr (fun y hy => ?_)
        simp only [decide_eq_true_eq]
        exact ⟨fun h => hf2 y (List.mem_filter.2 ⟨hy, by simpa using h⟩), fun h => lt_of_le_of_lt h hfv⟩
      rw [hcount]
      exact (bound f).1.trans (hl f hfv)

end

/-! ### Concrete cases -/

theorem exp_twentyone : Real.exp (-21) ≤ 1 / 10 ^ 9 := by
  have h1 : (2.7 : ℝ) ≤ Real.exp 1 := le_trans (by norm_num) Real.exp_one_gt_d9.le
  have h2 : Real.exp 21 = Real.exp 1 ^ 21 := by rw [← Real.exp_nat_mul]; norm_num
  have h3 : (10 ^ 9 : ℝ) ≤ Real.exp 21 := by
    rw [h2]
    exact le_trans (by norm_num) (pow_le_pow_left₀ (by norm_num) h1 21)
  rw [Real.exp_neg, one_div]
  exact inv_anti₀ (by norm_num) h3

/-- The failure probability for `new(1000000, 100)` and 5%. -/
theorem relFail_million : relFail ((100 : Nat) * (2800 : Nat)) 14 (1 / 20) ≤ 16 / 10 ^ 9 := by
  refine (relFail_le _ (by norm_num) 14 (1 / 20) (by norm_num) (by norm_num)).trans ?_
  have h : Real.exp (-(((1 / 20 : ℚ) : ℝ) ^ 2 * ((100 : Nat) * (2800 : Nat)) / 32)) ≤ Real.exp (-21) :=
    Real.exp_le_exp.2 (by norm_num)
  have := h.trans exp_twentyone
  push_cast at this ⊢
  linarith

/-- A sketch `new(1000000, 100)` given any million non-NaN items in one batch: a rank query is off by more than 5% *of the rank itself* with
probability below `2·10⁻⁸`; C92 gives 8%. -/
theorem C163_example (xs : List (Fl K)) (hl : xs.length = 1000000) (hxs : ∀ y ∈ xs, y ≠ .nan) (x : Fl K) (hx : x ≠ .nan) :
    ((exp (runHist 1000000 100 [.addBuffer xs] >>= fun s => s.interpolateRank x)
      (fun r => if (1 / 20 : ℚ) * rank xs x < |(r : ℚ) - rank xs x| then 1 else 0) : ℚ) : ℝ) ≤ 16 / 10 ^ 9 := by
  have hB : max (2 * 100 * Nat.clog 2 (1000000 / 100)) (2 * 100) = 2800 := by decide +kernel
  have hL : Nat.clog 2 (1000000 / 100) = 14 := by decide +kernel
  have he : insItems [InsOp.addBuffer xs] = xs := by simp [insItems, InsOp.items]
  have h := C163_relative_tail (K := K) 1000000 100 (by norm_num) (by norm_num) (by norm_num) [.addBuffer xs] (by simp [InsOp.method])
    (by rw [he, hl]) (by rw [he]; exact hxs) (by simp [InsOp.fast]) x hx (1 / 20) (by norm_num)
  rw [hB, hL, he] at h
  exact h.trans relFail_million

open Classical in
/-- With probability at least `1 - 10⁻⁵` all rank queries of that sketch are at once within 15% of the rank itself. -/
theorem C164_example (xs : List (Fl K)) (hl : xs.length = 1000000) (hxs : ∀ y ∈ xs, y ≠ .nan) :
    ((exp (runHist 1000000 100 [.addBuffer xs]) (fun s => if ∀ x, x ≠ .nan → ∃ r, s.interpolateRank x = .ret r ∧
        |(r : ℚ) - rank xs x| ≤ 3 * (1 / 20) * rank xs x then 0 else 1) : ℚ) : ℝ) ≤ 1 / 10 ^ 5 := by
  have hB : max (2 * 100 * Nat.clog 2 (1000000 / 100)) (2 * 100) = 2800 := by decide +kernel
  have hL : Nat.clog 2 (1000000 / 100) = 14 := by decide +kernel
  have he : insItems [InsOp.addBuffer xs] = xs := by simp [insItems, InsOp.items]
  have h := C164_all_ranks (K := K) 1000000 100 (by norm_num) (by norm_num) (by norm_num) [.addBuffer xs] (by simp [InsOp.method])
    (by rw [he, hl]) (by rw [he]; exact hxs) (by simp [InsOp.fast]) (by rw [he]; intro h; rw [h] at hl; simp at hl) (1 / 20)
    (by norm_num) (by norm_num) 284 (by rw [he, hl, show 284 = 71 * 4 by norm_num, pow_mul]; norm_num)
  rw [hB, hL, he] at h
  have h2 := mul_le_mul_of_nonneg_left relFail_million (show (0 : ℝ) ≤ 2 * ((284 : Nat) + 1) by positivity)
  exact h.trans (h2.trans (by norm_num))

end AQ

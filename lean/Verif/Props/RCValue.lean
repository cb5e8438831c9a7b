/-
Property C94: accuracy of `RCSketch::est_value_at_quantile`, measured by the rank of the answer.

An answer `v` for the target rank `t` (that is `q · N`) is perfect when fewer than or exactly `t` items lie below `v` and at
least `t` items are `≤ v`. The theorems bound how far it can be from that.
-/
import Verif.Proofs.RCValue
import Verif.Props.RCRelative
import Verif.Proofs.TDRound

set_option linter.unusedSectionVars false
set_option linter.unusedVariables false

namespace AQ
open Spec Prog RCSketch
variable {K : Type} [Field K] [LinearOrder K] [IsStrictOrderedRing K] [FloatFmt K]

/-- The value query after a history: it returns an item, and the estimated ranks left and right of it enclose the target. -/
theorem rc_value_sides (n k : Nat) (hk : 1 ≤ k) (hk2 : k % 2 = 0) (hn : n < 2 ^ 32) (ops : List (InsOp K))
    (hm : ∀ o ∈ ops, o.method = .default) (hlen : (insItems ops).length ≤ n) (hnan : ∀ y ∈ insItems ops, y ≠ .nan)
    (hne : insItems ops ≠ []) (hex : ∀ m : Nat, m ≤ (insItems ops).length → FloatFmt.rnd (m : K) = .fin (m : K))
    (q : Fl K) (t : K) (ht : q * Fl.ofNat (insItems ops).length = .fin t) (h0 : 0 ≤ t) (h1 : t ≤ ((insItems ops).length : K)) :
    Always (runHist n k ops) (fun s => ∃ v, s.estValueAtQuantile q = .ret v ∧ v ∈ insItems ops ∧
      (∀ x, x < v → (weightedRank s.buffers x : K) ≤ t) ∧ ∀ x, v ≤ x → t ≤ (weightedRank s.buffers x : K)) := by
  have hw := hist_partially (K := K) weightInv n k ops (fun _ _ => trivial) (fun _ _ _ => by simp [W, fresh, fsum, wsum])
  have hmem := hist_partially (K := K) memInv n k ops (fun o ho => hm o ho) (fun _ => by simp [AllG, fresh])
  refine ((C07_insertions_never_panic n k hk hn ops hm hlen hnan).and
    ((rc_levels n k hk2 ops (by omega)).and (hw.and hmem))).mono ?_
  rintro s ⟨hc, hl, ⟨-, -, hw, hst⟩, -, -, hmem, -⟩
  have hw := hw (by rw [hst.2.1]; exact hk2) (by rw [hst.2.2.1]; exact bsize_mod4 hk2)
  rw [W_nil] at hw
  have hin : ∀ y ∈ s.buffers.flatten, y ∈ insItems ops := by
    intro y hy
    obtain ⟨b, hb, hy⟩ := List.mem_flatten.1 hy
    exact hmem.1 b hb y hy
  have hne' : s.buffers.flatten ≠ [] := by
    intro h
    have h2 : ∀ L : List (List (Fl K)), L.flatten = [] → wsum (L.map List.length) = 0 := by
      intro L
      induction L with
      | nil => intro _; rfl
      | cons b L ih =>
        intro h
        rw [List.flatten_cons, List.append_eq_nil_iff] at h
        show b.length + 2 * wsum (L.map List.length) = 0
        rw [ih h.2, h.1]; rfl
    rw [h2 _ h] at hw
    exact hne (List.eq_nil_of_length_eq_zero hw.symm)
  obtain ⟨v, hv1, hv2⟩ := estValue_correct s.buffers s.count q hl (fun y hy => hnan y (hin y hy)) hne'
    (by rw [hw]; exact hex) (by rw [hc, ht]; simp)
  rw [hc, ht] at hv2
  obtain ⟨h3, h4⟩ := RCValue.stat_sides hv2 h0 (by rw [hw]; exact h1)
  exact ⟨v, hv1, hin v hv2.1, h3, h4⟩

/-- C94. Whatever the coins: for even `k` at most `q·N + N·(log2(N / buffer_size) + 1) / k` items lie below the answer, and at least
`q·N − N·(log2(N / buffer_size) + 1) / k` items are `≤` the answer (`t` is `q·N` as computed). -/
theorem C94_value_rank_error (n k : Nat) (hk : 1 ≤ k) (hk2 : k % 2 = 0) (hn : n < 2 ^ 32) (ops : List (InsOp K))
    (hm : ∀ o ∈ ops, o.method = .default) (hlen : (insItems ops).length ≤ n) (hnan : ∀ y ∈ insItems ops, y ≠ .nan)
    (hne : insItems ops ≠ []) (hex : ∀ m : Nat, m ≤ (insItems ops).length → FloatFmt.rnd (m : K) = .fin (m : K))
    (q : Fl K) (t : K) (ht : q * Fl.ofNat (insItems ops).length = .fin t) (h0 : 0 ≤ t) (h1 : t ≤ ((insItems ops).length : K)) :
    Always (runHist n k ops) (fun s => Always (s.estValueAtQuantile q) (fun v =>
      ((insItems ops).countP (fun y => y < v) : K) ≤
        t + ((insItems ops).length * (Nat.log 2 ((insItems ops).length / s.bufferSize) + 1) : Nat) / k ∧
      t ≤ (rank (insItems ops) v : K) +
        ((insItems ops).length * (Nat.log 2 ((insItems ops).length / s.bufferSize) + 1) : Nat) / k)) := by
  refine ((rc_value_sides n k hk hk2 hn ops hm hlen hnan hne hex q t ht h0 h1).and
    ((C63_a_priori_rank_error n k hk2 ops hm).and (rc_levels n k hk2 ops (by omega)))).mono ?_
  rintro s ⟨⟨v, hv, hvI, hl, hr⟩, he, hL⟩
  rw [hv]
  show _ ∧ _
  have hkK : (0 : K) < k := by exact_mod_cast hk
  generalize ((insItems ops).length * (Nat.log 2 ((insItems ops).length / s.bufferSize) + 1)) = D at he ⊢
  have he' : ∀ x, x ≠ .nan → (weightedRank s.buffers x : K) ≤ rank (insItems ops) x + (D : K) / k ∧
      (rank (insItems ops) x : K) ≤ weightedRank s.buffers x + (D : K) / k := by
    intro x hx
    have h := he x hx
    rw [C17_rank_is_interpolate_rank s (by omega) x hx] at h
    obtain ⟨a1, a2⟩ := h
    have a1 : (k : K) * weightedRank s.buffers x ≤ k * rank (insItems ops) x + D := by exact_mod_cast a1
    have a2 : (k : K) * rank (insItems ops) x ≤ k * weightedRank s.buffers x + D := by exact_mod_cast a2
    constructor
    · rw [← sub_le_iff_le_add', le_div_iff₀ hkK]; linarith
    · rw [← sub_le_iff_le_add', le_div_iff₀ hkK]; linarith
  constructor
  · rcases RCValue.upper_point (K := K) (insItems ops) (t + (D : K) / k) (by positivity) with h | ⟨x, hx, hx1, hx2⟩
    · exact h v
    · by_contra hc
      push Not at hc
      have := hl x (hx2 v hc)
      have := (he' x (hnan x hx)).2
      linarith
  · have := hr v (le_refl _)
    have := (he' v (hnan v hvI)).1
    linarith

/-- The two fixed items whose estimated ranks decide whether the answer is off. -/
theorem rc_value_events (n k : Nat) (hk : 1 ≤ k) (hk2 : k % 2 = 0) (hn : n < 2 ^ 32) (ops : List (InsOp K))
    (hm : ∀ o ∈ ops, o.method = .default) (hlen : (insItems ops).length ≤ n) (hnan : ∀ y ∈ insItems ops, y ≠ .nan)
    (hne : insItems ops ≠ []) (hex : ∀ m : Nat, m ≤ (insItems ops).length → FloatFmt.rnd (m : K) = .fin (m : K))
    (q : Fl K) (t : K) (ht : q * Fl.ofNat (insItems ops).length = .fin t) (h0 : 0 ≤ t) (h1 : t ≤ ((insItems ops).length : K))
    (lo hi : K) (hhi : 0 ≤ hi) (P Q : ℚ) (hP0 : 0 ≤ P) (hQ0 : 0 ≤ Q)
    (hP : ∀ x ∈ insItems ops, hi < (rank (insItems ops) x : K) →
      exp (runHist n k ops) (fun s => if (weightedRank s.buffers x : K) ≤ t then 1 else 0) ≤ P)
    (hQ : ∀ x ∈ insItems ops, (rank (insItems ops) x : K) < lo →
      exp (runHist n k ops) (fun s => if t ≤ (weightedRank s.buffers x : K) then 1 else 0) ≤ Q) :
    exp (runHist n k ops >>= fun s => s.estValueAtQuantile q) (fun v =>
      if ((insItems ops).countP (fun y => y < v) : K) ≤ hi ∧ lo ≤ (rank (insItems ops) v : K) then 0 else 1) ≤ P + Q := by
  exact RCValue.value_events (runHist n k ops) (fun s => s.estValueAtQuantile q) (insItems ops)
    (fun x s => (weightedRank s.buffers x : K) ≤ t) (fun x s => t ≤ (weightedRank s.buffers x : K))
    (rc_value_sides n k hk hk2 hn ops hm hlen hnan hne hex q t ht h0 h1).partially lo hi hhi P Q hP0 hQ0 hP hQ

/-- C94. Relative accuracy (no fast insertions): for `0 < ε ≤ 1`, except with probability at most `10 / (k ε)²`, at most
`(1 + ε)·q·N` items lie below the answer and at least `(1 − ε)·q·N` are `≤` the answer. -/
theorem C94_value_relative (n k : Nat) (hk : 1 ≤ k) (hk2 : k % 2 = 0) (hn : n < 2 ^ 32) (ops : List (InsOp K))
    (hm : ∀ o ∈ ops, o.method = .default) (hf : ∀ o ∈ ops, o.fast = false) (hlen : (insItems ops).length ≤ n)
    (hnan : ∀ y ∈ insItems ops, y ≠ .nan) (hne : insItems ops ≠ [])
    (hex : ∀ m : Nat, m ≤ (insItems ops).length → FloatFmt.rnd (m : K) = .fin (m : K))
    (q : Fl K) (t : K) (ht : q * Fl.ofNat (insItems ops).length = .fin t) (h0 : 0 ≤ t) (h1 : t ≤ ((insItems ops).length : K))
    (ε : ℚ) (hε : 0 < ε) (hε1 : ε ≤ 1) :
    exp (runHist n k ops >>= fun s => s.estValueAtQuantile q) (fun v =>
      if ((insItems ops).countP (fun y => y < v) : K) ≤ (1 + (ε : K)) * t ∧ (1 - (ε : K)) * t ≤ (rank (insItems ops) v : K)
      then 0 else 1) ≤ 10 / (k * ε) ^ 2 := by
  have hkq : (0 : ℚ) < k := by exact_mod_cast hk
  have hεK : (0 : K) < (ε : K) := by exact_mod_cast hε
  have hε1K : (ε : K) ≤ 1 := by exact_mod_cast hε1
  have tail : ∀ x ∈ insItems ops, ∀ c : ℚ, 0 < c →
      exp (runHist n k ops) (fun s => if c * rank (insItems ops) x ≤ |(weightedRank s.buffers x : ℚ) - rank (insItems ops) x|
        then 1 else 0) ≤ 2 / (k * c) ^ 2 := by
    intro x hx c hc
    have hR : 0 < rank (insItems ops) x := List.countP_pos_iff.2 ⟨x, hx, by simp⟩
    have hRq : (0 : ℚ) < rank (insItems ops) x := by exact_mod_cast hR
    refine (RCValue.chebyshev _ _ _ (c * rank (insItems ops) x) (by positivity)
      (C92_stored_rank_relative n k hk hk2 hn ops hm hf hlen hnan x).2).trans (le_of_eq ?_)
    field_simp
  have hsplit : (10 : ℚ) / (k * ε) ^ 2 = 8 / (k * ε) ^ 2 + 2 / (k * ε) ^ 2 := by rw [← add_div]; norm_num
  rw [hsplit]
  refine rc_value_events n k hk hk2 hn ops hm hlen hnan hne hex q t ht h0 h1 ((1 - (ε : K)) * t) ((1 + (ε : K)) * t)
    (by positivity) _ _ (by positivity) (by positivity) ?_ ?_
  · -- `W ≤ t` and `(1 + ε) t < R`, so `R − W ≥ ε / 2 · R`
    intro x hx hR
    refine le_trans (exp_mono ((partially_true _).mono (fun s _ => ?_))) ((tail x hx (ε / 2) (by positivity)).trans (le_of_eq ?_))
    · split
      · rename_i hW
        rw [if_pos]
        have h2 : (ε / 2 : K) * rank (insItems ops) x ≤ rank (insItems ops) x - weightedRank s.buffers x := by
          have : (1 + (ε : K)) * weightedRank s.buffers x ≤ (1 + (ε : K)) * t := mul_le_mul_of_nonneg_left hW (by positivity)
          have hW0 : (0 : K) ≤ weightedRank s.buffers x := Nat.cast_nonneg _
          have a1 : (1 - (ε : K) / 2) * ((1 + (ε : K)) * weightedRank s.buffers x) ≤ (1 - (ε : K) / 2) * rank (insItems ops) x :=
            mul_le_mul_of_nonneg_left (this.trans hR.le) (by linarith)
          have a2 : 0 ≤ (ε : K) * (1 - ε) * weightedRank s.buffers x :=
            mul_nonneg (mul_nonneg hεK.le (by linarith)) hW0
          linarith
        have h3 : (ε / 2) * rank (insItems ops) x ≤ (rank (insItems ops) x - weightedRank s.buffers x : ℚ) := by
          have : (((ε / 2) * rank (insItems ops) x : ℚ) : K) ≤ ((rank (insItems ops) x - weightedRank s.buffers x : ℚ) : K) := by
            push_cast; exact h2
          exact_mod_cast this
        rw [abs_sub_comm]
        exact h3.trans (le_abs_self _)
      · split <;> norm_num
    · field_simp; norm_num
  · intro x hx hR
    refine le_trans (exp_mono ((partially_true _).mono (fun s _ => ?_))) (tail x hx ε hε)
    split
    · rename_i hW
      rw [if_pos]
      have h2 : (ε : K) * rank (insItems ops) x ≤ weightedRank s.buffers x - rank (insItems ops) x := by
        have a1 : (1 + (ε : K)) * rank (insItems ops) x ≤ (1 + (ε : K)) * ((1 - (ε : K)) * t) :=
          mul_le_mul_of_nonneg_left hR.le (by linarith)
        have a2 : 0 ≤ (ε : K) * ε * t := by positivity
        linarith
      have h3 : ε * rank (insItems ops) x ≤ (weightedRank s.buffers x - rank (insItems ops) x : ℚ) := by
        have : ((ε * rank (insItems ops) x : ℚ) : K) ≤ ((weightedRank s.buffers x - rank (insItems ops) x : ℚ) : K) := by
          push_cast; exact h2
        exact_mod_cast this
      exact h3.trans (le_abs_self _)
    · split <;> norm_num

/-- C94. Absolute accuracy (any mixture of fast and normal insertions): except with probability at most
`4 / (k · buffer_size · ε²)`, at most `(q + ε)·N` items lie below the answer and at least `(q − ε)·N` are `≤` the answer. -/
theorem C94_value_tail (n k : Nat) (hk : 1 ≤ k) (hk2 : k % 2 = 0) (hn : n < 2 ^ 32) (ops : List (InsOp K))
    (hm : ∀ o ∈ ops, o.method = .default) (hlen : (insItems ops).length ≤ n)
    (hnan : ∀ y ∈ insItems ops, y ≠ .nan) (hne : insItems ops ≠ [])
    (hex : ∀ m : Nat, m ≤ (insItems ops).length → FloatFmt.rnd (m : K) = .fin (m : K))
    (q : Fl K) (t : K) (ht : q * Fl.ofNat (insItems ops).length = .fin t) (h0 : 0 ≤ t) (h1 : t ≤ ((insItems ops).length : K))
    (ε : ℚ) (hε : 0 < ε) :
    exp (runHist n k ops >>= fun s => s.estValueAtQuantile q) (fun v =>
      if ((insItems ops).countP (fun y => y < v) : K) ≤ t + (ε : K) * (insItems ops).length ∧
        t - (ε : K) * (insItems ops).length ≤ (rank (insItems ops) v : K)
      then 0 else 1) ≤ 4 / (k * (max (2 * k * Nat.clog 2 (n / k)) (2 * k) : Nat) * ε ^ 2) := by
  have hkq : (0 : ℚ) < k := by exact_mod_cast hk
  have hεK : (0 : K) < (ε : K) := by exact_mod_cast hε
  have hN : (0 : ℚ) < (insItems ops).length := by exact_mod_cast List.length_pos_of_ne_nil hne
  have hB0 : (0 : ℚ) < (max (2 * k * Nat.clog 2 (n / k)) (2 * k) : Nat) := by
    have : 0 < max (2 * k * Nat.clog 2 (n / k)) (2 * k) := lt_of_lt_of_le (by omega) (le_max_right _ _)
    exact_mod_cast this
  set B : ℚ := ((max (2 * k * Nat.clog 2 (n / k)) (2 * k) : Nat) : ℚ) with hB
  have tail : ∀ x, exp (runHist n k ops) (fun s => if ε * (insItems ops).length ≤
      |(weightedRank s.buffers x : ℚ) - rank (insItems ops) x| then 1 else 0) ≤ 2 / (k * B * ε ^ 2) := by
    intro x
    refine (C62_rank_error_tail n k hk hk2 hn ops hm hlen hnan x (ε * (insItems ops).length) (by positivity)).trans (le_of_eq ?_)
    rw [← hB]
    field_simp
  have hsplit : (4 : ℚ) / (k * B * ε ^ 2) = 2 / (k * B * ε ^ 2) + 2 / (k * B * ε ^ 2) := by rw [← add_div]; norm_num
  rw [hsplit]
  refine rc_value_events n k hk hk2 hn ops hm hlen hnan hne hex q t ht h0 h1 _ _
    (by positivity) _ _ (by positivity) (by positivity) ?_ ?_
  · intro x hx hR
    refine le_trans (exp_mono ((partially_true _).mono (fun s _ => ?_))) (tail x)
    split
    · rename_i hW
      rw [if_pos]
      have h3 : ε * (insItems ops).length ≤ (rank (insItems ops) x - weightedRank s.buffers x : ℚ) := by
        have : ((ε * (insItems ops).length : ℚ) : K) ≤ ((rank (insItems ops) x - weightedRank s.buffers x : ℚ) : K) := by
          push_cast; linarith
        exact_mod_cast this
      rw [abs_sub_comm]
      exact h3.trans (le_abs_self _)
    · split <;> norm_num
  · intro x hx hR
    refine le_trans (exp_mono ((partially_true _).mono (fun s _ => ?_))) (tail x)
    split
    · rename_i hW
      rw [if_pos]
      have h3 : ε * (insItems ops).length ≤ (weightedRank s.buffers x - rank (insItems ops) x : ℚ) := by
        have : ((ε * (insItems ops).length : ℚ) : K) ≤ ((weightedRank s.buffers x - rank (insItems ops) x : ℚ) : K) := by
          push_cast; linarith
        exact_mod_cast this
      exact h3.trans (le_abs_self _)
    · split <;> norm_num

/-- The target rank as computed: in monotone rounding arithmetic that counts exactly up to `N`, `q` in `[0, 1]` has one in `[0, N]`. -/
theorem C94_target [FloatFmt.Mono K] (N : Nat) (hex : ∀ m : Nat, m ≤ N → FloatFmt.rnd (m : K) = .fin (m : K)) (q : K) (h0 : 0 ≤ q)
    (h1 : q ≤ 1) : ∃ t : K, (.fin q : Fl K) * Fl.ofNat N = .fin t ∧ 0 ≤ t ∧ t ≤ (N : K) ∧
      (FloatFmt.rnd (q * N) : Fl K) = .fin t := by
  have hN := hex N (le_refl _)
  have e : (.fin q : Fl K) * Fl.ofNat N = FloatFmt.rnd (q * N) := by
    show (.fin q : Fl K) * FloatFmt.rnd (N : K) = _
    rw [hN]; rfl
  have a1 : FloatFmt.rnd (q * N) ≤ (FloatFmt.rnd (N : K) : Fl K) :=
    FloatFmt.Mono.rnd_mono _ _ (by have : (0 : K) ≤ N := Nat.cast_nonneg _; nlinarith)
  have a0 : (FloatFmt.rnd ((0 : Nat) : K) : Fl K) ≤ FloatFmt.rnd (q * N) :=
    FloatFmt.Mono.rnd_mono _ _ (by simp; positivity)
  rw [hN] at a1
  rw [hex 0 (Nat.zero_le _)] at a0
  rw [e]
  generalize (FloatFmt.rnd (q * N) : Fl K) = r at *
  cases r with
  | fin t => exact ⟨t, rfl, by simpa using Fl.fin_le_fin.1 a0, Fl.fin_le_fin.1 a1, rfl⟩
  | nan => exact absurd a1 (by simp)
  | pinf => exact absurd a1 (by simp)
  | ninf => exact absurd a0 (by simp)

section examples
attribute [local instance] ratExact ratExact_exact

/-- 300 items into `new(1000, 20)` (buffer size 240, so the buffer has been compacted): with probability at least 9/10 the estimate
of the 10% quantile has at most 45 items below it and at least 15 not above it. -/
example : exp (runHist 1000 20 [.addBuffer (upTo 300)] >>= fun s => s.estValueAtQuantile (.fin (1 / 10) : Fl ℚ)) (fun v =>
    if (((upTo 300).countP (fun y => y < v) : Nat) : ℚ) ≤ 45 ∧ 15 ≤ (rank (upTo 300) v : ℚ) then 0 else 1) ≤ 1 / 10 := by
  have hI : insItems [(.addBuffer (upTo 300) : InsOp ℚ)] = upTo 300 := by decide +kernel
  have hl : (upTo 300 : List (Fl ℚ)).length = 300 := by decide +kernel
  have h := C94_value_relative (K := ℚ) 1000 20 (by norm_num) (by norm_num) (by norm_num) [.addBuffer (upTo 300)]
    (by simp [InsOp.method]) (by simp [InsOp.fast]) (by rw [hI, hl]; norm_num) (by rw [hI]; decide +kernel)
    (by rw [hI]; decide +kernel) (fun m _ => rfl) (.fin (1 / 10)) 30 (by rw [hI, hl]; decide +kernel) (by norm_num)
    (by rw [hI, hl]; norm_num) (1 / 2) (by norm_num) (by norm_num)
  rw [hI] at h
  norm_num at h ⊢
  exact h

/-- The exact probabilities for 16 items and `new(16, 2)`: the answer for `q = 5/8` (target rank 10) is perfect with
probability 1/2. -/
example : exp (runHist 16 2 relHist >>= fun s => s.estValueAtQuantile (.fin (5 / 8))) (fun v =>
      if (insItems relHist).countP (fun y => y < v) ≤ 10 ∧ 10 ≤ rank (insItems relHist) v then 1 else 0) = 1 / 2 := by decide +kernel
end examples

/-- 300 items in one call. -/
def valHist : List (InsOp ℚ) := [.addBuffer (upTo 300)]

section rounding
attribute [local instance] f64Fmt f64_binary f64_mono

/-- C94 in `f64`: 300 items, `q = 0.1`; at most `t + 15` items below the answer and at least `t − 15` not above it (buffer
size 240), `t` the computed `0.1 · 300`. -/
example : ∃ t : ℚ, (FloatFmt.rnd ((1 / 10 : ℚ) * (300 : Nat)) : Fl ℚ) = .fin t ∧
    Always (runHist 1000 20 valHist) (fun s => Always (s.estValueAtQuantile (.fin (1 / 10) : Fl ℚ)) (fun v =>
      ((insItems valHist).countP (fun y => y < v) : ℚ) ≤
        t + ((insItems valHist).length *
          (Nat.log 2 ((insItems valHist).length / s.bufferSize) + 1) : Nat) / (20 : Nat) ∧
      t ≤ (rank (insItems valHist) v : ℚ) +
        ((insItems valHist).length *
          (Nat.log 2 ((insItems valHist).length / s.bufferSize) + 1) : Nat) / (20 : Nat))) := by
  have hI : insItems valHist = upTo 300 := by decide +kernel
  have hnan : ∀ y ∈ insItems valHist, y ≠ .nan := by rw [hI]; decide +kernel
  have hne : insItems valHist ≠ [] := by rw [hI]; decide +kernel
  have hl : (insItems valHist).length = 300 := by decide +kernel
  have hex : ∀ m : Nat, m ≤ 300 → (FloatFmt.rnd (m : ℚ) : Fl ℚ) = .fin (m : ℚ) := fun m hm =>
    ExactCounts.rnd_nat f64_exactCounts (hm.trans (by norm_num))
  obtain ⟨t, h1, h2, h3, h4⟩ := C94_target (K := ℚ) 300 hex (1 / 10) (by norm_num) (by norm_num)
  rw [← hl] at h1 h3
  refine ⟨t, h4, ?_⟩
  have hm : ∀ o ∈ valHist, o.method = .default := by simp [valHist, InsOp.method]
  rw [← hl] at hex
  have hlen : (insItems valHist).length ≤ 1000 := by rw [hl]; norm_num
  generalize valHist = ops at *
  exact C94_value_rank_error 1000 20 (by norm_num) (by norm_num) (by norm_num) ops hm hlen hnan hne hex _ t h1 h2 h3
end rounding
end AQ

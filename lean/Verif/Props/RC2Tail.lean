/-
Properties C159 and C160: rank errors of RCSketch2 have exponentially small tails, and all ranks and quantiles are accurate at once.
-/
import Mathlib.Analysis.Complex.ExponentialBounds
import Verif.Proofs.RC2Tail
import Verif.Props.RCTail

set_option linter.unusedSectionVars false
set_option linter.unusedVariables false

namespace AQ
open Prog Spec RCSketch2
variable {K : Type} [Field K] [LinearOrder K] [IsStrictOrderedRing K] [FloatFmt K]

section
variable {sec : Nat → Nat} {w M : Nat} (k : Nat) (ops : List (InsOp K)) (h : Spec.Rc2Size sec w M (insItems ops).length)
  (hm : ∀ o ∈ ops, o.method = .default) (hlen : (insItems ops).length < 2 ^ 32) (hnan : ∀ y ∈ insItems ops, y ≠ .nan)
  (V : ℚ) (hV : ((insItems ops).length : ℚ) ^ 2 * (1 + 1 / w) ^ (2 * (M - 1)) / (3 * w * sec 0) ≤ V)
include h hm hlen hnan hV

/-- C159. The rank found for `x` is off by `d` or more with probability at most `2 exp(-d² / (2 V))`, `V` (at least) the bound of C98 on the
mean squared error. -/
theorem C159_tail (hM : M ≤ 63) (x : Fl K) (hx : x ≠ .nan) (d : ℚ) (hd : 0 ≤ d) :
    ((exp (RCSketch2.runHist sec k ops >>= fun s => s.interpolateRank x)
      (fun r => if d ≤ |(r : ℚ) - rank (insItems ops) x| then 1 else 0) : ℚ) : ℝ) ≤ 2 * Real.exp (-((d : ℝ) ^ 2 / (2 * (V : ℝ)))) := by
  obtain ⟨h1, h2⟩ := one_sided2 k ops h hm hlen hnan x d hd V hV
  have h0 : exp (RCSketch2.runHist sec k ops >>= fun s => s.interpolateRank x)
      (fun r => if d ≤ |(r : ℚ) - rank (insItems ops) x| then 1 else 0) =
      exp (RCSketch2.runHist sec k ops) (fun s => if d ≤ |(weightedRank s.buffers x : ℚ) - rank (insItems ops) x| then 1 else 0) := by
    rw [exp_bind]
    refine exp_congr ((rc2_geo k ops h).mono (fun s hs => ?_))
    rw [rc2_rank_eq s (by omega) x hx, exp_ret]
  rw [h0]
  have h3 : exp (RCSketch2.runHist sec k ops) (fun s => if d ≤ |(weightedRank s.buffers x : ℚ) - rank (insItems ops) x| then 1 else 0) ≤
      exp (RCSketch2.runHist sec k ops) (fun s => if d ≤ (((weightedRank s.buffers x : ℤ) - rank (insItems ops) x : ℤ) : ℚ) then 1 else 0) +
      exp (RCSketch2.runHist sec k ops) (fun s => if d ≤ (((rank (insItems ops) x : ℤ) - weightedRank s.buffers x : ℤ) : ℚ) then 1 else 0) := by
    rw [← exp_add]
    refine exp_mono ((partially_true _).mono (fun s _ => ?_))
    push_cast
    split
    · rename_i h
      rcases le_abs.1 h with h | h
      · rw [if_pos h]; split <;> norm_num
      · rw [if_pos (show d ≤ (rank (insItems ops) x : ℚ) - weightedRank s.buffers x by linarith)]; split <;> norm_num
    · split <;> split <;> norm_num
  have h4 : ((exp (RCSketch2.runHist sec k ops) (fun s => if d ≤ |(weightedRank s.buffers x : ℚ) - rank (insItems ops) x| then 1 else 0) : ℚ) : ℝ) ≤
      ((exp (RCSketch2.runHist sec k ops) (fun s => if d ≤ (((weightedRank s.buffers x : ℤ) - rank (insItems ops) x : ℤ) : ℚ) then 1 else 0) : ℚ) : ℝ) +
      ((exp (RCSketch2.runHist sec k ops) (fun s => if d ≤ (((rank (insItems ops) x : ℤ) - weightedRank s.buffers x : ℤ) : ℚ) then 1 else 0) : ℚ) : ℝ) := by
    exact_mod_cast h3
  linarith

open Classical in
/-- Every stored rank at once. -/
theorem rc2_all_stored (hne : insItems ops ≠ []) (m : Nat) (hm1 : 1 ≤ m) (e : ℚ) (he : 0 ≤ e) :
    ((exp (RCSketch2.runHist sec k ops) (fun s => if ∃ x, e + ((insItems ops).length : ℚ) / m ≤
      |(weightedRank s.buffers x : ℚ) - rank (insItems ops) x| then 1 else 0) : ℚ) : ℝ) ≤ 2 * m * Real.exp (-((e : ℝ) ^ 2 / (2 * (V : ℝ)))) := by
  have hc := stored_counts2 sec k ops hm
  have h1 := fun x => one_sided2 k ops h hm hlen hnan x e he V hV
  generalize insItems ops = I at *
  generalize RCSketch2.runHist sec k ops = p at *
  exact all_ranks p I hne (fun s => weightedRank s.buffers) hc m hm1 e he _ (fun x _ => (h1 x).1) (fun x _ => (h1 x).2)

open Classical in
/-- C160. All ranks at once: except with probability at most `2 m exp(-e² / (2 V))` every rank query is answered with an error below `e + N/m`. -/
theorem C160_all_ranks (hM : M ≤ 63) (hne : insItems ops ≠ []) (m : Nat) (hm1 : 1 ≤ m) (e : ℚ) (he : 0 ≤ e) :
    ((exp (RCSketch2.runHist sec k ops) (fun s => if ∀ x, x ≠ .nan → ∃ r, s.interpolateRank x = .ret r ∧
        |(r : ℚ) - rank (insItems ops) x| < e + ((insItems ops).length : ℚ) / m then 0 else 1) : ℚ) : ℝ) ≤
      2 * m * Real.exp (-((e : ℝ) ^ 2 / (2 * (V : ℝ)))) := by
  refine le_trans ?_ (rc2_all_stored k ops h hm hlen hnan V hV hne m hm1 e he)
  rw [Rat.cast_le]
  refine exp_mono ((rc2_geo k ops h).mono (fun s hs => ?_))
  split
  · split <;> norm_num
  · rename_i hc
    rw [if_pos]
    by_contra hall
    push Not at hall
    exact hc (fun x hx => ⟨_, rc2_rank_eq s (by omega) x hx, hall x⟩)

open Classical in
/-- C160. All quantiles at once: except with that probability every value query, for `q·N = r` as computed, returns one of the items, with
fewer than `r + e + N/m` items below it and more than `r - 2 (e + N/m)` not above it. -/
theorem C160_all_values (hM : M ≤ 30) (hne : insItems ops ≠ [])
    (hex : ∀ m : Nat, (m : ℚ) ≤ (insItems ops).length * (1 + 1 / w) ^ M → FloatFmt.rnd (m : K) = .fin (m : K))
    (m : Nat) (hm1 : 1 ≤ m) (e : ℚ) (he : 0 ≤ e) :
    ((exp (RCSketch2.runHist sec k ops) (fun s => if ∀ (q : Fl K) (r : K), q * Fl.ofNat (insItems ops).length = .fin r → 0 ≤ r →
        r ≤ ((insItems ops).length : K) → ∃ v, s.estValueAtQuantile q = .ret v ∧ v ∈ insItems ops ∧
          ((insItems ops).countP (fun y => y < v) : K) < r + ((e + ((insItems ops).length : ℚ) / m : ℚ) : K) ∧
          r - 2 * ((e + ((insItems ops).length : ℚ) / m : ℚ) : K) < (rank (insItems ops) v : K) then 0 else 1) : ℚ) : ℝ) ≤
      2 * m * Real.exp (-((e : ℝ) ^ 2 / (2 * (V : ℝ)))) := by
  refine le_trans ?_ (rc2_all_stored k ops h hm hlen hnan V hV hne m hm1 e he)
  have hNq : (0 : ℚ) < (insItems ops).length := by exact_mod_cast List.length_pos_of_ne_nil hne
  have hmq : (0 : ℚ) < m := by exact_mod_cast hm1
  set D : ℚ := e + ((insItems ops).length : ℚ) / m with hD
  have hD0 : 0 < D := by rw [hD]; positivity
  have hD0K : (0 : K) < (D : K) := by exact_mod_cast hD0
  have hv : Partially (RCSketch2.runHist sec k ops) (fun s => ∀ (i : Fl K × K), i.1 * Fl.ofNat (insItems ops).length = .fin i.2 → 0 ≤ i.2 →
      ∃ v, s.estValueAtQuantile i.1 = .ret v ∧ v ∈ insItems ops ∧ (∀ x, x < v → (weightedRank s.buffers x : K) ≤ i.2) ∧
      ∀ x, v ≤ x → min i.2 (weightedRank s.buffers .nan : K) ≤ (weightedRank s.buffers x : K)) := by
    refine Prog.partially_forall (fun i => ?_)
    by_cases hc : i.1 * Fl.ofNat (insItems ops).length = .fin i.2 ∧ 0 ≤ i.2
    · exact (rc2_value_sides k ops h hM hm hlen hnan hne hex i.1 i.2 hc.1 hc.2).partially.mono (fun s hs _ _ => hs)
    · exact (partially_true _).mono (fun s _ a b => absurd ⟨a, b⟩ hc)
  rw [Rat.cast_le]
  refine exp_mono (hv.mono (fun s hs => ?_))
  split
  · split <;> norm_num
  · rename_i hc
    rw [if_pos]
    by_contra hall
    push Not at hall
    refine hc (fun q r hr h0 h1 => ?_)
    obtain ⟨v, hv1, hv2, hl, hr'⟩ := hs (q, r) hr h0
    have bound : ∀ x, (rank (insItems ops) x : K) < weightedRank s.buffers x + (D : K) ∧
        (weightedRank s.buffers x : K) < rank (insItems ops) x + (D : K) := by
      intro x
      obtain ⟨a1, a2⟩ := abs_lt.1 (hall x)
      constructor
      · have : (rank (insItems ops) x : ℚ) < weightedRank s.buffers x + D := by linarith
        have h2 : (((rank (insItems ops) x : ℚ)) : K) < ((weightedRank s.buffers x + D : ℚ) : K) := by exact_mod_cast this
        push_cast at h2; exact h2
      · have : (weightedRank s.buffers x : ℚ) < rank (insItems ops) x + D := by linarith
        have h2 : (((weightedRank s.buffers x : ℚ)) : K) < ((rank (insItems ops) x + D : ℚ) : K) := by exact_mod_cast this
        push_cast at h2; exact h2
    refine ⟨v, hv1, hv2, ?_, ?_⟩
    · by_cases hz : (insItems ops).filter (fun y => decide (y < v)) = []
      · rw [List.countP_eq_length_filter, hz]
        simp only [List.length_nil, Nat.cast_zero]
        have := h0; linarith
      · obtain ⟨f, hf1, hf2⟩ := exists_max _ hz
        obtain ⟨hfI, hfv⟩ := List.mem_filter.1 hf1
        have hfv : f < v := by simpa using hfv
        have hcount : (insItems ops).countP (fun y => y < v) = rank (insItems ops) f := by
          refine List.countP_congr (fun y hy => ?_)
          simp only [decide_eq_true_eq]
          exact ⟨fun h => hf2 y (List.mem_filter.2 ⟨hy, by simpa using h⟩), fun h => lt_of_le_of_lt h hfv⟩
        have h2 := (bound f).1
        have h3 := hl f hfv
        have h4 : ((insItems ops).countP (fun y => decide (y < v)) : K) = (rank (insItems ops) f : K) := by exact_mod_cast hcount
        rw [h4]; linarith
    · have h2 := (bound v).2
      have h3 := hr' v le_rfl
      have h4 := (bound .nan).1
      rw [rank_nan] at h4
      have h5 : r - (D : K) ≤ min r (weightedRank s.buffers .nan : K) := le_min (by linarith) (by linarith)
      have h6 := h5.trans h3
      linarith

end

/-! ### In terms of `k` -/

theorem expo2 (N k c : ℚ) (hN : 0 < N) (hk : 0 < k) : (((c * N : ℚ) : ℝ) ^ 2 / (2 * ((3 * (N / k) ^ 2 : ℚ) : ℝ))) = ((k : ℝ) * c) ^ 2 / 6 := by
  have h1 : (N : ℝ) ≠ 0 := by exact_mod_cast hN.ne'
  have h2 : (k : ℝ) ≠ 0 := by exact_mod_cast hk.ne'
  push_cast
  field_simp
  norm_num
  ring

section
variable {sec : Nat → Nat} {k : Nat} (hk : Spec.Sections sec k) (ops : List (InsOp K)) (hm : ∀ o ∈ ops, o.method = .default)
  (hlen : (insItems ops).length < 2 ^ 32) (hnan : ∀ y ∈ insItems ops, y ≠ .nan) (hne : insItems ops ≠ [])
include hk hm hlen hnan hne

/-- C159 in terms of `k` (section sizes of exact arithmetic or of the code, `sections_real`, `sections_f32`): a rank query is off by `ε N` or
more with probability at most `2 exp(-(k ε)² / 6)`. -/
theorem C159_tail_k (x : Fl K) (hx : x ≠ .nan) (ε : ℚ) (hε : 0 ≤ ε) :
    ((exp (RCSketch2.runHist sec k ops >>= fun s => s.interpolateRank x)
      (fun r => if ε * (insItems ops).length ≤ |(r : ℚ) - rank (insItems ops) x| then 1 else 0) : ℚ) : ℝ) ≤
      2 * Real.exp (-(((k : ℝ) * (ε : ℝ)) ^ 2 / 6)) := by
  have hN : (0 : ℚ) < (insItems ops).length := by exact_mod_cast List.length_pos_of_ne_nil hne
  have hkq : (0 : ℚ) < k := by exact_mod_cast (by have := hk.base; omega : 0 < k)
  have h := C159_tail k ops (hk.size hlen) hm hlen hnan _ (rc2_k_bounds hk _).2 (by norm_num) x hx (ε * (insItems ops).length) (by positivity)
  rw [expo2 _ _ _ hN hkq] at h
  exact_mod_cast h

theorem expo2m (m : Nat) (hm1 : 1 ≤ m) : (((1 / m * (insItems ops).length : ℚ) : ℝ) ^ 2 /
    (2 * ((3 * (((insItems ops).length : ℚ) / k) ^ 2 : ℚ) : ℝ))) = (k : ℝ) ^ 2 / (6 * (m : ℝ) ^ 2) := by
  have hN : (0 : ℚ) < (insItems ops).length := by exact_mod_cast List.length_pos_of_ne_nil hne
  have hkq : (0 : ℚ) < k := by exact_mod_cast (by have := hk.base; omega : 0 < k)
  have hmR : (0 : ℝ) < m := by exact_mod_cast hm1
  rw [expo2 _ _ _ hN hkq]
  push_cast
  field_simp

open Classical in
/-- C160 in terms of `k`: except with probability at most `2 m exp(-(k/m)² / 6)` every rank query is off by less than `2 N / m`. -/
theorem C160_all_ranks_k (m : Nat) (hm1 : 1 ≤ m) :
    ((exp (RCSketch2.runHist sec k ops) (fun s => if ∀ x, x ≠ .nan → ∃ r, s.interpolateRank x = .ret r ∧
        |(r : ℚ) - rank (insItems ops) x| < 2 * ((insItems ops).length : ℚ) / m then 0 else 1) : ℚ) : ℝ) ≤
      2 * m * Real.exp (-((k : ℝ) ^ 2 / (6 * (m : ℝ) ^ 2))) := by
  have h := C160_all_ranks k ops (hk.size hlen) hm hlen hnan _ (rc2_k_bounds hk _).2 (by norm_num) hne m hm1
    (1 / m * (insItems ops).length) (by positivity)
  rw [expo2m hk ops hm hlen hnan hne m hm1] at h
  have e1 : (1 / m * (insItems ops).length + (insItems ops).length / m : ℚ) = 2 * ((insItems ops).length : ℚ) / m := by ring
  rw [e1] at h
  exact h

open Classical in
/-- C160 for value queries in terms of `k`: except with that probability every `est_value_at_quantile(q)` returns an item with fewer than
`r + 2 N / m` items below it and more than `r - 4 N / m` not above it, `r = q·N` as computed. -/
theorem C160_all_values_k (hex : ∀ m : Nat, m ≤ 2 * (insItems ops).length → FloatFmt.rnd (m : K) = .fin (m : K)) (m : Nat) (hm1 : 1 ≤ m) :
    ((exp (RCSketch2.runHist sec k ops) (fun s => if ∀ (q : Fl K) (r : K), q * Fl.ofNat (insItems ops).length = .fin r → 0 ≤ r →
        r ≤ ((insItems ops).length : K) → ∃ v, s.estValueAtQuantile q = .ret v ∧ v ∈ insItems ops ∧
          ((insItems ops).countP (fun y => y < v) : K) < r + ((2 * ((insItems ops).length : ℚ) / m : ℚ) : K) ∧
          r - 2 * ((2 * ((insItems ops).length : ℚ) / m : ℚ) : K) < (rank (insItems ops) v : K) then 0 else 1) : ℚ) : ℝ) ≤
      2 * m * Real.exp (-((k : ℝ) ^ 2 / (6 * (m : ℝ) ^ 2))) := by
  have h := C160_all_values k ops (hk.size hlen) hm hlen hnan _ (rc2_k_bounds hk _).2 (by norm_num) hne ?_ m hm1
    (1 / m * (insItems ops).length) (by positivity)
  · rw [expo2m hk ops hm hlen hnan hne m hm1] at h
    have e1 : (1 / m * (insItems ops).length + (insItems ops).length / m : ℚ) = 2 * ((insItems ops).length : ℚ) / m := by ring
    rw [e1] at h
    exact h
  · intro m hm'
    refine hex m ?_
    have hw := secLow_ge k
    have h3 : 1 + 1 / (secLow k : ℚ) ≤ 1 + 1 / 64 := by
      have := one_div_le_one_div_of_le (by norm_num : (0 : ℚ) < 64) hw
      linarith
    have h4 : (1 + 1 / (secLow k : ℚ)) ^ 22 ≤ 2 :=
      (pow_le_pow_left₀ (by positivity) h3 22).trans (by norm_num)
    have h5 := mul_le_mul_of_nonneg_left h4 (Nat.cast_nonneg (α := ℚ) (insItems ops).length)
    have : (m : ℚ) ≤ ((2 * (insItems ops).length : Nat) : ℚ) := by push_cast; linarith
    exact_mod_cast this

end

/-! ### Concrete cases -/

/-- `new(1000)`, section sizes as the code computes them, any million non-NaN items in one batch: a rank query is off by 1% or more with
probability at most `10⁻⁶` (C98 gives 0.03). -/
theorem C159_example (xs : List (Fl K)) (hl : xs.length = 1000000) (hxs : ∀ y ∈ xs, y ≠ .nan) (x : Fl K) (hx : x ≠ .nan) :
    ((exp (RCSketch2.runHist (f32Sec 1000) 1000 [.addBuffer xs] >>= fun s => s.interpolateRank x)
      (fun r => if (10000 : ℚ) ≤ |(r : ℚ) - rank xs x| then 1 else 0) : ℚ) : ℝ) ≤ 1 / 10 ^ 6 := by
  have he : insItems [InsOp.addBuffer xs] = xs := by simp [insItems, InsOp.items]
  have h := C159_tail_k (K := K) (sections_f32 (k := 1000) (by norm_num) (by norm_num)) [.addBuffer xs] (by simp [InsOp.method])
    (by rw [he, hl]; norm_num) (by rw [he]; exact hxs) (by rw [he]; intro h; rw [h] at hl; simp at hl) x hx (1 / 100) (by norm_num)
  rw [he, hl] at h
  have e1 : (1 / 100 : ℚ) * ((1000000 : Nat) : ℚ) = 10000 := by norm_num
  rw [e1] at h
  refine h.trans ?_
  have h1 : (2.7 : ℝ) ≤ Real.exp 1 := le_trans (by norm_num) Real.exp_one_gt_d9.le
  have h2 : Real.exp 16 = Real.exp 1 ^ 16 := by rw [← Real.exp_nat_mul]; norm_num
  have h3 : (2 * 10 ^ 6 : ℝ) ≤ Real.exp 16 := by
    rw [h2]
    exact le_trans (by norm_num) (pow_le_pow_left₀ (by norm_num) h1 16)
  have h4 : Real.exp (-((((1000 : Nat) : ℝ) * (((1 / 100 : ℚ)) : ℝ)) ^ 2 / 6)) ≤ Real.exp (-16) := Real.exp_le_exp.2 (by push_cast; norm_num)
  have h5 : Real.exp (-16) ≤ (2 * 10 ^ 6)⁻¹ := by rw [Real.exp_neg]; exact inv_anti₀ (by norm_num) h3
  have h6 := h4.trans h5
  norm_num at h6 ⊢
  linarith

open Classical in
/-- `new(1000)`, section sizes as the code computes them, any million non-NaN items: except with probability at most `10⁻⁴` all rank queries
whatsoever are answered within 2%. -/
theorem C160_example (xs : List (Fl K)) (hl : xs.length = 1000000) (hxs : ∀ y ∈ xs, y ≠ .nan) :
    ((exp (RCSketch2.runHist (f32Sec 1000) 1000 [.addBuffer xs]) (fun s => if ∀ x, x ≠ .nan → ∃ r, s.interpolateRank x = .ret r ∧
        |(r : ℚ) - rank xs x| < 20000 then 0 else 1) : ℚ) : ℝ) ≤ 1 / 10 ^ 4 := by
  have he : insItems [InsOp.addBuffer xs] = xs := by simp [insItems, InsOp.items]
  have h := C160_all_ranks_k (K := K) (sections_f32 (k := 1000) (by norm_num) (by norm_num)) [.addBuffer xs] (by simp [InsOp.method])
    (by rw [he, hl]; norm_num) (by rw [he]; exact hxs) (by rw [he]; intro h; rw [h] at hl; simp at hl) 100 (by norm_num)
  rw [he, hl] at h
  have e1 : 2 * ((1000000 : Nat) : ℚ) / ((100 : Nat) : ℚ) = 20000 := by norm_num
  rw [e1] at h
  refine h.trans ?_
  have h1 : (2.7 : ℝ) ≤ Real.exp 1 := le_trans (by norm_num) Real.exp_one_gt_d9.le
  have h2 : Real.exp 16 = Real.exp 1 ^ 16 := by rw [← Real.exp_nat_mul]; norm_num
  have h3 : (2 * 10 ^ 6 : ℝ) ≤ Real.exp 16 := by
    rw [h2]
    exact le_trans (by norm_num) (pow_le_pow_left₀ (by norm_num) h1 16)
  have h4 : Real.exp (-(((1000 : Nat) : ℝ) ^ 2 / (6 * ((100 : Nat) : ℝ) ^ 2))) ≤ Real.exp (-16) := Real.exp_le_exp.2 (by push_cast; norm_num)
  have h5 : Real.exp (-16) ≤ (2 * 10 ^ 6)⁻¹ := by rw [Real.exp_neg]; exact inv_anti₀ (by norm_num) h3
  have h6 := h4.trans h5
  norm_num at h6 ⊢
  linarith

end AQ

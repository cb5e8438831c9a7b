/-
C121: the buffer size of an RCSketch as computed in floating point, and the sketch that results.
-/
import Mathlib.Data.Int.Log
import Mathlib.Analysis.SpecialFunctions.Log.Base
import Mathlib.Analysis.SpecialFunctions.Log.Deriv
import Mathlib.Data.Rat.Floor
import Verif.Proofs.RCSized
import Verif.Props.RCCapacity
import Verif.Props.RCSketch

set_option linter.unusedSectionVars false
set_option linter.unusedVariables false

namespace AQ.Spec
variable {K : Type} [Field K] [LinearOrder K] [IsStrictOrderedRing K] [FloatFmt K]

/-- What every usable base-2 logarithm satisfies: it is monotone and exact for powers of two. -/
structure Log2Like (lg : K → K) : Prop where
  mono : ∀ a b : K, 0 < a → a ≤ b → lg a ≤ lg b
  pow : ∀ j : Nat, lg (2 ^ j) = j

/-- A base-2 logarithm of relative accuracy `ε`, exact for powers of two. -/
structure Log2Near (ε : ℝ) (lg : ℚ → ℚ) : Prop where
  near : ∀ a : ℚ, 0 < a → |(lg a : ℝ) - Real.logb 2 a| ≤ ε * |Real.logb 2 a|
  pow : ∀ j : Nat, lg (2 ^ j) = j

end AQ.Spec

namespace AQ
open Prog Spec
variable {K : Type} [Field K] [LinearOrder K] [IsStrictOrderedRing K] [FloatFmt K]
namespace RCSketch

section
variable [FloorRing K]

/-- The size once the rounded-up logarithm is known. -/
theorem bufferSizeIn_of_ceil [FloatFmt.Mono K] {N n k c : Nat} {lg : K → K} {y : K} (hN : ExactCounts K N) (hk : k ≠ 0)
    (hy : FloatFmt.rnd ((n / k : ℕ) : K) = .fin y) (hy0 : 0 < y) (hc : ⌈lg y⌉ = (c : ℤ)) (hcN : 2 * k * c ≤ N) (hkN : 2 * k ≤ N)
    (h64 : 2 * k * c < 2 ^ 64) : calcBufferSizeIn lg n k = .ret (max (2 * k * c) (2 * k)) := by
  unfold calcBufferSizeIn
  rw [if_neg hk]
  have e1 : (Fl.ofNat (n / k) : Fl K) = .fin y := hy
  have e2 : (Fl.ofNat k : Fl K) = .fin (k : K) := hN.rnd_nat (by omega)
  have e3 : (Fl.lit 2 : Fl K) * .fin (k : K) = .fin ((2 * k : ℕ) : K) := by
    rw [lit_two, Fl.mul_fin]
    have : (2 : K) * k = ((2 * k : ℕ) : K) := by push_cast; ring
    rw [this]; exact hN.rnd_nat hkN
  have e4 : Fl.fceil (Fl.log2 lg (.fin y)) = .fin ((c : ℕ) : K) := by
    simp only [Fl.log2, if_neg (not_lt.2 hy0.le), if_neg hy0.ne', Fl.fceil, hc]
    simp
  rw [e1, e2, e3, e4, Fl.mul_fin]
  have e5 : ((2 * k : ℕ) : K) * (c : ℕ) = ((2 * k * c : ℕ) : K) := by push_cast; ring
  rw [e5]
  have e6 : FloatFmt.rnd ((2 * k * c : ℕ) : K) = .fin ((2 * k * c : ℕ) : K) := hN.rnd_nat hcN
  rw [e6, TDigest.toUsize_nat h64]
  rfl

/-- The size when there are fewer inputs than `k`. -/
theorem bufferSizeIn_zero [FloatFmt.Mono K] {N n k : Nat} {lg : K → K} (hN : ExactCounts K N) (hk : k ≠ 0) (h0 : n / k = 0)
    (hkN : 2 * k ≤ N) : calcBufferSizeIn lg n k = .ret (2 * k) := by
  unfold calcBufferSizeIn
  rw [if_neg hk, h0]
  have e1 : (Fl.ofNat 0 : Fl K) = .fin 0 := by
    have := FloatFmt.Mono.rnd_zero (K := K)
    simpa [Fl.ofNat] using this
  have e2 : (Fl.ofNat k : Fl K) = .fin (k : K) := hN.rnd_nat (by omega)
  have e3 : (Fl.lit 2 : Fl K) * .fin (k : K) = .fin ((2 * k : ℕ) : K) := by
    rw [lit_two, Fl.mul_fin]
    have : (2 : K) * k = ((2 * k : ℕ) : K) := by push_cast; ring
    rw [this]; exact hN.rnd_nat hkN
  have hpos : (0 : K) < ((2 * k : ℕ) : K) := by exact_mod_cast (by omega : 0 < 2 * k)
  rw [e1, e2, e3]
  have e4 : Fl.fceil (Fl.log2 lg (.fin (0 : K))) = .ninf := by simp [Fl.log2, Fl.fceil]
  rw [e4]
  have e5 : Fl.toUsize ((.fin ((2 * k : ℕ) : K) : Fl K) * .ninf) = none := by
    have : ((.fin ((2 * k : ℕ) : K) : Fl K) * .ninf) = Fl.signInf (-((2 * k : ℕ) : K)) := rfl
    rw [this]
    generalize -((2 * k : ℕ) : K) = z
    unfold Fl.signInf
    split
    · rfl
    · split <;> rfl
  rw [e5]
  simp

/-- C121. With any monotone logarithm that is exact for powers of two the computed buffer size is `max (2*k*c) (2*k)` where `c` is
`⌈log2 (n/k)⌉` or one less. -/
theorem C121_size [FloatFmt.Mono K] {N n k : Nat} {lg : K → K} (hN : ExactCounts K N)
    (hpow : ∀ j : Nat, j ≤ 64 → FloatFmt.rnd (2 ^ j : K) = .fin (2 ^ j)) (hk : k ≠ 0) (hn : n < 2 ^ 64) (hkN : 130 * k ≤ N)
    (hk64 : 130 * k < 2 ^ 64) (hlg : Log2Like lg) :
    ∃ c : Nat, c ≤ Nat.clog 2 (n / k) ∧ Nat.clog 2 (n / k) ≤ c + 1 ∧
      calcBufferSizeIn lg n k = .ret (max (2 * k * c) (2 * k)) := by
  generalize hm : n / k = m at *
  have hm64 : m < 2 ^ 64 := by rw [← hm]; exact lt_of_le_of_lt (Nat.div_le_self _ _) hn
  have hL : Nat.clog 2 m ≤ 64 := by rw [Nat.clog_le_iff_le_pow (by norm_num)]; exact hm64.le
  rcases Nat.lt_or_ge m 2 with h2 | h2
  · have hL0 : Nat.clog 2 m = 0 := Nat.clog_of_right_le_one (by omega) 2
    refine ⟨0, Nat.zero_le _, by omega, ?_⟩
    rcases Nat.eq_zero_or_pos m with h0 | h0
    · have := bufferSizeIn_zero (lg := lg) hN hk (by rw [hm]; exact h0) (by omega)
      simpa using this
    · have h1 : m = 1 := by omega
      refine bufferSizeIn_of_ceil hN hk (y := 1) ?_ one_pos ?_ (by omega) (by omega) (by omega)
      · rw [hm, h1]; simpa using FloatFmt.Mono.rnd_one (K := K)
      · have := hlg.pow 0
        rw [pow_zero] at this
        rw [this]; simp
  · have hL1 : 1 ≤ Nat.clog 2 m := Nat.clog_pos (by norm_num) h2
    have hle : m ≤ 2 ^ Nat.clog 2 m := Nat.le_pow_clog (by norm_num) m
    have hlt : 2 ^ (Nat.clog 2 m - 1) < m := Nat.pow_pred_clog_lt_self (by norm_num) (by omega)
    have hleK : (m : K) ≤ 2 ^ Nat.clog 2 m := by exact_mod_cast hle
    have hltK : (2 : K) ^ (Nat.clog 2 m - 1) ≤ m := by exact_mod_cast hlt.le
    obtain ⟨y, hy, hy1, hy2⟩ := rnd_between (hpow (Nat.clog 2 m - 1) (by omega)) (hpow (Nat.clog 2 m) hL) hltK hleK
    have hy0 : 0 < y := lt_of_lt_of_le (by positivity) hy1
    have l1 := hlg.mono _ _ (by positivity) hy1
    have l2 := hlg.mono _ _ hy0 hy2
    rw [hlg.pow] at l1 l2
    have c1 : ⌈lg y⌉ ≤ (Nat.clog 2 m : ℤ) := Int.ceil_le.2 (by exact_mod_cast l2)
    have c0 : ((Nat.clog 2 m - 1 : ℕ) : ℤ) ≤ ⌈lg y⌉ := by
      have : (((Nat.clog 2 m - 1 : ℕ) : ℤ) : K) ≤ (⌈lg y⌉ : K) := by
        push_cast; exact l1.trans (Int.le_ceil _)
      exact_mod_cast this
    obtain ⟨c, hc⟩ : ∃ c : Nat, ⌈lg y⌉ = (c : ℤ) := ⟨⌈lg y⌉.toNat, by omega⟩
    rw [hc] at c0 c1
    have hcc : c ≤ 64 := by omega
    have hkc : 2 * k * c ≤ 2 * k * 64 := Nat.mul_le_mul_left _ hcc
    exact ⟨c, by omega, by omega, bufferSizeIn_of_ceil hN hk (y := y) (by rw [hm]; exact hy) hy0 hc (by omega) (by omega) (by omega)⟩

/-- A sketch with the computed size is one with the exact size for some `n' ≤ n` with `n < 2 n' + 2 k`, except for the field `input_length`
(which nothing reads): every property of `runHist` about outcomes holds for the code's size. -/
theorem C121_transfer [FloatFmt.Mono K] {N n k : Nat} {lg : K → K} (hN : ExactCounts K N)
    (hpow : ∀ j : Nat, j ≤ 64 → FloatFmt.rnd (2 ^ j : K) = .fin (2 ^ j)) (hk : k ≠ 0) (hn : n < 2 ^ 64) (hkN : 130 * k ≤ N)
    (hk64 : 130 * k < 2 ^ 64) (hlg : Log2Like lg) :
    ∃ n', n' ≤ n ∧ n < 2 * n' + 2 * k ∧ ∀ ops : List (InsOp K),
      runHistIn lg n k ops = (runHist n' k ops >>= fun s => .ret { s with inputLength := n }) := by
  obtain ⟨c, h1, h2, h3⟩ := C121_size (n := n) hN hpow hk hn hkN hk64 hlg
  have hk0 : 0 < k := Nat.pos_of_ne_zero hk
  have key : ∀ n', bsize n' k = max (2 * k * c) (2 * k) → ∀ ops : List (InsOp K),
      runHistIn lg n k ops = (runHist n' k ops >>= fun s => .ret { s with inputLength := n }) := by
    intro n' hb ops
    have a : (newIn lg n k : Prog (RCSketch K)) = .ret ((fresh n' k).withLen n) := by
      unfold newIn
      rw [h3, bind_ret, ← hb]; rfl
    show (newIn lg n k >>= fun s => s.execOps ops) = ((new n' k >>= fun s => s.execOps ops) >>= _)
    have b : (new n' k : Prog (RCSketch K)) = .ret (fresh n' k) := by simp [new, calcBufferSize, hk, fresh, bsize]
    rw [a, b, bind_ret, bind_ret, execOps_withLen]
    rfl
  by_cases e : Nat.clog 2 (n / k) = c
  · exact ⟨n, le_refl _, by omega, key n (by rw [bsize, e])⟩
  · have e' : Nat.clog 2 (n / k) = c + 1 := by omega
    have hm2 : 2 ≤ n / k := by
      by_contra h
      rw [Nat.clog_of_right_le_one (by omega)] at e'; omega
    have hlt : 2 ^ c < n / k := by
      have := Nat.pow_pred_clog_lt_self (b := 2) (by norm_num) (x := n / k) (by omega)
      rwa [e'] at this
    have hle : n / k ≤ 2 ^ (c + 1) := by rw [← e']; exact Nat.le_pow_clog (by norm_num) _
    refine ⟨k * 2 ^ c, ?_, ?_, key _ ?_⟩
    · have := Nat.mul_le_of_le_div k (2 ^ c) n hlt.le
      rwa [Nat.mul_comm] at this
    · have h5 : n < (n / k + 1) * k := by
        have := Nat.lt_div_mul_add (a := n) hk0
        rw [Nat.add_mul, Nat.one_mul]; exact this
      have h6 : (n / k + 1) * k ≤ (2 ^ (c + 1) + 1) * k := Nat.mul_le_mul_right _ (by omega)
      have h7 : (2 ^ (c + 1) + 1) * k = 2 * (k * 2 ^ c) + k := by ring
      omega
    · rw [bsize, Nat.mul_div_cancel_left _ hk0, Nat.clog_pow 2 c (by norm_num)]

/-- C05, C06, C09 for the size as computed: the count is exact, buffers stay below the capacity, and an estimated rank is off by at most
the weighted number of compactions. -/
theorem C121_outcomes [FloatFmt.Mono K] {N n k : Nat} {lg : K → K} (hN : ExactCounts K N)
    (hpow : ∀ j : Nat, j ≤ 64 → FloatFmt.rnd (2 ^ j : K) = .fin (2 ^ j)) (hk : k ≠ 0) (hn : n < 2 ^ 64) (hkN : 130 * k ≤ N)
    (hk64 : 130 * k < 2 ^ 64) (hlg : Log2Like lg) (ops : List (InsOp K)) (hm : ∀ o ∈ ops, o.method = .default) :
    Partially (runHistIn lg n k ops) (fun s => Digest.count s = .ret (insItems ops).length ∧ s.inputLength = n ∧
      (∀ b ∈ s.buffers, b.length < s.bufferSize) ∧
      ∀ x, x ≠ .nan → Partially (s.interpolateRank x) (fun r =>
        r ≤ rank (insItems ops) x + wsum s.compactions ∧ rank (insItems ops) x ≤ r + wsum s.compactions)) := by
  obtain ⟨n', -, -, h⟩ := C121_transfer (n := n) hN hpow hk hn hkN hk64 hlg
  rw [h ops, partially_bind]
  refine (((C05_count_exact n' k ops).and (C06_buffers_below_capacity n' k ops)).and (C09_rank_error_bound n' k ops hm)).mono ?_
  rintro s ⟨⟨h1, h2⟩, h3⟩
  exact ⟨h1, rfl, h2.1, h3⟩

/-- C07 for the size as computed: within the declared length insertions never panic, whichever of the two sizes the logarithm gives. -/
theorem C121_never_panics [FloatFmt.Mono K] {N n k : Nat} {lg : K → K} (hN : ExactCounts K N)
    (hpow : ∀ j : Nat, j ≤ 64 → FloatFmt.rnd (2 ^ j : K) = .fin (2 ^ j)) (hk : k ≠ 0) (hn : n < 2 ^ 32) (hkN : 130 * k ≤ N)
    (hk64 : 130 * k < 2 ^ 64) (hlg : Log2Like lg) (ops : List (InsOp K)) (hm : ∀ o ∈ ops, o.method = .default)
    (hlen : (insItems ops).length ≤ n) (hnan : ∀ y ∈ insItems ops, y ≠ .nan) :
    Always (runHistIn lg n k ops) (fun s => s.count = (insItems ops).length) := by
  obtain ⟨c, h1, h2, h5⟩ := C121_size (n := n) hN hpow hk (by omega) hkN hk64 hlg
  have hL : max 1 c ≠ 0 := by have := le_max_left 1 c; omega
  have hB : max (2 * k * c) (2 * k) = 2 * k * max 1 c := by
    rcases Nat.eq_zero_or_pos c with h | h
    · rw [h]; simp
    · rw [Nat.max_eq_left (Nat.le_mul_of_pos_right _ h), Nat.max_eq_right h]
  have hrun : (runHistIn lg n k ops : Prog (RCSketch K)) = (freshB n k (2 * k * max 1 c)).execOps ops := by
    show (newIn lg n k >>= fun s => s.execOps ops) = _
    unfold newIn
    rw [h5, bind_ret, hB]; rfl
  have hcap : n < capacityB k (max 1 c) := by
    have hk0 : 0 < k := Nat.pos_of_ne_zero hk
    have h6 : n / k ≤ 2 ^ (c + 1) := (Nat.le_pow_clog (by norm_num) _).trans (Nat.pow_le_pow_right (by norm_num) h2)
    have h7 : n / k ≤ 2 * 2 ^ max 1 c := by
      refine h6.trans ?_
      rw [pow_succ, Nat.mul_comm]
      exact Nat.mul_le_mul_left _ (Nat.pow_le_pow_right (by norm_num) (le_max_right _ _))
    exact lt_capacityB hk0 hL hn h7
  have hal := freshB_always (K := K) (n := n) (G := (· ≠ .nan)) hk hL ops
    (fun o ho => by rw [hm o ho]; exact goodFor_default (fun _ h => h)) (by omega) hnan
  rw [← hrun] at hal
  have hout := C121_outcomes (n := n) hN hpow hk (by omega) hkN hk64 hlg ops hm
  refine (hal.and hout).mono (fun s h => ?_)
  have : (Prog.ret s.count : Prog Nat) = .ret (insItems ops).length := h.2.1
  simpa using this

end

/-! ### The exact size for accurate logarithms -/

theorem logb_lower {j : Nat} {m : ℝ} (h : 2 ^ j + 1 ≤ m) : (j : ℝ) + 1 / 2 ^ (j + 1) ≤ Real.logb 2 m := by
  have hp : (0 : ℝ) < 2 ^ j := by positivity
  have h2 : (0 : ℝ) < Real.log 2 := Real.log_pos (by norm_num)
  have h21 : Real.log 2 ≤ 1 := by have := Real.log_le_sub_one_of_pos (show (0 : ℝ) < 2 by norm_num); linarith
  have hx : (0 : ℝ) < 1 + 1 / 2 ^ j := by positivity
  have e : (2 : ℝ) ^ j + 1 = 2 ^ j * (1 + 1 / 2 ^ j) := by field_simp
  have h1 : Real.logb 2 (2 ^ j + 1) ≤ Real.logb 2 m := Real.logb_le_logb_of_le (by norm_num) (by positivity) h
  refine le_trans ?_ h1
  rw [e, Real.logb_mul hp.ne' hx.ne', Real.logb_pow, Real.logb_self_eq_one (by norm_num), mul_one]
  have h5 : 1 / (2 : ℝ) ^ (j + 1) ≤ Real.log (1 + 1 / 2 ^ j) := by
    have h6 := Real.one_sub_inv_le_log_of_pos hx
    refine le_trans ?_ h6
    have : 1 - (1 + 1 / (2 : ℝ) ^ j)⁻¹ = 1 / (2 ^ j + 1) := by field_simp; ring
    rw [this, pow_succ]
    apply one_div_le_one_div_of_le (by positivity)
    have : (1 : ℝ) ≤ 2 ^ j := one_le_pow₀ (by norm_num)
    linarith
  have h7 : Real.log (1 + 1 / 2 ^ j) ≤ Real.logb 2 (1 + 1 / 2 ^ j) := by
    rw [Real.logb, le_div_iff₀ h2]
    have h8 : 0 ≤ Real.log (1 + 1 / (2 : ℝ) ^ j) := le_trans (by positivity) h5
    nlinarith
  linarith

theorem logb_upper {L : Nat} {m : ℝ} (h0 : 0 < m) (h : m ≤ 2 ^ L - 1) : Real.logb 2 m ≤ (L : ℝ) - 1 / 2 ^ L := by
  have hp : (0 : ℝ) < 2 ^ L := by positivity
  have h2 : (0 : ℝ) < Real.log 2 := Real.log_pos (by norm_num)
  have h21 : Real.log 2 ≤ 1 := by have := Real.log_le_sub_one_of_pos (show (0 : ℝ) < 2 by norm_num); linarith
  have hp1 : (0 : ℝ) < 2 ^ L - 1 := lt_of_lt_of_le h0 h
  have e : (2 : ℝ) ^ L - 1 = 2 ^ L * (1 - 1 / 2 ^ L) := by field_simp
  have hx : (0 : ℝ) < 1 - 1 / 2 ^ L := by
    by_contra hc
    rw [e] at hp1
    have : (2 : ℝ) ^ L * (1 - 1 / 2 ^ L) ≤ 0 := mul_nonpos_of_nonneg_of_nonpos hp.le (not_lt.1 hc)
    linarith
  have h1 : Real.logb 2 m ≤ Real.logb 2 (2 ^ L - 1) := Real.logb_le_logb_of_le (by norm_num) h0 h
  refine le_trans h1 ?_
  rw [e, Real.logb_mul hp.ne' hx.ne', Real.logb_pow, Real.logb_self_eq_one (by norm_num), mul_one]
  have h5 : Real.log (1 - 1 / 2 ^ L) ≤ -(1 / (2 : ℝ) ^ L) := by
    have := Real.log_le_sub_one_of_pos hx
    linarith
  have h7 : Real.logb 2 (1 - 1 / 2 ^ L) ≤ -(1 / (2 : ℝ) ^ L) := by
    rw [Real.logb, div_le_iff₀ h2]
    have : (0 : ℝ) < 1 / 2 ^ L := by positivity
    nlinarith
  linarith

/-- The rounded-up logarithm of a positive integer up to `2^J` is exact when the relative error is below `2^-J / (4J)`. -/
theorem ceil_log2_near {ε : ℝ} {lg : ℚ → ℚ} {J m : Nat} (hlg : Log2Near ε lg) (h0 : 0 ≤ ε) (hJ : 1 ≤ J) (hε : ε * (J * 2 ^ J) ≤ 1 / 4)
    (hm0 : 0 < m) (hm : m ≤ 2 ^ J) : ⌈lg (m : ℚ)⌉ = (Nat.clog 2 m : ℤ) := by
  have hJ' : (1 : ℝ) ≤ J := by exact_mod_cast hJ
  have hL : Nat.clog 2 m ≤ J := by rw [Nat.clog_le_iff_le_pow (by norm_num)]; exact hm
  have hLr : (Nat.clog 2 m : ℝ) ≤ J := by exact_mod_cast hL
  have hle : m ≤ 2 ^ Nat.clog 2 m := Nat.le_pow_clog (by norm_num) m
  have hpJ : (0 : ℝ) < 2 ^ J := by positivity
  have hεJ : ε * J ≤ 1 / 4 * (1 / 2 ^ J) := by
    rw [mul_one_div, le_div_iff₀ hpJ]
    calc ε * J * 2 ^ J = ε * (J * 2 ^ J) := by ring
      _ ≤ 1 / 4 := hε
  have hpw : ∀ i : Nat, i ≤ J → 1 / (2 : ℝ) ^ J ≤ 1 / 2 ^ i := fun i hi =>
    one_div_le_one_div_of_le (by positivity) (pow_le_pow_right₀ (by norm_num) hi)
  have hε4 : ε ≤ 1 / 4 := by
    have h1 : ε * 1 ≤ ε * J := mul_le_mul_of_nonneg_left hJ' h0
    have h2 : 1 / (2 : ℝ) ^ J ≤ 1 / 2 ^ 0 := hpw 0 (by omega)
    norm_num at h2
    have h3 : 1 / (2 : ℝ) ^ J ≤ 1 := by rw [one_div]; exact h2
    linarith
  rcases Nat.lt_or_ge m (2 ^ Nat.clog 2 m) with hlt | hge
  · -- strictly between two powers
    have hm2 : 2 ≤ m := by
      by_contra h
      have h1 : m = 1 := by omega
      rw [h1] at hlt; simp at hlt
    have hL1 : 1 ≤ Nat.clog 2 m := Nat.clog_pos (by norm_num) hm2
    have hgt : 2 ^ (Nat.clog 2 m - 1) < m := Nat.pow_pred_clog_lt_self (by norm_num) (by omega)
    obtain ⟨j, hj⟩ : ∃ j, Nat.clog 2 m = j + 1 := ⟨Nat.clog 2 m - 1, by omega⟩
    rw [hj] at hlt hgt hLr ⊢
    rw [Nat.add_sub_cancel] at hgt
    have a1 : (2 : ℝ) ^ j + 1 ≤ ((m : ℚ) : ℝ) := by exact_mod_cast hgt
    have a2 : ((m : ℚ) : ℝ) ≤ 2 ^ (j + 1) - 1 := by
      have : (m : ℝ) + 1 ≤ 2 ^ (j + 1) := by exact_mod_cast hlt
      push_cast; linarith
    have b1 := logb_lower a1
    have hm0' : (0 : ℝ) < ((m : ℚ) : ℝ) := by exact_mod_cast hm0
    have b2 := logb_upper hm0' a2
    have hnear := hlg.near (m : ℚ) (by exact_mod_cast hm0)
    have hj0 : (0 : ℝ) ≤ j := Nat.cast_nonneg j
    have hpos : 0 < Real.logb 2 ((m : ℚ) : ℝ) := lt_of_lt_of_le (by positivity) b1
    rw [abs_of_pos hpos] at hnear
    have hq := hpw (j + 1) (by omega)
    have hq0 : (0 : ℝ) < 1 / 2 ^ (j + 1) := by positivity
    generalize 1 / (2 : ℝ) ^ (j + 1) = q at *
    generalize 1 / (2 : ℝ) ^ J = p at *
    generalize Real.logb 2 ((m : ℚ) : ℝ) = l at *
    have c3 : ε * l ≤ ε * J := by
      apply mul_le_mul_of_nonneg_left _ h0
      push_cast at b2 hLr
      linarith
    have c1 := (abs_le.1 hnear).1
    have c2 := (abs_le.1 hnear).2
    rw [Int.ceil_eq_iff]
    constructor
    · have : ((j : ℕ) : ℝ) < (lg m : ℝ) := by linarith
      have : ((j : ℕ) : ℚ) < lg m := by exact_mod_cast this
      push_cast; linarith
    · have : (lg m : ℝ) ≤ ((j + 1 : ℕ) : ℝ) := by push_cast; push_cast at b2; linarith
      exact_mod_cast this
  · have e : m = 2 ^ Nat.clog 2 m := le_antisymm hle hge
    have e' : (m : ℚ) = 2 ^ Nat.clog 2 m := by exact_mod_cast e
    rw [e', hlg.pow]; simp

/-- C121. With a logarithm accurate to `ε` the computed size is the intended one for `n/k ≤ 2^J`, and the sketch is the intended sketch. -/
theorem C121_exact [FloatFmt ℚ] [FloatFmt.Mono ℚ] {N n k J : Nat} {ε : ℝ} {lg : ℚ → ℚ} (hN : ExactCounts ℚ N) (hk : k ≠ 0)
    (hlg : Log2Near ε lg) (h0 : 0 ≤ ε) (hJ : 1 ≤ J) (hε : ε * (J * 2 ^ J) ≤ 1 / 4) (hn : n / k ≤ 2 ^ J) (hJN : 2 ^ J ≤ N)
    (hkN : 2 * k * J ≤ N) (h64 : N < 2 ^ 64) :
    calcBufferSizeIn lg n k = calcBufferSize n k ∧ ∀ ops : List (InsOp ℚ), runHistIn lg n k ops = runHist n k ops := by
  have h : calcBufferSizeIn lg n k = calcBufferSize n k := by
    have hk2 : 2 * k ≤ 2 * k * J := Nat.le_mul_of_pos_right _ hJ
    unfold calcBufferSize
    rw [if_neg hk]
    rcases Nat.eq_zero_or_pos (n / k) with hz | hp
    · rw [bufferSizeIn_zero hN hk hz (by omega), hz]; simp
    · have hL : Nat.clog 2 (n / k) ≤ J := by rw [Nat.clog_le_iff_le_pow (by norm_num)]; exact hn
      have hkL : 2 * k * Nat.clog 2 (n / k) ≤ 2 * k * J := Nat.mul_le_mul_left _ hL
      exact bufferSizeIn_of_ceil hN hk (y := ((n / k : ℕ) : ℚ)) (hN.rnd_nat (by omega)) (by exact_mod_cast hp)
        (ceil_log2_near hlg h0 hJ hε hp hn) (by omega) (by omega) (by omega)
  refine ⟨h, fun ops => ?_⟩
  show (newIn lg n k >>= fun s => s.execOps ops) = (new n k >>= fun s => s.execOps ops)
  unfold newIn new
  rw [h]

section
attribute [local instance] f64Fmt f64_mono

/-- C121 for `f64`: a logarithm with relative error `2^-50` gives the intended size up to `n/k = 2^42` and `k = 2^45`. -/
theorem C121_f64 {n k : Nat} {lg : ℚ → ℚ} (hk : k ≠ 0) (hlg : Log2Near (1 / 2 ^ 50) lg) (hn : n / k ≤ 2 ^ 42) (hkN : k ≤ 2 ^ 45) :
    calcBufferSizeIn lg n k = calcBufferSize n k ∧ ∀ ops : List (InsOp ℚ), runHistIn lg n k ops = runHist n k ops :=
  C121_exact f64_exactCounts hk hlg (by positivity) (J := 42) (by norm_num) (by norm_num) hn (by norm_num) (by omega) (by norm_num)

theorem f64_pow2 : ∀ j : Nat, j ≤ 64 → (FloatFmt.rnd (2 ^ j : ℚ) : Fl ℚ) = .fin (2 ^ j) := by decide +kernel

/-- C121 for `f64` with any logarithm that is monotone, exact for powers of two and above 1 at 3: no panics within the declared length. -/
theorem C121_f64_never_panics {n k : Nat} {lg : ℚ → ℚ} (hk : k ≠ 0) (hn : n < 2 ^ 32) (hkN : k ≤ 2 ^ 44) (hlg : Log2Like lg)
    (ops : List (InsOp ℚ)) (hm : ∀ o ∈ ops, o.method = .default) (hlen : (insItems ops).length ≤ n)
    (hnan : ∀ y ∈ insItems ops, y ≠ .nan) : Always (runHistIn lg n k ops) (fun s => s.count = (insItems ops).length) :=
  C121_never_panics f64_exactCounts f64_pow2 hk hn (by omega) (by omega) hlg ops hm hlen hnan

end

section
attribute [local instance] f32Fmt f32_mono

/-- C121 for `f32`: a logarithm with relative error `2^-22` gives the intended size up to `n/k = 2^16`, `k = 2^18`. -/
theorem C121_f32 {n k : Nat} {lg : ℚ → ℚ} (hk : k ≠ 0) (hlg : Log2Near (1 / 2 ^ 22) lg) (hn : n / k ≤ 2 ^ 16) (hkN : k ≤ 2 ^ 18) :
    calcBufferSizeIn lg n k = calcBufferSize n k ∧ ∀ ops : List (InsOp ℚ), runHistIn lg n k ops = runHist n k ops :=
  C121_exact f32_exactCounts hk hlg (by positivity) (J := 16) (by norm_num) (by norm_num) hn (by norm_num) (by omega) (by norm_num)

theorem f32_pow2 : ∀ j : Nat, j ≤ 64 → (FloatFmt.rnd (2 ^ j : ℚ) : Fl ℚ) = .fin (2 ^ j) := by decide +kernel

/-- C121 for `f32`, beyond the range of `C121_f32`: the size may be one section short, insertions still do not panic. -/
theorem C121_f32_never_panics {n k : Nat} {lg : ℚ → ℚ} (hk : k ≠ 0) (hn : n < 2 ^ 32) (hkN : k ≤ 2 ^ 15) (hlg : Log2Like lg)
    (ops : List (InsOp ℚ)) (hm : ∀ o ∈ ops, o.method = .default) (hlen : (insItems ops).length ≤ n)
    (hnan : ∀ y ∈ insItems ops, y ≠ .nan) : Always (runHistIn lg n k ops) (fun s => s.count = (insItems ops).length) :=
  C121_never_panics f32_exactCounts f32_pow2 hk hn (by omega) (by omega) hlg ops hm hlen hnan

end

/-! ### The hypotheses are met -/

/-- A crude logarithm: the mean of the rounded-down and the rounded-up one. -/
def crudeLog2 (a : ℚ) : ℚ := ((Int.log 2 a : ℚ) + Int.clog 2 a) / 2

theorem crudeLog2_like : Log2Like crudeLog2 where
  mono a b h0 h := by
    have h1 : (Int.log 2 a : ℚ) ≤ Int.log 2 b := by exact_mod_cast Int.log_mono_right h0 h
    have h2 : (Int.clog 2 a : ℚ) ≤ Int.clog 2 b := by exact_mod_cast Int.clog_mono_right h0 h
    unfold crudeLog2; linarith
  pow j := by
    have h1 := Int.log_zpow (R := ℚ) (b := 2) (by norm_num) (j : ℤ)
    have h2 := Int.clog_zpow (R := ℚ) (b := 2) (by norm_num) (j : ℤ)
    simp only [Nat.cast_ofNat, zpow_natCast] at h1 h2
    unfold crudeLog2
    rw [h1, h2]; push_cast; ring

/-- Accurate logarithms exist for every accuracy. -/
theorem log2Near_exists {ε : ℝ} (hε : 0 < ε) : ∃ lg : ℚ → ℚ, Log2Near ε lg := by
  classical
  have h : ∀ a : ℚ, ∃ b : ℚ, 0 < a → |(b : ℝ) - Real.logb 2 a| ≤ ε * |Real.logb 2 a| ∧ ∀ j : Nat, a = 2 ^ j → b = j := by
    intro a
    by_cases hj : ∃ j : Nat, a = 2 ^ j
    · obtain ⟨j, rfl⟩ := hj
      refine ⟨j, fun _ => ⟨?_, fun i hi => ?_⟩⟩
      · push_cast
        rw [Real.logb_pow, Real.logb_self_eq_one (by norm_num)]
        simp; positivity
      · have : j = i := Nat.pow_right_injective (le_refl 2) (by exact_mod_cast hi)
        rw [this]
    · by_cases h0 : 0 < a
      · have h1 : a ≠ 1 := fun e => hj ⟨0, by simpa using e⟩
        have hl : 0 < |Real.logb 2 (a : ℝ)| := by
          rw [abs_pos]
          apply Real.logb_ne_zero_of_pos_of_ne_one (by norm_num) (by exact_mod_cast h0)
          exact_mod_cast h1
        have hpos : 0 < ε * |Real.logb 2 (a : ℝ)| := mul_pos hε hl
        obtain ⟨b, hb1, hb2⟩ := exists_rat_btwn (x := Real.logb 2 (a : ℝ)) (y := Real.logb 2 a + ε * |Real.logb 2 (a : ℝ)|) (by linarith)
        refine ⟨b, fun _ => ⟨?_, fun j e => absurd ⟨j, e⟩ hj⟩⟩
        rw [abs_of_pos (by linarith)]; linarith
      · exact ⟨0, fun h => absurd h h0⟩
  choose lg hlg using h
  exact ⟨lg, fun a h0 => (hlg a h0).1, fun j => (hlg _ (by positivity)).2 j rfl⟩

section
attribute [local instance] f64Fmt f64_mono

/-- The crude logarithm gives the intended size here, and one section less (or more) is possible only next to a power of two: a logarithm
that rounds `log2 (2^20 + 1)` to 20 gives 20 sections instead of 21. -/
example : CanReturn (calcBufferSizeIn crudeLog2 1000 10) 140 ∧ CanReturn (calcBufferSize 1000 10) 140 ∧
    CanReturn (calcBufferSizeIn (fun a => if a = 2 ^ 20 + 1 then 20 else crudeLog2 a) (2 ^ 20 + 1) 1) 40 ∧
    CanReturn (calcBufferSize (2 ^ 20 + 1) 1) 42 ∧ CanReturn (calcBufferSizeIn crudeLog2 5 10) 20 := by decide +kernel

/-- The theorems apply to it: `m ≤ 1000` items in a sketch for 1000. -/
example (m : Nat) (h : m ≤ 1000) : Always (runHistIn crudeLog2 1000 10 ((List.range m).map (fun i => InsOp.add (.fin (i : ℚ)))))
    (fun s => s.count = m) := by
  have e : ∀ l : List Nat, insItems (l.map (fun i => InsOp.add (.fin (i : ℚ)))) = l.map (fun i => .fin (i : ℚ)) := by
    intro l
    induction l with
    | nil => rfl
    | cons a l ih =>
      have : insItems ((a :: l).map (fun i => InsOp.add (.fin (i : ℚ)))) = [.fin (a : ℚ)] ++ insItems (l.map (fun i => InsOp.add (.fin (i : ℚ)))) := rfl
      rw [this, ih]; rfl
  have h := C121_f64_never_panics (n := 1000) (k := 10) (by norm_num) (by norm_num) (by norm_num) crudeLog2_like
    ((List.range m).map (fun i => InsOp.add (.fin (i : ℚ)))) (by simp [InsOp.method]) (by rw [e]; simpa using h) (by rw [e]; simp)
  rw [e] at h
  simpa using h

end
end RCSketch
end AQ

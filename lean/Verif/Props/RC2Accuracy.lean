/-
Properties C98, C99 (and C19, C22, C23 for the section sizes computed in `f32`): accuracy of `RCSketch2` in terms of the number of items.

`w` is a lower bound on the section sizes, `M` a bound on the number of levels above the first (`Rc2Size`). For section sizes
of exact arithmetic and `k ≥ 256`, or as the code computes them in `f32` and `k ≥ 264`, and fewer than 2^32 items the bounds
are given in terms of `k` (`Spec.Sections`).
-/
import Verif.Proofs.RC2Rank
import Verif.Proofs.RC2Sections
import Verif.Proofs.RCRelative
import Verif.Proofs.RCValue
import Verif.Proofs.TDRound
import Verif.Props.RCSketch2

set_option linter.unusedSectionVars false
set_option linter.unusedVariables false

namespace AQ
open Spec Prog RCSketch2
variable {K : Type} [Field K] [LinearOrder K] [IsStrictOrderedRing K] [FloatFmt K]

/-- Section sizes that keep insertions from panicking and are at least `w`; `N` items need at most `M` compacted levels. -/
structure Spec.Rc2Size (sec : Nat → Nat) (w M N : Nat) : Prop where
  ok : SecOK sec
  one : 1 ≤ w
  low : ∀ j, j ≤ 4 → w ≤ sec j
  height : (N : ℚ) * (1 + 1 / w) ^ M < 6 * sec 0 * 2 ^ M

theorem rc2_geo {sec : Nat → Nat} {w M : Nat} (k : Nat) (ops : List (InsOp K)) (h : Spec.Rc2Size sec w M (insItems ops).length) :
    Partially (RCSketch2.runHist sec k ops) (fun s => s.levels.length ≤ M + 1 ∧
      (wsum (s.levels.map Level2.compactions) : ℚ) ≤ (insItems ops).length * ((1 + 1 / w) ^ M - 1) ∧
      (wsum4 (s.levels.map Level2.compactions) : ℚ) ≤
        ((insItems ops).length : ℚ) ^ 2 * (1 + 1 / w) ^ (2 * (M - 1)) / (3 * w * sec 0)) := by
  have hw := h.one
  have h0 : 0 < sec 0 := h.ok.one 0 (by omega)
  refine (hist2_partially (geoC_hist (K := K) (w := w) (c := 6 * sec 0) h.ok h.low le_rfl) k ops (fun _ _ => trivial)
    ⟨by simp [lvlOK_new], 0, 0, by simp [newLevel], by simp [newLevel], by simp, by simp, by simp [newLevel], trivial⟩).mono ?_
  rintro s ⟨-, -, hg⟩
  have hL := hg.levels hw (M := M) (by push_cast; exact h.height)
  obtain ⟨b1, b2⟩ := hg.bounds hw (by omega) hL
  refine ⟨hL, b1, b2.trans (le_of_eq ?_)⟩
  have hwq : (0 : ℚ) < w := by exact_mod_cast hw
  have h0q : (0 : ℚ) < sec 0 := by exact_mod_cast h0
  push_cast
  field_simp
  ring

/-- The rank query returns the weighted rank. -/
theorem rc2_rank_eq (s : RCSketch2 K) (hL : s.levels.length ≤ 64) (x : Fl K) (hx : x ≠ .nan) :
    s.interpolateRank x = .ret (weightedRank s.buffers x) := by
  unfold RCSketch2.interpolateRank
  rw [rankFrom_eq hx _ _ _ (by simp [RCSketch2.buffers]; exact hL)]; simp

/-- The estimated rank is off by at most the weighted number of compactions. -/
theorem rc2_weighted_error (sec : Nat → Nat) (k : Nat) (ops : List (InsOp K)) (hm : ∀ o ∈ ops, o.method = .default) :
    Partially (RCSketch2.runHist sec k ops) (fun s => ∀ x,
      weightedRank s.buffers x ≤ rank (insItems ops) x + wsum (s.levels.map Level2.compactions) ∧
      rank (insItems ops) x ≤ weightedRank s.buffers x + wsum (s.levels.map Level2.compactions)) := by
  refine (hist2_partially (err_hist sec (A := fun _ => True)) k ops ?_ ?_).mono ?_
  · intro o ho x u out hu _ hout
    rw [hm o ho] at hout
    exact ⟨by simp, RCSketch.isOut_rank_default hu hout x⟩
  · simp [Wt, comps, newLevel, wsum, rank]
  · rintro s ⟨-, -, h⟩ x
    have := (h (by simp)).2 x
    rw [Wt_buffers] at this
    exact this

/-- The sure bound for the stored ranks. -/
theorem rc2_rank_sure {sec : Nat → Nat} {w M : Nat} (k : Nat) (ops : List (InsOp K))
    (h : Spec.Rc2Size sec w M (insItems ops).length) (hm : ∀ o ∈ ops, o.method = .default) :
    Partially (RCSketch2.runHist sec k ops) (fun s => s.levels.length ≤ M + 1 ∧ ∀ x,
      |(weightedRank s.buffers x : ℚ) - rank (insItems ops) x| ≤ (insItems ops).length * ((1 + 1 / w) ^ M - 1)) := by
  refine ((rc2_geo k ops h).and (rc2_weighted_error sec k ops hm)).mono ?_
  rintro s ⟨⟨hL, h1, -⟩, h2⟩
  refine ⟨hL, fun x => ?_⟩
  obtain ⟨a, b⟩ := h2 x
  have a : (weightedRank s.buffers x : ℚ) ≤ rank (insItems ops) x + wsum (s.levels.map Level2.compactions) := by exact_mod_cast a
  have b : (rank (insItems ops) x : ℚ) ≤ weightedRank s.buffers x + wsum (s.levels.map Level2.compactions) := by exact_mod_cast b
  rw [abs_le]
  constructor <;> linarith

/-- C98. Whatever the coins, insertions and rank queries do not panic and the estimated rank of any `x` is off by at most
`N ((1 + 1/w)^M − 1)`, for any mix of default and fast insertions of `N < 2^32` items. -/
theorem C98_rank_error {sec : Nat → Nat} {w M : Nat} (k : Nat) (ops : List (InsOp K))
    (h : Spec.Rc2Size sec w M (insItems ops).length) (hM : M ≤ 63) (hm : ∀ o ∈ ops, o.method = .default)
    (hlen : (insItems ops).length < 2 ^ 32) (hnan : ∀ y ∈ insItems ops, y ≠ .nan) :
    Always (RCSketch2.runHist sec k ops) (fun s => ∀ x, x ≠ .nan → Always (s.interpolateRank x) (fun r =>
      |(r : ℚ) - rank (insItems ops) x| ≤ (insItems ops).length * ((1 + 1 / w) ^ M - 1))) := by
  refine ((C19_insertions_never_panic sec h.ok k ops hm hlen hnan).and (rc2_rank_sure k ops h hm)).mono ?_
  rintro s ⟨-, hL, h1⟩ x hx
  rw [rc2_rank_eq s (by omega) x hx]
  exact h1 x

theorem rc2_stored_mse {sec : Nat → Nat} {w M : Nat} (k : Nat) (ops : List (InsOp K))
    (h : Spec.Rc2Size sec w M (insItems ops).length) (hm : ∀ o ∈ ops, o.method = .default)
    (hlen : (insItems ops).length < 2 ^ 32) (hnan : ∀ y ∈ insItems ops, y ≠ .nan) (x : Fl K) :
    exp (RCSketch2.runHist sec k ops) (fun s => ((weightedRank s.buffers x : ℚ) - rank (insItems ops) x) ^ 2) ≤
      ((insItems ops).length : ℚ) ^ 2 * (1 + 1 / w) ^ (2 * (M - 1)) / (3 * w * sec 0) := by
  refine (C66_variance_by_compactions sec h.ok k ops hm hlen hnan x).trans ?_
  refine (exp_mono ((rc2_geo k ops h).mono (fun s hs => hs.2.2))).trans (le_of_eq ?_)
  have := C19_insertions_never_panic sec h.ok k ops hm hlen hnan
  exact exp_const (this.mono (fun _ _ => trivial)) _

/-- C98. With fair coins the mean squared error of the estimated rank of any `x` is at most `N² (1 + 1/w)^(2(M−1)) / (3 w sec(0))`. -/
theorem C98_mean_squared_error {sec : Nat → Nat} {w M : Nat} (k : Nat) (ops : List (InsOp K))
    (h : Spec.Rc2Size sec w M (insItems ops).length) (hM : M ≤ 63) (hm : ∀ o ∈ ops, o.method = .default)
    (hlen : (insItems ops).length < 2 ^ 32) (hnan : ∀ y ∈ insItems ops, y ≠ .nan) (x : Fl K) (hx : x ≠ .nan) :
    exp (RCSketch2.runHist sec k ops >>= fun s => s.interpolateRank x) (fun r => ((r : ℚ) - rank (insItems ops) x) ^ 2) ≤
      ((insItems ops).length : ℚ) ^ 2 * (1 + 1 / w) ^ (2 * (M - 1)) / (3 * w * sec 0) := by
  rw [exp_bind]
  refine le_trans (le_of_eq (exp_congr ((rc2_geo k ops h).mono (fun s hs => ?_)))) (rc2_stored_mse k ops h hm hlen hnan x)
  rw [rc2_rank_eq s (by omega) x hx, exp_ret]

theorem realSec_low {k : Nat} (j : Nat) (hj : j ≤ 4) : k / 4 ≤ realSec k j := by
  unfold realSec
  rw [Nat.le_sqrt', Nat.le_div_iff_mul_le (by positivity)]
  have h1 : 2 ^ j ≤ 2 ^ 4 := Nat.pow_le_pow_right (by norm_num) hj
  have h2 : (k / 4) * 4 ≤ k := Nat.div_mul_le_self k 4
  calc (k / 4) ^ 2 * 2 ^ j ≤ (k / 4) ^ 2 * 2 ^ 4 := Nat.mul_le_mul_left _ h1
    _ = ((k / 4) * 4) ^ 2 := by ring
    _ ≤ k ^ 2 := Nat.pow_le_pow_left h2 2

theorem realSec_zero (k : Nat) : realSec k 0 = k := by simp [realSec]

/-! ### Section sizes as the code computes them -/

/-- C19 for the section sizes the code computes (`f32`): every `4 ≤ k < 2^24`. -/
theorem C19_insertions_never_panic_f32 (k : Nat) (hk : 4 ≤ k) (hk2 : k < 2 ^ 24) (ops : List (InsOp K))
    (hm : ∀ o ∈ ops, o.method = .default) (hlen : (insItems ops).length < 2 ^ 32) (hnan : ∀ y ∈ insItems ops, y ≠ .nan) :
    Always (RCSketch2.runHist (f32Sec k) k ops) (fun s => s.count = (insItems ops).length) :=
  C19_insertions_never_panic _ (f32Sec_ok hk hk2) k ops hm hlen hnan

/-- C19, queries, for the section sizes the code computes: rank queries from `k = 9` on, value queries from `k = 33` on. -/
theorem C19_queries_never_panic_f32 (k : Nat) (hk : 33 ≤ k) (hk2 : k < 2 ^ 24) (ops : List (InsOp K))
    (hm : ∀ o ∈ ops, o.method = .default) (hlen : (insItems ops).length < 2 ^ 32) (hnan : ∀ y ∈ insItems ops, y ≠ .nan)
    (hne : insItems ops ≠ []) :
    Always (RCSketch2.runHist (f32Sec k) k ops) (fun s => (∀ x, Always (s.interpolateRank x) (fun _ => True)) ∧
      (∀ x, Always (s.estQuantileAtValue x) (fun _ => True)) ∧ ∀ q, Always (s.estValueAtQuantile q) (fun v => v ∈ insItems ops)) := by
  have hlow : ∀ j, j ≤ 4 → 8 ≤ f32Sec k j := fun j hj => by
    have := f32Sec_low (k := k) (j := j) hk2 (by omega) hj; omega
  refine ((C19_value_queries_never_panic _ (f32Sec_ok (by omega) hk2) hlow (by rw [f32Sec_zero hk2]; omega) k ops hm hlen hnan hne).and
    (C19_rank_queries_never_panic _ (f32Sec_ok (by omega) hk2) (fun j hj => by have := hlow j hj; omega) k ops hlen)).mono ?_
  rintro s ⟨h1, h2, h3⟩
  exact ⟨h2, h3, h1⟩

/-- C22 for the section sizes the code computes. -/
theorem C22_interpolate_rank_unbiased_f32 (k : Nat) (hk : 9 ≤ k) (hk2 : k < 2 ^ 24) (ops : List (InsOp K))
    (hm : ∀ o ∈ ops, o.method = .default) (hlen : (insItems ops).length < 2 ^ 32) (hnan : ∀ y ∈ insItems ops, y ≠ .nan)
    (x : Fl K) (hx : x ≠ .nan) :
    exp (RCSketch2.runHist (f32Sec k) k ops >>= fun s => s.interpolateRank x) (fun r => (r : ℚ)) = rank (insItems ops) x :=
  C22_interpolate_rank_unbiased _ (f32Sec_ok (by omega) hk2) (fun j hj => by
    have := f32Sec_low (k := k) (j := j) hk2 (by omega) hj; omega) k ops hm hlen hnan x hx

/-- C23 for the section sizes the code computes: items of rank at most `3 k` are counted exactly. -/
theorem C23_low_ranks_exact_f32 (k : Nat) (hk : 4 ≤ k) (hk2 : k < 2 ^ 24) (ops : List (InsOp K))
    (hm : ∀ o ∈ ops, o.method = .default) (x : Fl K) (hx : x ≠ .nan) (hP : rank (insItems ops) x ≤ 3 * k) :
    Partially (RCSketch2.runHist (f32Sec k) k ops) (fun s => Partially (s.interpolateRank x) (fun r => r = rank (insItems ops) x)) :=
  C23_low_ranks_exact _ (f32Sec_ok hk hk2) k ops hm x hx (by rw [f32Sec_zero hk2]; exact hP)

/-- Section sizes fit for insertions, starting from `k ≥ 256`, never below 64 nor below `64/260` of `k`. -/
structure Spec.Sections (sec : Nat → Nat) (k : Nat) : Prop where
  ok : SecOK sec
  base : 256 ≤ k
  zero : sec 0 = k
  big : ∀ j, j ≤ 4 → 64 ≤ sec j
  low : ∀ j, j ≤ 4 → 64 * k ≤ 260 * sec j

/-- Section sizes of exact arithmetic. -/
theorem sections_real {k : Nat} (hk : 256 ≤ k) : Spec.Sections (realSec k) k where
  ok := realSec_ok (by omega)
  base := hk
  zero := realSec_zero k
  big j hj := by have := realSec_low (k := k) j hj; omega
  low j hj := by have := realSec_low (k := k) j hj; omega

/-- Section sizes as the code computes them. -/
theorem sections_f32 {k : Nat} (hk : 264 ≤ k) (hk2 : k < 2 ^ 24) : Spec.Sections (f32Sec k) k where
  ok := f32Sec_ok (by omega) hk2
  base := by omega
  zero := f32Sec_zero hk2
  big j hj := by have := f32Sec_low (k := k) (j := j) hk2 (by omega) hj; omega
  low j hj := by have := f32Sec_low (k := k) (j := j) hk2 (by omega) hj; omega

/-- Lower bound on the section sizes used below. -/
def secLow (k : Nat) : Nat := max 64 ((64 * k + 259) / 260)

theorem secLow_ge (k : Nat) : (64 : ℚ) ≤ secLow k := by exact_mod_cast le_max_left _ _

/-- Fewer than 2^32 items: at most 23 levels. -/
theorem Spec.Sections.size {sec : Nat → Nat} {k N : Nat} (h : Spec.Sections sec k) (hN : N < 2 ^ 32) :
    Spec.Rc2Size sec (secLow k) 22 N where
  ok := h.ok
  one := le_trans (by norm_num) (le_max_left _ _)
  low j hj := max_le (h.big j hj) (by have := h.low j hj; omega)
  height := by
    rw [h.zero]
    have hw := secLow_ge k
    have h1 : 1 + 1 / (secLow k : ℚ) ≤ 1 + 1 / 64 := by
      have := one_div_le_one_div_of_le (by norm_num : (0 : ℚ) < 64) hw
      linarith
    have h0 : 0 ≤ 1 + 1 / (secLow k : ℚ) := by positivity
    have hNq : (N : ℚ) ≤ 2 ^ 32 := by exact_mod_cast hN.le
    have hkq : (256 : ℚ) ≤ k := by exact_mod_cast h.base
    calc (N : ℚ) * (1 + 1 / (secLow k : ℚ)) ^ 22 ≤ 2 ^ 32 * (1 + 1 / 64) ^ 22 :=
          mul_le_mul hNq (pow_le_pow_left₀ h0 h1 22) (by positivity) (by norm_num)
      _ < 6 * 256 * 2 ^ 22 := by norm_num
      _ ≤ 6 * k * 2 ^ 22 := by linarith

/-- The bounds in terms of `k`. -/
theorem rc2_k_bounds {sec : Nat → Nat} {k : Nat} (h : Spec.Sections sec k) (N : Nat) :
    (N : ℚ) * ((1 + 1 / (secLow k : ℚ)) ^ 22 - 1) ≤ 180 * (N / k) ∧
    (N : ℚ) ^ 2 * (1 + 1 / (secLow k : ℚ)) ^ (2 * (22 - 1)) / (3 * (secLow k : ℚ) * (sec 0 : Nat)) ≤ 3 * ((N : ℚ) / k) ^ 2 := by
  rw [h.zero]
  have hw := secLow_ge k
  have hkw : (64 * k : ℚ) ≤ 260 * (secLow k : ℚ) := by
    have : 64 * k ≤ 260 * secLow k := by
      have : (64 * k + 259) / 260 ≤ secLow k := le_max_right _ _
      omega
    exact_mod_cast this
  have hkq : (256 : ℚ) ≤ k := by exact_mod_cast h.base
  have hk0 : (0 : ℚ) < k := by linarith
  generalize (secLow k : ℚ) = w at *
  have hw0 : 0 < w := by linarith
  have h0 : 0 ≤ 1 / w := by positivity
  have h1 : 1 / w ≤ 1 / 64 := one_div_le_one_div_of_le (by norm_num) hw
  have hwk : 1 / w ≤ 260 / 64 / k := by
    rw [div_le_div_iff₀ hw0 hk0]; linarith
  have hN : (0 : ℚ) ≤ N := Nat.cast_nonneg _
  constructor
  · have h2 := RCSketch.one_add_pow_le (1 / w) h0 22 (by push_cast; linarith)
    push_cast at h2
    have e : (180 : ℚ) * (N / k) = N * (180 / k) := by ring
    rw [e]
    refine mul_le_mul_of_nonneg_left ?_ hN
    have h3 : (2 : ℚ) * (22 * (1 / w)) ≤ 2 * (22 * (260 / 64 / k)) := by linarith
    have h4 : (2 : ℚ) * (22 * (260 / 64 / k)) ≤ 180 / k := by
      rw [le_div_iff₀ hk0]; field_simp; norm_num
    linarith
  · have h2 : (1 + 1 / w) ^ 42 ≤ (1 + 1 / 64) ^ 42 := pow_le_pow_left₀ (by linarith) (by linarith) 42
    have h3 : (1 + 1 / (64 : ℚ)) ^ 42 ≤ 2 := by norm_num
    have h4 : (N : ℚ) ^ 2 * (1 + 1 / w) ^ (2 * (22 - 1)) / (3 * w * k) ≤ N ^ 2 * 2 / (3 * w * k) :=
      div_le_div_of_nonneg_right (mul_le_mul_of_nonneg_left (h2.trans h3) (by positivity)) (by positivity)
    refine h4.trans ?_
    rw [div_pow, ← mul_div_assoc, div_le_div_iff₀ (by positivity) (by positivity)]
    have h5 : (0 : ℚ) ≤ N ^ 2 * k := by positivity
    nlinarith [mul_le_mul_of_nonneg_left hkw h5]

/-- C98 in terms of `k` (section sizes of exact arithmetic or of the code, `sections_real`, `sections_f32`): a rank is surely off by at
most `180 N / k`. -/
theorem C98_rank_error_k {sec : Nat → Nat} {k : Nat} (hk : Spec.Sections sec k) (ops : List (InsOp K)) (hm : ∀ o ∈ ops, o.method = .default)
    (hlen : (insItems ops).length < 2 ^ 32) (hnan : ∀ y ∈ insItems ops, y ≠ .nan) :
    Always (RCSketch2.runHist sec k ops) (fun s => ∀ x, x ≠ .nan → Always (s.interpolateRank x) (fun r =>
      |(r : ℚ) - rank (insItems ops) x| ≤ 180 * ((insItems ops).length / k))) :=
  (C98_rank_error k ops (hk.size hlen) (by norm_num) hm hlen hnan).mono
    (fun s hs x hx => (hs x hx).mono (fun r hr => hr.trans (rc2_k_bounds hk _).1))

/-- C98 in terms of `k`: the mean squared error is at most `3 (N / k)²`. -/
theorem C98_mean_squared_error_k {sec : Nat → Nat} {k : Nat} (hk : Spec.Sections sec k) (ops : List (InsOp K)) (hm : ∀ o ∈ ops, o.method = .default)
    (hlen : (insItems ops).length < 2 ^ 32) (hnan : ∀ y ∈ insItems ops, y ≠ .nan) (x : Fl K) (hx : x ≠ .nan) :
    exp (RCSketch2.runHist sec k ops >>= fun s => s.interpolateRank x) (fun r => ((r : ℚ) - rank (insItems ops) x) ^ 2) ≤
      3 * ((insItems ops).length / k : ℚ) ^ 2 :=
  (C98_mean_squared_error k ops (hk.size hlen) (by norm_num) hm hlen hnan x hx).trans (rc2_k_bounds hk _).2

/-- C98. The chance of an error of `ε N` or more is at most `3 / (k ε)²`. -/
theorem C98_tail_k {sec : Nat → Nat} {k : Nat} (hk : Spec.Sections sec k) (ops : List (InsOp K)) (hm : ∀ o ∈ ops, o.method = .default)
    (hlen : (insItems ops).length < 2 ^ 32) (hnan : ∀ y ∈ insItems ops, y ≠ .nan) (hne : insItems ops ≠ [])
    (x : Fl K) (hx : x ≠ .nan) (ε : ℚ) (hε : 0 < ε) :
    exp (RCSketch2.runHist sec k ops >>= fun s => s.interpolateRank x)
      (fun r => if ε * (insItems ops).length ≤ |(r : ℚ) - rank (insItems ops) x| then 1 else 0) ≤ 3 / (k * ε) ^ 2 := by
  have hN : (0 : ℚ) < (insItems ops).length := by exact_mod_cast List.length_pos_of_ne_nil hne
  have hkq : (0 : ℚ) < k := by exact_mod_cast (by have := hk.base; omega : 0 < k)
  refine (RCValue.chebyshev _ (fun r : Nat => (r : ℚ) - rank (insItems ops) x) _ _ (by positivity)
    (C98_mean_squared_error_k hk ops hm hlen hnan x hx)).trans (le_of_eq ?_)
  field_simp

/-! ### C99: value queries -/

/-- The value query after a history: it returns an item, and the estimated ranks left and right of it enclose the target (or the
total stored weight when that falls short). -/
theorem rc2_value_sides {sec : Nat → Nat} {w M : Nat} (k : Nat) (ops : List (InsOp K))
    (h : Spec.Rc2Size sec w M (insItems ops).length) (hM : M ≤ 30) (hm : ∀ o ∈ ops, o.method = .default)
    (hlen : (insItems ops).length < 2 ^ 32) (hnan : ∀ y ∈ insItems ops, y ≠ .nan) (hne : insItems ops ≠ [])
    (hex : ∀ m : Nat, (m : ℚ) ≤ (insItems ops).length * (1 + 1 / w) ^ M → FloatFmt.rnd (m : K) = .fin (m : K))
    (q : Fl K) (t : K) (ht : q * Fl.ofNat (insItems ops).length = .fin t) (h0 : 0 ≤ t) :
    Always (RCSketch2.runHist sec k ops) (fun s => ∃ v, s.estValueAtQuantile q = .ret v ∧ v ∈ insItems ops ∧
      (∀ x, x < v → (weightedRank s.buffers x : K) ≤ t) ∧
      ∀ x, v ≤ x → min t (weightedRank s.buffers .nan : K) ≤ (weightedRank s.buffers x : K)) := by
  have hhead := hist2_partially (head_hist (K := K) h.ok) k ops (fun _ _ => trivial) ⟨by simp [lvlOK_new], by simp, by simp⟩
  have hmem := hist2_partially (sec := sec) (pres_hist (G := fun y => y ∈ insItems ops)) k ops
    (fun o ho => by rw [hm o ho]; exact RCSketch.pres_default _) (by simp [newLevel])
  refine ((C19_insertions_never_panic sec h.ok k ops hm hlen hnan).and ((rc2_rank_sure k ops h hm).and (hhead.and hmem))).mono ?_
  rintro s ⟨hc, ⟨hL, hW⟩, ⟨-, -, -, hh⟩, -, hmem⟩
  have hmem := hmem (fun y hy => hy)
  have hbl : s.buffers.length = s.levels.length := by simp [RCSketch2.buffers]
  have hin : ∀ y ∈ s.buffers.flatten, y ∈ insItems ops := buffers_mem hmem
  have hne' : s.buffers.flatten ≠ [] := by
    obtain ⟨l0, ls', he, hb⟩ := hh hne
    simp [RCSketch2.buffers, he, hb]
  have hWt : ∀ m : Nat, m ≤ wsum (s.buffers.map List.length) → FloatFmt.rnd (m : K) = .fin (m : K) := by
    intro m hm'
    refine hex m ?_
    have := hW .nan
    rw [rank_nan, weightedRank_nan, abs_le] at this
    have hm' : (m : ℚ) ≤ wsum (s.buffers.map List.length) := by exact_mod_cast hm'
    linarith [this.2]
  obtain ⟨v, hv1, hv2⟩ := estValue_correct s.buffers s.count q (by omega) (fun y hy => hnan y (hin y hy)) hne' hWt
    (by rw [hc, ht]; simp)
  rw [hc, ht] at hv2
  obtain ⟨h3, h4⟩ := RCValue.stat_sides_short hv2 h0
  refine ⟨v, hv1, hin v hv2.1, h3, ?_⟩
  rw [weightedRank_nan]
  exact h4

/-- C99. Whatever the coins: at most `q N + E` items lie below the answer of `est_value_at_quantile(q)` and at least `q N − 2 E` are
not above it, `E = N ((1 + 1/w)^M − 1)`. -/
theorem C99_value_rank_error {sec : Nat → Nat} {w M : Nat} (k : Nat) (ops : List (InsOp K))
    (h : Spec.Rc2Size sec w M (insItems ops).length) (hM : M ≤ 30) (hm : ∀ o ∈ ops, o.method = .default)
    (hlen : (insItems ops).length < 2 ^ 32) (hnan : ∀ y ∈ insItems ops, y ≠ .nan) (hne : insItems ops ≠ [])
    (hex : ∀ m : Nat, (m : ℚ) ≤ (insItems ops).length * (1 + 1 / w) ^ M → FloatFmt.rnd (m : K) = .fin (m : K))
    (q : Fl K) (t : K) (ht : q * Fl.ofNat (insItems ops).length = .fin t) (h0 : 0 ≤ t) (h1 : t ≤ ((insItems ops).length : K)) :
    Always (RCSketch2.runHist sec k ops) (fun s => Always (s.estValueAtQuantile q) (fun v =>
      ((insItems ops).countP (fun y => y < v) : K) ≤ t + (((insItems ops).length * ((1 + 1 / w) ^ M - 1) : ℚ) : K) ∧
      t - 2 * (((insItems ops).length * ((1 + 1 / w) ^ M - 1) : ℚ) : K) ≤ (rank (insItems ops) v : K))) := by
  refine ((rc2_value_sides k ops h hM hm hlen hnan hne hex q t ht h0).and (rc2_rank_sure k ops h hm)).mono ?_
  rintro s ⟨⟨v, hv, hvI, hl, hr⟩, hL, hW⟩
  rw [hv]
  show _ ∧ _
  have hE0 := le_trans (abs_nonneg _) (hW .nan)
  generalize ((insItems ops).length : ℚ) * ((1 + 1 / w) ^ M - 1) = E at *
  have hE : (0 : K) ≤ (E : K) := by exact_mod_cast hE0
  have hW' : ∀ x, (weightedRank s.buffers x : K) ≤ rank (insItems ops) x + (E : K) ∧
      (rank (insItems ops) x : K) ≤ weightedRank s.buffers x + (E : K) := by
    intro x
    obtain ⟨a, b⟩ := abs_le.1 (hW x)
    have a : (rank (insItems ops) x : ℚ) ≤ weightedRank s.buffers x + E := by linarith
    have b : (weightedRank s.buffers x : ℚ) ≤ rank (insItems ops) x + E := by linarith
    have a' : ((rank (insItems ops) x : ℚ) : K) ≤ ((weightedRank s.buffers x + E : ℚ) : K) := by exact_mod_cast a
    have b' : ((weightedRank s.buffers x : ℚ) : K) ≤ ((rank (insItems ops) x + E : ℚ) : K) := by exact_mod_cast b
    push_cast at a' b'
    exact ⟨b', a'⟩
  constructor
  · rcases RCValue.upper_point (K := K) (insItems ops) (t + (E : K)) (by positivity) with h | ⟨x, hx, hx1, hx2⟩
    · exact h v
    · by_contra hc
      push Not at hc
      have := hl x (hx2 v hc)
      have := (hW' x).2
      linarith
  · have h2 := hr v (le_refl _)
    have h3 := (hW' v).1
    have h4 := (hW' .nan).2
    rw [rank_nan] at h4
    rcases le_total t (weightedRank s.buffers .nan : K) with h5 | h5
    · rw [min_eq_left h5] at h2; linarith
    · rw [min_eq_right h5] at h2; linarith

/-- C99. With fair coins: except with probability at most `9 V / (ε N)²` (`V` the bound on the mean squared error of ranks) at most
`q N + ε N` items lie below the answer and at least `q N − ε N` are not above it. -/
theorem C99_value_tail {sec : Nat → Nat} {w M : Nat} (k : Nat) (ops : List (InsOp K))
    (h : Spec.Rc2Size sec w M (insItems ops).length) (hM : M ≤ 30) (hm : ∀ o ∈ ops, o.method = .default)
    (hlen : (insItems ops).length < 2 ^ 32) (hnan : ∀ y ∈ insItems ops, y ≠ .nan) (hne : insItems ops ≠ [])
    (hex : ∀ m : Nat, (m : ℚ) ≤ (insItems ops).length * (1 + 1 / w) ^ M → FloatFmt.rnd (m : K) = .fin (m : K))
    (q : Fl K) (t : K) (ht : q * Fl.ofNat (insItems ops).length = .fin t) (h0 : 0 ≤ t) (h1 : t ≤ ((insItems ops).length : K))
    (ε : ℚ) (hε : 0 < ε) :
    exp (RCSketch2.runHist sec k ops >>= fun s => s.estValueAtQuantile q) (fun v =>
      if ((insItems ops).countP (fun y => y < v) : K) ≤ t + (ε : K) * (insItems ops).length ∧
        t - (ε : K) * (insItems ops).length ≤ (rank (insItems ops) v : K)
      then 0 else 1) ≤ 9 * ((1 + 1 / (w : ℚ)) ^ (2 * (M - 1)) / (3 * w * sec 0)) / ε ^ 2 := by
  have hN : (0 : ℚ) < (insItems ops).length := by exact_mod_cast List.length_pos_of_ne_nil hne
  have hNK : (0 : K) < (insItems ops).length := by exact_mod_cast List.length_pos_of_ne_nil hne
  have hεK : (0 : K) < (ε : K) := by exact_mod_cast hε
  set D : ℚ := (1 + 1 / (w : ℚ)) ^ (2 * (M - 1)) / (3 * w * sec 0) with hD
  have hD0 : 0 ≤ D := by rw [hD]; positivity
  set N : ℚ := ((insItems ops).length : ℚ) with hNd
  have hNc : ((N : ℚ) : K) = ((insItems ops).length : K) := by rw [hNd]; push_cast; rfl
  have tail : ∀ x (c : ℚ), 0 < c → exp (RCSketch2.runHist sec k ops) (fun s => if c * N ≤
      |(weightedRank s.buffers x : ℚ) - rank (insItems ops) x| then 1 else 0) ≤ D / c ^ 2 := by
    intro x c hc
    refine (RCValue.chebyshev _ (fun s : RCSketch2 K => (weightedRank s.buffers x : ℚ) - rank (insItems ops) x) _ _
      (by positivity) (rc2_stored_mse k ops h hm hlen hnan x)).trans (le_of_eq ?_)
    rw [← hNd, hD]
    field_simp
  have hsplit : 9 * D / ε ^ 2 = D / ε ^ 2 + (D / (ε / 2) ^ 2 + D / (ε / 2) ^ 2) := by field_simp; ring
  rw [hsplit]
  refine RCValue.value_events (RCSketch2.runHist sec k ops) (fun s => s.estValueAtQuantile q) (insItems ops)
    (fun x s => (weightedRank s.buffers x : K) ≤ t)
    (fun x s => min t (weightedRank s.buffers .nan : K) ≤ (weightedRank s.buffers x : K))
    (rc2_value_sides k ops h hM hm hlen hnan hne hex q t ht h0).partially _ _ (by positivity) _ _ (by positivity) (by positivity) ?_ ?_
  · intro x hx hR
    refine le_trans (exp_mono ((partially_true _).mono (fun s _ => ?_))) (tail x ε hε)
    split
    · rename_i hW
      rw [if_pos]
      have h3 : ε * N ≤ (rank (insItems ops) x - weightedRank s.buffers x : ℚ) := by
        have : ((ε * N : ℚ) : K) ≤ ((rank (insItems ops) x - weightedRank s.buffers x : ℚ) : K) := by
          push_cast; rw [hNc]; linarith
        exact_mod_cast this
      rw [abs_sub_comm]
      exact h3.trans (le_abs_self _)
    · split <;> norm_num
  · intro x hx hR
    refine le_trans (exp_mono (g' := fun s => (if ε / 2 * N ≤ |(weightedRank s.buffers x : ℚ) - rank (insItems ops) x| then 1 else 0) +
      (if ε / 2 * N ≤ |(weightedRank s.buffers .nan : ℚ) - rank (insItems ops) .nan| then 1 else 0))
      ((partially_true _).mono (fun s _ => ?_))) (by rw [exp_add]; exact add_le_add (tail x _ (by positivity)) (tail .nan _ (by positivity)))
    have ind : ∀ (p : Prop) [Decidable p], (0 : ℚ) ≤ if p then 1 else 0 := fun p _ => by split <;> norm_num
    split
    · rename_i hW
      -- either the rank of `x` is overestimated by half the allowance or the total weight underestimated by it
      by_cases h5 : t - (ε : K) / 2 * (insItems ops).length ≤ (weightedRank s.buffers x : K)
      · rw [if_pos]
        · have := ind (ε / 2 * N ≤ |(weightedRank s.buffers .nan : ℚ) - rank (insItems ops) .nan|); linarith
        · have h3 : ε / 2 * N ≤ (weightedRank s.buffers x - rank (insItems ops) x : ℚ) := by
            have : ((ε / 2 * N : ℚ) : K) ≤ ((weightedRank s.buffers x - rank (insItems ops) x : ℚ) : K) := by
              push_cast; rw [hNc]; linarith
            exact_mod_cast this
          exact h3.trans (le_abs_self _)
      · push Not at h5
        have h6 : (weightedRank s.buffers .nan : K) ≤ (weightedRank s.buffers x : K) := by
          rcases le_total t (weightedRank s.buffers .nan : K) with h7 | h7
          · rw [min_eq_left h7] at hW
            have : (0 : K) ≤ (ε : K) / 2 * (insItems ops).length := by positivity
            linarith
          · rwa [min_eq_right h7] at hW
        rw [if_pos (c := ε / 2 * N ≤ |(weightedRank s.buffers .nan : ℚ) - rank (insItems ops) .nan|)]
        · have := ind (ε / 2 * N ≤ |(weightedRank s.buffers x : ℚ) - rank (insItems ops) x|); linarith
        · have h3 : ε / 2 * N ≤ (rank (insItems ops) .nan - weightedRank s.buffers .nan : ℚ) := by
            have : ((ε / 2 * N : ℚ) : K) ≤ ((rank (insItems ops) .nan - weightedRank s.buffers .nan : ℚ) : K) := by
              push_cast; rw [hNc, rank_nan]; linarith
            exact_mod_cast this
          rw [abs_sub_comm]
          exact h3.trans (le_abs_self _)
    · exact add_nonneg (ind _) (ind _)

/-- C99 in terms of `k`: failure probability at most `27 / (k ε)²`. -/
theorem C99_value_tail_k {sec : Nat → Nat} {k : Nat} (hk : Spec.Sections sec k) (ops : List (InsOp K)) (hm : ∀ o ∈ ops, o.method = .default)
    (hlen : (insItems ops).length < 2 ^ 32) (hnan : ∀ y ∈ insItems ops, y ≠ .nan) (hne : insItems ops ≠ [])
    (hex : ∀ m : Nat, m ≤ 2 * (insItems ops).length → FloatFmt.rnd (m : K) = .fin (m : K))
    (q : Fl K) (t : K) (ht : q * Fl.ofNat (insItems ops).length = .fin t) (h0 : 0 ≤ t) (h1 : t ≤ ((insItems ops).length : K))
    (ε : ℚ) (hε : 0 < ε) :
    exp (RCSketch2.runHist sec k ops >>= fun s => s.estValueAtQuantile q) (fun v =>
      if ((insItems ops).countP (fun y => y < v) : K) ≤ t + (ε : K) * (insItems ops).length ∧
        t - (ε : K) * (insItems ops).length ≤ (rank (insItems ops) v : K)
      then 0 else 1) ≤ 27 / (k * ε) ^ 2 := by
  have hkq : (0 : ℚ) < k := by exact_mod_cast (by have := hk.base; omega : 0 < k)
  have hb := (rc2_k_bounds hk 1).2
  refine (C99_value_tail k ops (hk.size hlen) (by norm_num) hm hlen hnan hne ?_ q t ht h0 h1 ε hε).trans ?_
  · intro m hm'
    refine hex m ?_
    have hw := secLow_ge k
    have h3 : 1 + 1 / (secLow k : ℚ) ≤ 1 + 1 / 64 := by
      have := one_div_le_one_div_of_le (by norm_num : (0 : ℚ) < 64) hw
      linarith
    have h4 : (1 + 1 / (secLow k : ℚ)) ^ 22 ≤ 2 :=
      (pow_le_pow_left₀ (by positivity) h3 22).trans (by norm_num)
    have h5 := mul_le_mul_of_nonneg_left h4 (Nat.cast_nonneg (α := ℚ) (insItems ops).length)
    have : (m : ℚ) ≤ ((2 * (insItems ops).length : Nat) : ℚ) := by push_cast; linarith
    exact_mod_cast this
  · simp only [Nat.cast_one, one_pow, one_mul] at hb
    generalize (1 + 1 / (secLow k : ℚ)) ^ (2 * (22 - 1)) / (3 * (secLow k : ℚ) * (sec 0 : Nat)) = D at *
    have e : (27 : ℚ) / (k * ε) ^ 2 = 9 * (3 * (1 / k) ^ 2) / ε ^ 2 := by field_simp; norm_num
    rw [e]
    exact div_le_div_of_nonneg_right (by linarith) (by positivity)

section examples
attribute [local instance] ratExact ratExact_exact

/-- 50 items into `new(8)` (capacity 48, so levels have been compacted): sections of at least two items, at most 5 levels. -/
example : Spec.Rc2Size (realSec 8) 2 4 50 := ⟨realSec_ok (by norm_num), by norm_num, by decide +kernel, by rw [realSec_zero]; norm_num⟩
example : (RCSketch2.runHist (realSec 8) 8 [.addBuffer (upTo 50 : List (Fl ℚ))] >>= fun s =>
    .ret (s.levels.map Level2.compactions)).run [true] = .ok [1, 0] := by decide +kernel
/-- The exact mean squared error for the item 44, of rank 45: the estimate is 44 or 46. -/
example : exp (RCSketch2.runHist (realSec 8) 8 [.addBuffer (upTo 50 : List (Fl ℚ))] >>= fun s => s.interpolateRank (.fin 44))
    (fun r => ((r : ℚ) - 45) ^ 2) = 1 := by decide +kernel
end examples

/-- One call with `n` items. -/
def rc2One (n : Nat) : List (InsOp ℚ) := [.addBuffer (upTo n)]
theorem upTo_len (n : Nat) : (upTo n : List (Fl ℚ)).length = n := by simp [upTo]
theorem rc2One_items (n : Nat) : insItems (rc2One n) = upTo n := by simp [rc2One, insItems, InsOp.items]
theorem upTo_fin (n : Nat) : ∀ y ∈ (upTo n : List (Fl ℚ)), y ≠ .nan := by simp [upTo]

section rounding
attribute [local instance] f64Fmt f64_binary f64_mono

/-- C98, C99 in `f64`: a million items into `new(1000)`, section sizes as the code computes them. The mean squared error of a rank is at most `3000²`, and with probability at
least 97% the answer for `q = 1/2` has at most 530000 items below it and at least 470000 not above it. -/
example (x : Fl ℚ) (hx : x ≠ .nan) :
    exp (RCSketch2.runHist (f32Sec 1000) 1000 (rc2One 1000000) >>= fun s => s.interpolateRank x)
      (fun r => ((r : ℚ) - rank (upTo 1000000) x) ^ 2) ≤ 3 * 1000 ^ 2 := by
  have hlen : (insItems (rc2One 1000000)).length = 1000000 := by rw [rc2One_items, upTo_len]
  have h := C98_mean_squared_error_k (K := ℚ) (sections_f32 (k := 1000) (by norm_num) (by norm_num)) (rc2One 1000000) (by simp [rc2One, InsOp.method])
    (by rw [hlen]; norm_num) (by rw [rc2One_items]; exact upTo_fin _) x hx
  rw [hlen, rc2One_items] at h
  norm_num at h ⊢
  exact h

example :
    exp (RCSketch2.runHist (f32Sec 1000) 1000 (rc2One 1000000) >>= fun s => s.estValueAtQuantile (.fin (1 / 2) : Fl ℚ)) (fun v =>
      if ((upTo 1000000 : List (Fl ℚ)).countP (fun y => y < v) : ℚ) ≤ 530000 ∧ 470000 ≤ (rank (upTo 1000000) v : ℚ)
      then 0 else 1) ≤ 3 / 100 := by
  have hlen : (insItems (rc2One 1000000)).length = 1000000 := by rw [rc2One_items, upTo_len]
  have h := C99_value_tail_k (K := ℚ) (sections_f32 (k := 1000) (by norm_num) (by norm_num)) (rc2One 1000000) (by simp [rc2One, InsOp.method])
    (by rw [hlen]; norm_num) (by rw [rc2One_items]; exact upTo_fin _) (by intro h; rw [h] at hlen; simp at hlen)
    (by intro m hm; rw [hlen] at hm; exact ExactCounts.rnd_nat f64_exactCounts (hm.trans (by norm_num)))
    (.fin (1 / 2)) 500000 ?_ (by norm_num) (by rw [hlen]; norm_num) (3 / 100) (by norm_num)
  · rw [hlen, rc2One_items] at h
    norm_num at h ⊢
    exact h
  · rw [hlen]
    show (.fin (1 / 2) : Fl ℚ) * FloatFmt.rnd ((1000000 : Nat) : ℚ) = _
    rw [ExactCounts.rnd_nat f64_exactCounts (m := 1000000) (by norm_num)]
    have := ExactCounts.rnd_nat f64_exactCounts (m := 500000) (by norm_num)
    show FloatFmt.rnd ((1 / 2 : ℚ) * ((1000000 : Nat) : ℚ)) = _
    have e : (1 / 2 : ℚ) * ((1000000 : Nat) : ℚ) = ((500000 : Nat) : ℚ) := by norm_num
    rw [e, this]
    norm_num
end rounding

end AQ

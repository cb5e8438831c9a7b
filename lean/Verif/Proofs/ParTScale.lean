/-
The representation results of TDRelDrift, TDRootDrift and TDFrac for ParTDigests.
-/
import Verif.Proofs.ParTLayers
import Verif.Proofs.TDFrac
import Verif.Proofs.TDRelDrift
import Verif.Proofs.TDRootDrift
import Verif.Props.TDRelDrift

set_option linter.unusedSectionVars false
set_option linter.unusedVariables false

namespace AQ
open Prog Spec
namespace ParTDigest
open TDigest
section
variable {K : Type} [Field K] [LinearOrder K] [IsStrictOrderedRing K] [FloatFmt K]

theorem totalW_perm {a b : List (Centroid K)} (h : a.Perm b) : totalW a = totalW b := (h.map _).sum_eq

/-- No centroid is heavier than `c` times the whole. -/
theorem layered_weight [FloatFmt.Exact K] {s i : ScaleFn K} {cf : Fl K} {c N : K} (hc : 0 ≤ c) (hl : LimitFrac c N s i cf) :
    Layered s i cf N (fun _ a sa => ∀ e ∈ a, e.weight.toK ≤ Max.max 1 (c * totalW sa)) where
  refl xs h e he := by
    obtain ⟨y, hy, rfl⟩ := List.mem_map.1 he
    exact le_max_of_le_left (by simp [unit, Fl.toK])
  mono _ _ _ h := h
  append := by
    intro m a b sa sb _ _ h1 h2 h3 h4 e he
    have n1 := totalW_nonneg h1.good
    have n2 := totalW_nonneg h2.good
    rw [totalW_append]
    rcases List.mem_append.1 he with he | he
    · exact (h3 e he).trans (max_le_max le_rfl (mul_le_mul_of_nonneg_left (by linarith) hc))
    · exact (h4 e he).trans (max_le_max le_rfl (mul_le_mul_of_nonneg_left (by linarith) hc))
  perm := by
    intro m a sa sa' h h1
    rw [← totalW_perm h]
    exact h1
  step := by
    intro m d d' b runs sup hm hs hi hf ho hos hW hN h
    rw [← hs, ← hi, ← hf] at hl
    have hr := hm.frac hl (fun e he => (ho e he).2) (by rw [hW]; exact hN)
    rw [hW] at hr
    exact hm.weight_le hr (le_max_right _ _) h

/-- Every pass moves ranks by at most `c` times the whole. -/
theorem layered_near [FloatFmt.Exact K] {s i : ScaleFn K} {cf : Fl K} {c N : K} (hc : 0 ≤ c) (hl : LimitFrac c N s i cf) :
    Layered s i cf N (fun m a sa => ∀ x, Near x a sa (m * (c * totalW sa))) where
  refl xs h x := by simp [Near]
  mono := by
    intro m m' a sa h h1 h2 h3 x
    have := totalW_nonneg h2.good
    exact (h3 x).mono (mul_le_mul_of_nonneg_right (Nat.cast_le.2 h) (by positivity))
  append := by
    intro m a b sa sb _ _ _ _ h3 h4 x
    rw [totalW_append, mul_add, mul_add]
    exact (h3 x).append (h4 x)
  perm := by
    intro m a sa sa' h h1 x
    have := h1 x
    unfold Near at *
    rw [← totalW_perm h, ← lw_perm x h, ← uw_perm x h]
    exact this
  step := by
    intro m d d' b runs sup hm hs hi hf ho hos hW hN h x
    rw [← hs, ← hi, ← hf] at hl
    have hr := hm.frac hl (fun e he => (ho e he).2) (by rw [hW]; exact hN)
    rw [hW] at hr
    have := totalW_nonneg hos.good
    obtain ⟨n1, n2⟩ := hm.drift (D := c * totalW sup) (by positivity) hr x
    obtain ⟨n3, n4⟩ := h x
    unfold Near
    push_cast
    rw [add_mul, one_mul]
    constructor <;> linarith

/-- Every pass multiplies ranks by at most `1 + c`, counted from either end. -/
theorem layered_rel [FloatFmt.Exact K] {s i : ScaleFn K} {cf : Fl K} {c N : K} (hc : 0 ≤ c) (hl : LimitRel s i cf c N) :
    Layered s i cf N (fun m a sa => ∀ x, RelNear x a sa ((1 + c) ^ m)) where
  refl xs h x := by rw [pow_zero]; exact RelNear.refl _ _
  mono := by
    intro m m' a sa h h1 h2 h3 x
    exact (h3 x).mono (pow_le_pow_right₀ (by linarith) h) h1.good h2.good
  append := by
    intro m a b sa sb _ _ _ _ h3 h4 x
    exact (h3 x).append (h4 x)
  perm := by
    intro m a sa sa' h h1 x
    exact (h1 x).perm h
  step := by
    intro m d d' b runs sup hm hs hi hf ho hos hW hN h x
    have hr := hm.rel hl hs hi hf (fun e he => (ho e he).2) (by rw [hW]; exact hN)
    have h1 := (hr.near hc hm.ne hm.good hm.sorted x).perm hm.perm
    rw [← hm.cs] at h1
    have h3 := RelNear.trans (by positivity) (by linarith) h1 (h x)
    rw [← pow_succ] at h3
    exact h3

end

section
variable [FloatFmt ℝ] [FloatFmt.Exact ℝ]

/-- Every pass of `k1` moves the square roots of the ranks by at most `(π/δ)√W`, counted from either end. -/
theorem layered_root {δ N : ℝ} (hδ : 0 < δ) :
    Layered k1 invK1 (.fin δ) N (fun m a sa => ∀ x, RootNear x a sa (m * (Real.pi / δ * √(totalW sa)))) where
  refl xs h x := by
    rw [Nat.cast_zero, zero_mul]
    exact RootNear.refl _ _
  mono := by
    intro m m' a sa h h1 h2 h3 x
    exact (h3 x).mono (mul_le_mul_of_nonneg_right (Nat.cast_le.2 h) (mul_nonneg (div_nonneg Real.pi_pos.le hδ.le) (Real.sqrt_nonneg _)))
  append := by
    intro m a b sa sb ha hb hsa hsb h3 h4 x
    have hβ : 0 ≤ Real.pi / δ := div_nonneg Real.pi_pos.le hδ.le
    have n1 : 0 ≤ totalW sa := totalW_nonneg hsa.good
    have n2 : 0 ≤ totalW sb := totalW_nonneg hsb.good
    have h2 := RootNear.append ha.good hb.good hsa.good hsb.good
      (mul_nonneg (Nat.cast_nonneg _) (mul_nonneg hβ (Real.sqrt_nonneg _))) (mul_nonneg (Nat.cast_nonneg _) (mul_nonneg hβ (Real.sqrt_nonneg _)))
      (h3 x) (h4 x)
    have e : √((m * (Real.pi / δ * √(totalW sa))) ^ 2 + (m * (Real.pi / δ * √(totalW sb))) ^ 2) = m * (Real.pi / δ * √(totalW (sa ++ sb))) := by
      rw [mul_pow, mul_pow, mul_pow, mul_pow, Real.sq_sqrt n1, Real.sq_sqrt n2, totalW_append,
        show (m : ℝ) ^ 2 * ((Real.pi / δ) ^ 2 * totalW sa) + (m : ℝ) ^ 2 * ((Real.pi / δ) ^ 2 * totalW sb) =
          (m * (Real.pi / δ)) ^ 2 * (totalW sa + totalW sb) by ring,
        Real.sqrt_mul (sq_nonneg _), Real.sqrt_sq (mul_nonneg (Nat.cast_nonneg _) hβ), mul_assoc]
    rw [e] at h2
    exact h2
  perm := by
    intro m a sa sa' h h1 x
    rw [← totalW_perm h]
    exact (h1 x).perm h
  step := by
    intro m d d' b runs sup hm hs hi hf ho hos hW hN h x
    have hβ : 0 ≤ Real.pi / δ := div_nonneg Real.pi_pos.le hδ.le
    have hr := hm.root hδ ⟨hs, hi, δ, hf, le_rfl⟩ (fun e he => (ho e he).2)
    rw [hW] at hr
    have h1 := (hr.near (mul_nonneg hβ (Real.sqrt_nonneg _)) hm.ne hm.good hm.sorted x).perm hm.perm
    rw [← hm.cs] at h1
    refine (h1.trans (h x)).mono (le_of_eq ?_)
    push_cast
    ring

end
end ParTDigest
end AQ

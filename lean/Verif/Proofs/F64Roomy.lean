/-
`f64` and `f32` have room for many items of large magnitude.
-/
import Verif.Proofs.F64
import Verif.Proofs.TDRound

set_option linter.unusedSectionVars false
set_option linter.unusedVariables false

namespace AQ
open Prog Spec
namespace Spec
namespace Ieee
variable (f : Ieee)

theorem rep_mul {m : Nat} (hm : m ≤ 2 ^ f.p) {e : ℤ} (he : f.emin ≤ e) : f.Rep ((m : ℚ) * 2 ^ e) := by
  refine ⟨m, e, ?_, he, by push_cast; rfl⟩
  rw [abs_of_nonneg (by positivity)]
  exact_mod_cast hm

theorem top_le_max (hp : 1 ≤ f.p) : (2 : ℚ) ^ (f.p - 1) * 2 ^ f.top ≤ f.max := by
  unfold max
  rw [pow2_eq]
  apply mul_le_mul_of_nonneg_right _ (by positivity)
  obtain ⟨k, hk⟩ := Nat.exists_eq_add_of_le hp
  rw [hk, show 1 + k - 1 = k by omega, pow_add, pow_one]
  have : (1 : ℚ) ≤ 2 ^ k := one_le_pow₀ (by norm_num)
  linarith

/-- Rounding moves a number by at most half a unit of its last place. -/
theorem roundPos_near {x : ℚ} : f.roundPos x ≤ x + 2 ^ f.lastPlace x / 2 := by
  have h2 : (0 : ℚ) < 2 ^ f.lastPlace x := by positivity
  have h := (abs_le.1 (abs_roundEven_sub (x / 2 ^ f.lastPlace x))).2
  rw [roundPos_eq]
  have h3 : (roundEven (x / 2 ^ f.lastPlace x) : ℚ) * 2 ^ f.lastPlace x
      ≤ (x / 2 ^ f.lastPlace x + 1 / 2) * 2 ^ f.lastPlace x := mul_le_mul_of_nonneg_right (by linarith) h2.le
  rw [add_mul, div_mul_cancel₀ _ h2.ne'] at h3
  linarith

/-- Numbers of the format are at least `2^emin` if positive. -/
theorem Rep.pos_le {f : Ieee} {y : ℚ} (h : f.Rep y) (hy : 0 < y) : (2 : ℚ) ^ f.emin ≤ y := by
  obtain ⟨m, e, -, he, rfl⟩ := h
  have h2 : (0 : ℚ) < 2 ^ e := by positivity
  have hm : 1 ≤ m := by
    by_contra hc
    have : (m : ℚ) ≤ 0 := by exact_mod_cast (by omega : m ≤ 0)
    nlinarith
  have hm' : (1 : ℚ) ≤ m := by exact_mod_cast hm
  have h3 : (2 : ℚ) ^ f.emin ≤ 2 ^ e := zpow_le_zpow_right₀ (by norm_num) he
  nlinarith

theorem roomy (h : f.Usual) {N : Nat} (hN : N ≤ 2 ^ (f.p - 1)) (h64 : N ≤ 2 ^ 52) (hc : @ExactCounts ℚ _ f.fmt N) {e : ℤ}
    (h1 : f.emin ≤ e) (h2 : e + 1 ≤ f.top) : @Roomy ℚ _ _ f.fmt N (-2 ^ e) (2 ^ e) := by
  have hp := h.1
  have hmono : @FloatFmt.Mono ℚ _ _ f.fmt := (f.binary h).toMono
  have hNp : N ≤ 2 ^ f.p := hN.trans (Nat.pow_le_pow_right (by norm_num) (by omega))
  have he2 : (0 : ℚ) < 2 ^ e := by positivity
  have hp0 : (0 : ℚ) < 2 ^ (f.p - 1) := by positivity
  have hp1 : (1 : ℚ) ≤ 2 ^ (f.p - 1) := one_le_pow₀ (by norm_num)
  have htop : (2 : ℚ) ^ (e + 1) ≤ 2 ^ f.top := zpow_le_zpow_right₀ (by norm_num) h2
  have hee : (2 : ℚ) ^ (e + 1) = 2 ^ e + 2 ^ e := by rw [zpow_add₀ (by norm_num), zpow_one]; ring
  have hmax := f.top_le_max hp
  have hbig : (2 : ℚ) ^ (f.p - 1) * 2 ^ (e + 1) ≤ f.max := (mul_le_mul_of_nonneg_left htop hp0.le).trans hmax
  have hmul : ∀ m : Nat, m ≤ N → (m : ℚ) * 2 ^ e ≤ f.max := by
    intro m hm
    have : (m : ℚ) ≤ 2 ^ (f.p - 1) := by exact_mod_cast hm.trans hN
    nlinarith
  have hbmax : (2 : ℚ) ^ e ≤ f.max := by nlinarith
  have hmul0 : ∀ m : Nat, (0 : ℚ) ≤ (m : ℚ) * 2 ^ e := fun m => by positivity
  have hwidth : f.rnd (2 ^ e - -2 ^ e) = .fin (2 ^ (e + 1)) := by
    have e1 : (2 : ℚ) ^ e - -2 ^ e = ((1 : ℕ) : ℚ) * 2 ^ (e + 1) := by rw [hee]; push_cast; ring
    rw [e1, f.rnd_eq_fin hp (f.rep_mul (Nat.one_le_two_pow) (by omega))]
    · simp
    · push_cast; nlinarith
    · push_cast; nlinarith
  let _ := f.fmt
  refine ⟨hc, ?_, ?_, ?_, ⟨?_, by linarith, hbmax⟩, ?_, ⟨_, hwidth⟩, ?_⟩
  · intro m hm
    exact @ExactCounts.rnd_nat ℚ _ _ _ f64Fmt _ f64_exactCounts m (hm.trans h64)
  · intro m hm
    have e1 : -(2 : ℚ) ^ e * m = -((m : ℚ) * 2 ^ e) := by ring
    have := hmul m hm
    have := hmul0 m
    rw [e1]
    exact f.rnd_eq_fin hp (f.rep_mul (hm.trans hNp) h1).neg (by linarith) (by linarith)
  · intro m hm
    have := hmul m hm
    have := hmul0 m
    rw [mul_comm]
    exact f.rnd_eq_fin hp (f.rep_mul (hm.trans hNp) h1) (by linarith) (by linarith)
  · show -f.max ≤ -(2 : ℚ) ^ e
    linarith
  · have e1 : (-(1 / 2) : ℚ) = -(((1 : ℕ) : ℚ) * 2 ^ (-1 : ℤ)) := by norm_num
    have := h.2.2
    rw [e1]
    exact f.rnd_eq_fin hp (f.rep_mul (Nat.one_le_two_pow) h.2.1).neg (by norm_num; linarith) (by norm_num; linarith)
  · intro m hm x y hx0 hx1 hy
    change f.rnd x = .fin y at hy
    obtain ⟨hrep, -, -⟩ := f.rnd_fin hy
    have hy0 : 0 ≤ y := by
      have := hmono.rnd_mono 0 x hx0
      rw [hmono.rnd_zero] at this
      change Fl.fin 0 ≤ f.rnd x at this
      rw [hy] at this
      simpa using this
    have hy1 : y ≤ 2 ^ (e + 1) := by
      have := f.rnd_mono hp hx1
      rw [hy, hwidth] at this
      simpa using this
    rcases hy0.eq_or_lt with hy0 | hy0
    · subst hy0
      have := hmono.rnd_zero
      rw [mul_zero, mul_zero, this]
    rcases Nat.eq_zero_or_pos m with hm0 | hm0
    · subst hm0
      have := hmono.rnd_zero
      rw [Nat.cast_zero, zero_div, zero_mul, this]
      simp only [Fl.fin_le_fin]
      linarith
    have hmq : (0 : ℚ) < m := by exact_mod_cast hm0
    have hmle : (m : ℚ) / 2 ≤ 2 ^ (f.p - 1) := by
      have : (m : ℚ) ≤ 2 * 2 ^ (f.p - 1) := by exact_mod_cast hm.trans (Nat.mul_le_mul_left 2 hN)
      linarith
    have hz0 : (0 : ℚ) < m / 2 * y := by positivity
    have hzy : (m : ℚ) / 2 * y ≤ 2 ^ (f.p - 1) * y := mul_le_mul_of_nonneg_right hmle hy0.le
    have hlast : (2 : ℚ) ^ f.lastPlace (m / 2 * y) ≤ y := by
      unfold lastPlace
      rcases le_total f.emin (ilog2 ((m : ℚ) / 2 * y) - (f.p - 1)) with hl | hl
      · rw [max_eq_right hl]
        have h3 := (ilog2_spec hz0).1.trans hzy
        rw [zpow_sub₀ (by norm_num), div_le_iff₀ (by positivity)]
        have e1 : ((2 : ℚ) ^ ((f.p : ℤ) - 1)) = 2 ^ (f.p - 1) := by
          rw [← zpow_natCast, Nat.cast_sub hp]; simp
        rw [e1]
        linarith
      · rw [max_eq_left hl]
        exact hrep.pos_le hy0
    have hround : f.round (m / 2 * y) = f.roundPos (m / 2 * y) := by unfold round; rw [if_pos hz0]
    have hnear := f.roundPos_near (x := m / 2 * y)
    have hnn := f.roundPos_nonneg hz0
    have hle : f.round (m / 2 * y) ≤ f.max := by
      refine le_trans ?_ hbig
      have h3 := f.round_mono hp (show (m : ℚ) / 2 * y ≤ 2 ^ (f.p - 1) * 2 ^ (e + 1) by nlinarith)
      rwa [f.round_of_rep hp (x := 2 ^ (f.p - 1) * 2 ^ (e + 1))] at h3
      have := f.rep_mul (m := 2 ^ (f.p - 1)) (Nat.pow_le_pow_right (by norm_num) (by omega)) (e := e + 1) (by omega)
      push_cast at this
      exact this
    show f.rnd (m / 2 * y) ≤ _
    unfold rnd
    simp only
    rw [if_neg (not_lt.2 hle), if_neg (by rw [hround]; linarith), Fl.fin_le_fin, hround]
    linarith

end Ieee

/-- `f64` has room for `2^52` items of magnitude up to `2^970`. -/
theorem f64_roomy {e : ℤ} (h1 : -1074 ≤ e) (h2 : e ≤ 970) : @Roomy ℚ _ _ f64Fmt (2 ^ 52) (-2 ^ e) (2 ^ e) :=
  Ieee.double.roomy double_usual (by decide) (by decide) f64_exactCounts h1 (by show e + 1 ≤ 971; omega)

/-- `f32` has room for `2^23` items of magnitude up to `2^103`. -/
theorem f32_roomy {e : ℤ} (h1 : -149 ≤ e) (h2 : e ≤ 103) : @Roomy ℚ _ _ f32Fmt (2 ^ 23) (-2 ^ e) (2 ^ e) :=
  Ieee.single.roomy single_usual (by decide) (by decide) f32_exactCounts h1 (by show e + 1 ≤ 104; omega)

end Spec

section
attribute [local instance] f64Fmt

theorem TDigest.within_of_unit {l : List (Centroid ℚ)} (h : ∀ c ∈ l, ∃ x : ℚ, c = ⟨.fin x, .fin 1⟩ ∧ |x| ≤ 2 ^ 970) :
    (∀ c ∈ l, Within (-2 ^ (970 : ℤ)) (2 ^ (970 : ℤ)) c) ∧ totalW l = (l.length : ℚ) := by
  constructor
  · intro c hc
    obtain ⟨x, rfl, hx⟩ := h c hc
    obtain ⟨h1, h2⟩ := abs_le.1 hx
    exact ⟨x, 1, rfl, by exact_mod_cast h1, by exact_mod_cast h2, by simp, le_rfl⟩
  · induction l with
    | nil => simp
    | cons a l ih =>
      obtain ⟨x, rfl, -⟩ := h a (by simp)
      rw [totalW_cons, ih (fun c hc => h c (by simp [hc]))]
      simp [Fl.toK, add_comm]

end
end AQ

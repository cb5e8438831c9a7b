/-
The relative error of `f64` and `f32` rounding.
-/
import Verif.Proofs.F64
import Verif.Proofs.F64Roomy
import Verif.Spec.Rounding

set_option linter.unusedSectionVars false
set_option linter.unusedVariables false

namespace AQ.Spec
namespace Ieee
variable (f : Ieee)

theorem abs_roundPos_sub {x : ℚ} (hx : 0 < x) : |f.roundPos x - x| ≤ 2 ^ (-(f.p : ℤ)) * x + 2 ^ (f.emin - 1) := by
  have h2 : (0 : ℚ) < 2 ^ f.lastPlace x := by positivity
  have h1 : |f.roundPos x - x| ≤ 2 ^ f.lastPlace x / 2 := by
    have h := abs_roundEven_sub (x / 2 ^ f.lastPlace x)
    have e : f.roundPos x - x = ((roundEven (x / 2 ^ f.lastPlace x) : ℚ) - x / 2 ^ f.lastPlace x) * 2 ^ f.lastPlace x := by
      rw [roundPos_eq, sub_mul, div_mul_cancel₀ _ h2.ne']
    rw [e, abs_mul, abs_of_pos h2]
    have := mul_le_mul_of_nonneg_right h h2.le
    linarith
  have hη : (0 : ℚ) < 2 ^ (f.emin - 1) := by positivity
  have hu : (0 : ℚ) < 2 ^ (-(f.p : ℤ)) * x := by positivity
  refine h1.trans ?_
  unfold lastPlace
  rcases le_total f.emin (ilog2 x - (f.p - 1)) with hl | hl
  · rw [max_eq_right hl]
    have h3 := (ilog2_spec hx).1
    have e : (2 : ℚ) ^ (ilog2 x - (f.p - 1)) / 2 = 2 ^ (-(f.p : ℤ)) * 2 ^ ilog2 x := by
      rw [← zpow_add₀ (by norm_num), div_eq_iff (by norm_num), ← zpow_add_one₀ (by norm_num)]
      congr 1; ring
    rw [e]
    have := mul_le_mul_of_nonneg_left h3 (show (0 : ℚ) ≤ 2 ^ (-(f.p : ℤ)) by positivity)
    linarith
  · rw [max_eq_left hl]
    have e : (2 : ℚ) ^ f.emin / 2 = 2 ^ (f.emin - 1) := by rw [zpow_sub_one₀ (by norm_num)]; ring
    rw [e]
    linarith

theorem abs_round_sub (x : ℚ) : |f.round x - x| ≤ 2 ^ (-(f.p : ℤ)) * |x| + 2 ^ (f.emin - 1) := by
  have hη : (0 : ℚ) < 2 ^ (f.emin - 1) := by positivity
  unfold round
  rcases lt_trichotomy x 0 with hx | hx | hx
  · rw [if_neg (not_lt.2 hx.le), if_pos hx, abs_of_neg hx]
    have := f.abs_roundPos_sub (x := -x) (by linarith)
    rwa [show -f.roundPos (-x) - x = -(f.roundPos (-x) - -x) by ring, abs_neg]
  · subst hx; simp; exact hη.le
  · rw [if_pos hx, abs_of_pos hx]
    exact f.abs_roundPos_sub hx

theorem relErr (h : f.Usual) (he : f.emin ≤ f.top) : @RelErr ℚ _ _ f.fmt (2 ^ (-(f.p : ℤ))) (2 ^ (f.emin - 1)) f.max := by
  have hrep : f.Rep f.max := ⟨2 ^ f.p - 1, f.top, by
    rw [abs_of_nonneg]
    · linarith
    · have : (1 : ℤ) ≤ 2 ^ f.p := one_le_pow₀ (by norm_num)
      linarith, he, by unfold max; rw [pow2_eq]; push_cast; ring⟩
  let _ := f.fmt
  refine ⟨by positivity, by positivity, ?_⟩
  intro x hx
  obtain ⟨h1, h2⟩ := abs_le.1 hx
  have a1 := f.round_mono h.1 h2
  have a2 := f.round_mono h.1 h1
  rw [f.round_of_rep h.1 hrep] at a1
  rw [f.round_of_rep h.1 hrep.neg] at a2
  refine ⟨f.round x, ?_, f.abs_round_sub x⟩
  show f.rnd x = _
  unfold rnd
  simp only
  rw [if_neg (not_lt.2 a1), if_neg (not_lt.2 a2)]

/-- A number of the format that is at least 1 is a multiple of `2^(1-p)`. -/
theorem Rep.multiple {f : Ieee} (hp : 1 ≤ f.p) {x : ℚ} (h : f.Rep x) (h1 : 1 ≤ x) : ∃ a : ℤ, x = a * 2 ^ (-((f.p : ℤ) - 1)) := by
  obtain ⟨m, e, hm, he, rfl⟩ := h
  by_cases hle : -((f.p : ℤ) - 1) ≤ e
  · obtain ⟨n, hn⟩ := mul_two_zpow_int (m := m) hle
    exact ⟨n, by rw [← hn, div_mul_cancel₀ _ (by positivity)]⟩
  · have h2 : (m : ℚ) * 2 ^ e ≤ 1 := by
      have a1 : (m : ℚ) ≤ 2 ^ f.p := by
        have := (abs_le.1 hm).2
        exact_mod_cast this
      have a2 : (2 : ℚ) ^ e ≤ 2 ^ (-(f.p : ℤ)) := zpow_le_zpow_right₀ (by norm_num) (by omega)
      have a3 : (2 : ℚ) ^ f.p * 2 ^ (-(f.p : ℤ)) = 1 := by
        rw [← zpow_natCast, ← zpow_add₀ (by norm_num)]; simp
      calc (m : ℚ) * 2 ^ e ≤ 2 ^ f.p * 2 ^ e := mul_le_mul_of_nonneg_right a1 (by positivity)
        _ ≤ 2 ^ f.p * 2 ^ (-(f.p : ℤ)) := mul_le_mul_of_nonneg_left a2 (by positivity)
        _ = 1 := a3
    refine ⟨2 ^ (f.p - 1), ?_⟩
    rw [le_antisymm h2 h1]
    push_cast
    rw [← zpow_natCast, ← zpow_add₀ (by norm_num)]
    rw [Nat.cast_sub hp]
    simp

theorem closeExact (h : f.Usual) (hp : 2 ≤ f.p) (he : f.emin ≤ -((f.p : ℤ) - 1)) (N : Nat) : @CloseExact ℚ _ _ f.fmt N := by
  let _ := f.fmt
  intro x k hk hx h1 hd
  have hx' : f.rnd x = .fin x := hx
  obtain ⟨a, ha⟩ := (f.rnd_fin hx').1.multiple h.1 h1
  have hpp : (0 : ℚ) < 2 ^ (-((f.p : ℤ) - 1)) := by positivity
  have hk2 : (k : ℚ) / 2 = ((k * 2 ^ (f.p - 2) : ℤ) : ℚ) * 2 ^ (-((f.p : ℤ) - 1)) := by
    push_cast
    rw [mul_assoc, ← zpow_natCast, ← zpow_add₀ (by norm_num), Nat.cast_sub hp,
      show ((f.p : ℤ) - (2 : ℕ)) + -((f.p : ℤ) - 1) = -1 by push_cast; ring, zpow_neg_one]
    ring
  have hdiff : x - (k : ℚ) / 2 = ((a - k * 2 ^ (f.p - 2) : ℤ) : ℚ) * 2 ^ (-((f.p : ℤ) - 1)) := by
    rw [hk2, ha]; push_cast; ring
  have hrep : f.Rep (x - (k : ℚ) / 2) := by
    refine ⟨_, _, ?_, he, hdiff⟩
    rw [hdiff, abs_mul, abs_of_pos hpp] at hd
    have e : (2 : ℚ) ^ (f.p - 1) * 2 ^ (-((f.p : ℤ) - 1)) = 1 := by
      rw [← zpow_natCast, ← zpow_add₀ (by norm_num), Nat.cast_sub h.1]; simp
    rw [← e] at hd
    have h3 := le_of_mul_le_mul_right hd hpp
    have h4 : |a - k * 2 ^ (f.p - 2)| ≤ (2 : ℤ) ^ (f.p - 1) := by exact_mod_cast h3
    exact h4.trans (pow_le_pow_right₀ (by norm_num) (by omega))
  obtain ⟨d1, d2⟩ := abs_le.1 hd
  have hm := h.2.2
  constructor
  · exact f.rnd_eq_fin h.1 hrep (by linarith) (by linarith)
  · have := hrep.neg
    rw [neg_sub] at this
    exact f.rnd_eq_fin h.1 this (by linarith) (by linarith)

end Ieee

theorem f64_closeExact (N : Nat) : @CloseExact ℚ _ _ f64Fmt N := Ieee.double.closeExact double_usual (by decide) (by decide) N

theorem f32_closeExact (N : Nat) : @CloseExact ℚ _ _ f32Fmt N := Ieee.single.closeExact single_usual (by decide) (by decide) N

theorem f64_relErr : @RelErr ℚ _ _ f64Fmt (2 ^ (-53 : ℤ)) (2 ^ (-1075 : ℤ)) Ieee.double.max :=
  Ieee.double.relErr double_usual (by decide)

theorem f32_relErr : @RelErr ℚ _ _ f32Fmt (2 ^ (-24 : ℤ)) (2 ^ (-150 : ℤ)) Ieee.single.max :=
  Ieee.single.relErr single_usual (by decide)

end AQ.Spec

/-
The IEEE formats satisfy the rounding classes: monotone, idempotent, exact on their own numbers, exact doubling.
-/
import Mathlib.Tactic.Linarith
import Mathlib.Tactic.Ring
import Mathlib.Tactic.NormNum
import Mathlib.Tactic.FieldSimp
import Mathlib.Algebra.Order.Field.Power
import Verif.Spec.F64
import Verif.Spec.Basic

set_option linter.unusedSectionVars false
set_option linter.unusedVariables false

namespace AQ.Spec

theorem pow2_eq (e : ℤ) : pow2 e = 2 ^ e := by
  unfold pow2
  split
  · rename_i h
    obtain ⟨n, rfl⟩ := Int.eq_ofNat_of_zero_le h
    simp
  · rename_i h
    obtain ⟨n, hn⟩ := Int.eq_ofNat_of_zero_le (show 0 ≤ -e by omega)
    have : e = -(n : ℤ) := by omega
    subst this
    simp

theorem roundEven_le {y : ℚ} {n : ℤ} (h : y ≤ n) : roundEven y ≤ n := by
  unfold roundEven
  have h1 : ⌊y⌋ ≤ n := by
    have := Int.floor_le y
    exact_mod_cast this.trans h
  simp only
  rcases lt_or_eq_of_le h1 with h2 | h2
  · split <;> [omega; split <;> [omega; split <;> omega]]
  · have h3 : y - ⌊y⌋ < 1 / 2 := by rw [h2]; linarith
    rw [if_pos h3]; omega

theorem le_roundEven {y : ℚ} {n : ℤ} (h : (n : ℚ) ≤ y) : n ≤ roundEven y := by
  unfold roundEven
  have h1 : n ≤ ⌊y⌋ := Int.le_floor.2 h
  simp only
  split <;> [omega; split <;> [omega; split <;> omega]]

theorem roundEven_int (n : ℤ) : roundEven (n : ℚ) = n := le_antisymm (roundEven_le le_rfl) (le_roundEven le_rfl)

theorem roundEven_mono {a b : ℚ} (h : a ≤ b) : roundEven a ≤ roundEven b := by
  have hf : ⌊a⌋ ≤ ⌊b⌋ := Int.floor_le_floor h
  rcases lt_or_eq_of_le hf with h1 | h1
  · have h2 : roundEven a ≤ ⌊a⌋ + 1 := roundEven_le (by push_cast; exact (Int.lt_floor_add_one a).le)
    have h3 : ⌊b⌋ ≤ roundEven b := le_roundEven (Int.floor_le b)
    omega
  · unfold roundEven
    simp only
    rw [h1]
    split_ifs <;> first | omega | (exfalso; linarith)

/-- Rounding to nearest: off by at most one half. -/
theorem abs_roundEven_sub (y : ℚ) : |(roundEven y : ℚ) - y| ≤ 1 / 2 := by
  have h1 := Int.floor_le y
  have h2 := Int.lt_floor_add_one y
  unfold roundEven
  simp only
  rw [abs_le]
  split_ifs <;> push_cast <;> constructor <;> linarith

theorem ilog2_spec {x : ℚ} (hx : 0 < x) : (2 : ℚ) ^ ilog2 x ≤ x ∧ x < 2 ^ (ilog2 x + 1) := by
  have hn : 0 < x.num := Rat.num_pos.2 hx
  have hd : 0 < x.den := x.den_pos
  set n := x.num.natAbs with hnn
  have hn0 : n ≠ 0 := by omega
  have hxe : x = (n : ℚ) / x.den := by
    have : ((n : ℤ) : ℚ) = x.num := by
      rw [hnn]; congr 1; omega
    rw [show (n : ℚ) = ((n : ℤ) : ℚ) by simp, this]
    exact (Rat.num_div_den x).symm
  have hdq : (0 : ℚ) < x.den := by exact_mod_cast hd
  have hxn : x * x.den = n := ((eq_div_iff hdq.ne').1 hxe)
  have a1 : ((2 ^ Nat.log2 n : ℕ) : ℚ) ≤ n := by exact_mod_cast Nat.log2_self_le hn0
  have a2 : (n : ℚ) < ((2 ^ (Nat.log2 n + 1) : ℕ) : ℚ) := by exact_mod_cast Nat.lt_log2_self
  have b1 : ((2 ^ Nat.log2 x.den : ℕ) : ℚ) ≤ x.den := by exact_mod_cast Nat.log2_self_le hd.ne'
  have b2 : (x.den : ℚ) < ((2 ^ (Nat.log2 x.den + 1) : ℕ) : ℚ) := by exact_mod_cast Nat.lt_log2_self
  push_cast at a1 a2 b1 b2
  have hup : x < 2 ^ ((Nat.log2 n : ℤ) - Nat.log2 x.den + 1) := by
    refine lt_of_mul_lt_mul_right (a := (x.den : ℚ)) ?_ hdq.le
    rw [hxn]
    calc (n : ℚ) < 2 ^ (Nat.log2 n + 1) := a2
      _ = 2 ^ ((Nat.log2 n : ℤ) - Nat.log2 x.den + 1) * 2 ^ (Nat.log2 x.den) := by
          rw [← zpow_natCast (2 : ℚ) (Nat.log2 x.den), ← zpow_add₀ (by norm_num), ← zpow_natCast]
          congr 1; push_cast; ring
      _ ≤ _ := by
          apply mul_le_mul_of_nonneg_left b1
          positivity
  have hlo : 2 ^ ((Nat.log2 n : ℤ) - Nat.log2 x.den - 1) < x := by
    refine lt_of_mul_lt_mul_right (a := (x.den : ℚ)) ?_ hdq.le
    rw [hxn]
    calc (2 : ℚ) ^ ((Nat.log2 n : ℤ) - Nat.log2 x.den - 1) * x.den
        < 2 ^ ((Nat.log2 n : ℤ) - Nat.log2 x.den - 1) * 2 ^ (Nat.log2 x.den + 1) := by
          apply mul_lt_mul_of_pos_left b2
          positivity
      _ = 2 ^ Nat.log2 n := by
          rw [← zpow_natCast (2 : ℚ) (Nat.log2 x.den + 1), ← zpow_add₀ (by norm_num), ← zpow_natCast]
          congr 1; push_cast; ring
      _ ≤ n := a1
  unfold ilog2
  simp only
  rw [pow2_eq]
  split
  · rename_i h; exact ⟨h, hup⟩
  · rename_i h
    refine ⟨hlo.le, ?_⟩
    rw [sub_add_cancel]; exact not_le.1 h

theorem ilog2_mono {x y : ℚ} (hx : 0 < x) (hxy : x ≤ y) : ilog2 x ≤ ilog2 y := by
  by_contra h
  have h1 := (ilog2_spec hx).1
  have h2 := (ilog2_spec (hx.trans_le hxy)).2
  have h3 : (2 : ℚ) ^ (ilog2 y + 1) ≤ 2 ^ ilog2 x := zpow_le_zpow_right₀ (by norm_num) (by omega)
  linarith

namespace Ieee
variable (f : Ieee)

/-- The exponent of the last place of `x`. -/
def lastPlace (x : ℚ) : ℤ := Max.max f.emin (ilog2 x - (f.p - 1))

theorem roundPos_eq (x : ℚ) : f.roundPos x = (roundEven (x / 2 ^ f.lastPlace x) : ℚ) * 2 ^ f.lastPlace x := by
  unfold roundPos lastPlace
  simp only [pow2_eq]

theorem mul_two_zpow_int {m e q : ℤ} (h : q ≤ e) : ∃ n : ℤ, (m : ℚ) * 2 ^ e / 2 ^ q = n := by
  obtain ⟨k, hk⟩ := Int.eq_ofNat_of_zero_le (show 0 ≤ e - q by omega)
  refine ⟨m * 2 ^ k, ?_⟩
  have h2 : (2 : ℚ) ^ q ≠ 0 := by positivity
  rw [div_eq_iff h2]
  push_cast
  rw [← zpow_natCast (2 : ℚ) k, mul_assoc, ← zpow_add₀ (by norm_num)]
  congr 2; omega

/-- An integer multiple of a large enough power of two is not crossed by rounding. -/
theorem roundPos_le {x : ℚ} {m e : ℤ} (h : x ≤ m * 2 ^ e) (he : f.lastPlace x ≤ e) : f.roundPos x ≤ m * 2 ^ e := by
  obtain ⟨n, hn⟩ := mul_two_zpow_int (m := m) he
  have h2 : (0 : ℚ) < 2 ^ f.lastPlace x := by positivity
  rw [div_eq_iff h2.ne'] at hn
  rw [roundPos_eq, hn]
  apply mul_le_mul_of_nonneg_right _ h2.le
  have : roundEven (x / 2 ^ f.lastPlace x) ≤ n := roundEven_le (by rw [div_le_iff₀ h2, ← hn]; exact h)
  exact_mod_cast this

theorem le_roundPos {x : ℚ} {m e : ℤ} (h : m * 2 ^ e ≤ x) (he : f.lastPlace x ≤ e) : m * 2 ^ e ≤ f.roundPos x := by
  obtain ⟨n, hn⟩ := mul_two_zpow_int (m := m) he
  have h2 : (0 : ℚ) < 2 ^ f.lastPlace x := by positivity
  rw [div_eq_iff h2.ne'] at hn
  rw [roundPos_eq, hn]
  apply mul_le_mul_of_nonneg_right _ h2.le
  have : n ≤ roundEven (x / 2 ^ f.lastPlace x) := le_roundEven (by rw [le_div_iff₀ h2, ← hn]; exact h)
  exact_mod_cast this

theorem lastPlace_mono {x y : ℚ} (hx : 0 < x) (hxy : x ≤ y) : f.lastPlace x ≤ f.lastPlace y := by
  have := ilog2_mono hx hxy
  unfold lastPlace
  omega

theorem roundPos_mono (hp : 1 ≤ f.p) {x y : ℚ} (hx : 0 < x) (hxy : x ≤ y) : f.roundPos x ≤ f.roundPos y := by
  have hy := hx.trans_le hxy
  rcases lt_or_eq_of_le (f.lastPlace_mono hx hxy) with h | h
  · have h1 : f.lastPlace y = ilog2 y - (f.p - 1) := by
      unfold lastPlace at h ⊢
      omega
    have h2 : ilog2 x < ilog2 y := by
      by_contra h3
      have : ilog2 x = ilog2 y := le_antisymm (ilog2_mono hx hxy) (not_lt.1 h3)
      unfold lastPlace at h
      rw [this] at h
      exact lt_irrefl _ h
    have h3 : (2 : ℚ) ^ (ilog2 x + 1) ≤ 2 ^ ilog2 y := zpow_le_zpow_right₀ (by norm_num) (by omega)
    have h4 := (ilog2_spec hx).2
    have h5 := (ilog2_spec hy).1
    have h6 : f.lastPlace y ≤ ilog2 y := by omega
    have e : (2 : ℚ) ^ ilog2 y = ((1 : ℤ) : ℚ) * 2 ^ ilog2 y := by simp
    have h7 := f.roundPos_le (x := x) (m := 1) (e := ilog2 y) (by rw [← e]; linarith) (by omega)
    have h8 := f.le_roundPos (x := y) (m := 1) (e := ilog2 y) (by rw [← e]; exact h5) h6
    exact h7.trans h8
  · rw [roundPos_eq, roundPos_eq, h]
    have h2 : (0 : ℚ) < 2 ^ f.lastPlace y := by positivity
    apply mul_le_mul_of_nonneg_right _ h2.le
    have := roundEven_mono (div_le_div_of_nonneg_right hxy h2.le)
    exact_mod_cast this

theorem roundPos_nonneg {x : ℚ} (hx : 0 < x) : 0 ≤ f.roundPos x := by
  have := f.le_roundPos (x := x) (m := 0) (e := f.lastPlace x) (by simpa using hx.le) le_rfl
  simpa using this

theorem round_mono (hp : 1 ≤ f.p) {x y : ℚ} (hxy : x ≤ y) : f.round x ≤ f.round y := by
  unfold round
  rcases lt_trichotomy x 0 with hx | hx | hx
  · have a1 := f.roundPos_nonneg (x := -x) (by linarith)
    rw [if_neg (not_lt.2 hx.le), if_pos hx]
    rcases lt_trichotomy y 0 with hy | hy | hy
    · rw [if_neg (not_lt.2 hy.le), if_pos hy]
      have := f.roundPos_mono hp (x := -y) (y := -x) (by linarith) (by linarith)
      linarith
    · subst hy; simp; exact a1
    · rw [if_pos hy]
      have := f.roundPos_nonneg hy
      linarith
  · subst hx
    simp only [lt_self_iff_false, if_false]
    rcases lt_or_eq_of_le hxy with hy | hy
    · rw [if_pos hy]; exact f.roundPos_nonneg hy
    · rw [← hy]; simp
  · have hy := hx.trans_le hxy
    rw [if_pos hx, if_pos hy]
    exact f.roundPos_mono hp hx hxy

theorem rnd_mono (hp : 1 ≤ f.p) {x y : ℚ} (hxy : x ≤ y) : f.rnd x ≤ f.rnd y := by
  have h := f.round_mono hp hxy
  unfold rnd
  simp only
  repeat' split
  all_goals first | (exfalso; linarith) | trivial

/-- Numbers of the format are not changed by rounding (up to overflow). -/
theorem lastPlace_le (hp : 1 ≤ f.p) {m e : ℤ} (hm : |m| ≤ 2 ^ f.p) (he : f.emin ≤ e) (hpos : (0 : ℚ) < m * 2 ^ e) :
    ∃ m' e' : ℤ, (m : ℚ) * 2 ^ e = m' * 2 ^ e' ∧ f.lastPlace (m * 2 ^ e) ≤ e' := by
  have h2 : (0 : ℚ) < 2 ^ e := by positivity
  have hm0 : 0 < m := by
    have : (0 : ℚ) < m := by
      by_contra h
      have := mul_nonpos_of_nonpos_of_nonneg (not_lt.1 h) h2.le
      linarith
    exact_mod_cast this
  have hle : m ≤ 2 ^ f.p := (le_abs_self m).trans hm
  rcases lt_or_eq_of_le hle with hlt | heq
  · refine ⟨m, e, rfl, ?_⟩
    have h3 := (ilog2_spec hpos).1
    have h4 : (m : ℚ) * 2 ^ e < 2 ^ ((f.p : ℤ) + e) := by
      rw [zpow_add₀ (by norm_num), zpow_natCast]
      apply mul_lt_mul_of_pos_right _ h2
      exact_mod_cast hlt
    have h5 : ilog2 ((m : ℚ) * 2 ^ e) < f.p + e := by
      by_contra h
      have : (2 : ℚ) ^ ((f.p : ℤ) + e) ≤ 2 ^ ilog2 ((m : ℚ) * 2 ^ e) := zpow_le_zpow_right₀ (by norm_num) (by omega)
      linarith
    unfold lastPlace
    omega
  · have hv : (m : ℚ) * 2 ^ e = ((1 : ℤ) : ℚ) * 2 ^ ((f.p : ℤ) + e) := by
      rw [zpow_add₀ (by norm_num), zpow_natCast, heq]; push_cast; ring
    have h3 := (ilog2_spec hpos).1
    have h5 : ilog2 ((m : ℚ) * 2 ^ e) ≤ f.p + e := by
      by_contra h
      have : (2 : ℚ) ^ ((f.p : ℤ) + e + 1) ≤ 2 ^ ilog2 ((m : ℚ) * 2 ^ e) := zpow_le_zpow_right₀ (by norm_num) (by omega)
      have h6 : (2 : ℚ) ^ ((f.p : ℤ) + e + 1) = 2 * 2 ^ ((f.p : ℤ) + e) := by
        rw [zpow_add_one₀ (by norm_num)]; ring
      have h7 : (0 : ℚ) < 2 ^ ((f.p : ℤ) + e) := by positivity
      rw [hv] at h3 this
      push_cast at h3 this
      linarith
    refine ⟨1, f.p + e, hv, ?_⟩
    unfold lastPlace
    omega

theorem roundPos_of_rep (hp : 1 ≤ f.p) {x : ℚ} (hx : 0 < x) (h : f.Rep x) : f.roundPos x = x := by
  obtain ⟨m, e, hm, he, rfl⟩ := h
  obtain ⟨m', e', h1, h2⟩ := f.lastPlace_le hp hm he hx
  apply le_antisymm
  · rw [h1] at h2 ⊢
    exact f.roundPos_le le_rfl h2
  · rw [h1] at h2 ⊢
    exact f.le_roundPos le_rfl h2

theorem Rep.neg {f : Ieee} {x : ℚ} (h : f.Rep x) : f.Rep (-x) := by
  obtain ⟨m, e, hm, he, rfl⟩ := h
  exact ⟨-m, e, by rwa [abs_neg], he, by push_cast; ring⟩

theorem round_of_rep (hp : 1 ≤ f.p) {x : ℚ} (h : f.Rep x) : f.round x = x := by
  unfold round
  rcases lt_trichotomy x 0 with hx | hx | hx
  · rw [if_neg (not_lt.2 hx.le), if_pos hx, f.roundPos_of_rep hp (by linarith) h.neg, neg_neg]
  · subst hx; simp
  · rw [if_pos hx, f.roundPos_of_rep hp hx h]

theorem roundPos_rep {x : ℚ} (hx : 0 < x) : f.Rep (f.roundPos x) := by
  refine ⟨roundEven (x / 2 ^ f.lastPlace x), f.lastPlace x, ?_, le_max_left _ _, f.roundPos_eq x⟩
  have h2 : (0 : ℚ) < 2 ^ f.lastPlace x := by positivity
  have h0 : 0 ≤ roundEven (x / 2 ^ f.lastPlace x) := le_roundEven (by push_cast; positivity)
  rw [abs_of_nonneg h0]
  apply roundEven_le
  rw [div_le_iff₀ h2]
  have h3 := (ilog2_spec hx).2
  have h4 : (2 : ℚ) ^ (ilog2 x + 1) ≤ 2 ^ ((f.p : ℤ) + f.lastPlace x) :=
    zpow_le_zpow_right₀ (by norm_num) (by unfold lastPlace; omega)
  rw [zpow_add₀ (by norm_num) (f.p : ℤ), zpow_natCast] at h4
  push_cast
  linarith

theorem round_rep (x : ℚ) : f.Rep (f.round x) := by
  unfold round
  rcases lt_trichotomy x 0 with hx | hx | hx
  · rw [if_neg (not_lt.2 hx.le), if_pos hx]
    exact (f.roundPos_rep (by linarith)).neg
  · subst hx
    simp only [lt_self_iff_false, if_false]
    exact ⟨0, f.emin, by simp, le_rfl, by simp⟩
  · rw [if_pos hx]; exact f.roundPos_rep hx

theorem rnd_eq_fin (hp : 1 ≤ f.p) {x : ℚ} (h : f.Rep x) (h1 : x ≤ f.max) (h2 : -f.max ≤ x) : f.rnd x = .fin x := by
  unfold rnd
  simp only [f.round_of_rep hp h]
  rw [if_neg (not_lt.2 h1), if_neg (not_lt.2 h2)]

theorem rnd_fin {x y : ℚ} (h : f.rnd x = .fin y) : f.Rep y ∧ y ≤ f.max ∧ -f.max ≤ y := by
  unfold rnd at h
  simp only at h
  split at h
  · simp at h
  · split at h
    · simp at h
    · rename_i h1 h2
      rw [Fl.fin.injEq] at h
      subst h
      exact ⟨f.round_rep x, not_lt.1 h1, not_lt.1 h2⟩

/-- A format with at least one bit that contains 1/2, 1 and 2. -/
def Usual : Prop := 1 ≤ f.p ∧ f.emin ≤ -1 ∧ 2 ≤ f.max

theorem binary (h : f.Usual) : @FloatFmt.Binary ℚ _ _ f.fmt := by
  obtain ⟨hp, he, hm⟩ := h
  have hp2 : (1 : ℤ) ≤ 2 ^ f.p := one_le_pow₀ (by norm_num)
  have lit : ∀ (e : ℤ), -1 ≤ e → e ≤ 1 → f.rnd (2 ^ e) = .fin (2 ^ e) := by
    intro e h1 h2
    have h3 : (2 : ℚ) ^ e ≤ 2 ^ (1 : ℤ) := zpow_le_zpow_right₀ (by norm_num) h2
    rw [zpow_one] at h3
    have h4 : (0 : ℚ) < 2 ^ e := by positivity
    exact f.rnd_eq_fin hp ⟨1, e, by simpa using hp2, by omega, by simp⟩ (by linarith) (by linarith)
  refine @FloatFmt.Binary.mk ℚ _ _ f.fmt (@FloatFmt.Mono.mk ℚ _ _ f.fmt ?_ ?_ ?_ ?_ ?_ ?_) ?_ ?_
  · intro x
    show f.rnd x ≠ _
    unfold rnd
    simp only
    repeat' split
    all_goals simp
  · intro x y h
    exact f.rnd_mono hp h
  · exact f.rnd_eq_fin hp ⟨0, f.emin, by simp, le_rfl, by simp⟩ (by linarith) (by linarith)
  · have := lit (-1) (by norm_num) (by norm_num)
    rw [zpow_neg_one, ← one_div] at this
    exact this
  · have := lit 0 (by norm_num) (by norm_num)
    rw [zpow_zero] at this
    exact this
  · have := lit 1 (by norm_num) (by norm_num)
    rw [zpow_one] at this
    exact this
  · intro x y h
    obtain ⟨h1, h2, h3⟩ := f.rnd_fin h
    exact f.rnd_eq_fin hp h1 h2 h3
  · intro a x b hax hxb hx ha hb
    obtain ⟨⟨m, e, h1, h2, h3⟩, -, -⟩ := f.rnd_fin hx
    obtain ⟨-, -, ha'⟩ := f.rnd_fin ha
    obtain ⟨-, hb', -⟩ := f.rnd_fin hb
    refine f.rnd_eq_fin hp ⟨m, e + 1, h1, by omega, ?_⟩ (by linarith) (by linarith)
    rw [h3, zpow_add_one₀ (by norm_num)]; ring

end Ieee

theorem double_usual : Ieee.double.Usual := ⟨by decide, by decide, by decide +kernel⟩
theorem single_usual : Ieee.single.Usual := ⟨by decide, by decide, by decide +kernel⟩

/-- `f64` arithmetic is a monotone binary rounding. -/
theorem f64_binary : @FloatFmt.Binary ℚ _ _ f64Fmt := Ieee.double.binary double_usual

/-- `f32` arithmetic is a monotone binary rounding. -/
theorem f32_binary : @FloatFmt.Binary ℚ _ _ f32Fmt := Ieee.single.binary single_usual

theorem f64_mono : @FloatFmt.Mono ℚ _ _ f64Fmt := f64_binary.toMono
theorem f32_mono : @FloatFmt.Mono ℚ _ _ f32Fmt := f32_binary.toMono

/-- `f64` represents counts up to `2^52` and their halves exactly. -/
theorem f64_exactCounts : @ExactCounts ℚ _ f64Fmt (2 ^ 52) := by
  intro m hm
  have hmax : (2 : ℚ) ^ 53 ≤ Ieee.double.max := by decide +kernel
  have h1 : ((m : ℤ) : ℚ) ≤ 2 ^ 53 := by
    have : (m : ℤ) ≤ 2 ^ 53 := by omega
    exact_mod_cast this
  have h0 : (0 : ℚ) ≤ (m : ℚ) := by positivity
  push_cast at h1
  refine Ieee.double.rnd_eq_fin (by decide) ⟨m, -1, ?_, by decide, ?_⟩ (by linarith) (by linarith)
  · rw [abs_of_nonneg (by omega)]
    show (m : ℤ) ≤ 2 ^ 53
    omega
  · rw [zpow_neg_one]; push_cast; ring

/-- `f32` represents counts up to `2^23` and their halves exactly. -/
theorem f32_exactCounts : @ExactCounts ℚ _ f32Fmt (2 ^ 23) := by
  intro m hm
  have hmax : (2 : ℚ) ^ 24 ≤ Ieee.single.max := by decide +kernel
  have h1 : ((m : ℤ) : ℚ) ≤ 2 ^ 24 := by
    have : (m : ℤ) ≤ 2 ^ 24 := by omega
    exact_mod_cast this
  have h0 : (0 : ℚ) ≤ (m : ℚ) := by positivity
  push_cast at h1
  refine Ieee.single.rnd_eq_fin (by decide) ⟨m, -1, ?_, by decide, ?_⟩ (by linarith) (by linarith)
  · rw [abs_of_nonneg (by omega)]
    show (m : ℤ) ≤ 2 ^ 24
    omega
  · rw [zpow_neg_one]; push_cast; ring

end AQ.Spec

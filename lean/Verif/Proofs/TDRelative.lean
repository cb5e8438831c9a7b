/-
Relative accuracy: runs no heavier than a fixed fraction of the lighter side give an error relative to the nearer end.
The size limits of `k2` and `k3` have this form.
-/
import Mathlib.Tactic.Linarith
import Mathlib.Tactic.FieldSimp
import Mathlib.Tactic.Positivity
import Verif.Proofs.ScaleFns
import Verif.Props.TDAccuracy

set_option linter.unusedSectionVars false
set_option linter.unusedVariables false

namespace AQ
open Prog Spec
namespace TDigest
section
variable {K : Type} [Field K] [LinearOrder K] [IsStrictOrderedRing K] [FloatFmt K]

/-- Every run of at least two items weighs at most `c` times what is left of it and at most `c` times what is right of it. -/
def Relative (c : K) (runs : List (List K)) : Prop :=
  ∀ pre r post, runs = pre ++ r :: post → 2 ≤ r.length → len r ≤ c * len pre.flatten ∧ len r ≤ c * len post.flatten

theorem Close.relative {E x c : K} {runs : List (List K)} (hr : ∀ r ∈ runs, r ≠ []) (hc : 0 ≤ c) (h : Relative c runs)
    (hcl : Close E x runs) {G : K} (hG : lts x runs.flatten + G = len runs.flatten) :
    lts x runs.flatten ≤ E + 3 / 2 * Max.max 1 (c * (1 + c) * Min.min (les x runs.flatten) G) ∧
    E ≤ les x runs.flatten + 3 / 2 * Max.max 1 (c * (1 + c) * Min.min (les x runs.flatten) G) := by
  have key : ∀ m : K, m ≤ Max.max 1 (c * (1 + c) * Min.min (les x runs.flatten) G) →
      E ≤ les x runs.flatten + 3 / 2 * m → lts x runs.flatten ≤ E + 3 / 2 * m →
      lts x runs.flatten ≤ E + 3 / 2 * Max.max 1 (c * (1 + c) * Min.min (les x runs.flatten) G) ∧
      E ≤ les x runs.flatten + 3 / 2 * Max.max 1 (c * (1 + c) * Min.min (les x runs.flatten) G) := by
    intro m hm h1 h2; constructor <;> linarith
  rcases hcl with ⟨h1, h2⟩ | ⟨pre, mid, post, m, he, hml, ⟨r, hrm, hm⟩, h3, h4, h1, h2⟩
  · refine key 0 (le_max_of_le_left zero_le_one) (by linarith) (by linarith)
  · refine key m ?_ h1 h2
    have hlen : len runs.flatten = len pre.flatten + len mid.flatten + len post.flatten := by
      rw [he]; simp only [List.flatten_append, len_append]
    have hp0 := len_nonneg pre.flatten
    have hq0 := len_nonneg post.flatten
    set L := les x runs.flatten
    have hGp : len post.flatten + 1 ≤ G := by linarith
    have hL1 : 1 ≤ L := by linarith
    have hG1 : 1 ≤ G := by linarith
    -- it is enough to bound by the two sides
    have fin : ∀ A B : K, m ≤ c * A → m ≤ c * B → A ≤ (1 + c) * L → B ≤ (1 + c) * G →
        m ≤ Max.max 1 (c * (1 + c) * Min.min L G) := by
      intro A B hA hB hA' hB'
      refine le_max_of_le_right ?_
      rcases le_total L G with hLG | hLG
      · rw [min_eq_left hLG, mul_assoc]
        exact hA.trans (mul_le_mul_of_nonneg_left hA' hc)
      · rw [min_eq_right hLG, mul_assoc]
        exact hB.trans (mul_le_mul_of_nonneg_left hB' hc)
    have one : r.length < 2 → m ≤ Max.max 1 (c * (1 + c) * Min.min L G) := by
      intro h
      refine le_max_of_le_left ?_
      rw [hm]; unfold len
      exact_mod_cast (by omega : r.length ≤ 1)
    by_cases h2r : 2 ≤ r.length
    swap
    · exact one (by omega)
    match mid, hml, hrm with
    | [r1], _, hrm =>
      rw [List.mem_singleton] at hrm
      subst hrm
      obtain ⟨h5, h6⟩ := h pre r post (by rw [he]; simp) h2r
      rw [← hm] at h5 h6
      exact fin _ _ h5 h6 (by nlinarith) (by nlinarith)
    | [r1, r2], _, hrm =>
      have hl1 : len r1 ≤ 1 ∨ len r1 ≤ c * len pre.flatten := by
        by_cases h7 : 2 ≤ r1.length
        · exact Or.inr (h pre r1 (r2 :: post) (by rw [he]; simp) h7).1
        · left; unfold len; exact_mod_cast (by omega : r1.length ≤ 1)
      have hl2 : len r2 ≤ 1 ∨ len r2 ≤ c * len post.flatten := by
        by_cases h7 : 2 ≤ r2.length
        · exact Or.inr (h (pre ++ [r1]) r2 post (by rw [he]; simp) h7).2
        · left; unfold len; exact_mod_cast (by omega : r2.length ≤ 1)
      simp only [List.mem_cons, List.not_mem_nil, or_false] at hrm
      rcases hrm with hrm | hrm
      · subst hrm
        obtain ⟨h5, h6⟩ := h pre r (r2 :: post) (by rw [he]; simp) h2r
        rw [← hm] at h5 h6
        simp only [List.flatten_cons, len_append] at h6
        refine fin _ _ h5 h6 (by nlinarith) ?_
        rcases hl2 with hl2 | hl2 <;> nlinarith
      · subst hrm
        obtain ⟨h5, h6⟩ := h (pre ++ [r1]) r post (by rw [he]; simp) h2r
        rw [← hm] at h5 h6
        simp only [List.flatten_append, List.flatten_cons, List.flatten_nil, List.append_nil, len_append] at h5
        refine fin _ _ h5 h6 ?_ (by nlinarith)
        rcases hl1 with hl1 | hl1 <;> nlinarith
    | _ :: _ :: _ :: _, h, _ => simp at h

/-- The last run is then a single item. -/
theorem Relative.last {c : K} {runs : List (List K)} (hr : ∀ r ∈ runs, r ≠ []) (h : Relative c runs) (hne : runs ≠ []) :
    len (runs.getLast hne) = 1 := by
  have he : runs = runs.dropLast ++ runs.getLast hne :: [] := (List.dropLast_append_getLast hne).symm
  have h1 := one_le_len (hr _ (List.getLast_mem hne))
  by_cases h2 : 2 ≤ (runs.getLast hne).length
  · have h3 := (h _ _ _ he h2).2
    have : len ([] : List (List K)).flatten = 0 := by simp [len]
    rw [this, mul_zero] at h3
    linarith
  · have : len (runs.getLast hne) ≤ 1 := by unfold len; exact_mod_cast (by omega : (runs.getLast hne).length ≤ 1)
    exact le_antisymm this h1

theorem lts_add_ge {xs : List (Fl K)} (h : ∀ x ∈ xs, Item x) {l : List K} (hp : l.Perm (xs.map Fl.toK)) (x : K) :
    lts x l + (xs.countP (fun y => Fl.le (.fin x) y) : K) = len l := by
  rw [countP_toK h (fun y => Fl.le (.fin x) y) (fun y => x ≤ y) (fun y => by simp), ← hp.countP_eq]
  unfold lts len
  have := List.length_eq_countP_add_countP (fun y : K => decide (y < x)) (l := l)
  rw [this]
  push_cast
  congr 2
  apply List.countP_congr
  simp

theorem les_eq {xs : List (Fl K)} (h : ∀ x ∈ xs, Item x) {l : List K} (hp : l.Perm (xs.map Fl.toK)) (x : K) :
    les x l = (xs.countP (fun y => Fl.le y (.fin x)) : K) := by
  rw [countP_toK h (fun y => Fl.le y (.fin x)) (fun y => y ≤ x) (fun y => by simp), ← hp.countP_eq]
  rfl

end
section
variable [FloatFmt ℝ] [FloatFmt.Exact ℝ]
open ScaleR

/-- `k2`: weight of a run. -/
theorem k2_run {δ n a w b : ℝ} (hδ : 0 < δ) (hN : 0 < norm δ n 24) (ha : 0 ≤ a) (hw : 1 ≤ w) (hb : 0 ≤ b)
    (hn : a + w + b = n) (h : Fl.le (.fin w) (sizeLimit k2 invK2 (.fin δ) n a) = true) :
    w ≤ ((10 : ℝ) ^ (norm δ n 24 / δ) - 1) * a ∧ w ≤ ((10 : ℝ) ^ (norm δ n 24 / δ) - 1) * b := by
  have hn0 : 0 < n := by linarith
  rcases ha.eq_or_lt with rfl | ha
  · exfalso
    have hdiv : Fl.fin (0 : ℝ) / .fin 1 = .fin 0 := by rw [Fl.div_exact _ one_ne_zero, zero_div]
    have e : invK2 .ninf (.fin δ) (.fin n) = .fin 0 := by
      unfold invK2
      rw [show (Fl.lit 24 : Fl ℝ) = .fin 24 from Fl.lit_exact _, normaliser_fin _ hδ hn0]
      have h1 : (Fl.ninf * .fin (norm δ n 24) : Fl ℝ) = .ninf := by
        show Fl.mul _ _ = _
        simp [Fl.mul, Fl.signInf, hN, hN.not_gt]
      have h2 : (Fl.ninf / .fin δ : Fl ℝ) = .ninf := by
        show Fl.div _ _ = _
        simp [Fl.div, hδ.not_gt]
      rw [h1, h2]
      simp only [Fl.pow10, Fl.lit_exact]
      rw [Fl.add_exact, add_zero, hdiv]
    unfold sizeLimit at h
    rw [zero_div, k2_zero hδ hn0 hN] at h
    have h3 : (Fl.ninf + .fin 1 : Fl ℝ) = .ninf := rfl
    rw [h3, e, Fl.mul_exact, Fl.sub_exact, Fl.le_fin] at h
    have := of_decide_eq_true h
    linarith
  · have h1 : 0 < a / n := by positivity
    have h2 : a / n < 1 := by rw [div_lt_one hn0]; linarith
    have e1 : invK2 (.fin (δ / norm δ n 24 * odds (a / n) + 1)) (.fin δ) (.fin n) = _ := invK2_fin hδ hn0
    unfold sizeLimit at h
    rw [k2_fin h1 h2 hδ hn0 hN.ne', Fl.add_exact, e1, Fl.mul_exact, Fl.sub_exact, Fl.le_fin] at h
    have h := of_decide_eq_true h
    have e2 : (δ / norm δ n 24 * odds (a / n) + 1) * norm δ n 24 / δ = odds (a / n) + norm δ n 24 / δ := by
      field_simp
    rw [e2] at h
    set R := (10 : ℝ) ^ (norm δ n 24 / δ) with hR
    have hR0 : 0 < R := pow10_pos _
    have e3 : unodds (odds (a / n) + norm δ n 24 / δ) = (a * R) / ((n - a) + a * R) := by
      unfold unodds odds
      have hna : 0 < n - a := by linarith
      rw [Real.rpow_add (by norm_num), Real.rpow_logb (by norm_num) (by norm_num) (by
        apply div_pos h1; linarith), ← hR]
      have : a / n / (1 - a / n) = a / (n - a) := by field_simp
      rw [this]
      field_simp
    rw [e3] at h
    have hden : 0 < (n - a) + a * R := by have := mul_pos ha hR0; linarith
    have h4 : (a + w) * ((n - a) + a * R) ≤ a * R * n := by
      have : w + a ≤ a * R / ((n - a) + a * R) * n := by linarith
      have h5 := mul_le_mul_of_nonneg_right this hden.le
      rw [show a * R / ((n - a) + a * R) * n * ((n - a) + a * R) = a * R * n by field_simp] at h5
      linarith
    have h6 : w * n ≤ (R - 1) * (a * b) := by
      have : n - a = w + b := by linarith
      rw [this] at h4
      subst hn
      nlinarith
    have hR1 : 0 ≤ R - 1 := by
      by_contra hcon
      push Not at hcon
      have : 0 ≤ a * b := by positivity
      nlinarith
    constructor
    · have : (R - 1) * (a * b) ≤ (R - 1) * (a * n) :=
        mul_le_mul_of_nonneg_left (mul_le_mul_of_nonneg_left (by linarith) ha.le) hR1
      exact le_of_mul_le_mul_right (by linarith) hn0
    · have : (R - 1) * (a * b) ≤ (R - 1) * (n * b) :=
        mul_le_mul_of_nonneg_left (mul_le_mul_of_nonneg_right (by linarith) hb) hR1
      exact le_of_mul_le_mul_right (by linarith) hn0

theorem logb_pow {x : ℝ} (h : 0 < x) : (10 : ℝ) ^ (Real.logb 10 x) = x := Real.rpow_logb (by norm_num) (by norm_num) h

/-- `k3`: weight of a run. -/
theorem k3_run {δ n a w b : ℝ} (hδ : 0 < δ) (hN : 0 < norm δ n 21) (ha : 0 ≤ a) (hw : 1 ≤ w) (hb : 0 ≤ b)
    (hn : a + w + b = n) (h : Fl.le (.fin w) (sizeLimit k3 invK3 (.fin δ) n a) = true) :
    w ≤ ((10 : ℝ) ^ (norm δ n 21 / δ) - 1) * a ∧ w ≤ ((10 : ℝ) ^ (norm δ n 21 / δ) - 1) * b := by
  have hn0 : 0 < n := by linarith
  rcases ha.eq_or_lt with rfl | ha
  · exfalso
    have hk : k3 (.fin 0) (.fin δ) (.fin n) = .ninf := by
      unfold k3 k3Factor
      simp only [Fl.lit_exact]
      rw [normaliser_fin _ hδ hn0, Fl.div_exact _ hN.ne']
      rw [if_pos (by rw [Fl.le_fin]; norm_num), Fl.mul_exact, mul_zero, Fl.log10_zero]
      show (Fl.mul _ _ : Fl ℝ) = _
      have : 0 < δ / norm δ n 21 := by positivity
      simp [Fl.mul, Fl.signInf, this, this.not_gt]
    have e : invK3 .ninf (.fin δ) (.fin n) = .fin 0 := by
      unfold invK3
      rw [show (Fl.lit 21 : Fl ℝ) = .fin 21 from Fl.lit_exact _, normaliser_fin _ hδ hn0]
      have h1 : (Fl.ninf * .fin (norm δ n 21) : Fl ℝ) = .ninf := by
        show Fl.mul _ _ = _
        simp [Fl.mul, Fl.signInf, hN, hN.not_gt]
      have h2 : (Fl.ninf / .fin δ : Fl ℝ) = .ninf := by
        show Fl.div _ _ = _
        simp [Fl.div, hδ.not_gt]
      rw [h1, h2]
      simp only [Fl.lit_exact]
      have h4 : (-Fl.ninf : Fl ℝ) = .pinf := rfl
      have h9 : Fl.pow10 .pinf = .pinf := rfl
      have h10 : Fl.pow10 .ninf = .fin 0 := rfl
      have h5 : (Fl.fin 2 - Fl.pinf : Fl ℝ) = .ninf := rfl
      have h6 : (Fl.ninf / .fin 2 : Fl ℝ) = .ninf := by
        show Fl.div _ _ = _
        simp [Fl.div]
      have h7 : (Fl.fin (1 / 2) - Fl.ninf : Fl ℝ) = .pinf := rfl
      have h8 : (Fl.fin (0 : ℝ) / .fin 2) = .fin 0 := by rw [Fl.div_exact _ two_ne_zero, zero_div]
      rw [h4, h9, h10, h5, h6, h7, h8, if_neg]
      simp [Fl.fabs, Fl.lt, Fl.sub_exact]
    unfold sizeLimit at h
    rw [zero_div, hk] at h
    have h3 : (Fl.ninf + .fin 1 : Fl ℝ) = .ninf := rfl
    rw [h3, e, Fl.mul_exact, Fl.sub_exact, Fl.le_fin] at h
    have := of_decide_eq_true h
    linarith
  · have h1 : 0 < a / n := by positivity
    have h2 : a / n < 1 := by rw [div_lt_one hn0]; linarith
    have e1 : invK3 (.fin (δ / norm δ n 21 * fold (a / n) + 1)) (.fin δ) (.fin n) = _ := invK3_fin hδ hn0
    unfold sizeLimit at h
    rw [k3_fin h1 h2 hδ hn0 hN.ne', Fl.add_exact, e1, Fl.mul_exact, Fl.sub_exact, Fl.le_fin] at h
    have h := of_decide_eq_true h
    have e2 : (δ / norm δ n 21 * fold (a / n) + 1) * norm δ n 21 / δ = fold (a / n) + norm δ n 21 / δ := by
      field_simp
    rw [e2] at h
    have hs : 0 < norm δ n 21 / δ := by positivity
    set t := norm δ n 21 / δ with ht
    set R := (10 : ℝ) ^ t with hR
    have hR1 : 1 < R := Real.one_lt_rpow (by norm_num) hs
    have hRn : (10 : ℝ) ^ (-t) = R⁻¹ := Real.rpow_neg (by norm_num) t
    by_cases hu : a / n ≤ 1 / 2
    · have ef : (10 : ℝ) ^ (fold (a / n) + t) = 2 * (a / n) * R := by
        unfold fold
        rw [if_pos hu, Real.rpow_add (by norm_num), logb_pow (by linarith), ← hR]
      have han : 2 * a ≤ n := by rw [div_le_iff₀ hn0] at hu; linarith
      by_cases hy : fold (a / n) + t ≤ 0
      · have h3 := pow10_le_one hy
        rw [unfold', if_pos hy, ef] at h
        rw [ef] at h3
        have e4 : 2 * (a / n) * R / 2 * n = a * R := by field_simp
        rw [e4] at h
        have h5 : 2 * (a * R) ≤ n := by
          have : 2 * (a / n) * R * n ≤ 1 * n := mul_le_mul_of_nonneg_right h3 hn0.le
          rw [show 2 * (a / n) * R * n = 2 * (a * R) by field_simp] at this
          linarith
        have hab : a ≤ b := by linarith
        refine ⟨by linarith, ?_⟩
        have := mul_le_mul_of_nonneg_left hab (by linarith : (0 : ℝ) ≤ R - 1)
        linarith
      · have efn : (10 : ℝ) ^ (-(fold (a / n) + t)) = (2 * (a / n) * R)⁻¹ := by
          rw [Real.rpow_neg (by norm_num), ef]
        rw [unfold', if_neg hy, efn] at h
        have hp : 0 < 4 * a * R := by positivity
        have h4 : n * n ≤ 4 * a * R * b := by
          have h5 : w + a ≤ n - n * ((2 * (a / n) * R)⁻¹ / 2) := by linarith
          have e5 : n * ((2 * (a / n) * R)⁻¹ / 2) = n * n / (4 * a * R) := by
            have : a ≠ 0 := ha.ne'
            have : R ≠ 0 := by linarith
            field_simp
            norm_num
          rw [e5] at h5
          have h6 : n * n / (4 * a * R) ≤ b := by linarith
          rw [div_le_iff₀ hp] at h6
          linarith
        have hb0 : 0 < b := by
          by_contra hc
          have : b = 0 := le_antisymm (not_lt.1 hc) hb
          rw [this, mul_zero] at h4
          nlinarith
        have q1 : n - b ≤ R * a := by
          have : 4 * b * (n - b) ≤ 4 * b * (R * a) := by nlinarith [sq_nonneg (n - 2 * b)]
          exact le_of_mul_le_mul_left this (by linarith)
        have q2 : n - a ≤ R * b := by
          have : 4 * a * (n - a) ≤ 4 * a * (R * b) := by nlinarith [sq_nonneg (n - 2 * a)]
          exact le_of_mul_le_mul_left this (by linarith)
        constructor <;> linarith
    · have hup : 0 < fold (a / n) := fold_pos h2 (not_le.1 hu)
      have ef : (10 : ℝ) ^ (-(fold (a / n) + t)) = 2 * (1 - a / n) * R⁻¹ := by
        unfold fold
        rw [if_neg hu, show -(-Real.logb 10 (2 * (1 - a / n)) + t) = Real.logb 10 (2 * (1 - a / n)) + -t by ring,
          Real.rpow_add (by norm_num), logb_pow (by linarith), hRn]
      rw [unfold', if_neg (by linarith), ef] at h
      have e4 : (1 - 2 * (1 - a / n) * R⁻¹ / 2) * n = n - (n - a) / R := by
        field_simp
      rw [e4] at h
      have h5 : (n - a) / R ≤ b := by linarith
      rw [div_le_iff₀ (by linarith)] at h5
      have hna : n < 2 * a := by
        push Not at hu
        rw [lt_div_iff₀ hn0] at hu
        linarith
      have hab : b ≤ a := by linarith
      have := mul_le_mul_of_nonneg_left hab (by linarith : (0 : ℝ) ≤ R - 1)
      constructor <;> linarith

end
end TDigest
end AQ

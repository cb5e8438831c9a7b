/-
The size limits of `k1`: a run that starts at the weight `a` weighs at most `2τ√a + τ²` with `τ = π/δ·√n`, counted from either end.
-/
import Verif.Proofs.TDRelative
import Verif.Props.ScaleSize
import Mathlib.Analysis.SpecialFunctions.Trigonometric.Bounds

set_option linter.unusedSectionVars false
set_option linter.unusedVariables false

namespace AQ
open Prog Spec
namespace TDigest
open Real (sin cos pi)

/-- Angles `α ≤ α'` in the first quadrant that are at most `β` apart. -/
theorem sin_sq_sub {α α' β : ℝ} (h0 : 0 ≤ α) (h1 : α ≤ α') (h2 : α' ≤ Real.pi / 2) (h3 : α' - α ≤ β) :
    sin α' ^ 2 - sin α ^ 2 ≤ 2 * β * sin α + β ^ 2 ∧ sin α' ^ 2 - sin α ^ 2 ≤ 2 * β * cos α' + β ^ 2 := by
  have hp := Real.pi_pos
  have s0 : 0 ≤ sin α := Real.sin_nonneg_of_nonneg_of_le_pi h0 (by linarith)
  have s1 : 0 ≤ sin α' := Real.sin_nonneg_of_nonneg_of_le_pi (by linarith) (by linarith)
  have c0 : 0 ≤ cos α := Real.cos_nonneg_of_neg_pi_div_two_le_of_le (by linarith) (by linarith)
  have c1 : 0 ≤ cos α' := Real.cos_nonneg_of_neg_pi_div_two_le_of_le (by linarith) h2
  have hs := (le_abs_self _).trans (Real.abs_sin_sub_sin_le α' α)
  have hc := (le_abs_self _).trans (Real.abs_cos_sub_cos_le α α')
  rw [abs_of_nonneg (by linarith)] at hs
  rw [abs_sub_comm, abs_of_nonneg (by linarith)] at hc
  have e0 := Real.sin_sq_add_cos_sq α
  have e1 := Real.sin_sq_add_cos_sq α'
  constructor
  · have h4 : sin α' ≤ sin α + β := by linarith
    nlinarith
  · have h4 : cos α ≤ cos α' + β := by linarith
    nlinarith

section
variable [FloatFmt ℝ] [FloatFmt.Exact ℝ]

theorem k1_run {δ n a w b : ℝ} (hδ : 0 < δ) (ha : 0 ≤ a) (hw : 1 ≤ w) (hb : 0 ≤ b) (hs : a + w + b = n)
    (hl : Fl.le (.fin w) (sizeLimit k1 invK1 (.fin δ) n a) = true) :
    w ≤ 2 * (Real.pi / δ * √n) * √a + (Real.pi / δ * √n) ^ 2 ∧ w ≤ 2 * (Real.pi / δ * √n) * √b + (Real.pi / δ * √n) ^ 2 := by
  have hn0 : 0 < n := by linarith
  have hp := Real.pi_pos
  have h0 : 0 ≤ a / n := by positivity
  have h1 : a / n ≤ 1 := by rw [div_le_one hn0]; linarith
  rw [sizeLimit_fin (k1_fin _ h0 h1) (invK1_fin _ hδ.ne'), Fl.le_fin, decide_eq_true_eq] at hl
  set θ := Real.arcsin (2 * (a / n) - 1) with hθ
  have hsin : Real.sin θ = 2 * (a / n) - 1 := Real.sin_arcsin (by linarith) (by linarith)
  have hang : 2 * Real.pi * (δ / (2 * Real.pi) * θ + 1) / δ = θ + 2 * (Real.pi / δ) := by field_simp
  rw [hang] at hl
  have hβ0 : 0 < Real.pi / δ := by positivity
  set β := Real.pi / δ
  have hlow : -(Real.pi / 2) ≤ θ := Real.neg_pi_div_two_le_arcsin _
  have hhigh : θ ≤ Real.pi / 2 := Real.arcsin_le_pi_div_two _
  set α := θ / 2 + Real.pi / 4 with hα
  have half : ∀ x, sin (x / 2 + Real.pi / 4) ^ 2 = (1 + sin x) / 2 := by
    intro x
    rw [Real.sin_sq_eq_half_sub, show 2 * (x / 2 + Real.pi / 4) = x + Real.pi / 2 by ring, Real.cos_add_pi_div_two]
    ring
  have hu : sin α ^ 2 = a / n := by rw [hα, half, hsin]; ring
  have hX : sin (α + β) ^ 2 = (1 + sin (θ + 2 * β)) / 2 := by
    rw [← half]; congr 2; rw [hα]; ring
  rw [← hX] at hl
  -- the end of the run
  have hv0 : 0 ≤ (a + w) / n := by positivity
  have hv1 : (a + w) / n ≤ 1 := by rw [div_le_one hn0]; linarith
  have hvX : (a + w) / n ≤ sin (α + β) ^ 2 := by rw [div_le_iff₀ hn0]; linarith
  set α' := Real.arcsin (√((a + w) / n)) with hα'
  have hq0 := Real.sqrt_nonneg ((a + w) / n)
  have hq1 : √((a + w) / n) ≤ 1 := Real.sqrt_le_one.2 hv1
  have hs' : sin α' = √((a + w) / n) := Real.sin_arcsin (by linarith) hq1
  have hv : sin α' ^ 2 = (a + w) / n := by rw [hs', Real.sq_sqrt hv0]
  have a0 : 0 ≤ α := by rw [hα]; linarith
  have a1 : α ≤ Real.pi / 2 := by rw [hα]; linarith
  have b0 : 0 ≤ α' := Real.arcsin_nonneg.2 hq0
  have b1 : α' ≤ Real.pi / 2 := Real.arcsin_le_pi_div_two _
  have s0 : 0 ≤ sin α := Real.sin_nonneg_of_nonneg_of_le_pi a0 (by linarith)
  have c1 : 0 ≤ cos α' := Real.cos_nonneg_of_neg_pi_div_two_le_of_le (by linarith) b1
  have hle : α ≤ α' := by
    rw [hα']
    refine (Real.le_arcsin_iff_sin_le ⟨by linarith, a1⟩ ⟨by linarith, hq1⟩).2 ?_
    refine Real.le_sqrt_of_sq_le ?_
    rw [hu]
    exact (div_le_div_iff_of_pos_right hn0).2 (by linarith)
  have hgap : α' - α ≤ β := by
    by_contra hcon
    push_neg at hcon
    have h4 : sin (α + β) < sin α' := Real.sin_lt_sin_of_lt_of_le_pi_div_two (by linarith) b1 (by linarith)
    have h5 : 0 ≤ sin (α + β) := Real.sin_nonneg_of_nonneg_of_le_pi (by linarith) (by linarith)
    have h6 : sin (α + β) ^ 2 < sin α' ^ 2 := pow_lt_pow_left₀ h4 h5 (by norm_num)
    rw [hv] at h6
    linarith
  obtain ⟨r1, r2⟩ := sin_sq_sub a0 hle b1 hgap
  have hsn : √n * √n = n := Real.mul_self_sqrt hn0.le
  have ea : √n * sin α = √a := by
    have : sin α = √(a / n) := by rw [← hu, Real.sqrt_sq s0]
    rw [this, ← Real.sqrt_mul hn0.le, mul_div_cancel₀ _ hn0.ne']
  have eb : √n * cos α' = √b := by
    have h7 : cos α' ^ 2 = b / n := by
      have := Real.sin_sq_add_cos_sq α'
      rw [hv] at this
      have h8 : b / n = 1 - (a + w) / n := by field_simp; linarith
      linarith
    have : cos α' = √(b / n) := by rw [← h7, Real.sqrt_sq c1]
    rw [this, ← Real.sqrt_mul hn0.le, mul_div_cancel₀ _ hn0.ne']
  have ew : n * (sin α' ^ 2 - sin α ^ 2) = w := by
    rw [hv, hu]; field_simp; ring
  have r1' := mul_le_mul_of_nonneg_left r1 hn0.le
  have r2' := mul_le_mul_of_nonneg_left r2 hn0.le
  rw [ew] at r1' r2'
  constructor
  · have : n * (2 * β * sin α + β ^ 2) = 2 * (β * √n) * √a + (β * √n) ^ 2 := by
      rw [← ea, ← hsn]
      have h9 : √(√n * √n) = √n := by rw [hsn]
      rw [h9]
      ring
    linarith
  · have : n * (2 * β * cos α' + β ^ 2) = 2 * (β * √n) * √b + (β * √n) ^ 2 := by
      rw [← eb, ← hsn]
      have h9 : √(√n * √n) = √n := by rw [hsn]
      rw [h9]
      ring
    linarith

/-- Every run of at least two items weighs at most `2τ√a + τ²`, with `a` what is left of it or what is right of it. -/
def Root (τ : ℝ) (runs : List (List ℝ)) : Prop :=
  ∀ pre r post, runs = pre ++ r :: post → 2 ≤ r.length →
    len r ≤ 2 * τ * √(len pre.flatten) + τ ^ 2 ∧ len r ≤ 2 * τ * √(len post.flatten) + τ ^ 2

theorem sqrt_add_run {τ a w L : ℝ} (hτ : 0 ≤ τ) (ha : 0 ≤ a) (hL : a + 1 ≤ L) (h : w ≤ 1 ∨ w ≤ 2 * τ * √a + τ ^ 2) : √(a + w) ≤ √L + τ := by
  rcases h with h | h
  · have h1 : √(a + w) ≤ √L := Real.sqrt_le_sqrt (by linarith)
    linarith
  · have h1 : √a ≤ √L := Real.sqrt_le_sqrt (by linarith)
    have h2 : √(a + w) ≤ √a + τ := by
      refine Real.sqrt_le_iff.2 ⟨by positivity, ?_⟩
      have := Real.sq_sqrt ha
      nlinarith
    linarith

theorem Close.root {E x τ : ℝ} {runs : List (List ℝ)} (hr : ∀ r ∈ runs, r ≠ []) (hτ : 0 ≤ τ) (h : Root τ runs)
    (hcl : Close E x runs) {G : ℝ} (hG : lts x runs.flatten + G = len runs.flatten) :
    lts x runs.flatten ≤ E + 3 / 2 * Max.max 1 (2 * τ * √(Min.min (les x runs.flatten) G) + 3 * τ ^ 2) ∧
    E ≤ les x runs.flatten + 3 / 2 * Max.max 1 (2 * τ * √(Min.min (les x runs.flatten) G) + 3 * τ ^ 2) := by
  have key : ∀ m : ℝ, m ≤ Max.max 1 (2 * τ * √(Min.min (les x runs.flatten) G) + 3 * τ ^ 2) →
      E ≤ les x runs.flatten + 3 / 2 * m → lts x runs.flatten ≤ E + 3 / 2 * m →
      lts x runs.flatten ≤ E + 3 / 2 * Max.max 1 (2 * τ * √(Min.min (les x runs.flatten) G) + 3 * τ ^ 2) ∧
      E ≤ les x runs.flatten + 3 / 2 * Max.max 1 (2 * τ * √(Min.min (les x runs.flatten) G) + 3 * τ ^ 2) := by
    intro m hm h1 h2; constructor <;> linarith
  rcases hcl with ⟨h1, h2⟩ | ⟨pre, mid, post, m, he, hml, ⟨r, hrm, hm⟩, h3, h4, h1, h2⟩
  · refine key 0 (le_max_of_le_left zero_le_one) (by linarith) (by linarith)
  · refine key m ?_ h1 h2
    have hlen : len runs.flatten = len pre.flatten + len mid.flatten + len post.flatten := by
      rw [he]; simp only [List.flatten_append, len_append]
    have hp0 := len_nonneg pre.flatten
    have hq0 := len_nonneg post.flatten
    set L := les x runs.flatten
    have hGp : len post.flatten + 1 ≤ G := by linarith
    -- it is enough to bound by the two sides
    have fin : ∀ A B : ℝ, m ≤ 2 * τ * A + τ ^ 2 → m ≤ 2 * τ * B + τ ^ 2 → A ≤ √L + τ → B ≤ √G + τ →
        m ≤ Max.max 1 (2 * τ * √(Min.min L G) + 3 * τ ^ 2) := by
      intro A B hA hB hA' hB'
      refine le_max_of_le_right ?_
      rcases le_total L G with hLG | hLG
      · rw [min_eq_left hLG]
        nlinarith
      · rw [min_eq_right hLG]
        nlinarith
    by_cases h2r : 2 ≤ r.length
    swap
    · refine le_max_of_le_left ?_
      rw [hm]; unfold len
      exact_mod_cast (by omega : r.length ≤ 1)
    have sL : √(len pre.flatten) ≤ √L + τ := by
      have : √(len pre.flatten) ≤ √L := Real.sqrt_le_sqrt (by linarith)
      linarith
    have sG : √(len post.flatten) ≤ √G + τ := by
      have : √(len post.flatten) ≤ √G := Real.sqrt_le_sqrt (by linarith)
      linarith
    match mid, hml, hrm with
    | [r1], _, hrm =>
      rw [List.mem_singleton] at hrm
      subst hrm
      obtain ⟨h5, h6⟩ := h pre r post (by rw [he]; simp) h2r
      rw [← hm] at h5 h6
      exact fin _ _ h5 h6 sL sG
    | [r1, r2], _, hrm =>
      have hl1 : len r1 ≤ 1 ∨ len r1 ≤ 2 * τ * √(len pre.flatten) + τ ^ 2 := by
        by_cases h7 : 2 ≤ r1.length
        · exact Or.inr (h pre r1 (r2 :: post) (by rw [he]; simp) h7).1
        · left; unfold len; exact_mod_cast (by omega : r1.length ≤ 1)
      have hl2 : len r2 ≤ 1 ∨ len r2 ≤ 2 * τ * √(len post.flatten) + τ ^ 2 := by
        by_cases h7 : 2 ≤ r2.length
        · exact Or.inr (h (pre ++ [r1]) r2 post (by rw [he]; simp) h7).2
        · left; unfold len; exact_mod_cast (by omega : r2.length ≤ 1)
      simp only [List.mem_cons, List.not_mem_nil, or_false] at hrm
      rcases hrm with hrm | hrm
      · subst hrm
        obtain ⟨h5, h6⟩ := h pre r (r2 :: post) (by rw [he]; simp) h2r
        rw [← hm] at h5 h6
        simp only [List.flatten_cons, len_append] at h6
        refine fin _ _ h5 h6 sL ?_
        rw [add_comm (len r2)]
        exact sqrt_add_run hτ hq0 hGp hl2
      · subst hrm
        obtain ⟨h5, h6⟩ := h (pre ++ [r1]) r post (by rw [he]; simp) h2r
        rw [← hm] at h5 h6
        simp only [List.flatten_append, List.flatten_cons, List.flatten_nil, List.append_nil, len_append] at h5
        exact fin _ _ h5 h6 (sqrt_add_run hτ hp0 h3 hl1) sG
    | _ :: _ :: _ :: _, h, _ => simp at h

end
end TDigest
end AQ

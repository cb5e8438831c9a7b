/-
`est_value_at_quantile` of a TDigest as a function over the field.
-/
import Verif.Proofs.TDQuery2

set_option linter.unusedSectionVars false
set_option linter.unusedVariables false

namespace AQ
open Prog Spec
variable {K : Type} [Field K] [LinearOrder K] [IsStrictOrderedRing K] [FloatFmt K]

namespace TDigest

/-- The value picked between two neighbours. -/
def vpick (t cw : K) (c n : K × K) : K :=
  if c.2 = 1 ∧ t - cw < 1 / 2 then c.1
  else if n.2 = 1 ∧ cw + (c.2 + n.2) / 2 - t ≤ 1 / 2 then n.1
  else Max.max (Min.min c.1 n.1)
    (Min.min ((c.1 * (cw + (c.2 + n.2) / 2 - t - 1 / 2) + n.1 * (t - cw - 1 / 2)) /
      ((cw + (c.2 + n.2) / 2 - t - 1 / 2) + (t - cw - 1 / 2))) (Max.max c.1 n.1))

/-- The loop over neighbours. -/
def vLoop (t cw : K) : List (K × K) → K
  | [] => 0
  | [c] => c.1
  | c :: n :: rest => if t < cw + (c.2 + n.2) / 2 then vpick t cw c n else vLoop t (cw + (c.2 + n.2) / 2) (n :: rest)

/-- Weight position of the last mean when the first mean is at `cw`. -/
def endW (cw : K) (l : List (K × K)) (hne : l ≠ []) : K := cw - (l.head hne).2 / 2 + wt l - (l.getLast hne).2 / 2

theorem endW_cons (cw : K) (c n : K × K) (rest : List (K × K)) :
    endW cw (c :: n :: rest) (by simp) = endW (cw + (c.2 + n.2) / 2) (n :: rest) (by simp) := by
  unfold endW
  simp only [List.head_cons, List.getLast_cons (List.cons_ne_nil n rest), wt_cons]
  ring

theorem valueLoop_eq [FloatFmt.Exact K] (t : K) : ∀ (m pre : List (K × K)) (cw : K) (steps : Nat) (hne : m ≠ []),
    (∀ p ∈ m, 1 ≤ p.2) → cw ≤ t → t < endW cw m hne → m.length - 1 ≤ steps →
    valueLoop ((pre ++ m).map toC) (.fin t) steps pre.length (.fin cw) = .ret (some (.fin (vLoop t cw m)))
  | [], _, _, _, hne, _, _, _, _ => absurd rfl hne
  | [c], pre, cw, steps, _, _, h1, h2, _ => by
    exfalso
    simp only [endW, List.head_cons, List.getLast_singleton, wt_cons, wt_nil] at h2
    linarith
  | c :: n :: rest, pre, cw, steps, hne, hw, h1, h2, hs => by
    obtain ⟨steps, rfl⟩ : ∃ k, steps = k + 1 := ⟨steps - 1, by simp at hs; omega⟩
    have hc := hw c (by simp)
    have hn := hw n (by simp)
    have e1 : idx ((pre ++ c :: n :: rest).map toC) pre.length = .ret (toC c) := by
      rw [idx_eq (by simp)]; simp
    have e2 : idx ((pre ++ c :: n :: rest).map toC) (pre.length + 1) = .ret (toC n) := by
      rw [idx_eq (by simp)]; simp
    unfold valueLoop
    simp only [e1, e2, bind_ret]
    have hdw : ((toC c).weight + (toC n).weight) / Fl.lit 2 = (.fin ((c.2 + n.2) / 2) : Fl K) := by
      simp only [toC, Fl.add_exact, Fl.lit_exact, Fl.div_exact _ (two_ne_zero (α := K))]
    rw [hdw]
    simp only [Fl.add_exact, Fl.sub_exact, Fl.lt_fin, Fl.le_fin, Fl.lit_exact]
    have hf1 : Fl.feq (toC c).weight (.fin 1) = decide (c.2 = 1) := Fl.feq_fin _ _
    have hf2 : Fl.feq (toC n).weight (.fin 1) = decide (n.2 = 1) := Fl.feq_fin _ _
    rw [hf1, hf2]
    unfold vLoop
    by_cases h3 : t < cw + (c.2 + n.2) / 2
    · rw [if_pos h3, if_pos (decide_eq_true_iff.2 h3)]
      unfold vpick
      by_cases h4 : c.2 = 1 ∧ t - cw < 1 / 2
      · rw [if_pos h4, if_pos (by simpa using h4)]; rfl
      · rw [if_neg h4, if_neg (by simpa using h4)]
        by_cases h5 : n.2 = 1 ∧ cw + (c.2 + n.2) / 2 - t ≤ 1 / 2
        · rw [if_pos h5, if_pos (by simpa using h5)]; rfl
        · rw [if_neg h5, if_neg (by simpa using h5)]
          have hz : (cw + (c.2 + n.2) / 2 - t - 1 / 2) + (t - cw - 1 / 2) ≠ 0 := by
            intro hz
            have hc1 : c.2 = 1 := by linarith
            have hn1 : n.2 = 1 := by linarith
            have h6 : ¬ t - cw < 1 / 2 := fun h => h4 ⟨hc1, h⟩
            apply h5
            refine ⟨hn1, ?_⟩
            rw [hc1, hn1]
            linarith [not_lt.1 h6]
          unfold weightedAverage
          simp only [toC, Fl.mul_exact, Fl.add_exact, Fl.div_exact _ hz, Fl.fmax_fin, Fl.fmin_fin]
    · rw [if_neg h3, if_neg (by simpa using h3)]
      have ih := valueLoop_eq t (n :: rest) (pre ++ [c]) (cw + (c.2 + n.2) / 2) steps (by simp)
        (fun p hp => hw p (List.mem_cons_of_mem _ hp)) (not_lt.1 h3) (by rw [← endW_cons]; exact h2)
        (by simp at hs ⊢; omega)
      simpa using ih

theorem vpick_mem {t cw : K} {c n : K × K} (h : c.1 ≤ n.1) : c.1 ≤ vpick t cw c n ∧ vpick t cw c n ≤ n.1 := by
  unfold vpick
  rw [min_eq_left h, max_eq_right h]
  split
  · exact ⟨le_refl _, h⟩
  · split
    · exact ⟨h, le_refl _⟩
    · exact ⟨le_max_left _ _, max_le h (min_le_right _ _)⟩

theorem vpick_mono {t u cw : K} {c n : K × K} (hc : 1 ≤ c.2) (hn : 1 ≤ n.2) (h : c.1 ≤ n.1) (htu : t ≤ u) :
    vpick t cw c n ≤ vpick u cw c n := by
  by_cases ht : c.2 = 1 ∧ t - cw < 1 / 2
  · have : vpick t cw c n = c.1 := by unfold vpick; rw [if_pos ht]
    rw [this]; exact (vpick_mem h).1
  have hu : ¬ (c.2 = 1 ∧ u - cw < 1 / 2) := fun h' => ht ⟨h'.1, by linarith [h'.2]⟩
  by_cases hu2 : n.2 = 1 ∧ cw + (c.2 + n.2) / 2 - u ≤ 1 / 2
  · have : vpick u cw c n = n.1 := by unfold vpick; rw [if_neg hu, if_pos hu2]
    rw [this]; exact (vpick_mem h).2
  have ht2 : ¬ (n.2 = 1 ∧ cw + (c.2 + n.2) / 2 - t ≤ 1 / 2) := fun h' => hu2 ⟨h'.1, by linarith [h'.2]⟩
  unfold vpick
  rw [if_neg ht, if_neg hu, if_neg ht2, if_neg hu2]
  have e : ∀ z : K, (cw + (c.2 + n.2) / 2 - z - 1 / 2) + (z - cw - 1 / 2) = (c.2 + n.2) / 2 - 1 := by intro z; ring
  rw [e, e]
  have hd : 0 ≤ (c.2 + n.2) / 2 - 1 := by linarith
  have hnum : c.1 * (cw + (c.2 + n.2) / 2 - t - 1 / 2) + n.1 * (t - cw - 1 / 2) ≤
      c.1 * (cw + (c.2 + n.2) / 2 - u - 1 / 2) + n.1 * (u - cw - 1 / 2) := by nlinarith
  have := div_le_div_of_nonneg_right hnum hd
  gcongr

theorem vLoop_mem (t : K) : ∀ (m : List (K × K)) (cw : K) (hne : m ≠ []), m.Pairwise (fun p q => p.1 ≤ q.1) →
    (m.head hne).1 ≤ vLoop t cw m ∧ vLoop t cw m ≤ (m.getLast hne).1
  | [], _, hne, _ => absurd rfl hne
  | [c], _, _, _ => ⟨le_refl _, le_refl _⟩
  | c :: n :: rest, cw, hne, hs => by
    have hcn : c.1 ≤ n.1 := (List.pairwise_cons.1 hs).1 n (by simp)
    have ih := vLoop_mem t (n :: rest) (cw + (c.2 + n.2) / 2) (by simp) (List.pairwise_cons.1 hs).2
    simp only [List.head_cons] at ih ⊢
    rw [List.getLast_cons (by simp)]
    unfold vLoop
    split
    · have := vpick_mem (t := t) (cw := cw) hcn
      refine ⟨this.1, this.2.trans (ih.1.trans ih.2)⟩
    · exact ⟨hcn.trans ih.1, ih.2⟩

theorem vLoop_mono {t u : K} (htu : t ≤ u) : ∀ (m : List (K × K)) (cw : K), m.Pairwise (fun p q => p.1 ≤ q.1) →
    (∀ p ∈ m, 1 ≤ p.2) → vLoop t cw m ≤ vLoop u cw m
  | [], _, _, _ => le_refl _
  | [c], _, _, _ => le_refl _
  | c :: n :: rest, cw, hs, hw => by
    have hcn : c.1 ≤ n.1 := (List.pairwise_cons.1 hs).1 n (by simp)
    have hc := hw c (by simp)
    have hn := hw n (by simp)
    have hw' : ∀ p ∈ n :: rest, 1 ≤ p.2 := fun p hp => hw p (List.mem_cons_of_mem _ hp)
    unfold vLoop
    by_cases hu : u < cw + (c.2 + n.2) / 2
    · rw [if_pos hu, if_pos (htu.trans_lt hu)]
      exact vpick_mono hc hn hcn htu
    · rw [if_neg hu]
      split
      · exact (vpick_mem hcn).2.trans (vLoop_mem u (n :: rest) _ (by simp) (List.pairwise_cons.1 hs).2).1
      · exact vLoop_mono htu (n :: rest) _ (List.pairwise_cons.1 hs).2 hw'

theorem length_le_wt {l : List (K × K)} (hw : ∀ p ∈ l, 1 ≤ p.2) : (l.length : K) ≤ wt l := by
  induction l with
  | nil => simp
  | cons c l ih =>
    rw [wt_cons, List.length_cons]
    push_cast
    have := hw c (by simp)
    have := ih (fun p hp => hw p (by simp [hp]))
    linarith

section
variable [FloorRing K]

/-- The answer as a function of the target weight `t`. -/
def estV (l : List (K × K)) (hne : l ≠ []) (a b t : K) : Fl K :=
  if t < 1 then .fin a
  else if 1 < (l.head hne).2 ∧ t < (l.head hne).2 / 2 then
    .fin (a + (t - 1) / ((l.head hne).2 / 2 - 1) * ((l.head hne).1 - a))
  else if wt l - 1 < t then .fin b
  else if 1 < (l.getLast hne).2 ∧ wt l - t ≤ (l.getLast hne).2 / 2 then
    .fin b - .fin (wt l - t - 1) / .fin ((l.getLast hne).2 / 2 - 1)
  else .fin (vLoop t ((l.head hne).2 / 2) l)

theorem estValue_eq [FloatFmt.Exact K] {d : TDigest K} {l : List (K × K)} {a b : K} (h : View d l a b)
    (hw : ∀ p ∈ l, 1 ≤ p.2) (h64 : wt l < 2 ^ 64) (q : K) :
    d.estValueAtQuantile (.fin q) = .ret (estV l h.ne a b (wt l * q)) := by
  have htot := h.total
  obtain ⟨c, rest, rfl⟩ : ∃ c rest, l = c :: rest := by
    match l, h.ne with
    | c :: rest, _ => exact ⟨c, rest, rfl⟩
  have hWpos : 0 < wt (c :: rest) := wt_pos h.pos h.ne
  unfold estValueAtQuantile
  simp only [htot, Fl.mul_exact, Fl.lit_exact, Fl.lt_fin, Fl.sub_exact]
  generalize ht : wt (c :: rest) * q = t
  have hV : estV (c :: rest) h.ne a b t = if t < 1 then .fin a
      else if 1 < c.2 ∧ t < c.2 / 2 then .fin (a + (t - 1) / (c.2 / 2 - 1) * (c.1 - a))
      else if wt (c :: rest) - 1 < t then .fin b
      else if 1 < ((c :: rest).getLast h.ne).2 ∧ wt (c :: rest) - t ≤ ((c :: rest).getLast h.ne).2 / 2 then
        .fin b - .fin (wt (c :: rest) - t - 1) / .fin (((c :: rest).getLast h.ne).2 / 2 - 1)
      else .fin (vLoop t (c.2 / 2) (c :: rest)) := rfl
  generalize estV (c :: rest) h.ne a b t = V at hV
  by_cases h1 : t < 1
  · rw [if_pos h1] at hV; simp [h1, h.mn, hV]
  rw [if_neg h1] at hV
  simp only [h1, decide_false, Bool.false_eq_true, if_false]
  have e0 : idx d.centroids 0 = .ret (toC c) := by rw [h.cs]; rfl
  have e1 : d.centroids.getLast? = some (toC ((c :: rest).getLast h.ne)) := by
    rw [h.cs, List.getLast?_map, List.getLast?_eq_some_getLast h.ne]; rfl
  rw [e0, bind_ret, e1]
  simp only [unwrap_some, bind_ret]
  generalize hlast : (c :: rest).getLast h.ne = last at hV ⊢
  have el : last ∈ c :: rest := by rw [← hlast]; exact List.getLast_mem _
  have hlw : 1 ≤ last.2 := hw _ el
  have hcw : 1 ≤ c.2 := hw c (by simp)
  simp only [toC, Fl.lt_fin, Fl.div_exact _ (two_ne_zero (α := K)), Fl.sub_exact, Fl.le_fin]
  by_cases h2 : 1 < c.2 ∧ t < c.2 / 2
  · have hne : c.2 / 2 - 1 ≠ 0 := by
      have := h2.2; intro h'; linarith [not_lt.1 h1]
    rw [if_pos (by simpa using h2), hV, if_pos h2]
    simp only [Fl.div_exact _ hne, h.mn, Fl.sub_exact, Fl.mul_exact, Fl.add_exact]
  rw [if_neg h2] at hV; rw [if_neg (by simpa using h2)]
  by_cases h3 : wt (c :: rest) - 1 < t
  · rw [if_pos h3] at hV; rw [if_pos (decide_eq_true_iff.2 h3), h.mx, hV]
  rw [if_neg h3] at hV; rw [if_neg (fun h' => h3 (decide_eq_true_iff.1 h'))]
  by_cases h4 : 1 < last.2 ∧ wt (c :: rest) - t ≤ last.2 / 2
  · rw [if_pos h4] at hV; rw [if_pos (by simpa using h4), h.mx, hV]
  rw [if_neg h4] at hV; rw [if_neg (by simpa using h4)]
  have hus : Fl.toUsize (.fin (wt (c :: rest)) : Fl K) = some ⌊wt (c :: rest)⌋₊ := by
    simp only [Fl.toUsize]
    rw [if_pos ⟨by linarith, h64⟩]
  rw [hus, unwrap_some, bind_ret]
  have hcwt : c.2 / 2 ≤ t := by
    by_cases h5 : 1 < c.2
    · exact not_lt.1 (fun h' => h2 ⟨h5, h'⟩)
    · have : c.2 = 1 := le_antisymm (not_lt.1 h5) hcw
      rw [this]; linarith [not_lt.1 h1]
  have hend : t < endW (c.2 / 2) (c :: rest) h.ne := by
    unfold endW
    rw [hlast]
    simp only [List.head_cons]
    by_cases h5 : 1 < last.2
    · have := not_le.1 (fun h' => h4 ⟨h5, h'⟩)
      linarith
    · have : last.2 = 1 := le_antisymm (not_lt.1 h5) hlw
      rw [this]; linarith [not_lt.1 h3]
  have hsteps : (c :: rest).length - 1 ≤ ⌊wt (c :: rest)⌋₊ := by
    refine le_trans (Nat.sub_le _ _) (Nat.le_floor (length_le_wt hw))
  have := valueLoop_eq t (c :: rest) [] (c.2 / 2) ⌊wt (c :: rest)⌋₊ h.ne hw hcwt hend hsteps
  simp only [List.nil_append, List.length_nil] at this
  rw [h.cs, this, hV]
  rfl

end
end TDigest
end AQ

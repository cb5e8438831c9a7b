/-
Bounds and monotonicity of the interpolated weight of a TDigest.
-/
import Mathlib.Tactic.GCongr
import Mathlib.Tactic.Positivity
import Verif.Proofs.TDQuery

set_option linter.unusedSectionVars false
set_option linter.unusedVariables false

namespace AQ
open Prog Spec
variable {K : Type} [Field K] [LinearOrder K] [IsStrictOrderedRing K] [FloatFmt K]

namespace TDigest

theorem wt_nonneg {l : List (K × K)} (h : ∀ p ∈ l, 0 < p.2) : 0 ≤ wt l := by
  induction l with
  | nil => simp
  | cons c l ih =>
    rw [wt_cons]
    have := h c (by simp)
    have := ih (fun p hp => h p (by simp [hp]))
    linarith

theorem getLast_wt_le {l : List (K × K)} (h : ∀ p ∈ l, 0 < p.2) (hne : l ≠ []) : (l.getLast hne).2 ≤ wt l := by
  induction l with
  | nil => exact absurd rfl hne
  | cons c l ih =>
    cases l with
    | nil => simp
    | cons n r =>
      rw [List.getLast_cons (by simp), wt_cons]
      have := ih (fun p hp => h p (by simp [hp])) (by simp)
      have := h c (by simp)
      linarith

theorem equalW_nonneg {l : List (K × K)} (h : ∀ p ∈ l, 0 < p.2) (x : K) : 0 ≤ equalW x l := by
  induction l with
  | nil => simp [equalW]
  | cons c l ih =>
    unfold equalW
    have := h c (by simp)
    have := ih (fun p hp => h p (by simp [hp]))
    split <;> linarith

theorem equalW_le {l : List (K × K)} (h : ∀ p ∈ l, 0 < p.2) (x : K) : equalW x l ≤ wt l := by
  induction l with
  | nil => simp [equalW]
  | cons c l ih =>
    unfold equalW
    rw [wt_cons]
    have := h c (by simp)
    have := ih (fun p hp => h p (by simp [hp]))
    have := wt_nonneg (l := l) (fun p hp => h p (by simp [hp]))
    split <;> linarith

/-- When the last mean is above `x`, the last weight is not among those equal to `x`. -/
theorem equalW_le_of_lt {l : List (K × K)} (h : ∀ p ∈ l, 0 < p.2) (x : K) (hne : l ≠ []) (hl : x < (l.getLast hne).1) :
    equalW x l ≤ wt l - (l.getLast hne).2 := by
  induction l with
  | nil => exact absurd rfl hne
  | cons c l ih =>
    cases l with
    | nil =>
      simp only [List.getLast_singleton] at hl
      simp only [equalW, List.getLast_singleton, wt_cons, wt_nil]
      rw [if_neg hl.ne']; linarith
    | cons n r =>
      rw [List.getLast_cons (by simp)] at hl ⊢
      have h1 := ih (fun p hp => h p (by simp [hp])) (by simp) hl
      have h2 := h c (by simp)
      have h3 := getLast_wt_le (l := n :: r) (fun p hp => h p (by simp [hp])) (by simp)
      rw [wt_cons c]
      conv => lhs; unfold equalW
      split <;> linarith

theorem le_equalW {c : K × K} {l : List (K × K)} (h : ∀ p ∈ l, 0 < p.2) : c.2 ≤ equalW c.1 (c :: l) := by
  unfold equalW
  rw [if_pos rfl]
  have := equalW_nonneg h c.1
  linarith

/-- Interpolation stays between the two half weights. -/
theorem btw_bounds {x s : K} {c n : K × K} (hc : 1 ≤ c.2) (hn : 1 ≤ n.2) (h1 : c.1 ≤ x) (h2 : x < n.1) :
    s + c.2 / 2 + exl c n ≤ btw x s c n ∧ btw x s c n ≤ s + c.2 + n.2 / 2 - exr c n := by
  have hd : 0 < n.1 - c.1 := by linarith
  have ht0 : 0 ≤ (x - c.1) / (n.1 - c.1) := div_nonneg (by linarith) hd.le
  have ht1 : (x - c.1) / (n.1 - c.1) ≤ 1 := (div_le_one hd).2 (by linarith)
  have hw : 0 ≤ (c.2 + n.2) / 2 - exl c n - exr c n := by
    unfold exl exr; split_ifs <;> linarith
  unfold btw
  split
  · rename_i h
    unfold exl exr
    rw [h.1, h.2]
    constructor <;> (norm_num; try linarith)
  · rw [mul_div_assoc]
    have h3 := mul_nonneg hw ht0
    have h4 := mul_le_of_le_one_right hw ht1
    constructor <;> linarith

theorem btw_mono {x y s : K} {c n : K × K} (hc : 1 ≤ c.2) (hn : 1 ≤ n.2) (hcn : c.1 < n.1) (h : x ≤ y) :
    btw x s c n ≤ btw y s c n := by
  have hd : 0 < n.1 - c.1 := by linarith
  have hw : 0 ≤ (c.2 + n.2) / 2 - exl c n - exr c n := by
    unfold exl exr; split_ifs <;> linarith
  unfold btw
  split
  · exact le_refl _
  · have : ((c.2 + n.2) / 2 - exl c n - exr c n) * (x - c.1) / (n.1 - c.1) ≤
      ((c.2 + n.2) / 2 - exl c n - exr c n) * (y - c.1) / (n.1 - c.1) := by gcongr
    linarith

theorem exl_nonneg (c n : K × K) : 0 ≤ exl c n := by unfold exl; split <;> norm_num
theorem exr_nonneg (c n : K × K) : 0 ≤ exr c n := by unfold exr; split <;> [exact le_refl _; (split <;> norm_num)]

/-- Strictly right of the first mean at least half of the first weight lies below, and all of a unit weight. -/
theorem wbelow_ge_of_lt : ∀ (l : List (K × K)) (x s : K) (hne : l ≠ []), l.Pairwise (fun p q => p.1 ≤ q.1) →
    (∀ p ∈ l, 1 ≤ p.2) → (l.head hne).1 < x → x ≤ (l.getLast hne).1 →
    s + (l.head hne).2 / 2 ≤ wbelow x s l ∧ s + equalW (l.head hne).1 l / 2 ≤ wbelow x s l
  | [], _, _, hne, _, _, _, _ => absurd rfl hne
  | [c], x, s, _, _, _, h1, h2 => by
    simp only [List.head_cons, List.getLast_singleton] at h1 h2
    exact absurd h2 (not_le.2 h1)
  | c :: n :: rest, x, s, hne, hs, hw, h1, h2 => by
    simp only [List.head_cons] at h1 ⊢
    have hpos : ∀ p ∈ c :: n :: rest, 0 < p.2 := fun p hp => zero_lt_one.trans_le (hw p hp)
    have hc := hw c (by simp)
    have hn := hw n (by simp)
    have hs' := (List.pairwise_cons.1 hs).2
    have hw' : ∀ p ∈ n :: rest, 1 ≤ p.2 := fun p hp => hw p (List.mem_cons_of_mem _ hp)
    unfold wbelow
    rw [if_neg h1.ne]
    have he : equalW c.1 (c :: n :: rest) = c.2 + equalW c.1 (n :: rest) := by
      conv => lhs; unfold equalW
      rw [if_pos rfl]
    by_cases hx : x < n.1
    · rw [if_pos ⟨h1.le, hx⟩]
      have hb := (btw_bounds (s := s) hc hn h1.le hx).1
      have := exl_nonneg c n
      have hz : equalW c.1 (n :: rest) = 0 := by
        unfold equalW; rw [if_neg (h1.trans hx).ne']
      rw [he, hz]
      constructor <;> linarith
    · rw [if_neg (fun h => hx h.2)]
      have hx' := not_lt.1 hx
      rcases hx'.lt_or_eq with hlt | heq
      · have ih := wbelow_ge_of_lt (n :: rest) x (s + c.2) (by simp) hs' hw' hlt (by simpa using h2)
        simp only [List.head_cons] at ih
        refine ⟨by linarith [ih.1], ?_⟩
        rw [he]
        by_cases hcn : c.1 = n.1
        · rw [hcn]; linarith [ih.2]
        · have hz : equalW c.1 (n :: rest) = 0 := by
            unfold equalW; rw [if_neg (Ne.symm hcn)]
          rw [hz]; linarith [ih.1]
      · have hz : equalW c.1 (n :: rest) = 0 := by
          unfold equalW; rw [if_neg (by rw [heq]; exact h1.ne')]
        rw [he, hz]
        have hge : s + c.2 ≤ wbelow x (s + c.2) (n :: rest) := by
          cases rest with
          | nil =>
            unfold wbelow; split <;> linarith
          | cons m r =>
            unfold wbelow
            rw [if_pos heq]
            have := equalW_nonneg (l := n :: m :: r) (fun p hp => hpos p (List.mem_cons_of_mem _ hp)) x
            split <;> linarith
        constructor <;> linarith

theorem wbelow_ge (l : List (K × K)) (x s : K) (hne : l ≠ []) (hs : l.Pairwise (fun p q => p.1 ≤ q.1))
    (hw : ∀ p ∈ l, 1 ≤ p.2) (h1 : (l.head hne).1 ≤ x) (h2 : x ≤ (l.getLast hne).1) : s ≤ wbelow x s l := by
  rcases h1.lt_or_eq with h | h
  · have := (wbelow_ge_of_lt l x s hne hs hw h h2).1
    have := hw _ (List.head_mem hne)
    linarith
  · have hpos : ∀ p ∈ l, 0 < p.2 := fun p hp => zero_lt_one.trans_le (hw p hp)
    match l, hne, h with
    | [c], _, h =>
      have := hw c (by simp)
      unfold wbelow; split <;> linarith
    | c :: n :: rest, _, h =>
      simp only [List.head_cons] at h
      unfold wbelow
      rw [if_pos h]
      have := equalW_nonneg hpos x
      split <;> linarith

/-- Left of the last mean, at least half of the last weight lies above. -/
theorem wbelow_le_of_lt : ∀ (l : List (K × K)) (x s : K) (hne : l ≠ []), l.Pairwise (fun p q => p.1 ≤ q.1) →
    (∀ p ∈ l, 1 ≤ p.2) → (l.head hne).1 ≤ x → x < (l.getLast hne).1 →
    wbelow x s l ≤ s + wt l - (l.getLast hne).2 / 2
  | [], _, _, hne, _, _, _, _ => absurd rfl hne
  | [c], x, s, _, _, _, h1, h2 => by
    simp only [List.head_cons, List.getLast_singleton] at h1 h2
    exact absurd h2 (not_lt.2 h1)
  | c :: n :: rest, x, s, hne, hs, hw, h1, h2 => by
    simp only [List.head_cons] at h1
    have hpos : ∀ p ∈ c :: n :: rest, 0 < p.2 := fun p hp => zero_lt_one.trans_le (hw p hp)
    have hc := hw c (by simp)
    have hn := hw n (by simp)
    have hlast := getLast_wt_le (l := n :: rest) (fun p hp => hpos p (List.mem_cons_of_mem _ hp)) (by simp)
    have heq := equalW_le_of_lt hpos x hne h2
    rw [List.getLast_cons (by simp)] at h2 heq ⊢
    unfold wbelow
    have hlpos : 0 < ((n :: rest).getLast (by simp)).2 := hpos _ (List.mem_cons_of_mem _ (List.getLast_mem _))
    have hwt : wt (c :: n :: rest) = c.2 + wt (n :: rest) := rfl
    split
    · have := equalW_nonneg hpos x
      split
      · linarith
      · linarith
    · split
      · rename_i hx hb
        have hub := (btw_bounds (s := s) hc hn hb.1 hb.2).2
        have := exr_nonneg c n
        have hlst : n.2 / 2 + ((n :: rest).getLast (by simp)).2 / 2 ≤ wt (n :: rest) := by
          cases rest with
          | nil => simp
          | cons m r =>
            rw [List.getLast_cons (by simp), wt_cons]
            have := getLast_wt_le (l := m :: r) (fun p hp => hpos p (by
              exact List.mem_cons_of_mem _ (List.mem_cons_of_mem _ hp))) (by simp)
            have : 0 < ((m :: r).getLast (by simp)).2 := hpos _ (by
              exact List.mem_cons_of_mem _ (List.mem_cons_of_mem _ (List.getLast_mem _)))
            linarith
        linarith
      · rename_i hx hb
        have hxn : n.1 ≤ x := not_lt.1 (fun h => hb ⟨h1, h⟩)
        have ih := wbelow_le_of_lt (n :: rest) x (s + c.2) (by simp) (List.pairwise_cons.1 hs).2
          (fun p hp => hw p (List.mem_cons_of_mem _ hp)) hxn h2
        linarith

theorem wbelow_le (l : List (K × K)) (x s : K) (hne : l ≠ []) (hs : l.Pairwise (fun p q => p.1 ≤ q.1))
    (hw : ∀ p ∈ l, 1 ≤ p.2) (h1 : (l.head hne).1 ≤ x) (h2 : x ≤ (l.getLast hne).1) : wbelow x s l ≤ s + wt l - 1 / 2 := by
  have hpos : ∀ p ∈ l, 0 < p.2 := fun p hp => zero_lt_one.trans_le (hw p hp)
  rcases h2.lt_or_eq with h | h
  · have := wbelow_le_of_lt l x s hne hs hw h1 h
    have := hw _ (List.getLast_mem hne)
    linarith
  · induction l generalizing s with
    | nil => exact absurd rfl hne
    | cons c l ih =>
      cases l with
      | nil =>
        have := hw c (by simp)
        unfold wbelow; simp only [wt_cons, wt_nil]; split <;> linarith
      | cons n rest =>
        simp only [List.head_cons] at h1
        unfold wbelow
        have he := equalW_le hpos x
        split
        · rename_i hx
          have h3 := le_equalW (c := c) (l := n :: rest) (fun p hp => hpos p (List.mem_cons_of_mem _ hp))
          rw [hx] at h3
          have h4 := hw c (by simp)
          split <;> linarith
        · rename_i hx
          split
          · rename_i hb
            have hmem : (c :: n :: rest).getLast hne ∈ n :: rest := by
              rw [List.getLast_cons (by simp)]; exact List.getLast_mem _
            have : n.1 ≤ ((c :: n :: rest).getLast hne).1 := by
              rcases List.mem_cons.1 hmem with h' | h'
              · rw [h']
              · exact (List.pairwise_cons.1 (List.pairwise_cons.1 hs).2).1 _ h'
            exact absurd hb.2 (not_lt.2 (h ▸ this))
          · rename_i hb
            have hxn : n.1 ≤ x := not_lt.1 (fun h' => hb ⟨h1, h'⟩)
            rw [List.getLast_cons (by simp)] at h h2
            have := ih (s + c.2) (by simp) (List.pairwise_cons.1 hs).2 (fun p hp => hw p (List.mem_cons_of_mem _ hp)) hxn h2
              (fun p hp => hpos p (List.mem_cons_of_mem _ hp)) h
            rw [wt_cons]; linarith

/-- The interpolated weight is monotone between the first and the last mean. -/
theorem wbelow_mono : ∀ (l : List (K × K)) (x y s : K) (hne : l ≠ []), l.Pairwise (fun p q => p.1 ≤ q.1) →
    (∀ p ∈ l, 1 ≤ p.2) → (l.head hne).1 ≤ x → x ≤ y → y ≤ (l.getLast hne).1 → wbelow x s l ≤ wbelow y s l
  | [], _, _, _, hne, _, _, _, _, _ => absurd rfl hne
  | [c], x, y, s, _, _, _, _, _, _ => le_refl _
  | c :: n :: rest, x, y, s, hne, hs, hw, h1, hxy, h2 => by
    simp only [List.head_cons] at h1
    have hpos : ∀ p ∈ c :: n :: rest, 0 < p.2 := fun p hp => zero_lt_one.trans_le (hw p hp)
    have hc := hw c (by simp)
    have hn := hw n (by simp)
    have hs' := (List.pairwise_cons.1 hs).2
    have hw' : ∀ p ∈ n :: rest, 1 ≤ p.2 := fun p hp => hw p (List.mem_cons_of_mem _ hp)
    have h2' : y ≤ ((n :: rest).getLast (by simp)).1 := by simpa using h2
    rcases hxy.lt_or_eq with hlt | rfl
    swap
    · exact le_refl _
    rcases h1.lt_or_eq with h1' | h1'
    · -- c < x < y
      by_cases hx : x < n.1
      · have ex : wbelow x s (c :: n :: rest) = btw x s c n := by
          conv => lhs; unfold wbelow
          rw [if_neg h1'.ne, if_pos ⟨h1, hx⟩]
        rw [ex]
        have hub := (btw_bounds (s := s) hc hn h1 hx).2
        have hxr := exr_nonneg c n
        by_cases hy : y < n.1
        · unfold wbelow
          rw [if_neg (h1'.trans hlt).ne, if_pos ⟨h1.trans hxy, hy⟩]
          exact btw_mono hc hn (h1'.trans hx) hxy
        · have hy' := not_lt.1 hy
          have ey : wbelow y s (c :: n :: rest) = wbelow y (s + c.2) (n :: rest) := by
            conv => lhs; unfold wbelow
            rw [if_neg (h1'.trans hlt).ne, if_neg (fun h => hy h.2)]
          rw [ey]
          rcases hy'.lt_or_eq with hyl | hye
          · have := (wbelow_ge_of_lt (n :: rest) y (s + c.2) (by simp) hs' hw' hyl h2').1
            simp only [List.head_cons] at this
            linarith
          · -- y = n.1
            have hub2 : n.2 = 1 → btw x s c n ≤ s + c.2 := by
              intro hn1
              by_cases hc1 : c.2 = 1
              · unfold btw; rw [if_pos ⟨hc1, hn1⟩, hc1]
              · have : exr c n = 1 / 2 := by unfold exr; rw [if_neg hc1, if_pos hn1]
                rw [this, hn1] at hub
                linarith
            cases rest with
            | nil =>
              unfold wbelow
              split
              · rename_i hn1; exact hub2 hn1
              · linarith
            | cons m r =>
              conv => rhs; unfold wbelow
              rw [if_pos hye]
              have hle : n.2 ≤ equalW y (n :: m :: r) := by
                rw [← hye]; exact le_equalW (fun p hp => hpos p (List.mem_cons_of_mem _ (List.mem_cons_of_mem _ hp)))
              split
              · rename_i h
                exact hub2 (h.1.trans h.2)
              · linarith
      · have hx' := not_lt.1 hx
        have ex : wbelow x s (c :: n :: rest) = wbelow x (s + c.2) (n :: rest) := by
          conv => lhs; unfold wbelow
          rw [if_neg h1'.ne, if_neg (fun h => hx h.2)]
        have ey : wbelow y s (c :: n :: rest) = wbelow y (s + c.2) (n :: rest) := by
          conv => lhs; unfold wbelow
          rw [if_neg (h1'.trans hlt).ne, if_neg (fun h => hx (hlt.trans h.2))]
        rw [ex, ey]
        exact wbelow_mono (n :: rest) x y (s + c.2) (by simp) hs' hw' hx' hxy h2'
    · -- x = c < y
      have hge := wbelow_ge_of_lt (c :: n :: rest) y s hne hs hw (by simpa [h1'] using hlt) h2
      simp only [List.head_cons] at hge
      rw [h1'] at hge
      have ex : wbelow x s (c :: n :: rest) ≤ s + equalW x (c :: n :: rest) / 2 := by
        have := equalW_nonneg hpos x
        conv => lhs; unfold wbelow
        rw [if_pos h1']
        split <;> linarith
      exact ex.trans hge.2

/-- The estimate is a probability. -/
theorem estQ_mem {l : List (K × K)} (hne : l ≠ []) {a b : K} (hs : l.Pairwise (fun p q => p.1 ≤ q.1))
    (hw : ∀ p ∈ l, 1 ≤ p.2) (h2 : 2 ≤ l.length) (x : K) : 0 ≤ estQ l hne a b x ∧ estQ l hne a b x ≤ 1 := by
  have hpos : ∀ p ∈ l, 0 < p.2 := fun p hp => zero_lt_one.trans_le (hw p hp)
  have hW : 0 < wt l := wt_pos hpos hne
  have hh := hw _ (List.head_mem hne)
  have hg := hw _ (List.getLast_mem hne)
  have hhl : (l.head hne).2 + 1 ≤ wt l ∧ (l.getLast hne).2 + 1 ≤ wt l := by
    match l, h2 with
    | c :: n :: rest, _ =>
      have h3 := getLast_wt_le (l := n :: rest) (fun p hp => hpos p (List.mem_cons_of_mem _ hp)) (by simp)
      have h4 := hw c (by simp)
      have h5 := hw ((n :: rest).getLast (by simp)) (List.mem_cons_of_mem _ (List.getLast_mem _))
      rw [List.getLast_cons (by simp), List.head_cons, wt_cons]
      constructor <;> linarith
  unfold estQ
  split
  · simp
  split
  · simp
  rename_i hxa hbx
  have ha := not_lt.1 hxa
  have hb := not_lt.1 hbx
  split
  · rename_i hxf
    split
    · rw [div_le_one hW]
      exact ⟨by positivity, by linarith [hhl.1]⟩
    · have hd : 0 < (l.head hne).1 - a := by linarith
      have ht0 : 0 ≤ (x - a) / ((l.head hne).1 - a) := div_nonneg (by linarith) hd.le
      have ht1 : (x - a) / ((l.head hne).1 - a) ≤ 1 := (div_le_one hd).2 (by linarith)
      have h3 : -(1 / 2) ≤ (x - a) / ((l.head hne).1 - a) * ((l.head hne).2 / 2 - 1) := by nlinarith
      have h4 : (x - a) / ((l.head hne).1 - a) * ((l.head hne).2 / 2 - 1) ≤ (l.head hne).2 / 2 := by nlinarith
      rw [div_le_one hW]
      exact ⟨div_nonneg (by linarith) hW.le, by linarith [hhl.1]⟩
  split
  · rename_i hxf hlx
    have key : ∀ z : K, 0 ≤ z → z ≤ wt l → 0 ≤ 1 - z / wt l ∧ 1 - z / wt l ≤ 1 := by
      intro z h0 h1
      have := div_nonneg h0 hW.le
      have := (div_le_one hW).2 h1
      constructor <;> linarith
    split
    · exact key _ (by norm_num) (by linarith [hhl.1])
    · have hd : 0 < b - (l.getLast hne).1 := by linarith
      have ht0 : 0 ≤ (b - x) / (b - (l.getLast hne).1) := div_nonneg (by linarith) hd.le
      have ht1 : (b - x) / (b - (l.getLast hne).1) ≤ 1 := (div_le_one hd).2 (by linarith)
      have h3 : -(1 / 2) ≤ (b - x) / (b - (l.getLast hne).1) * ((l.getLast hne).2 / 2 - 1) := by nlinarith
      have h4 : (b - x) / (b - (l.getLast hne).1) * ((l.getLast hne).2 / 2 - 1) ≤ (l.getLast hne).2 / 2 := by nlinarith
      exact key _ (by linarith) (by linarith [hhl.2])
  · rename_i hxf hlx
    rw [div_le_one hW]
    have h1 := wbelow_ge l x 0 hne hs hw (not_lt.1 hxf) (not_lt.1 hlx)
    have h3 := wbelow_le l x 0 hne hs hw (not_lt.1 hxf) (not_lt.1 hlx)
    exact ⟨div_nonneg h1 hW.le, by linarith⟩

/-- The estimate left of the first mean. -/
theorem left_bounds {a f w x : K} (ha : a ≤ x) (hx : x < f) (hw : 2 ≤ w) :
    1 ≤ 1 + (x - a) / (f - a) * (w / 2 - 1) ∧ 1 + (x - a) / (f - a) * (w / 2 - 1) ≤ w / 2 := by
  have hd : 0 < f - a := by linarith
  have ht0 : 0 ≤ (x - a) / (f - a) := div_nonneg (by linarith) hd.le
  have ht1 : (x - a) / (f - a) ≤ 1 := (div_le_one hd).2 (by linarith)
  have h3 := mul_nonneg ht0 (by linarith : (0 : K) ≤ w / 2 - 1)
  have h4 := mul_le_of_le_one_left (by linarith : (0 : K) ≤ w / 2 - 1) ht1
  constructor <;> linarith

theorem left_mono {a f w x y : K} (ha : a ≤ x) (hx : x < f) (hw : 2 ≤ w) (hxy : x ≤ y) :
    1 + (x - a) / (f - a) * (w / 2 - 1) ≤ 1 + (y - a) / (f - a) * (w / 2 - 1) := by
  have hd : 0 < f - a := by linarith
  have : (x - a) / (f - a) ≤ (y - a) / (f - a) := by gcongr
  have := mul_le_mul_of_nonneg_right this (by linarith : (0 : K) ≤ w / 2 - 1)
  linarith

/-- Monotonicity, away from the defects of the end formulas. -/
theorem estQ_mono {l : List (K × K)} (hne : l ≠ []) {a b : K} (hs : l.Pairwise (fun p q => p.1 ≤ q.1))
    (hw : ∀ p ∈ l, 1 ≤ p.2) (h2 : 2 ≤ l.length) (hlo : a ≤ (l.head hne).1) (hhi : (l.getLast hne).1 ≤ b)
    (hf : 2 ≤ (l.head hne).2 ∨ (l.head hne).1 = a) (hl : 2 ≤ (l.getLast hne).2 ∨ (l.getLast hne).1 = b)
    {x y : K} (hxy : x ≤ y) (hx : x ≠ (l.getLast hne).1 ∨ y ≤ (l.getLast hne).1 ∨ b ≤ y) :
    estQ l hne a b x ≤ estQ l hne a b y := by
  have hpos : ∀ p ∈ l, 0 < p.2 := fun p hp => zero_lt_one.trans_le (hw p hp)
  have hW : 0 < wt l := wt_pos hpos hne
  have hmx := estQ_mem (a := a) (b := b) hne hs hw h2 x
  have hmy := estQ_mem (a := a) (b := b) hne hs hw h2 y
  have hhl : (l.head hne).2 + (l.getLast hne).2 ≤ wt l := by
    match l, h2 with
    | c :: n :: rest, _ =>
      have h3 := getLast_wt_le (l := n :: rest) (fun p hp => hpos p (List.mem_cons_of_mem _ hp)) (by simp)
      rw [List.getLast_cons (by simp), List.head_cons, wt_cons]
      linarith
  by_cases hxa : x < a
  · have : estQ l hne a b x = 0 := by unfold estQ; rw [if_pos hxa]
    rw [this]; exact hmy.1
  by_cases hby : b < y
  · have : estQ l hne a b y = 1 := by
      unfold estQ; rw [if_neg (not_lt.2 ((not_lt.1 hxa).trans hxy)), if_pos hby]
    rw [this]; exact hmx.2
  have hax := not_lt.1 hxa
  have hyb := not_lt.1 hby
  have hya : ¬ y < a := not_lt.2 (hax.trans hxy)
  have hbx : ¬ b < x := not_lt.2 (hxy.trans hyb)
  -- the estimate on the right
  have right_ge : (l.getLast hne).1 < y → ¬ y < (l.head hne).1 → 1 - ((l.getLast hne).2 / 2) / wt l ≤ estQ l hne a b y := by
    intro hly hyf
    have hl2 : 2 ≤ (l.getLast hne).2 := hl.resolve_right (fun h => by rw [h] at hly; exact hby hly)
    unfold estQ
    rw [if_neg hya, if_neg hby, if_neg hyf, if_pos hly]
    split
    · have : (1 / 2 : K) / wt l ≤ ((l.getLast hne).2 / 2) / wt l := by gcongr; linarith
      linarith
    · have hb := (left_bounds (a := -b) (f := -(l.getLast hne).1) (x := -y) (neg_le_neg hyb) (neg_lt_neg hly) hl2).2
      have e : (-y - -b) / (-(l.getLast hne).1 - -b) = (b - y) / (b - (l.getLast hne).1) := by ring_nf
      rw [e] at hb
      have : (1 + (b - y) / (b - (l.getLast hne).1) * ((l.getLast hne).2 / 2 - 1)) / wt l ≤ ((l.getLast hne).2 / 2) / wt l := by
        gcongr
      linarith
  have hfl : (l.head hne).1 ≤ (l.getLast hne).1 := by
    match l, hs with
    | [c], _ => simp
    | c :: n :: rest, hs =>
      rw [List.getLast_cons (by simp), List.head_cons]
      exact (List.pairwise_cons.1 hs).1 _ (List.getLast_mem _)
  by_cases hxf : x < (l.head hne).1
  · have hf2 : 2 ≤ (l.head hne).2 := hf.resolve_right (fun h => by rw [h] at hxf; exact hxa hxf)
    have hlb := left_bounds hax hxf hf2
    have left_le : estQ l hne a b x ≤ ((l.head hne).2 / 2) / wt l := by
      unfold estQ
      rw [if_neg hxa, if_neg hbx, if_pos hxf]
      split
      · gcongr; linarith
      · gcongr; exact hlb.2
    by_cases hyf : y < (l.head hne).1
    · unfold estQ
      rw [if_neg hxa, if_neg hbx, if_pos hxf, if_neg hya, if_neg hby, if_pos hyf]
      have hlby := left_bounds (hax.trans hxy) hyf hf2
      by_cases h3 : x = a
      · rw [if_pos h3]
        split
        · exact le_refl _
        · gcongr; linarith [hlby.1]
      · rw [if_neg h3, if_neg (fun h => h3 (le_antisymm (by rw [← h]; exact hxy) hax))]
        gcongr
        have := left_mono hax hxf hf2 hxy
        linarith
    · refine left_le.trans ?_
      by_cases hly : (l.getLast hne).1 < y
      · refine le_trans ?_ (right_ge hly hyf)
        rw [le_sub_iff_add_le, ← add_div, div_le_one hW]
        linarith [hpos _ (List.head_mem hne), hpos _ (List.getLast_mem hne)]
      · unfold estQ
        rw [if_neg hya, if_neg hby, if_neg hyf, if_neg hly]
        gcongr
        rcases (not_lt.1 hyf).lt_or_eq with h3 | h3
        · have := (wbelow_ge_of_lt l y 0 hne hs hw h3 (not_lt.1 hly)).1
          linarith
        · obtain ⟨c, n, rest, rfl⟩ : ∃ c n rest, l = c :: n :: rest := by
            match l, h2 with
            | c :: n :: rest, _ => exact ⟨c, n, rest, rfl⟩
          simp only [List.head_cons] at h3 hf2 ⊢
          have h4 := le_equalW (c := c) (l := n :: rest) (fun p hp => hpos p (List.mem_cons_of_mem _ hp))
          rw [h3] at h4
          unfold wbelow
          rw [if_pos h3, if_neg (by rintro ⟨h5, h6⟩; linarith)]
          linarith
  · have hyf : ¬ y < (l.head hne).1 := not_lt.2 ((not_lt.1 hxf).trans hxy)
    by_cases hlx : (l.getLast hne).1 < x
    · have hly := hlx.trans_le hxy
      have hl2 : 2 ≤ (l.getLast hne).2 := hl.resolve_right (fun h => by rw [h] at hly; exact hby hly)
      unfold estQ
      rw [if_neg hxa, if_neg hbx, if_neg hxf, if_pos hlx, if_neg hya, if_neg hby, if_neg hyf, if_pos hly]
      have hbx' := (left_bounds (a := -b) (f := -(l.getLast hne).1) (x := -x) (neg_le_neg (hxy.trans hyb)) (neg_lt_neg hlx) hl2)
      have hm := left_mono (a := -b) (f := -(l.getLast hne).1) (x := -y) (y := -x) (neg_le_neg hyb) (neg_lt_neg hly) hl2
        (neg_le_neg hxy)
      have e : ∀ z, (-z - -b) / (-(l.getLast hne).1 - -b) = (b - z) / (b - (l.getLast hne).1) := by intro z; ring_nf
      rw [e] at hbx'
      rw [e, e] at hm
      by_cases h3 : y = b
      · rw [if_pos h3]
        split
        · exact le_refl _
        · gcongr; linarith [hbx'.1]
      · rw [if_neg h3, if_neg (fun h => h3 (le_antisymm hyb (by rw [← h]; exact hxy)))]
        gcongr
    · have hxl := not_lt.1 hlx
      by_cases hly : (l.getLast hne).1 < y
      · rcases hxl.lt_or_eq with h3 | h3
        · refine le_trans ?_ (right_ge hly hyf)
          have := wbelow_le_of_lt l x 0 hne hs hw (not_lt.1 hxf) h3
          unfold estQ
          rw [if_neg hxa, if_neg hbx, if_neg hxf, if_neg hlx, le_sub_iff_add_le, ← add_div, div_le_one hW]
          linarith
        · have hyb' : y = b := by
            rcases hx with h4 | h4 | h4
            · exact absurd h3 h4
            · exact absurd hly (not_lt.2 h4)
            · exact le_antisymm hyb h4
          unfold estQ
          rw [if_neg hxa, if_neg hbx, if_neg hxf, if_neg hlx, if_neg hya, if_neg hby, if_neg hyf, if_pos hly, if_pos hyb']
          have := wbelow_le l x 0 hne hs hw (not_lt.1 hxf) hxl
          rw [le_sub_iff_add_le, ← add_div, div_le_one hW]
          linarith
      · unfold estQ
        rw [if_neg hxa, if_neg hbx, if_neg hxf, if_neg hlx, if_neg hya, if_neg hby, if_neg hyf, if_neg hly]
        have := wbelow_mono l x y 0 hne hs hw (not_lt.1 hxf) hxy (not_lt.1 hly)
        gcongr

end TDigest
end AQ

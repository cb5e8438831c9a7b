/-
Quantile query followed by value query on the same TDigest, as functions over the field.
-/
import Verif.Proofs.TDValue

set_option linter.unusedSectionVars false
set_option linter.unusedVariables false

namespace AQ
open Prog Spec
variable {K : Type} [Field K] [LinearOrder K] [IsStrictOrderedRing K] [FloatFmt K]

namespace TDigest

/-- No mean lies strictly between `x` and `v`. -/
def SameGap (l : List (K × K)) (x v : K) : Prop := ∀ p ∈ l, ¬ (x < p.1 ∧ p.1 < v) ∧ ¬ (v < p.1 ∧ p.1 < x)

theorem trip_equalW_nonneg (x : K) : ∀ (l : List (K × K)), (∀ p ∈ l, 1 ≤ p.2) → 0 ≤ equalW x l
  | [], _ => le_refl _
  | c :: l, h => by
    unfold equalW
    have h1 := h c (by simp)
    have h2 := trip_equalW_nonneg x l (fun p hp => h p (by simp [hp]))
    split <;> linarith

theorem trip_equalW_le_wt (x : K) : ∀ (l : List (K × K)), (∀ p ∈ l, 1 ≤ p.2) → equalW x l ≤ wt l
  | [], _ => le_refl _
  | c :: l, h => by
    unfold equalW
    have h1 := h c (by simp)
    have h2 := trip_equalW_le_wt x l (fun p hp => h p (by simp [hp]))
    have h3 : (0 : K) ≤ l.length := Nat.cast_nonneg _
    have h4 := length_le_wt (fun p hp => h p (by simp [hp]) : ∀ p ∈ l, 1 ≤ p.2)
    rw [wt_cons]
    split <;> linarith

/-- In a run of means `x` the value query answers `x`. -/
theorem vLoop_run (x t : K) : ∀ (l : List (K × K)) (s : K) (hne : l ≠ []), l.Pairwise (fun p q => p.1 ≤ q.1) →
    (∀ p ∈ l, p.2 = 1 ∨ 2 ≤ p.2) → (l.head hne).1 = x → s + (l.head hne).2 / 2 ≤ t → t ≤ s + equalW x l / 2 →
    vLoop t (s + (l.head hne).2 / 2) l = x
  | [], _, hne, _, _, _, _, _ => absurd rfl hne
  | [c], s, _, _, _, h1, _, _ => h1
  | c :: n :: rest, s, _, hs, hw, h1, h2, h3 => by
    simp only [List.head_cons] at h1 h2 ⊢
    have hcn : c.1 ≤ n.1 := (List.pairwise_cons.1 hs).1 n (by simp)
    have hc := hw c (by simp)
    have hn := hw n (by simp)
    have hc1 : 1 ≤ c.2 := by rcases hc with h | h <;> linarith
    have hn1 : 1 ≤ n.2 := by rcases hn with h | h <;> linarith
    unfold vLoop
    by_cases hnx : n.1 = x
    · split
      · have := vpick_mem (t := t) (cw := s + c.2 / 2) hcn
        rw [h1, hnx] at this
        exact le_antisymm this.2 this.1
      · rename_i h4
        have ih := vLoop_run x t (n :: rest) (s + c.2) (by simp) (List.pairwise_cons.1 hs).2
          (fun p hp => hw p (List.mem_cons_of_mem _ hp)) hnx
        simp only [List.head_cons] at ih
        have e : s + c.2 / 2 + (c.2 + n.2) / 2 = s + c.2 + n.2 / 2 := by ring
        rw [e] at h4 ⊢
        apply ih (not_lt.1 h4)
        have : equalW x (c :: n :: rest) = c.2 + equalW x (n :: rest) := by
          conv => lhs; unfold equalW
          rw [if_pos h1]
        rw [this] at h3
        linarith
    · have : equalW x (c :: n :: rest) = c.2 := by
        unfold equalW
        rw [if_pos h1]
        unfold equalW
        rw [if_neg hnx, add_zero]
      rw [this] at h3
      have ht : t = s + c.2 / 2 := le_antisymm h3 h2
      rw [if_pos (by rw [ht]; linarith), ← h1]
      unfold vpick
      by_cases hu : c.2 = 1
      · rw [if_pos ⟨hu, by rw [ht]; norm_num⟩]
      · have hc2 : 2 ≤ c.2 := hc.resolve_left hu
        rw [if_neg (fun h => hu h.1), if_neg (fun h => by have := h.2; rw [ht] at this; linarith), min_eq_left hcn]
        refine max_eq_left ((min_le_left _ _).trans ?_)
        have hd : 0 < s + c.2 / 2 + (c.2 + n.2) / 2 - t - 1 / 2 + (t - (s + c.2 / 2) - 1 / 2) := by linarith
        rw [div_le_iff₀ hd, ht]
        nlinarith

/-- The weight below `x` is at least the position of the first mean, except at a first mean of weight 1. -/
theorem trip_wbelow_ge (x : K) : ∀ (l : List (K × K)) (s : K) (hne : l ≠ []), l.Pairwise (fun p q => p.1 ≤ q.1) →
    (∀ p ∈ l, p.2 = 1 ∨ 2 ≤ p.2) → (l.head hne).1 ≤ x → x ≤ (l.getLast hne).1 →
    ((l.head hne).2 = 1 ∧ x = (l.head hne).1 ∧ wbelow x s l = s) ∨
      s + (l.head hne).2 / 2 ≤ wbelow x s l ∧ s + 1 ≤ wbelow x s l
  | [], _, hne, _, _, _, _ => absurd rfl hne
  | [c], s, _, _, hw, h1, h2 => by
    simp only [List.head_cons, List.getLast_singleton] at h1 h2 ⊢
    unfold wbelow
    by_cases hu : c.2 = 1
    · left; rw [if_pos hu]; exact ⟨hu, le_antisymm h2 h1, rfl⟩
    · right
      have := (hw c (by simp)).resolve_left hu
      rw [if_neg hu]
      constructor <;> linarith
  | c :: n :: rest, s, _, hs, hw, h1, h2 => by
    simp only [List.head_cons] at h1 ⊢
    have hc := hw c (by simp)
    have hn := hw n (by simp)
    have hc1 : 1 ≤ c.2 := by rcases hc with h | h <;> linarith
    have hn1 : 1 ≤ n.2 := by rcases hn with h | h <;> linarith
    have hw1 : ∀ p ∈ c :: n :: rest, 1 ≤ p.2 := fun p hp => by rcases hw p hp with h | h <;> linarith
    have hE := trip_equalW_nonneg x (n :: rest) (fun p hp => hw1 p (List.mem_cons_of_mem _ hp))
    unfold wbelow
    by_cases hcx : c.1 = x
    · have e : equalW x (c :: n :: rest) = c.2 + equalW x (n :: rest) := by
        conv => lhs; unfold equalW
        rw [if_pos hcx]
      rw [if_pos hcx]
      by_cases hu : c.2 = equalW x (c :: n :: rest) ∧ equalW x (c :: n :: rest) = 1
      · left; rw [if_pos hu]; exact ⟨hu.1.trans hu.2, hcx.symm, rfl⟩
      · right
        rw [if_neg hu]
        have h2E : 2 ≤ equalW x (c :: n :: rest) := by
          by_cases hnx : n.1 = x
          · have e2 : equalW x (n :: rest) = n.2 + equalW x rest := by
              conv => lhs; unfold equalW
              rw [if_pos hnx]
            have := trip_equalW_nonneg x rest (fun p hp => hw1 p (by simp [hp]))
            rw [e, e2]; linarith
          · have e2 : equalW x (n :: rest) = 0 := by
              unfold equalW
              rw [if_neg hnx]
            rw [e2, add_zero] at e
            rw [e] at hu ⊢
            exact hc.resolve_left (fun h => hu ⟨rfl, h⟩)
        rw [e] at h2E ⊢
        constructor <;> linarith
    · rw [if_neg hcx]
      right
      split
      · rename_i h3
        have hcn : c.1 < n.1 := h3.1.trans_lt h3.2
        have hth : 0 ≤ (x - c.1) / (n.1 - c.1) := div_nonneg (by linarith) (by linarith)
        unfold btw exl exr
        by_cases hu : c.2 = 1
        · by_cases hv : n.2 = 1
          · rw [if_pos ⟨hu, hv⟩]; constructor <;> linarith
          · have hn2 := hn.resolve_left hv
            rw [if_neg (fun h => hv h.2), if_pos hu, if_pos hu, mul_div_assoc]
            have := mul_nonneg (show 0 ≤ (c.2 + n.2) / 2 - 1 / 2 - 0 by linarith) hth
            constructor <;> linarith
        · have hc2 := hc.resolve_left hu
          rw [if_neg (fun h => hu h.1), if_neg hu, if_neg hu, mul_div_assoc]
          have := mul_nonneg (show 0 ≤ (c.2 + n.2) / 2 - 0 - (if n.2 = 1 then 1 / 2 else 0) by split <;> linarith) hth
          constructor <;> linarith
      · rename_i h3
        have hnx : n.1 ≤ x := not_lt.1 (fun h => h3 ⟨h1, h⟩)
        rcases trip_wbelow_ge x (n :: rest) (s + c.2) (by simp) (List.pairwise_cons.1 hs).2
          (fun p hp => hw p (List.mem_cons_of_mem _ hp)) hnx (by simpa using h2) with ⟨-, -, h4⟩ | ⟨h4, h5⟩
        · rw [h4]; constructor <;> linarith
        · constructor <;> linarith

theorem last_le_wt : ∀ (n : K × K) (rest : List (K × K)), (∀ p ∈ n :: rest, 1 ≤ p.2) →
    ((n :: rest).getLast (by simp)).2 ≤ wt (n :: rest)
  | n, [], _ => by simp
  | n, m :: rest, h => by
    rw [List.getLast_cons (by simp), wt_cons]
    have := last_le_wt m rest (fun p hp => h p (List.mem_cons_of_mem _ hp))
    have := h n (by simp)
    linarith

/-- The weight below `x` leaves room above, except at a last mean of weight more than 1. -/
theorem trip_wbelow_le (x : K) : ∀ (l : List (K × K)) (s : K) (hne : l ≠ []), l.Pairwise (fun p q => p.1 ≤ q.1) →
    (∀ p ∈ l, p.2 = 1 ∨ 2 ≤ p.2) → (l.head hne).1 ≤ x → x ≤ (l.getLast hne).1 →
    (x = (l.getLast hne).1 ∧ wbelow x s l = s + wt l - 1 / 2) ∨
      wbelow x s l ≤ s + wt l - 1 ∧ ((l.getLast hne).2 ≠ 1 → wbelow x s l < s + wt l - (l.getLast hne).2 / 2)
  | [], _, hne, _, _, _, _ => absurd rfl hne
  | [c], s, _, _, hw, h1, h2 => by
    simp only [List.head_cons, List.getLast_singleton] at h1 h2 ⊢
    unfold wbelow
    by_cases hu : c.2 = 1
    · right; rw [if_pos hu, wt_cons, wt_nil]; exact ⟨by linarith, fun h => absurd hu h⟩
    · left
      rw [if_neg hu, wt_cons, wt_nil, add_zero]
      exact ⟨le_antisymm h2 h1, rfl⟩
  | c :: n :: rest, s, _, hs, hw, h1, h2 => by
    rw [List.getLast_cons (by simp)] at h2 ⊢
    simp only [List.head_cons] at h1
    have hc := hw c (by simp)
    have hn := hw n (by simp)
    have hc1 : 1 ≤ c.2 := by rcases hc with h | h <;> linarith
    have hn1 : 1 ≤ n.2 := by rcases hn with h | h <;> linarith
    have hw1 : ∀ p ∈ c :: n :: rest, 1 ≤ p.2 := fun p hp => by rcases hw p hp with h | h <;> linarith
    have hw2 : ∀ p ∈ n :: rest, 1 ≤ p.2 := fun p hp => hw1 p (List.mem_cons_of_mem _ hp)
    -- the last weight is part of the weight after `c`
    have hlast := last_le_wt n rest hw2
    have hl1 : 1 ≤ ((n :: rest).getLast (by simp)).2 := hw2 _ (List.getLast_mem _)
    unfold wbelow
    by_cases hcx : c.1 = x
    · right
      have e : equalW x (c :: n :: rest) = c.2 + equalW x (n :: rest) := by
        conv => lhs; unfold equalW
        rw [if_pos hcx]
      have hE := trip_equalW_le_wt x (n :: rest) hw2
      rw [if_pos hcx]
      split
      · rename_i hu
        have : c.2 = 1 := hu.1.trans hu.2
        rw [wt_cons]
        exact ⟨by linarith, fun _ => by linarith⟩
      · rw [e, wt_cons]
        refine ⟨by linarith, fun _ => by linarith⟩
    · rw [if_neg hcx]
      split
      · rename_i h3
        right
        have hcn : c.1 < n.1 := h3.1.trans_lt h3.2
        have hth : 0 ≤ (x - c.1) / (n.1 - c.1) := div_nonneg (by linarith) (by linarith)
        have hth1 : (x - c.1) / (n.1 - c.1) < 1 := by rw [div_lt_one (by linarith)]; linarith [h3.2]
        -- the rest after `n` holds the last weight or `n` is the last
        have hrest : rest = [] ∨ ((n :: rest).getLast (by simp)).2 + n.2 ≤ wt (n :: rest) := by
          rcases rest with _ | ⟨m, rest⟩
          · exact Or.inl rfl
          · right
            rw [List.getLast_cons (by simp), wt_cons]
            have := last_le_wt m rest (fun p hp => hw2 p (List.mem_cons_of_mem _ hp))
            linarith
        have hwn : n.2 ≤ wt (n :: rest) := by
          rw [wt_cons]
          have := length_le_wt (fun p hp => hw2 p (List.mem_cons_of_mem _ hp) : ∀ p ∈ rest, 1 ≤ p.2)
          have : (0 : K) ≤ rest.length := Nat.cast_nonneg _
          linarith
        have key : btw x s c n ≤ s + c.2 + n.2 - 1 ∧ (n.2 ≠ 1 → btw x s c n < s + c.2 + n.2 / 2) ∧
            btw x s c n ≤ s + c.2 + n.2 / 2 := by
          unfold btw exl exr
          by_cases hu : c.2 = 1
          · by_cases hv : n.2 = 1
            · rw [if_pos ⟨hu, hv⟩]; exact ⟨by linarith, fun h => absurd hv h, by linarith⟩
            · have hn2 := hn.resolve_left hv
              rw [if_neg (fun h => hv h.2), if_pos hu, if_pos hu, mul_div_assoc]
              have := mul_lt_mul_of_pos_left hth1 (show 0 < (c.2 + n.2) / 2 - 1 / 2 - 0 by linarith)
              exact ⟨by linarith, fun _ => by linarith, by linarith⟩
          · have hc2 := hc.resolve_left hu
            rw [if_neg (fun h => hu h.1), if_neg hu, if_neg hu, mul_div_assoc]
            by_cases hv : n.2 = 1
            · rw [if_pos hv]
              have := mul_lt_mul_of_pos_left hth1 (show 0 < (c.2 + n.2) / 2 - 0 - 1 / 2 by linarith)
              exact ⟨by linarith, fun h => absurd hv h, by linarith⟩
            · have hn2 := hn.resolve_left hv
              rw [if_neg hv]
              have := mul_lt_mul_of_pos_left hth1 (show 0 < (c.2 + n.2) / 2 - 0 - 0 by linarith)
              exact ⟨by linarith, fun _ => by linarith, by linarith⟩
        rw [wt_cons]
        refine ⟨by linarith [key.1], fun hne => ?_⟩
        rcases hrest with rfl | hr
        · simp only [List.getLast_singleton, wt_cons, wt_nil] at hne ⊢
          linarith [key.2.1 hne]
        · linarith [key.2.2]
      · rename_i h3
        have hnx : n.1 ≤ x := not_lt.1 (fun h => h3 ⟨h1, h⟩)
        have ih := trip_wbelow_le x (n :: rest) (s + c.2) (by simp) (List.pairwise_cons.1 hs).2
          (fun p hp => hw p (List.mem_cons_of_mem _ hp)) hnx h2
        rw [wt_cons, ← add_assoc]
        exact ih

/-- The value at the weight below `x` is between the means next to `x`; it is `x` when `x` is a mean. -/
theorem vLoop_wbelow (x : K) : ∀ (l : List (K × K)) (s : K) (hne : l ≠ []), l.Pairwise (fun p q => p.1 ≤ q.1) →
    (∀ p ∈ l, p.2 = 1 ∨ 2 ≤ p.2) → (l.head hne).1 ≤ x → x ≤ (l.getLast hne).1 →
    SameGap l x (vLoop (wbelow x s l) (s + (l.head hne).2 / 2) l) ∧
      ((∃ p ∈ l, p.1 = x) → vLoop (wbelow x s l) (s + (l.head hne).2 / 2) l = x)
  | [], _, hne, _, _, _, _ => absurd rfl hne
  | [c], s, _, _, hw, h1, h2 => by
    simp only [List.head_cons, List.getLast_singleton] at h1 h2 ⊢
    have hx : c.1 = x := le_antisymm h1 h2
    unfold vLoop
    refine ⟨?_, fun _ => hx⟩
    rw [hx]
    exact fun p _ => ⟨fun h => lt_asymm h.1 h.2, fun h => lt_asymm h.1 h.2⟩
  | c :: n :: rest, s, hne, hs, hw, h1, h2 => by
    have hcn : c.1 ≤ n.1 := (List.pairwise_cons.1 hs).1 n (by simp)
    have hnr := List.pairwise_cons.1 (List.pairwise_cons.1 hs).2
    have hc := hw c (by simp)
    have hn := hw n (by simp)
    have hc1 : 1 ≤ c.2 := by rcases hc with h | h <;> linarith
    have hn1 : 1 ≤ n.2 := by rcases hn with h | h <;> linarith
    have refl : ∀ l : List (K × K), SameGap l x x := fun l p _ => ⟨fun h => lt_asymm h.1 h.2, fun h => lt_asymm h.1 h.2⟩
    by_cases hcx : c.1 = x
    · -- a run of means `x`
      have hv : vLoop (wbelow x s (c :: n :: rest)) (s + c.2 / 2) (c :: n :: rest) = x := by
        by_cases hu : c.2 = equalW x (c :: n :: rest) ∧ equalW x (c :: n :: rest) = 1
        · have e : wbelow x s (c :: n :: rest) = s := by
            unfold wbelow
            rw [if_pos hcx, if_pos hu]
          have h1' : c.2 = 1 := hu.1.trans hu.2
          rw [e]
          unfold vLoop
          rw [if_pos (by linarith)]
          unfold vpick
          rw [if_pos ⟨h1', by linarith⟩, hcx]
        · have e : wbelow x s (c :: n :: rest) = s + equalW x (c :: n :: rest) / 2 := by
            conv => lhs; unfold wbelow
            rw [if_pos hcx, if_neg hu]
          rw [e]
          refine vLoop_run x _ (c :: n :: rest) s hne hs hw hcx ?_ le_rfl
          have : equalW x (c :: n :: rest) = c.2 + equalW x (n :: rest) := by
            conv => lhs; unfold equalW
            rw [if_pos hcx]
          have h0 := trip_equalW_nonneg x (n :: rest) (fun p hp => by
            rcases hw p (List.mem_cons_of_mem _ hp) with h | h <;> linarith)
          rw [this]
          simp only [List.head_cons]
          linarith
      simp only [List.head_cons]
      rw [hv]
      exact ⟨refl _, fun _ => rfl⟩
    · have hlt : c.1 < x := lt_of_le_of_ne h1 hcx
      by_cases hxn : x < n.1
      · -- between two means
        have e : wbelow x s (c :: n :: rest) = btw x s c n := by
          unfold wbelow
          rw [if_neg hcx, if_pos ⟨h1, hxn⟩]
        have hcn' : c.1 < n.1 := hlt.trans hxn
        have hth1 : (x - c.1) / (n.1 - c.1) < 1 := by rw [div_lt_one (by linarith)]; linarith
        have hb : btw x s c n < s + c.2 / 2 + (c.2 + n.2) / 2 := by
          unfold btw exl exr
          by_cases hu : c.2 = 1
          · by_cases hv : n.2 = 1
            · rw [if_pos ⟨hu, hv⟩]; linarith
            · have hn2 := hn.resolve_left hv
              rw [if_neg (fun h => hv h.2), if_pos hu, if_pos hu, mul_div_assoc]
              have := mul_lt_mul_of_pos_left hth1 (show 0 < (c.2 + n.2) / 2 - 1 / 2 - 0 by linarith)
              linarith
          · have hc2 := hc.resolve_left hu
            rw [if_neg (fun h => hu h.1), if_neg hu, if_neg hu, mul_div_assoc]
            by_cases hv : n.2 = 1
            · rw [if_pos hv]
              have := mul_lt_mul_of_pos_left hth1 (show 0 < (c.2 + n.2) / 2 - 0 - 1 / 2 by linarith)
              linarith
            · rw [if_neg hv]
              have := mul_lt_mul_of_pos_left hth1 (show 0 < (c.2 + n.2) / 2 - 0 - 0 by linarith)
              linarith
        rw [e]
        simp only [List.head_cons]
        unfold vLoop
        rw [if_pos hb]
        obtain ⟨v1, v2⟩ := vpick_mem (t := btw x s c n) (cw := s + c.2 / 2) hcn
        refine ⟨?_, ?_⟩
        · intro p hp
          rcases List.mem_cons.1 hp with rfl | hp
          · exact ⟨fun h => by linarith [h.1], fun h => by linarith [h.1]⟩
          · have hnp : n.1 ≤ p.1 := by
              rcases List.mem_cons.1 hp with rfl | hp
              · exact le_rfl
              · exact hnr.1 p hp
            exact ⟨fun h => by linarith [h.2], fun h => by linarith [h.2]⟩
        · rintro ⟨p, hp, rfl⟩
          rcases List.mem_cons.1 hp with rfl | hp
          · exact absurd rfl hcx
          · have hnp : n.1 ≤ p.1 := by
              rcases List.mem_cons.1 hp with rfl | hp
              · exact le_rfl
              · exact hnr.1 p hp
            exact absurd hxn (not_lt.2 hnp)
      · -- further right
        have hnx : n.1 ≤ x := not_lt.1 hxn
        have e : wbelow x s (c :: n :: rest) = wbelow x (s + c.2) (n :: rest) := by
          conv => lhs; unfold wbelow
          rw [if_neg hcx, if_neg (fun h => hxn h.2)]
        have hl : x ≤ ((n :: rest).getLast (by simp)).1 := by simpa using h2
        have hw' : ∀ p ∈ n :: rest, p.2 = 1 ∨ 2 ≤ p.2 := fun p hp => hw p (List.mem_cons_of_mem _ hp)
        obtain ⟨i1, i2⟩ := vLoop_wbelow x (n :: rest) (s + c.2) (by simp) (List.pairwise_cons.1 hs).2 hw' hnx hl
        have hge := trip_wbelow_ge x (n :: rest) (s + c.2) (by simp) (List.pairwise_cons.1 hs).2 hw' hnx hl
        simp only [List.head_cons] at i1 i2 hge ⊢
        have ew : s + c.2 / 2 + (c.2 + n.2) / 2 = s + c.2 + n.2 / 2 := by ring
        rw [e]
        generalize ht : wbelow x (s + c.2) (n :: rest) = t at i1 i2 hge ⊢
        rcases hge with ⟨g1, g2, g3⟩ | ⟨g1, g2⟩
        · -- `x` is the mean of weight 1 at the right
          have hv : vLoop t (s + c.2 / 2) (c :: n :: rest) = x := by
            unfold vLoop
            rw [ew, if_pos (by rw [g3]; linarith)]
            unfold vpick
            rw [if_neg (fun h => by have := h.2; rw [g3, h.1] at this; linarith),
              if_pos ⟨g1, by rw [g3, g1]; linarith⟩, g2]
          rw [hv]
          exact ⟨refl _, fun _ => rfl⟩
        · have hv : vLoop t (s + c.2 / 2) (c :: n :: rest) = vLoop t (s + c.2 + n.2 / 2) (n :: rest) := by
            conv => lhs; unfold vLoop
            rw [ew, if_neg (by linarith)]
          rw [hv]
          have hm := (vLoop_mem t (n :: rest) (s + c.2 + n.2 / 2) (by simp) (List.pairwise_cons.1 hs).2).1
          simp only [List.head_cons] at hm
          refine ⟨?_, ?_⟩
          · intro p hp
            rcases List.mem_cons.1 hp with rfl | hp
            · exact ⟨fun h => by linarith [h.1], fun h => by linarith [h.1]⟩
            · exact i1 p hp
          · rintro ⟨p, hp, hpx⟩
            rcases List.mem_cons.1 hp with rfl | hp
            · exact absurd hpx hcx
            · exact i2 ⟨p, hp, hpx⟩

theorem head_room {l : List (K × K)} (hne : l ≠ []) (h2 : 2 ≤ l.length) (hw : ∀ p ∈ l, 1 ≤ p.2) : (l.head hne).2 + 1 ≤ wt l := by
  obtain ⟨c, n, rest, rfl⟩ : ∃ c n rest, l = c :: n :: rest := by
    match l, h2 with
    | c :: n :: rest, _ => exact ⟨c, n, rest, rfl⟩
  have h3 := hw n (by simp)
  have h4 := length_le_wt (fun p hp => hw p (by simp [hp]) : ∀ p ∈ rest, 1 ≤ p.2)
  have h5 : (0 : K) ≤ rest.length := Nat.cast_nonneg _
  rw [wt_cons, wt_cons, List.head_cons]
  linarith

theorem wbelow_head {l : List (K × K)} (hne : l ≠ []) (h2 : 2 ≤ l.length) (hw : ∀ p ∈ l, 1 ≤ p.2) {x : K} (hx : (l.head hne).1 = x) :
    wbelow x 0 l ≤ wt l - 1 := by
  have hr := head_room hne h2 hw
  obtain ⟨c, n, rest, rfl⟩ : ∃ c n rest, l = c :: n :: rest := by
    match l, h2 with
    | c :: n :: rest, _ => exact ⟨c, n, rest, rfl⟩
  have hE := trip_equalW_le_wt x (c :: n :: rest) hw
  have hc := hw c (by simp)
  simp only [List.head_cons] at hx hr
  unfold wbelow
  rw [if_pos hx]
  split
  · linarith
  · linarith

section
variable [FloorRing K]

/-- The value query at the estimated quantile of `x`, for `x` not in the right tail. -/
theorem estV_estQ {l : List (K × K)} {a b : K} (hne : l ≠ []) (h2 : 2 ≤ l.length) (hs : l.Pairwise (fun p q => p.1 ≤ q.1))
    (hw : ∀ p ∈ l, p.2 = 1 ∨ 2 ≤ p.2) (hlo : ∀ p ∈ l, a ≤ p.1) (hhi : ∀ p ∈ l, p.1 ≤ b) (x : K)
    (hx : x ≤ (l.getLast hne).1 ∨ b ≤ x) :
    ∃ v, estV l hne a b (wt l * estQ l hne a b x) = .fin v ∧ a ≤ v ∧ v ≤ b ∧ SameGap l x v ∧
      (x = a → v = x) ∧ (x = b → (l.head hne).1 < b → v = x) ∧
      (a < x → x < (l.head hne).1 → 2 < (l.head hne).2 → v = x) ∧
      ((l.head hne).1 ≤ x → (∃ p ∈ l, p.1 = x) → ((l.head hne).2 = 1 → (l.head hne).1 < x) → x < (l.getLast hne).1 → v = x) := by
  have hw1 : ∀ p ∈ l, 1 ≤ p.2 := fun p hp => by rcases hw p hp with h | h <;> linarith
  have hpos : 0 < wt l := by
    have := length_le_wt hw1
    have : (2 : K) ≤ l.length := by exact_mod_cast h2
    linarith
  have hWn : (2 : K) ≤ wt l := by
    have := length_le_wt hw1
    have : (2 : K) ≤ l.length := by exact_mod_cast h2
    linarith
  have hhm := List.head_mem hne
  have hlm := List.getLast_mem hne
  have hha := hlo _ hhm
  have hlb := hhi _ hlm
  have hhw := hw1 _ hhm
  have hlw := hw1 _ hlm
  have hhl : ∀ p ∈ l, (l.head hne).1 ≤ p.1 := by
    intro p hp
    obtain ⟨c, rest, rfl⟩ : ∃ c rest, l = c :: rest := by
      match l, hne with
      | c :: rest, _ => exact ⟨c, rest, rfl⟩
    rcases List.mem_cons.1 hp with rfl | hp
    · exact le_rfl
    · exact (List.pairwise_cons.1 hs).1 p hp
  have hab : a ≤ b := hha.trans (hhi _ hhm)
  by_cases x1 : x < a
  · refine ⟨a, ?_, le_rfl, hab, ?_, fun h => absurd h x1.ne, fun h => by rw [h] at x1; exact absurd x1 (not_lt.2 hab),
      fun h => absurd h (not_lt.2 x1.le), fun h => absurd x1 (not_lt.2 (hha.trans h))⟩
    · unfold estQ estV
      rw [if_pos x1, mul_zero, if_pos one_pos]
    · intro p hp
      have := hlo p hp
      exact ⟨fun h => by linarith [h.2], fun h => by linarith [h.2]⟩
  by_cases x2 : b < x
  · refine ⟨b, ?_, hab, le_rfl, ?_, fun h => absurd x2 (by rw [h]; exact not_lt.2 hab), fun h => absurd x2 (by rw [h]; exact lt_irrefl _),
      fun _ h => absurd x2 (not_lt.2 (h.le.trans (hhi _ hhm))), fun _ _ _ h => absurd x2 (not_lt.2 (h.le.trans hlb))⟩
    · have hb : estQ l hne a b x = 1 := by unfold estQ; rw [if_neg x1, if_pos x2]
      rw [hb, mul_one]
      unfold estV
      rw [if_neg (by linarith), if_neg (fun h => by linarith [head_room hne h2 hw1]), if_pos (by linarith)]
    · intro p hp
      have := hhi p hp
      exact ⟨fun h => by linarith [h.1], fun h => by linarith [h.1]⟩
  by_cases x3 : x < (l.head hne).1
  · have xl : ¬ b ≤ x := fun h => absurd x3 (not_lt.2 ((hhi _ hhm).trans h))
    have gap : ∀ v, v ≤ (l.head hne).1 → SameGap l x v := fun v hv p hp => by
      have := hhl p hp
      exact ⟨fun h => by linarith [h.2], fun h => by linarith [h.2]⟩
    by_cases x4 : x = a
    · refine ⟨a, ?_, le_rfl, hab, gap a hha, fun _ => x4.symm, fun h => absurd h.ge xl, fun h => absurd x4 h.ne',
        fun h => absurd x3 (not_lt.2 h)⟩
      have : wt l * estQ l hne a b x = 1 / 2 := by
        unfold estQ
        rw [if_neg x1, if_neg x2, if_pos x3, if_pos x4]
        field_simp
      rw [this]
      unfold estV
      rw [if_pos (by norm_num)]
    · have hax : a < x := lt_of_le_of_ne (not_lt.1 x1) (Ne.symm x4)
      have hd : 0 < (l.head hne).1 - a := by linarith
      have et : wt l * estQ l hne a b x = 1 + (x - a) / ((l.head hne).1 - a) * ((l.head hne).2 / 2 - 1) := by
        unfold estQ
        rw [if_neg x1, if_neg x2, if_pos x3, if_neg x4]
        field_simp
      have hth : 0 < (x - a) / ((l.head hne).1 - a) := div_pos (by linarith) hd
      have hth1 : (x - a) / ((l.head hne).1 - a) < 1 := by rw [div_lt_one hd]; linarith
      rw [et]
      rcases hw _ hhm with u | u
      · refine ⟨a, ?_, le_rfl, hab, gap a hha, fun h => absurd h x4, fun h => absurd h.ge xl, fun _ _ h => by rw [u] at h; norm_num at h,
          fun h => absurd x3 (not_lt.2 h)⟩
        unfold estV
        rw [if_pos]
        rw [u]
        linarith
      · rcases u.lt_or_eq with u | u
        · have hp : 0 < (l.head hne).2 / 2 - 1 := by linarith
          refine ⟨x, ?_, hax.le, not_lt.1 x2, gap x x3.le, fun h => h.symm ▸ rfl, fun h => absurd h.ge xl, fun _ _ _ => rfl, fun h => absurd x3 (not_lt.2 h)⟩
          unfold estV
          have := mul_pos hth hp
          have := mul_lt_mul_of_pos_right hth1 hp
          rw [if_neg (by linarith), if_pos ⟨by linarith, by linarith⟩]
          congr 1
          have e1 : ((l.head hne).1 - a) ≠ 0 := hd.ne'
          have e2 : ((l.head hne).2 / 2 - 1) ≠ 0 := hp.ne'
          rw [add_sub_cancel_left, mul_div_assoc, div_self e2, mul_one, div_mul_cancel₀ _ e1]
          ring
        · -- a first centroid of weight 2: the value is its mean, or the maximum when there is no room
          rw [← u, show (2 : K) / 2 - 1 = 0 by norm_num, mul_zero, add_zero]
          have hW3 : 3 ≤ wt l := by
            obtain ⟨c, n, rest, rfl⟩ : ∃ c n rest, l = c :: n :: rest := by
              match l, h2 with
              | c :: n :: rest, _ => exact ⟨c, n, rest, rfl⟩
            simp only [List.head_cons] at u
            have h3 := hw1 n (by simp)
            have h4 := length_le_wt (fun p hp => hw1 p (by simp [hp]) : ∀ p ∈ rest, 1 ≤ p.2)
            have h5 : (0 : K) ≤ rest.length := Nat.cast_nonneg _
            rw [wt_cons, wt_cons]
            linarith
          refine ⟨(l.head hne).1, ?_, hha, hhi _ hhm, gap _ le_rfl, fun h => absurd h x4, fun h => absurd h.ge xl, fun _ _ h => absurd h (lt_irrefl _),
            fun h => absurd x3 (not_lt.2 h)⟩
          unfold estV
          rw [if_neg (lt_irrefl _), ← u, if_neg (fun h => by norm_num at h), if_neg (by linarith)]
          obtain ⟨c, n, rest, rfl⟩ : ∃ c n rest, l = c :: n :: rest := by
            match l, h2 with
            | c :: n :: rest, _ => exact ⟨c, n, rest, rfl⟩
          simp only [List.head_cons] at u ⊢
          have hl := last_le_wt n rest (fun p hp => hw1 p (List.mem_cons_of_mem _ hp))
          rw [if_neg (fun h => by
            have h3 := h.2
            rw [List.getLast_cons (by simp), wt_cons] at h3
            rw [List.getLast_cons (by simp)] at h
            linarith [h.1])]
          congr 1
          have hr := vLoop_run c.1 1 (c :: n :: rest) 0 (by simp) hs hw rfl (by simp only [List.head_cons]; rw [← u]; norm_num) (by
            unfold equalW
            rw [if_pos rfl]
            have := trip_equalW_nonneg c.1 (n :: rest) (fun p hp => hw1 p (List.mem_cons_of_mem _ hp))
            linarith)
          simp only [List.head_cons, zero_add, ← u] at hr
          exact hr
  · have x3' := not_lt.1 x3
    by_cases x5 : (l.getLast hne).1 < x
    · have hb : x = b := le_antisymm (not_lt.1 x2) (hx.resolve_left (not_le.2 x5))
      refine ⟨b, ?_, hab, le_rfl, by rw [hb]; exact fun p _ => ⟨fun h => lt_asymm h.1 h.2, fun h => lt_asymm h.1 h.2⟩,
        fun h => hb.symm, fun _ _ => hb.symm, fun _ _ _ => hb.symm, fun _ _ _ _ => hb.symm⟩
      have : wt l * estQ l hne a b x = wt l - 1 / 2 := by
        unfold estQ
        rw [if_neg x1, if_neg x2, if_neg x3, if_pos x5, if_pos hb, mul_sub, mul_one, mul_div_cancel₀ _ hpos.ne']
      rw [this]
      unfold estV
      rw [if_neg (by linarith), if_neg (fun h => by linarith [head_room hne h2 hw1]), if_pos (by linarith)]
    · have x5' := not_lt.1 x5
      have et : wt l * estQ l hne a b x = wbelow x 0 l := by
        unfold estQ
        rw [if_neg x1, if_neg x2, if_neg x3, if_neg x5, mul_div_cancel₀ _ hpos.ne']
      rw [et]
      have hge := trip_wbelow_ge x l 0 hne hs hw x3' x5'
      have hle := trip_wbelow_le x l 0 hne hs hw x3' x5'
      obtain ⟨g1, g2⟩ := vLoop_wbelow x l 0 hne hs hw x3' x5'
      simp only [zero_add] at hge hle g1 g2
      have hd0 : (l.head hne).1 = x → wbelow x 0 l ≤ wt l - 1 := wbelow_head hne h2 hw1
      generalize wbelow x 0 l = t at hge hle g1 g2 hd0 ⊢
      unfold estV
      by_cases t1 : t < 1
      · rw [if_pos t1]
        rcases hge with ⟨q1, q2, -⟩ | ⟨-, q2⟩
        · refine ⟨a, rfl, le_rfl, hab, ?_, fun h => h.symm, fun h h' => absurd (h.symm.trans q2) h'.ne', fun _ h => absurd h x3, fun _ _ h => absurd q2 (h q1).ne'⟩
          intro p hp
          have := hhl p hp
          exact ⟨fun h => by linarith [h.1, h.2], fun h => by linarith [h.2]⟩
        · exact absurd t1 (not_lt.2 q2)
      rw [if_neg t1]
      have q1 : (l.head hne).2 / 2 ≤ t := by
        rcases hge with ⟨q1, -, q3⟩ | ⟨q2, -⟩
        · rw [q1]; linarith [not_lt.1 t1]
        · exact q2
      rw [if_neg (fun h => by linarith [h.2])]
      rcases hle with ⟨r1, r2⟩ | ⟨r1, r2⟩
      · rw [if_pos (by rw [r2]; linarith)]
        refine ⟨b, rfl, hab, le_rfl, ?_, ?_, fun h _ => h.symm, fun _ h => absurd h x3, fun _ _ _ h => absurd r1 h.ne⟩
        · intro p hp
          have : p.1 ≤ (l.getLast hne).1 := by
            rw [← List.dropLast_append_getLast hne] at hp hs
            rcases List.mem_append.1 hp with hp | hp
            · exact (List.pairwise_append.1 hs).2.2 p hp _ (by simp)
            · rw [List.mem_singleton.1 hp]
          exact ⟨fun h => by linarith [h.1], fun h => by linarith [hhi p ‹_›, h.1, h.2]⟩
        · intro h
          have hxh : (l.head hne).1 = x := le_antisymm x3' (by rw [h]; exact hha)
          linarith [hd0 hxh]
      · rw [if_neg (by linarith)]
        rw [if_neg (fun h => by linarith [r2 h.1.ne', h.2])]
        have hm := vLoop_mem t l ((l.head hne).2 / 2) hne hs
        refine ⟨_, rfl, hha.trans hm.1, hm.2.trans hlb, g1, ?_, ?_, fun _ h => absurd h x3, fun _ h _ _ => g2 h⟩
        · intro h
          refine g2 ⟨_, hhm, le_antisymm x3' ?_⟩
          rw [h]; exact hha
        · intro h _
          exact g2 ⟨_, hlm, le_antisymm (hlb.trans h.ge) x5'⟩

end
end TDigest
end AQ

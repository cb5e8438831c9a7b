/-
From the accuracy of rank estimates to the accuracy of value queries (any sketch made of weighted levels).
-/
import Mathlib.Tactic.Linarith
import Mathlib.Data.Rat.Cast.Order
import Verif.Proofs.RCQuery

set_option linter.unusedSectionVars false
set_option linter.unusedVariables false

namespace AQ
open Spec Prog
variable {K : Type} [Field K] [LinearOrder K] [IsStrictOrderedRing K] [FloatFmt K]

namespace RCValue

theorem exists_least {α : Type} [LinearOrder α] : ∀ {l : List α}, l ≠ [] → ∃ x ∈ l, ∀ y ∈ l, x ≤ y
  | [], h => absurd rfl h
  | [a], _ => ⟨a, by simp, by simp⟩
  | a :: b :: l, _ => by
    obtain ⟨x, hx, hm⟩ := exists_least (l := b :: l) (by simp)
    rcases le_total a x with h | h
    · refine ⟨a, by simp, fun y hy => ?_⟩
      rcases List.mem_cons.1 hy with rfl | hy
      · exact le_refl _
      · exact h.trans (hm y hy)
    · refine ⟨x, by simp [hx], fun y hy => ?_⟩
      rcases List.mem_cons.1 hy with rfl | hy
      · exact h
      · exact hm y hy

theorem exists_greatest {α : Type} [LinearOrder α] {l : List α} (h : l ≠ []) : ∃ x ∈ l, ∀ y ∈ l, y ≤ x :=
  exists_least (α := αᵒᵈ) h

/-- The estimated rank of `x` is that of the largest stored value not above `x`. -/
theorem weightedRank_stored {α : Type} [LinearOrder α] (L : List (List α)) (x : α) :
    weightedRank L x = 0 ∨ ∃ y ∈ L.flatten, y ≤ x ∧ weightedRank L y = weightedRank L x := by
  by_cases h : L.flatten.filter (fun y => y ≤ x) = []
  · left
    rw [List.filter_eq_nil_iff] at h
    have : ∀ L : List (List α), (∀ y ∈ L.flatten, ¬ y ≤ x) → weightedRank L x = 0 := by
      intro L
      induction L with
      | nil => intro _; rfl
      | cons b L ih =>
        intro h
        show rank b x + 2 * weightedRank L x = 0
        rw [ih (fun y hy => h y (by simp [hy])), rank, List.countP_eq_zero.2]
        intro y hy
        simpa using h y (by simp [hy])
    exact this L (fun y hy => by simpa using h y hy)
  · right
    obtain ⟨y, hy, hm⟩ := exists_greatest h
    obtain ⟨h1, h2⟩ := List.mem_filter.1 hy
    have h2 : y ≤ x := by simpa using h2
    refine ⟨y, h1, h2, ?_⟩
    unfold weightedRank
    congr 1
    refine List.map_congr_left (fun b hb => ?_)
    unfold rank
    refine List.countP_congr (fun z hz => ?_)
    simp only [decide_eq_true_eq]
    refine ⟨fun h => h.trans h2, fun h => hm z (List.mem_filter.2 ⟨List.mem_flatten.2 ⟨b, hb, hz⟩, by simpa using h⟩)⟩

/-- What a value query's answer says about the estimated ranks left and right of it. -/
theorem stat_sides {L : List (List (Fl K))} {t : K} {v : Fl K} (h : IsWeightedStat L (.fin t) v) (h0 : 0 ≤ t)
    (h1 : t ≤ (wsum (L.map List.length) : K)) :
    (∀ x, x < v → (weightedRank L x : K) ≤ t) ∧ ∀ x, v ≤ x → t ≤ (weightedRank L x : K) := by
  obtain ⟨hv, hs⟩ := h
  constructor
  · intro x hx
    rcases weightedRank_stored L x with h | ⟨y, hy, hyx, he⟩
    · rw [h]; simpa using h0
    · rw [← he]
      by_contra hc
      push Not at hc
      have hc : (.fin t : Fl K) < .fin (weightedRank L y : K) := Fl.fin_lt_fin.2 hc
      rcases hs with ⟨-, h2⟩ | ⟨h2, -⟩
      · exact absurd (h2 y hy hc) (not_le.2 (lt_of_le_of_lt hyx hx))
      · exact h2 y hy hc
  · intro x hx
    have hm : (weightedRank L v : K) ≤ weightedRank L x := by exact_mod_cast weightedRank_mono L hx
    refine le_trans ?_ hm
    rcases hs with ⟨h2, -⟩ | ⟨-, h2⟩
    · exact (Fl.fin_lt_fin.1 h2).le
    · rwa [weightedRank_top L v (fun b hb y hy => h2 y (List.mem_flatten.2 ⟨b, hb, hy⟩))]

variable {α : Type} [LinearOrder α]

/-- If more than `c` items lie below `v`, then so does a fixed item whose rank exceeds `c`. -/
theorem upper_point (I : List α) (c : K) (hc : 0 ≤ c) :
    (∀ v, (I.countP (fun y => y < v) : K) ≤ c) ∨
    ∃ x ∈ I, c < (rank I x : K) ∧ ∀ v, c < (I.countP (fun y => y < v) : K) → x < v := by
  have pred : ∀ v, I.countP (fun y => y < v) ≠ 0 → ∃ z ∈ I, z < v ∧ rank I z = I.countP (fun y => y < v) := by
    intro v hv
    have hne : I.filter (fun y => y < v) ≠ [] := by
      intro h
      rw [List.countP_eq_length_filter, h] at hv
      exact hv rfl
    obtain ⟨z, hz, hm⟩ := exists_greatest hne
    obtain ⟨hz1, hz2⟩ := List.mem_filter.1 hz
    have hz2 : z < v := by simpa using hz2
    refine ⟨z, hz1, hz2, ?_⟩
    unfold rank
    refine List.countP_congr (fun y hy => ?_)
    simp only [decide_eq_true_eq]
    exact ⟨fun h => lt_of_le_of_lt h hz2, fun h => hm y (List.mem_filter.2 ⟨hy, by simpa using h⟩)⟩
  by_cases hx : (I.filter (fun y => decide (c < (rank I y : K)))) = []
  · left
    intro v
    by_contra h
    push Not at h
    have h0 : I.countP (fun y => y < v) ≠ 0 := by
      intro h0; rw [h0] at h; simp at h; linarith
    obtain ⟨z, hz, -, he⟩ := pred v h0
    rw [List.filter_eq_nil_iff] at hx
    have := hx z hz
    rw [he] at this
    simp at this
    linarith
  · right
    obtain ⟨x, hx1, hm⟩ := exists_least hx
    obtain ⟨hxI, hxr⟩ := List.mem_filter.1 hx1
    refine ⟨x, hxI, by simpa using hxr, fun v hv => ?_⟩
    have h0 : I.countP (fun y => y < v) ≠ 0 := by
      intro h0; rw [h0] at hv; simp at hv; linarith
    obtain ⟨z, hz, hzv, he⟩ := pred v h0
    exact lt_of_le_of_lt (hm z (List.mem_filter.2 ⟨hz, by simpa [he] using hv⟩)) hzv

/-- If an item has rank below `c`, it is not above a fixed item whose rank is below `c`. -/
theorem lower_point (I : List α) (c : K) :
    (∀ v ∈ I, c ≤ (rank I v : K)) ∨
    ∃ x ∈ I, (rank I x : K) < c ∧ ∀ v ∈ I, (rank I v : K) < c → v ≤ x := by
  by_cases hx : (I.filter (fun y => decide ((rank I y : K) < c))) = []
  · left
    intro v hv
    rw [List.filter_eq_nil_iff] at hx
    have := hx v hv
    simpa using this
  · right
    obtain ⟨x, hx1, hm⟩ := exists_greatest hx
    obtain ⟨hxI, hxr⟩ := List.mem_filter.1 hx1
    exact ⟨x, hxI, by simpa using hxr, fun v hv hr => hm v (List.mem_filter.2 ⟨hv, by simpa using hr⟩)⟩

/-- Chebyshev's inequality. -/
theorem chebyshev {β : Type} (p : Prog β) (f : β → ℚ) (v c : ℚ) (hc : 0 < c) (h : exp p (fun b => f b ^ 2) ≤ v) :
    exp p (fun b => if c ≤ |f b| then 1 else 0) ≤ v / c ^ 2 := by
  rw [le_div_iff₀ (by positivity), mul_comm, ← exp_mul_left]
  refine le_trans (exp_mono ((partially_true _).mono (fun b _ => ?_))) h
  split
  · rename_i h1
    rw [← sq_abs (f b), mul_one]
    exact pow_le_pow_left₀ hc.le h1 2
  · rw [mul_zero]; positivity

/-- What a value query's answer says when the stored weight may fall short of the target. -/
theorem stat_sides_short {L : List (List (Fl K))} {t : K} {v : Fl K} (h : IsWeightedStat L (.fin t) v) (h0 : 0 ≤ t) :
    (∀ x, x < v → (weightedRank L x : K) ≤ t) ∧
      ∀ x, v ≤ x → min t (wsum (L.map List.length) : K) ≤ (weightedRank L x : K) := by
  obtain ⟨hv, hs⟩ := h
  constructor
  · intro x hx
    rcases weightedRank_stored L x with h | ⟨y, hy, hyx, he⟩
    · rw [h]; simpa using h0
    · rw [← he]
      by_contra hc
      push Not at hc
      have hc : (.fin t : Fl K) < .fin (weightedRank L y : K) := Fl.fin_lt_fin.2 hc
      rcases hs with ⟨-, h2⟩ | ⟨h2, -⟩
      · exact absurd (h2 y hy hc) (not_le.2 (lt_of_le_of_lt hyx hx))
      · exact h2 y hy hc
  · intro x hx
    have hm : (weightedRank L v : K) ≤ weightedRank L x := by exact_mod_cast weightedRank_mono L hx
    refine le_trans ?_ hm
    rcases hs with ⟨h2, -⟩ | ⟨-, h2⟩
    · exact (min_le_left _ _).trans (Fl.fin_lt_fin.1 h2).le
    · rw [weightedRank_top L v (fun b hb y hy => h2 y (List.mem_flatten.2 ⟨b, hb, hy⟩))]
      exact min_le_right _ _

/-- Two fixed items decide whether the answer of a value query is off: `A x` says the estimated rank of `x` is too low, `B x` that
it is too high. -/
theorem value_events {S : Type} (p : Prog S) (qf : S → Prog α) (I : List α) (A B : α → S → Prop)
    [∀ x s, Decidable (A x s)] [∀ x s, Decidable (B x s)]
    (hs : Partially p (fun s => ∃ v, qf s = .ret v ∧ v ∈ I ∧ (∀ x, x < v → A x s) ∧ ∀ x, v ≤ x → B x s))
    (lo hi : K) (hhi : 0 ≤ hi) (P Q : ℚ) (hP0 : 0 ≤ P) (hQ0 : 0 ≤ Q)
    (hP : ∀ x ∈ I, hi < (rank I x : K) → exp p (fun s => if A x s then 1 else 0) ≤ P)
    (hQ : ∀ x ∈ I, (rank I x : K) < lo → exp p (fun s => if B x s then 1 else 0) ≤ Q) :
    exp (p >>= qf) (fun v =>
      if (I.countP (fun y => y < v) : K) ≤ hi ∧ lo ≤ (rank I v : K) then 0 else 1) ≤ P + Q := by
  rw [exp_bind]
  have bound : ∀ f g : S → ℚ, (∀ s, 0 ≤ f s) → (∀ s, 0 ≤ g s) →
      Partially p (fun s => ∀ v, v ∈ I → (∀ x, x < v → A x s) → (∀ x, v ≤ x → B x s) →
        (hi < (I.countP (fun y => y < v) : K) → 1 ≤ f s) ∧ ((rank I v : K) < lo → 1 ≤ g s)) →
      exp p f ≤ P → exp p g ≤ Q →
      exp p (fun s => exp (qf s) (fun v =>
        if (I.countP (fun y => y < v) : K) ≤ hi ∧ lo ≤ (rank I v : K) then 0 else 1)) ≤ P + Q := by
    intro f g hf hg hfg hfP hgQ
    refine le_trans (exp_mono (g' := fun s => f s + g s) ?_) (by rw [exp_add]; linarith)
    refine (hs.and hfg).mono ?_
    rintro s ⟨⟨v, hv, hvI, hl, hr⟩, h⟩
    obtain ⟨a, b⟩ := h v hvI hl hr
    rw [hv, exp_ret]
    have := hf s; have := hg s
    split
    · linarith
    · rename_i hc
      rw [not_and_or, not_le, not_le] at hc
      rcases hc with hc | hc
      · have := a hc; linarith
      · have := b hc; linarith
  have ind : ∀ (p : Prop) [Decidable p], (0 : ℚ) ≤ if p then 1 else 0 := fun p _ => by split <;> norm_num
  have hz : exp p (fun _ => (0 : ℚ)) = 0 := by
    have := exp_mul_left p 0 (fun _ => 0)
    simpa using this
  rcases upper_point (K := K) I hi hhi with hu | ⟨x, hx, hx1, hx2⟩ <;>
  rcases lower_point (K := K) I lo with hw | ⟨z, hz', hz1, hz2⟩
  · exact bound (fun _ => 0) (fun _ => 0) (fun _ => le_refl _) (fun _ => le_refl _)
      ((partially_true _).mono (fun s _ v hv _ _ => ⟨fun h => absurd (hu v) (not_le.2 h), fun h => absurd (hw v hv) (not_le.2 h)⟩))
      (by rw [hz]; exact hP0) (by rw [hz]; exact hQ0)
  · exact bound (fun _ => 0) (fun s => if B z s then 1 else 0) (fun _ => le_refl _) (fun _ => ind _)
      ((partially_true _).mono (fun s _ v hv hl hr => ⟨fun h => absurd (hu v) (not_le.2 h), fun h => by
        rw [if_pos (hr z (hz2 v hv h))]⟩))
      (by rw [hz]; exact hP0) (hQ z hz' hz1)
  · exact bound (fun s => if A x s then 1 else 0) (fun _ => 0) (fun _ => ind _) (fun _ => le_refl _)
      ((partially_true _).mono (fun s _ v hv hl hr => ⟨fun h => by
        rw [if_pos (hl x (hx2 v h))], fun h => absurd (hw v hv) (not_le.2 h)⟩))
      (hP x hx hx1) (by rw [hz]; exact hQ0)
  · exact bound (fun s => if A x s then 1 else 0)
      (fun s => if B z s then 1 else 0) (fun _ => ind _) (fun _ => ind _)
      ((partially_true _).mono (fun s _ v hv hl hr => ⟨fun h => by
        rw [if_pos (hl x (hx2 v h))], fun h => by rw [if_pos (hr z (hz2 v hv h))]⟩))
      (hP x hx hx1) (hQ z hz' hz1)

end RCValue
end AQ

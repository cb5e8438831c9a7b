/-
Queries on a TDigest: the answer is as exact as the weights of the centroids beside the value asked for or found.
-/
import Verif.Proofs.TDDrift

set_option linter.unusedSectionVars false
set_option linter.unusedVariables false

namespace AQ
open Prog Spec
variable {K : Type} [Field K] [LinearOrder K] [IsStrictOrderedRing K] [FloatFmt K]
namespace TDigest

/-- No mean of `l` is strictly between that of `p` and `x`. -/
def Bes (l : List (K × K)) (x : K) (p : K × K) : Prop := ∀ q ∈ l, ¬ (p.1 < q.1 ∧ q.1 < x) ∧ ¬ (x < q.1 ∧ q.1 < p.1)

theorem last_ge_of_pairwise {l : List (K × K)} (hne : l ≠ []) (hs : l.Pairwise (fun p q => p.1 ≤ q.1)) {p} (hp : p ∈ l) : p.1 ≤ (l.getLast hne).1 := by
  rw [← List.dropLast_append_getLast hne] at hp hs
  rcases List.mem_append.1 hp with hp | hp
  · exact (List.pairwise_append.1 hs).2.2 p hp _ (by simp)
  · rw [List.mem_singleton] at hp; rw [hp]

/-- The interpolated weight is within `H` of the weights below and up to `x`, `H` at least half of every weight. -/
theorem wbelow_beside {x H : K} (hH : 1 / 2 ≤ H) : ∀ (l : List (K × K)) (s : K) (hne : l ≠ []), l.Pairwise (fun p q => p.1 ≤ q.1) →
    (∀ p ∈ l, 0 < p.2) → (∀ p ∈ l, Bes l x p → p.2 / 2 ≤ H) → (l.head hne).1 ≤ x → x ≤ (l.getLast hne).1 →
    s + lw x (l.map toC) ≤ wbelow x s l + H ∧ wbelow x s l ≤ s + uw x (l.map toC) + H
  | [], _, h, _, _, _, _, _ => absurd rfl h
  | [c], s, _, _, hp, hM, h1, h2 => by
    simp only [List.head_cons, List.getLast_singleton] at h1 h2
    have hc1 := hp c (by simp)
    have hc2 := hM c (by simp) (by
      intro q hq
      rw [List.mem_singleton] at hq
      subst hq
      exact ⟨fun h => lt_irrefl _ h.1, fun h => lt_irrefl _ h.2⟩)
    have e1 : lw x ([c].map toC) = 0 := lw_zero (by simpa [toC, Fl.toK] using h2)
    have e2 : uw x ([c].map toC) = c.2 := by
      rw [uw_full (by simpa [toC, Fl.toK] using h1)]
      simp [toC, Fl.toK]
    rw [e1, e2, wbelow]
    split <;> constructor <;> linarith
  | c :: n :: rest, s, _, hs, hp, hM, h1, h2 => by
    simp only [List.head_cons] at h1
    have hc1 := hp c (by simp)
    have hn1 := hp n (by simp)
    have hs' := (List.pairwise_cons.1 hs)
    have hmin : ∀ q ∈ n :: rest, c.1 ≤ q.1 := hs'.1
    have hnmin : ∀ q ∈ n :: rest, n.1 ≤ q.1 := by
      intro q hq
      rcases List.mem_cons.1 hq with rfl | hq
      · exact le_refl _
      · exact (List.pairwise_cons.1 hs'.2).1 q hq
    have eC1 : (toC c).mean.toK = c.1 := rfl
    have eC2 : (toC c).weight.toK = c.2 := rfl
    rw [wbelow]
    by_cases hcx : c.1 = x
    · rw [if_pos hcx]
      have e1 : lw x ((c :: n :: rest).map toC) = 0 := by
        apply lw_zero
        intro d hd
        obtain ⟨q, hq, rfl⟩ := List.mem_map.1 hd
        show x ≤ q.1
        rw [← hcx]
        rcases List.mem_cons.1 hq with rfl | hq
        · exact le_refl _
        · exact hmin q hq
      obtain ⟨h3, h4⟩ := equalW_range (x := x) (l := c :: n :: rest) hp
      rw [e1]
      split <;> constructor <;> linarith
    · rw [if_neg hcx]
      have hlt : c.1 < x := lt_of_le_of_ne h1 hcx
      by_cases hxn : x < n.1
      · have hc2 := hM c (by simp) (by
          intro q hq
          rcases List.mem_cons.1 hq with rfl | hq
          · exact ⟨fun h => lt_irrefl _ h.1, fun h => lt_irrefl _ h.2⟩
          · exact ⟨fun h => absurd (hxn.trans_le (hnmin q hq)) (not_lt.2 h.2.le), fun h => absurd (h.1.trans h.2) (not_lt.2 h1)⟩)
        have hn2 := hM n (by simp) (by
          intro q hq
          rcases List.mem_cons.1 hq with rfl | hq
          · exact ⟨fun h => absurd (hlt.trans hxn) (not_lt.2 h.1.le), fun h => absurd h.1 (not_lt.2 h1)⟩
          · exact ⟨fun h => absurd (h.1.trans h.2) (not_lt.2 hxn.le), fun h => absurd h.2 (not_lt.2 (hnmin q hq))⟩)
        rw [if_pos ⟨h1, hxn⟩]
        have e1 : lw x ((c :: n :: rest).map toC) = c.2 := by
          rw [List.map_cons, lw_cons, eC1, eC2, if_pos hlt, lw_zero, add_zero]
          intro d hd
          obtain ⟨q, hq, rfl⟩ := List.mem_map.1 hd
          exact hxn.le.trans (hnmin q hq)
        have e2 : uw x ((c :: n :: rest).map toC) = c.2 := by
          rw [List.map_cons, uw_cons, eC1, eC2, if_pos h1, uw_zero, add_zero]
          intro d hd
          obtain ⟨q, hq, rfl⟩ := List.mem_map.1 hd
          exact hxn.trans_le (hnmin q hq)
        rw [e1, e2]
        unfold btw
        split
        · rename_i h11
          rw [h11.1]
          constructor <;> linarith
        · have hd : 0 < n.1 - c.1 := by linarith
          have f0 : 0 ≤ (x - c.1) / (n.1 - c.1) := div_nonneg (by linarith) hd.le
          have f1 : (x - c.1) / (n.1 - c.1) ≤ 1 := by rw [div_le_one hd]; linarith
          rw [mul_div_assoc]
          generalize (x - c.1) / (n.1 - c.1) = f at f0 f1
          have hx1 : 0 ≤ exl c n ∧ 0 ≤ exr c n ∧ 0 ≤ (c.2 + n.2) / 2 - exl c n - exr c n := by
            unfold exl exr
            split
            · rename_i h
              rw [h]
              refine ⟨by norm_num, le_refl _, by linarith⟩
            · split
              · rename_i h
                rw [h]
                refine ⟨le_refl _, by norm_num, by linarith⟩
              · exact ⟨le_refl _, le_refl _, by linarith⟩
          obtain ⟨x1, x2, x3⟩ := hx1
          have g1 : 0 ≤ ((c.2 + n.2) / 2 - exl c n - exr c n) * f := mul_nonneg x3 f0
          have g2 : ((c.2 + n.2) / 2 - exl c n - exr c n) * f ≤ (c.2 + n.2) / 2 - exl c n - exr c n := mul_le_of_le_one_right x3 f1
          constructor <;> linarith
      · rw [if_neg (fun h => hxn h.2)]
        have ih := wbelow_beside (x := x) hH (n :: rest) (s + c.2) (by simp) hs'.2 (fun p hp' => hp p (by simp [hp']))
          (fun p hp' hb => hM p (by simp [hp']) (by
            intro q hq
            rcases List.mem_cons.1 hq with rfl | hq
            · exact ⟨fun h => absurd h.1 (not_lt.2 (hmin p hp')), fun h => absurd h.1 (not_lt.2 h1)⟩
            · exact hb q hq)) (not_lt.1 hxn)
          (by simpa using h2)
        rw [List.map_cons (a := c), lw_cons, uw_cons, eC1, eC2, if_pos hlt, if_pos h1]
        constructor <;> linarith [ih.1, ih.2]

/-- The answer of a quantile query, as a weight, is within `H` of the weights of the centroids below and up to `x`. -/
theorem view_quantile_beside [FloatFmt.Exact K] {d : TDigest K} {l : List (K × K)} {a b : K} (hv : View d l a b) {H : K} (hH : 1 ≤ H)
    {x : K} (hM : ∀ p ∈ l, Bes l x p → p.2 / 2 ≤ H) :
    ∃ e, d.estQuantileAtValue (.fin x) = .ret (.fin e) ∧ lw x d.centroids ≤ wt l * e + H ∧ wt l * e ≤ uw x d.centroids + H := by
  have hg : ∀ c ∈ l.map toC, Good c := toC_good hv.pos
  have hW := wt_pos hv.pos hv.ne
  have htw : totalW (l.map toC) = wt l := totalW_toC l
  obtain ⟨l1, l2⟩ := lw_range (x := x) hg
  obtain ⟨u1, u2⟩ := uw_range (x := x) hg
  rw [htw] at l2 u2
  have hlow : x < a → lw x (l.map toC) = 0 := by
    intro h
    apply lw_zero
    intro c hc
    obtain ⟨p, hp, rfl⟩ := List.mem_map.1 hc
    exact h.le.trans (hv.lo p hp)
  have hhigh : b < x → uw x (l.map toC) = wt l := by
    intro h
    rw [uw_full, htw]
    intro c hc
    obtain ⟨p, hp, rfl⟩ := List.mem_map.1 hc
    exact (hv.hi p hp).trans h.le
  by_cases h2 : 2 ≤ l.length
  · refine ⟨_, estQuantile_eq hv h2 x, ?_⟩
    rw [hv.cs]
    unfold estQ
    split
    · rename_i h
      rw [hlow h, mul_zero]
      constructor <;> linarith
    split
    · rename_i _ h
      rw [hhigh h, mul_one]
      constructor <;> linarith
    rename_i hxa hbx
    have hheadm := List.head_mem hv.ne
    have hlastm := List.getLast_mem hv.ne
    split
    · rename_i hx
      have e1 : lw x (l.map toC) = 0 := by
        apply lw_zero
        intro c hc
        obtain ⟨p, hp, rfl⟩ := List.mem_map.1 hc
        show x ≤ p.1
        have : (l.head hv.ne).1 ≤ p.1 := by
          exact head_le_of_pairwise hv.ne hv.sorted hp
        exact hx.le.trans this
      rw [e1]
      split
      · rw [mul_div_cancel₀ _ hW.ne']
        constructor <;> linarith
      · rw [mul_div_cancel₀ _ hW.ne']
        have hd : 0 < (l.head hv.ne).1 - a := by linarith [not_lt.1 hxa]
        have f0 : 0 ≤ (x - a) / ((l.head hv.ne).1 - a) := div_nonneg (by linarith [not_lt.1 hxa]) hd.le
        have f1 : (x - a) / ((l.head hv.ne).1 - a) ≤ 1 := by rw [div_le_one hd]; linarith
        have h3 := hM _ hheadm (by
          intro q hq
          have := head_le_of_pairwise hv.ne hv.sorted hq
          exact ⟨fun h => absurd (h.1.trans h.2) (not_lt.2 hx.le), fun h => absurd h.2 (not_lt.2 this)⟩)
        have h4 := hv.pos _ hheadm
        generalize (x - a) / ((l.head hv.ne).1 - a) = f at f0 f1
        generalize (l.head hv.ne).2 = w at h3 h4
        constructor <;> nlinarith
    split
    · rename_i hx0 hx
      have e1 : uw x (l.map toC) = wt l := by
        rw [uw_full, htw]
        intro c hc
        obtain ⟨p, hp, rfl⟩ := List.mem_map.1 hc
        show p.1 ≤ x
        have : p.1 ≤ (l.getLast hv.ne).1 := by
          have hs := hv.sorted
          rw [← List.dropLast_append_getLast hv.ne] at hp hs
          rcases List.mem_append.1 hp with hp | hp
          · exact (List.pairwise_append.1 hs).2.2 p hp _ (by simp)
          · rw [List.mem_singleton] at hp; rw [hp]
        exact this.trans hx.le
      rw [e1]
      split
      · rw [mul_sub, mul_one, mul_div_cancel₀ _ hW.ne']
        constructor <;> linarith
      · rw [mul_sub, mul_one, mul_div_cancel₀ _ hW.ne']
        have hd : 0 < b - (l.getLast hv.ne).1 := by linarith [not_lt.1 hbx]
        have f0 : 0 ≤ (b - x) / (b - (l.getLast hv.ne).1) := div_nonneg (by linarith [not_lt.1 hbx]) hd.le
        have f1 : (b - x) / (b - (l.getLast hv.ne).1) ≤ 1 := by rw [div_le_one hd]; linarith
        have h3 := hM _ hlastm (by
          intro q hq
          have := last_ge_of_pairwise hv.ne hv.sorted hq
          exact ⟨fun h => absurd h.1 (not_lt.2 this), fun h => absurd (h.1.trans h.2) (not_lt.2 hx.le)⟩)
        have h4 := hv.pos _ hlastm
        generalize (b - x) / (b - (l.getLast hv.ne).1) = f at f0 f1
        generalize (l.getLast hv.ne).2 = w at h3 h4
        constructor <;> nlinarith
    · rename_i hx0 hx1
      rw [mul_div_cancel₀ _ hW.ne']
      have := wbelow_beside (x := x) (H := H) (by linarith) l 0 hv.ne hv.sorted hv.pos hM (not_lt.1 hx0) (not_lt.1 hx1)
      simpa using this
  · obtain ⟨c, rfl⟩ : ∃ c, l = [c] := by
      match l, hv.ne, h2 with
      | [r], _, _ => exact ⟨r, rfl⟩
      | _ :: _ :: _, _, h => simp at h
    refine ⟨_, estQuantile_single hv x, ?_⟩
    rw [hv.cs]
    have h3 := hM c (by simp) (by
      intro q hq
      rw [List.mem_singleton] at hq
      subst hq
      exact ⟨fun h => lt_irrefl _ h.1, fun h => lt_irrefl _ h.2⟩)
    have h4 : wt [c] = c.2 := by simp
    split
    · rename_i h
      rw [hlow h, mul_zero]
      constructor <;> linarith
    · split
      · rename_i _ h
        rw [hhigh h, mul_one]
        constructor <;> linarith
      · constructor <;> linarith

theorem vLoop_beside {t H : K} : ∀ (l : List (K × K)) (s : K) (hne : l ≠ []), l.Pairwise (fun p q => p.1 ≤ q.1) →
    (∀ p ∈ l, 0 < p.2) → (∀ p ∈ l, Bes l (vLoop t (s + (l.head hne).2 / 2) l) p → p.2 / 2 ≤ H) → s + (l.head hne).2 / 2 ≤ t → t < endW (s + (l.head hne).2 / 2) l hne →
    s + lw (vLoop t (s + (l.head hne).2 / 2) l) (l.map toC) ≤ t + H ∧ t ≤ s + uw (vLoop t (s + (l.head hne).2 / 2) l) (l.map toC) + H
  | [], _, hne, _, _, _, _, _ => absurd rfl hne
  | [r], s, _, _, _, _, h1, h2 => by
    exfalso
    simp only [List.head_cons, endW, List.getLast_singleton, wt_cons, wt_nil] at h1 h2
    linarith
  | c :: n :: rest, s, _, hs, hp, hM, h1, h2 => by
    simp only [List.head_cons] at h1 h2 hM ⊢
    have hc1 := hp c (by simp)
    have hn1 := hp n (by simp)
    obtain ⟨hs1, hs2⟩ := List.pairwise_cons.1 hs
    have hcn : c.1 ≤ n.1 := hs1 n (by simp)
    have hg : ∀ d ∈ (n :: rest).map toC, Good d := toC_good (fun p hp' => hp p (by simp [hp']))
    have eC1 : (toC c).mean.toK = c.1 := rfl
    have eC2 : (toC c).weight.toK = c.2 := rfl
    rw [List.map_cons (a := c), lw_cons, uw_cons, eC1, eC2]
    have hnmin : ∀ q ∈ n :: rest, n.1 ≤ q.1 := by
      intro q hq
      rcases List.mem_cons.1 hq with rfl | hq
      · exact le_refl _
      · exact (List.pairwise_cons.1 hs2).1 q hq
    rw [vLoop] at hM ⊢
    by_cases h3 : t < s + c.2 / 2 + (c.2 + n.2) / 2
    · rw [if_pos h3] at hM ⊢
      have hv := vpick_mem (t := t) (cw := s + c.2 / 2) hcn
      generalize vpick t (s + c.2 / 2) c n = v at hv hM
      have hc2 := hM c (by simp) (by
        intro q hq
        rcases List.mem_cons.1 hq with rfl | hq
        · exact ⟨fun h => lt_irrefl _ h.1, fun h => lt_irrefl _ h.2⟩
        · exact ⟨fun h => absurd h.2 (not_lt.2 (hv.2.trans (hnmin q hq))), fun h => absurd h.2 (not_lt.2 (hs1 q hq))⟩)
      have hn2 := hM n (by simp) (by
        intro q hq
        rcases List.mem_cons.1 hq with rfl | hq
        · exact ⟨fun h => absurd h.1 (not_lt.2 hcn), fun h => absurd h.1 (not_lt.2 hv.1)⟩
        · exact ⟨fun h => absurd h.2 (not_lt.2 (hv.2.trans (hnmin q hq))), fun h => absurd h.2 (not_lt.2 (hnmin q hq))⟩)
      rw [lw_zero (x := v) (l := (n :: rest).map toC), if_pos hv.1]
      · have hu := (uw_range (x := v) hg).1
        constructor
        · split <;> linarith
        · linarith
      · intro d hd
        obtain ⟨q, hq, rfl⟩ := List.mem_map.1 hd
        exact hv.2.trans (hnmin q hq)
    · rw [if_neg h3] at hM ⊢
      have e3 : s + c.2 / 2 + (c.2 + n.2) / 2 = (s + c.2) + n.2 / 2 := by ring
      rw [e3] at h3 hM ⊢
      rw [endW_cons, e3] at h2
      have hvm := vLoop_mem t (n :: rest) (s + c.2 + n.2 / 2) (by simp) hs2
      simp only [List.head_cons] at hvm
      have ih := vLoop_beside (t := t) (H := H) (n :: rest) (s + c.2) (by simp) hs2 (fun p hp' => hp p (by simp [hp'])) (by
        intro p hp' hb
        simp only [List.head_cons] at hb
        refine hM p (by simp [hp']) ?_
        intro q hq
        rcases List.mem_cons.1 hq with rfl | hq
        · exact ⟨fun h => absurd h.1 (not_lt.2 (hs1 p hp')), fun h => absurd h.1 (not_lt.2 (hcn.trans hvm.1))⟩
        · exact hb q hq) (by simpa using h3) (by simpa using h2)
      simp only [List.head_cons] at ih
      generalize vLoop t (s + c.2 + n.2 / 2) (n :: rest) = v at ih hvm
      rw [if_pos (hcn.trans hvm.1)]
      constructor
      · split <;> linarith [ih.1]
      · linarith [ih.2]

/-- Outside the defective part of the last centroid the value found for the weight `t` has about `t` of the weight on its left. -/
theorem estV_beside {l : List (K × K)} {a b t : K} (hne : l ≠ []) (hs : l.Pairwise (fun p q => p.1 ≤ q.1)) (hpos : ∀ p ∈ l, 1 ≤ p.2)
    (hlo : ∀ p ∈ l, a ≤ p.1) (hhi : ∀ p ∈ l, p.1 ≤ b) (ht0 : 0 ≤ t) (htn : t ≤ wt l)
    (ht : ¬ InTail l hne t) : ∃ v, estV l hne a b t = .fin v ∧
      ∀ H, 1 ≤ H → (∀ p ∈ l, Bes l v p → p.2 / 2 ≤ H) → lw v (l.map toC) ≤ t + H ∧ t ≤ uw v (l.map toC) + H := by
  have hg : ∀ c ∈ l.map toC, Good c := toC_good (fun p hp => lt_of_lt_of_le one_pos (hpos p hp))
  have htw : totalW (l.map toC) = wt l := totalW_toC l
  have hlow : ∀ v, v ≤ (l.head hne).1 → lw v (l.map toC) = 0 := by
    intro v h
    apply lw_zero
    intro c hc
    obtain ⟨p, hp, rfl⟩ := List.mem_map.1 hc
    exact h.trans (head_le_of_pairwise hne hs hp)
  unfold estV
  unfold InTail at ht
  split
  · refine ⟨a, rfl, fun H hH hM => ?_⟩
    rw [hlow a (hlo _ (List.head_mem hne))]
    have := (uw_range (x := a) hg).1
    constructor <;> linarith
  rename_i h1
  split
  · rename_i h2
    refine ⟨_, rfl, fun H hH hM => ?_⟩
    have lv := left_value (hlo _ (List.head_mem hne)) (not_lt.1 h1) h2.2
    have h3 := hM _ (List.head_mem hne) (by
      intro q hq
      have := head_le_of_pairwise hne hs hq
      exact ⟨fun h => absurd (h.1.trans h.2) (not_lt.2 lv.2), fun h => absurd h.2 (not_lt.2 this)⟩)
    rw [hlow _ lv.2]
    have := (uw_range (x := a + (t - 1) / ((l.head hne).2 / 2 - 1) * ((l.head hne).1 - a)) hg).1
    constructor <;> linarith
  rename_i h2
  split
  · rename_i h3
    refine ⟨b, rfl, fun H hH hM => ?_⟩
    rw [uw_full (x := b), htw]
    · have := (lw_range (x := b) hg).2
      constructor <;> linarith
    · intro c hc
      obtain ⟨p, hp, rfl⟩ := List.mem_map.1 hc
      exact hhi p hp
  rename_i h3
  split
  · rename_i h4
    exact absurd ⟨by linarith [h4.2], not_lt.1 h3⟩ ht
  · rename_i h4
    refine ⟨_, rfl, fun H hH hM => ?_⟩
    have w1 := hpos _ (List.head_mem hne)
    have w2 := hpos _ (List.getLast_mem hne)
    have hc1 : (l.head hne).2 / 2 ≤ t := by
      by_contra hc
      rw [not_le] at hc
      apply h2
      have := not_lt.1 h1
      exact ⟨by linarith, hc⟩
    have hc2 : t < wt l - (l.getLast hne).2 / 2 := by
      by_contra hc
      rw [not_lt] at hc
      apply h4
      have := not_lt.1 h3
      exact ⟨by linarith, by linarith⟩
    have := vLoop_beside (t := t) (H := H) l 0 hne hs (fun p hp => lt_of_lt_of_le one_pos (hpos p hp))
      (fun p hp hb => hM p hp (by rwa [zero_add] at hb)) (by rw [zero_add]; exact hc1)
      (by unfold endW; linarith)
    simpa only [zero_add] using this

end TDigest
end AQ

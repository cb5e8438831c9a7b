/-
How far the weight below a value can move in one merge pass of a TDigest, and how far the quantile query is from the weights of the
centroids.
-/
import Mathlib.Tactic.Linarith
import Mathlib.Tactic.FieldSimp
import Verif.Props.TDigestQuery
import Verif.Props.TDigest
import Verif.Proofs.TDValue2

set_option linter.unusedSectionVars false
set_option linter.unusedVariables false

namespace AQ
open Prog Spec
variable {K : Type} [Field K] [LinearOrder K] [IsStrictOrderedRing K] [FloatFmt K]

namespace TDigest

/-- Weight of the centroids with a mean below `x`. -/
def lw (x : K) (l : List (Centroid K)) : K := (l.map (fun c => if c.mean.toK < x then c.weight.toK else 0)).sum

/-- Weight of the centroids with a mean of at most `x`. -/
def uw (x : K) (l : List (Centroid K)) : K := (l.map (fun c => if c.mean.toK ≤ x then c.weight.toK else 0)).sum

@[simp] theorem lw_nil (x : K) : lw x [] = 0 := rfl
@[simp] theorem uw_nil (x : K) : uw x [] = 0 := rfl
theorem lw_cons (x : K) (c : Centroid K) (l) : lw x (c :: l) = (if c.mean.toK < x then c.weight.toK else 0) + lw x l := rfl
theorem uw_cons (x : K) (c : Centroid K) (l) : uw x (c :: l) = (if c.mean.toK ≤ x then c.weight.toK else 0) + uw x l := rfl
theorem lw_append (x : K) (l m : List (Centroid K)) : lw x (l ++ m) = lw x l + lw x m := by simp [lw]
theorem uw_append (x : K) (l m : List (Centroid K)) : uw x (l ++ m) = uw x l + uw x m := by simp [uw]
theorem lw_perm (x : K) {l m : List (Centroid K)} (h : l.Perm m) : lw x l = lw x m := (h.map _).sum_eq
theorem uw_perm (x : K) {l m : List (Centroid K)} (h : l.Perm m) : uw x l = uw x m := (h.map _).sum_eq

theorem lw_range {x : K} : ∀ {l : List (Centroid K)}, (∀ c ∈ l, Good c) → 0 ≤ lw x l ∧ lw x l ≤ totalW l
  | [], _ => by simp
  | c :: l, h => by
    have h1 := lw_range (x := x) (l := l) (fun d hd => h d (by simp [hd]))
    have h2 := (h c (by simp)).weight_pos
    rw [lw_cons, totalW_cons]
    split <;> constructor <;> linarith

theorem uw_range {x : K} : ∀ {l : List (Centroid K)}, (∀ c ∈ l, Good c) → 0 ≤ uw x l ∧ uw x l ≤ totalW l
  | [], _ => by simp
  | c :: l, h => by
    have h1 := uw_range (x := x) (l := l) (fun d hd => h d (by simp [hd]))
    have h2 := (h c (by simp)).weight_pos
    rw [uw_cons, totalW_cons]
    split <;> constructor <;> linarith

theorem lw_zero {x : K} : ∀ {l : List (Centroid K)}, (∀ c ∈ l, x ≤ c.mean.toK) → lw x l = 0
  | [], _ => rfl
  | c :: l, h => by rw [lw_cons, if_neg (not_lt.2 (h c (by simp))), lw_zero (fun d hd => h d (by simp [hd])), add_zero]

theorem uw_zero {x : K} : ∀ {l : List (Centroid K)}, (∀ c ∈ l, x < c.mean.toK) → uw x l = 0
  | [], _ => rfl
  | c :: l, h => by rw [uw_cons, if_neg (not_le.2 (h c (by simp))), uw_zero (fun d hd => h d (by simp [hd])), add_zero]

theorem lw_full {x : K} : ∀ {l : List (Centroid K)}, (∀ c ∈ l, c.mean.toK < x) → lw x l = totalW l
  | [], _ => rfl
  | c :: l, h => by rw [lw_cons, if_pos (h c (by simp)), lw_full (fun d hd => h d (by simp [hd])), totalW_cons]

theorem uw_full {x : K} : ∀ {l : List (Centroid K)}, (∀ c ∈ l, c.mean.toK ≤ x) → uw x l = totalW l
  | [], _ => rfl
  | c :: l, h => by rw [uw_cons, if_pos (h c (by simp)), uw_full (fun d hd => h d (by simp [hd])), totalW_cons]

theorem exists_ge_of_mean {r : List (Centroid K)} {x : K} (hg : ∀ c ∈ r, Good c) (hne : r ≠ []) (h : ¬ (weightedMean r).mean.toK < x) :
    ∃ c ∈ r, x ≤ c.mean.toK := by
  by_contra hc
  push Not at hc
  apply h
  show totalMass r / totalW r < x
  rw [div_lt_iff₀ (totalW_pos hg hne)]
  clear h
  induction r with
  | nil => exact absurd rfl hne
  | cons c r ih =>
    have h1 := hc c (by simp)
    have h2 := (hg c (by simp)).weight_pos
    rw [totalMass_cons, totalW_cons]
    by_cases hr : r = []
    · subst hr; simp only [totalMass_nil, totalW_nil, add_zero]; nlinarith
    · have := ih (fun d hd => hg d (by simp [hd])) hr (fun d hd => hc d (by simp [hd]))
      nlinarith

/-- Merging neighbours: the weight below `x` drops by at most the weight of one run of several members. -/
theorem lw_merge {x D : K} (hD : 0 ≤ D) : ∀ (runs : List (List (Centroid K))), (∀ r ∈ runs, r ≠ []) → (∀ r ∈ runs, ∀ c ∈ r, Good c) →
    runs.flatten.Pairwise (fun a b => a.mean.toK ≤ b.mean.toK) → (∀ r ∈ runs, 2 ≤ r.length → totalW r ≤ D) →
    lw x runs.flatten ≤ lw x (runs.map weightedMean) + D
  | [], _, _, _, _ => by simpa using hD
  | r :: rs, hne, hg, hs, hw => by
    have hrg := hg r (by simp)
    have hrn := hne r (by simp)
    rw [List.flatten_cons, List.pairwise_append] at hs
    obtain ⟨s1, s2, s3⟩ := hs
    rw [List.flatten_cons, lw_append, List.map_cons, lw_cons]
    by_cases hall : ∀ c ∈ r, c.mean.toK < x
    · have hm : (weightedMean r).mean.toK < x := by
        by_contra hc
        obtain ⟨c, hc1, hc2⟩ := exists_ge_of_mean hrg hrn hc
        exact absurd (hall c hc1) (not_lt.2 hc2)
      rw [lw_full hall, if_pos hm]
      have := lw_merge (x := x) hD rs (fun q hq => hne q (by simp [hq])) (fun q hq => hg q (by simp [hq])) s2 (fun q hq => hw q (by simp [hq]))
      have e : (weightedMean r).weight.toK = totalW r := rfl
      rw [e]
      linarith
    · push Not at hall
      obtain ⟨c, hc1, hc2⟩ := hall
      rw [lw_zero (l := rs.flatten) (fun d hd => hc2.trans (s3 c hc1 d hd)), add_zero]
      have h1 : lw x r ≤ D := by
        by_cases h2 : 2 ≤ r.length
        · exact (lw_range hrg).2.trans (hw r (by simp) h2)
        · obtain ⟨e, rfl⟩ : ∃ e, r = [e] := by
            match r, hrn, h2 with
            | [e], _, _ => exact ⟨e, rfl⟩
            | _ :: _ :: _, _, h => simp at h
          rw [List.mem_singleton] at hc1
          subst hc1
          rw [lw_zero (by simpa using hc2)]
          exact hD
      have h2 := (lw_range (x := x) (l := rs.map weightedMean) (by
        intro d hd
        obtain ⟨q, hq, rfl⟩ := List.mem_map.1 hd
        exact weightedMean_good (hg q (by simp [hq])) (hne q (by simp [hq])))).1
      have h3 : 0 ≤ (if (weightedMean r).mean.toK < x then (weightedMean r).weight.toK else 0) := by
        split
        · exact (weightedMean_good hrg hrn).weight_pos.le
        · exact le_refl _
      linarith

/-- The same for the weight up to `x`, which grows by at most as much. -/
theorem uw_merge {x D : K} (hD : 0 ≤ D) : ∀ (runs : List (List (Centroid K))), (∀ r ∈ runs, r ≠ []) → (∀ r ∈ runs, ∀ c ∈ r, Good c) →
    runs.flatten.Pairwise (fun a b => a.mean.toK ≤ b.mean.toK) → (∀ r ∈ runs, 2 ≤ r.length → totalW r ≤ D) →
    uw x (runs.map weightedMean) ≤ uw x runs.flatten + D
  | [], _, _, _, _ => by simpa using hD
  | r :: rs, hne, hg, hs, hw => by
    have hrg := hg r (by simp)
    have hrn := hne r (by simp)
    rw [List.flatten_cons, List.pairwise_append] at hs
    obtain ⟨s1, s2, s3⟩ := hs
    rw [List.flatten_cons, uw_append, List.map_cons, uw_cons]
    by_cases hall : ∀ c ∈ r, c.mean.toK ≤ x
    · have hm : (weightedMean r).mean.toK ≤ x := weightedMean_le hrg hrn hall
      rw [uw_full hall, if_pos hm]
      have := uw_merge (x := x) hD rs (fun q hq => hne q (by simp [hq])) (fun q hq => hg q (by simp [hq])) s2 (fun q hq => hw q (by simp [hq]))
      have e : (weightedMean r).weight.toK = totalW r := rfl
      rw [e]
      linarith
    · push Not at hall
      obtain ⟨c, hc1, hc2⟩ := hall
      have hz : uw x (rs.map weightedMean) = 0 := by
        apply uw_zero
        intro d hd
        obtain ⟨q, hq, rfl⟩ := List.mem_map.1 hd
        exact hc2.trans_le (le_weightedMean (hg q (by simp [hq])) (hne q (by simp [hq]))
          (fun e he => s3 c hc1 e (List.mem_flatten.2 ⟨q, hq, he⟩)))
      rw [hz, add_zero]
      have h1 : (if (weightedMean r).mean.toK ≤ x then (weightedMean r).weight.toK else 0) ≤ D := by
        by_cases h2 : 2 ≤ r.length
        · split
          · exact hw r (by simp) h2
          · exact hD
        · obtain ⟨e, rfl⟩ : ∃ e, r = [e] := by
            match r, hrn, h2 with
            | [e], _, _ => exact ⟨e, rfl⟩
            | _ :: _ :: _, _, h => simp at h
          rw [List.mem_singleton] at hc1
          subst hc1
          rw [if_neg]
          · exact hD
          · exact not_le.2 (hc2.trans_le (le_weightedMean hrg hrn (by simp)))
      have h2 := (uw_range (x := x) hrg).1
      have h3 := (uw_range (x := x) (l := rs.flatten) (by
        intro d hd
        obtain ⟨q, hq, hd⟩ := List.mem_flatten.1 hd
        exact hg q (by simp [hq]) d hd)).1
      linarith

theorem equalW_range {x : K} : ∀ {l : List (K × K)}, (∀ p ∈ l, 0 < p.2) → 0 ≤ equalW x l ∧ equalW x l ≤ uw x (l.map toC)
  | [], _ => by simp [equalW]
  | c :: l, h => by
    have h1 := equalW_range (x := x) (l := l) (fun d hd => h d (by simp [hd]))
    have h2 := h c (by simp)
    rw [equalW, List.map_cons, uw_cons]
    have e1 : (toC c).mean.toK = c.1 := rfl
    have e2 : (toC c).weight.toK = c.2 := rfl
    rw [e1, e2]
    split
    · rename_i hc
      rw [if_pos hc.le]
      constructor <;> linarith
    · refine ⟨le_refl _, ?_⟩
      split <;> linarith

/-- The interpolated weight is within `H` of the weights below and up to `x`, `H` at least half of every weight. -/
theorem wbelow_range {x H : K} (hH : 1 / 2 ≤ H) : ∀ (l : List (K × K)) (s : K) (hne : l ≠ []), l.Pairwise (fun p q => p.1 ≤ q.1) →
    (∀ p ∈ l, 0 < p.2 ∧ p.2 / 2 ≤ H) → (l.head hne).1 ≤ x → x ≤ (l.getLast hne).1 →
    s + lw x (l.map toC) ≤ wbelow x s l + H ∧ wbelow x s l ≤ s + uw x (l.map toC) + H
  | [], _, h, _, _, _, _ => absurd rfl h
  | [c], s, _, _, hp, h1, h2 => by
    simp only [List.head_cons, List.getLast_singleton] at h1 h2
    obtain ⟨hc1, hc2⟩ := hp c (by simp)
    have e1 : lw x ([c].map toC) = 0 := lw_zero (by simpa [toC, Fl.toK] using h2)
    have e2 : uw x ([c].map toC) = c.2 := by
      rw [uw_full (by simpa [toC, Fl.toK] using h1)]
      simp [toC, Fl.toK]
    rw [e1, e2, wbelow]
    split <;> constructor <;> linarith
  | c :: n :: rest, s, _, hs, hp, h1, h2 => by
    simp only [List.head_cons] at h1
    obtain ⟨hc1, hc2⟩ := hp c (by simp)
    obtain ⟨hn1, hn2⟩ := hp n (by simp)
    have hs' := (List.pairwise_cons.1 hs)
    have hmin : ∀ q ∈ n :: rest, c.1 ≤ q.1 := hs'.1
    have hnmin : ∀ q ∈ n :: rest, n.1 ≤ q.1 := by
      intro q hq
      rcases List.mem_cons.1 hq with rfl | hq
      · exact le_refl _
      · exact (List.pairwise_cons.1 hs'.2).1 q hq
    have eC1 : (toC c).mean.toK = c.1 := rfl
    have eC2 : (toC c).weight.toK = c.2 := rfl
    rw [wbelow]
    by_cases hcx : c.1 = x
    · rw [if_pos hcx]
      have e1 : lw x ((c :: n :: rest).map toC) = 0 := by
        apply lw_zero
        intro d hd
        obtain ⟨q, hq, rfl⟩ := List.mem_map.1 hd
        show x ≤ q.1
        rw [← hcx]
        rcases List.mem_cons.1 hq with rfl | hq
        · exact le_refl _
        · exact hmin q hq
      obtain ⟨h3, h4⟩ := equalW_range (x := x) (l := c :: n :: rest) (fun p hp' => (hp p hp').1)
      rw [e1]
      split <;> constructor <;> linarith
    · rw [if_neg hcx]
      have hlt : c.1 < x := lt_of_le_of_ne h1 hcx
      by_cases hxn : x < n.1
      · rw [if_pos ⟨h1, hxn⟩]
        have e1 : lw x ((c :: n :: rest).map toC) = c.2 := by
          rw [List.map_cons, lw_cons, eC1, eC2, if_pos hlt, lw_zero, add_zero]
          intro d hd
          obtain ⟨q, hq, rfl⟩ := List.mem_map.1 hd
          exact hxn.le.trans (hnmin q hq)
        have e2 : uw x ((c :: n :: rest).map toC) = c.2 := by
          rw [List.map_cons, uw_cons, eC1, eC2, if_pos h1, uw_zero, add_zero]
          intro d hd
          obtain ⟨q, hq, rfl⟩ := List.mem_map.1 hd
          exact hxn.trans_le (hnmin q hq)
        rw [e1, e2]
        unfold btw
        split
        · rename_i h11
          rw [h11.1]
          constructor <;> linarith
        · have hd : 0 < n.1 - c.1 := by linarith
          have f0 : 0 ≤ (x - c.1) / (n.1 - c.1) := div_nonneg (by linarith) hd.le
          have f1 : (x - c.1) / (n.1 - c.1) ≤ 1 := by rw [div_le_one hd]; linarith
          rw [mul_div_assoc]
          generalize (x - c.1) / (n.1 - c.1) = f at f0 f1
          have hx1 : 0 ≤ exl c n ∧ 0 ≤ exr c n ∧ 0 ≤ (c.2 + n.2) / 2 - exl c n - exr c n := by
            unfold exl exr
            split
            · rename_i h
              rw [h]
              refine ⟨by norm_num, le_refl _, by linarith⟩
            · split
              · rename_i h
                rw [h]
                refine ⟨le_refl _, by norm_num, by linarith⟩
              · exact ⟨le_refl _, le_refl _, by linarith⟩
          obtain ⟨x1, x2, x3⟩ := hx1
          have g1 : 0 ≤ ((c.2 + n.2) / 2 - exl c n - exr c n) * f := mul_nonneg x3 f0
          have g2 : ((c.2 + n.2) / 2 - exl c n - exr c n) * f ≤ (c.2 + n.2) / 2 - exl c n - exr c n := mul_le_of_le_one_right x3 f1
          constructor <;> linarith
      · rw [if_neg (fun h => hxn h.2)]
        have ih := wbelow_range (x := x) hH (n :: rest) (s + c.2) (by simp) hs'.2 (fun p hp' => hp p (by simp [hp'])) (not_lt.1 hxn)
          (by simpa using h2)
        rw [List.map_cons (a := c), lw_cons, uw_cons, eC1, eC2, if_pos hlt, if_pos h1]
        constructor <;> linarith [ih.1, ih.2]

theorem head_le_of_pairwise : ∀ {l : List (K × K)} (hne : l ≠ []), l.Pairwise (fun p q => p.1 ≤ q.1) → ∀ {p}, p ∈ l → (l.head hne).1 ≤ p.1
  | [], h, _, _, _ => absurd rfl h
  | c :: cs, _, hs, p, hp => by
    rw [List.head_cons]
    rcases List.mem_cons.1 hp with rfl | hp
    · exact le_refl _
    · exact (List.pairwise_cons.1 hs).1 p hp

/-- The answer of a quantile query, as a weight, is within `H` of the weights of the centroids below and up to `x`. -/
theorem view_quantile [FloatFmt.Exact K] {d : TDigest K} {l : List (K × K)} {a b : K} (hv : View d l a b) {H : K} (hH : 1 ≤ H)
    (hM : ∀ p ∈ l, p.2 / 2 ≤ H) (x : K) :
    ∃ e, d.estQuantileAtValue (.fin x) = .ret (.fin e) ∧ lw x d.centroids ≤ wt l * e + H ∧ wt l * e ≤ uw x d.centroids + H := by
  have hg : ∀ c ∈ l.map toC, Good c := toC_good hv.pos
  have hW := wt_pos hv.pos hv.ne
  have htw : totalW (l.map toC) = wt l := totalW_toC l
  obtain ⟨l1, l2⟩ := lw_range (x := x) hg
  obtain ⟨u1, u2⟩ := uw_range (x := x) hg
  rw [htw] at l2 u2
  have hlow : x < a → lw x (l.map toC) = 0 := by
    intro h
    apply lw_zero
    intro c hc
    obtain ⟨p, hp, rfl⟩ := List.mem_map.1 hc
    exact h.le.trans (hv.lo p hp)
  have hhigh : b < x → uw x (l.map toC) = wt l := by
    intro h
    rw [uw_full, htw]
    intro c hc
    obtain ⟨p, hp, rfl⟩ := List.mem_map.1 hc
    exact (hv.hi p hp).trans h.le
  by_cases h2 : 2 ≤ l.length
  · refine ⟨_, estQuantile_eq hv h2 x, ?_⟩
    rw [hv.cs]
    unfold estQ
    split
    · rename_i h
      rw [hlow h, mul_zero]
      constructor <;> linarith
    split
    · rename_i _ h
      rw [hhigh h, mul_one]
      constructor <;> linarith
    rename_i hxa hbx
    have hheadm := List.head_mem hv.ne
    have hlastm := List.getLast_mem hv.ne
    split
    · rename_i hx
      have e1 : lw x (l.map toC) = 0 := by
        apply lw_zero
        intro c hc
        obtain ⟨p, hp, rfl⟩ := List.mem_map.1 hc
        show x ≤ p.1
        have : (l.head hv.ne).1 ≤ p.1 := by
          exact head_le_of_pairwise hv.ne hv.sorted hp
        exact hx.le.trans this
      rw [e1]
      split
      · rw [mul_div_cancel₀ _ hW.ne']
        constructor <;> linarith
      · rw [mul_div_cancel₀ _ hW.ne']
        have hd : 0 < (l.head hv.ne).1 - a := by linarith [not_lt.1 hxa]
        have f0 : 0 ≤ (x - a) / ((l.head hv.ne).1 - a) := div_nonneg (by linarith [not_lt.1 hxa]) hd.le
        have f1 : (x - a) / ((l.head hv.ne).1 - a) ≤ 1 := by rw [div_le_one hd]; linarith
        have h3 := hM _ hheadm
        have h4 := hv.pos _ hheadm
        generalize (x - a) / ((l.head hv.ne).1 - a) = f at f0 f1
        generalize (l.head hv.ne).2 = w at h3 h4
        constructor <;> nlinarith
    split
    · rename_i hx0 hx
      have e1 : uw x (l.map toC) = wt l := by
        rw [uw_full, htw]
        intro c hc
        obtain ⟨p, hp, rfl⟩ := List.mem_map.1 hc
        show p.1 ≤ x
        have : p.1 ≤ (l.getLast hv.ne).1 := by
          have hs := hv.sorted
          rw [← List.dropLast_append_getLast hv.ne] at hp hs
          rcases List.mem_append.1 hp with hp | hp
          · exact (List.pairwise_append.1 hs).2.2 p hp _ (by simp)
          · rw [List.mem_singleton] at hp; rw [hp]
        exact this.trans hx.le
      rw [e1]
      split
      · rw [mul_sub, mul_one, mul_div_cancel₀ _ hW.ne']
        constructor <;> linarith
      · rw [mul_sub, mul_one, mul_div_cancel₀ _ hW.ne']
        have hd : 0 < b - (l.getLast hv.ne).1 := by linarith [not_lt.1 hbx]
        have f0 : 0 ≤ (b - x) / (b - (l.getLast hv.ne).1) := div_nonneg (by linarith [not_lt.1 hbx]) hd.le
        have f1 : (b - x) / (b - (l.getLast hv.ne).1) ≤ 1 := by rw [div_le_one hd]; linarith
        have h3 := hM _ hlastm
        have h4 := hv.pos _ hlastm
        generalize (b - x) / (b - (l.getLast hv.ne).1) = f at f0 f1
        generalize (l.getLast hv.ne).2 = w at h3 h4
        constructor <;> nlinarith
    · rename_i hx0 hx1
      rw [mul_div_cancel₀ _ hW.ne']
      have := wbelow_range (x := x) (H := H) (by linarith) l 0 hv.ne hv.sorted (fun p hp => ⟨hv.pos p hp, hM p hp⟩) (not_lt.1 hx0) (not_lt.1 hx1)
      simpa using this
  · obtain ⟨c, rfl⟩ : ∃ c, l = [c] := by
      match l, hv.ne, h2 with
      | [r], _, _ => exact ⟨r, rfl⟩
      | _ :: _ :: _, _, h => simp at h
    refine ⟨_, estQuantile_single hv x, ?_⟩
    rw [hv.cs]
    have h3 := hM c (by simp)
    have h4 : wt [c] = c.2 := by simp
    split
    · rename_i h
      rw [hlow h, mul_zero]
      constructor <;> linarith
    · split
      · rename_i _ h
        rw [hhigh h, mul_one]
        constructor <;> linarith
      · constructor <;> linarith

theorem vLoop_range {t H : K} : ∀ (l : List (K × K)) (s : K) (hne : l ≠ []), l.Pairwise (fun p q => p.1 ≤ q.1) →
    (∀ p ∈ l, 0 < p.2 ∧ p.2 / 2 ≤ H) → s + (l.head hne).2 / 2 ≤ t → t < endW (s + (l.head hne).2 / 2) l hne →
    s + lw (vLoop t (s + (l.head hne).2 / 2) l) (l.map toC) ≤ t + H ∧ t ≤ s + uw (vLoop t (s + (l.head hne).2 / 2) l) (l.map toC) + H
  | [], _, hne, _, _, _, _ => absurd rfl hne
  | [r], s, _, _, _, h1, h2 => by
    exfalso
    simp only [List.head_cons, endW, List.getLast_singleton, wt_cons, wt_nil] at h1 h2
    linarith
  | c :: n :: rest, s, _, hs, hp, h1, h2 => by
    simp only [List.head_cons] at h1 h2 ⊢
    obtain ⟨hc1, hc2⟩ := hp c (by simp)
    obtain ⟨hn1, hn2⟩ := hp n (by simp)
    obtain ⟨hs1, hs2⟩ := List.pairwise_cons.1 hs
    have hcn : c.1 ≤ n.1 := hs1 n (by simp)
    have hg : ∀ d ∈ (n :: rest).map toC, Good d := toC_good (fun p hp' => (hp p (by simp [hp'])).1)
    have eC1 : (toC c).mean.toK = c.1 := rfl
    have eC2 : (toC c).weight.toK = c.2 := rfl
    rw [List.map_cons (a := c), lw_cons, uw_cons, eC1, eC2]
    rw [vLoop]
    split
    · rename_i h3
      have hv := vpick_mem (t := t) (cw := s + c.2 / 2) hcn
      generalize vpick t (s + c.2 / 2) c n = v at hv
      rw [lw_zero (x := v) (l := (n :: rest).map toC), if_pos hv.1]
      · have hu := (uw_range (x := v) hg).1
        constructor
        · split <;> linarith
        · linarith
      · intro d hd
        obtain ⟨q, hq, rfl⟩ := List.mem_map.1 hd
        refine hv.2.trans ?_
        rcases List.mem_cons.1 hq with rfl | hq
        · exact le_refl _
        · exact (List.pairwise_cons.1 hs2).1 q hq
    · rename_i h3
      have e3 : s + c.2 / 2 + (c.2 + n.2) / 2 = (s + c.2) + n.2 / 2 := by ring
      rw [e3] at h3 ⊢
      rw [endW_cons, e3] at h2
      have ih := vLoop_range (t := t) (H := H) (n :: rest) (s + c.2) (by simp) hs2 (fun p hp' => hp p (by simp [hp'])) (by simpa using h3)
        (by simpa using h2)
      simp only [List.head_cons] at ih
      have hvm := vLoop_mem t (n :: rest) (s + c.2 + n.2 / 2) (by simp) hs2
      simp only [List.head_cons] at hvm
      generalize vLoop t (s + c.2 + n.2 / 2) (n :: rest) = v at ih hvm
      rw [if_pos (hcn.trans hvm.1)]
      constructor
      · split <;> linarith [ih.1]
      · linarith [ih.2]

/-- Outside the defective part of the last centroid the value found for the weight `t` has about `t` of the weight on its left. -/
theorem estV_range {l : List (K × K)} {a b H t : K} (hne : l ≠ []) (hs : l.Pairwise (fun p q => p.1 ≤ q.1)) (hpos : ∀ p ∈ l, 1 ≤ p.2)
    (hlo : ∀ p ∈ l, a ≤ p.1) (hhi : ∀ p ∈ l, p.1 ≤ b) (hH : 1 ≤ H) (hM : ∀ p ∈ l, p.2 / 2 ≤ H) (ht0 : 0 ≤ t) (htn : t ≤ wt l)
    (ht : ¬ InTail l hne t) : ∃ v, estV l hne a b t = .fin v ∧ lw v (l.map toC) ≤ t + H ∧ t ≤ uw v (l.map toC) + H := by
  have hg : ∀ c ∈ l.map toC, Good c := toC_good (fun p hp => lt_of_lt_of_le one_pos (hpos p hp))
  have htw : totalW (l.map toC) = wt l := totalW_toC l
  have hlow : ∀ v, v ≤ (l.head hne).1 → lw v (l.map toC) = 0 := by
    intro v h
    apply lw_zero
    intro c hc
    obtain ⟨p, hp, rfl⟩ := List.mem_map.1 hc
    exact h.trans (head_le_of_pairwise hne hs hp)
  unfold estV
  unfold InTail at ht
  split
  · refine ⟨a, rfl, ?_⟩
    rw [hlow a (hlo _ (List.head_mem hne))]
    have := (uw_range (x := a) hg).1
    constructor <;> linarith
  rename_i h1
  split
  · rename_i h2
    refine ⟨_, rfl, ?_⟩
    have lv := left_value (hlo _ (List.head_mem hne)) (not_lt.1 h1) h2.2
    have h3 := hM _ (List.head_mem hne)
    rw [hlow _ lv.2]
    have := (uw_range (x := a + (t - 1) / ((l.head hne).2 / 2 - 1) * ((l.head hne).1 - a)) hg).1
    constructor <;> linarith
  rename_i h2
  split
  · rename_i h3
    refine ⟨b, rfl, ?_⟩
    rw [uw_full (x := b), htw]
    · have := (lw_range (x := b) hg).2
      constructor <;> linarith
    · intro c hc
      obtain ⟨p, hp, rfl⟩ := List.mem_map.1 hc
      exact hhi p hp
  rename_i h3
  split
  · rename_i h4
    exact absurd ⟨by linarith [h4.2], not_lt.1 h3⟩ ht
  · rename_i h4
    refine ⟨_, rfl, ?_⟩
    have w1 := hpos _ (List.head_mem hne)
    have w2 := hpos _ (List.getLast_mem hne)
    have hc1 : (l.head hne).2 / 2 ≤ t := by
      by_contra hc
      rw [not_le] at hc
      apply h2
      have := not_lt.1 h1
      exact ⟨by linarith, hc⟩
    have hc2 : t < wt l - (l.getLast hne).2 / 2 := by
      by_contra hc
      rw [not_lt] at hc
      apply h4
      have := not_lt.1 h3
      exact ⟨by linarith, by linarith⟩
    have := vLoop_range (t := t) (H := H) l 0 hne hs (fun p hp => ⟨lt_of_lt_of_le one_pos (hpos p hp), hM p hp⟩) (by rw [zero_add]; exact hc1)
      (by unfold endW; linarith)
    simpa only [zero_add] using this

end TDigest
end AQ

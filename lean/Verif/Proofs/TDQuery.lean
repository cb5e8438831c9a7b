/-
TDigest queries as functions over the field, for digests with finite centroids and exact arithmetic.
-/
import Mathlib.Tactic.NormNum
import Verif.Proofs.TDHist

set_option linter.unusedSectionVars false
set_option linter.unusedVariables false

namespace AQ
open Prog Spec
variable {K : Type} [Field K] [LinearOrder K] [IsStrictOrderedRing K] [FloatFmt K]

namespace TDigest

/-- A (mean, weight) pair as a centroid. -/
def toC (p : K × K) : Centroid K := ⟨.fin p.1, .fin p.2⟩

/-- Sum of the weights. -/
def wt (l : List (K × K)) : K := (l.map (·.2)).sum

@[simp] theorem wt_nil : wt ([] : List (K × K)) = 0 := rfl
@[simp] theorem wt_cons (c : K × K) (l : List (K × K)) : wt (c :: l) = c.2 + wt l := rfl

theorem totalW_toC (l : List (K × K)) : totalW (l.map toC) = wt l := by
  induction l with
  | nil => rfl
  | cons c l ih => rw [List.map_cons, totalW_cons, ih]; rfl

/-- The digest holds the pairs `l` (sorted, positive weights) and limits `a ≤ means ≤ b`. -/
structure View (d : TDigest K) (l : List (K × K)) (a b : K) : Prop where
  cs : d.centroids = l.map toC
  mn : d.min = .fin a
  mx : d.max = .fin b
  sorted : l.Pairwise (fun p q => p.1 ≤ q.1)
  pos : ∀ p ∈ l, 0 < p.2
  lo : ∀ p ∈ l, a ≤ p.1
  hi : ∀ p ∈ l, p.1 ≤ b
  ne : l ≠ []

theorem toC_good {l : List (K × K)} (h : ∀ p ∈ l, 0 < p.2) : ∀ c ∈ l.map toC, Good c := by
  intro c hc
  obtain ⟨p, hp, rfl⟩ := List.mem_map.1 hc
  exact ⟨⟨_, rfl⟩, _, h p hp, rfl⟩

theorem View.total [FloatFmt.Exact K] {d : TDigest K} {l : List (K × K)} {a b : K} (h : View d l a b) :
    d.totalWeight = .fin (wt l) := by
  unfold totalWeight
  rw [h.cs, weightSum_exact (toC_good h.pos), totalW_toC]

/-- Every reachable non-empty digest has a view. -/
theorem Inv.view {d : TDigest K} {sup : List (Centroid K)} (h : d.Inv sup) (hs : ∀ c ∈ sup, Good c) (hne : sup ≠ []) :
    ∃ l a b, View d l a b ∧ wt l = totalW sup ∧
      (∀ P : K → Prop, (∀ a b, P a → P b → P (a + b)) → (∀ c ∈ sup, P c.weight.toK) → ∀ p ∈ l, P p.2) := by
  obtain ⟨⟨a, ha⟩, ⟨b, hb⟩⟩ := good_sup_min h.toCInv hs hne
  have hcs : d.centroids = (d.centroids.map (fun c => (c.mean.toK, c.weight.toK))).map toC := by
    rw [List.map_map]
    conv => lhs; rw [← List.map_id d.centroids]
    apply List.map_congr_left
    intro c hc
    have h1 := (h.good c hc).mean
    have h2 := (h.good c hc).weight
    simp only [id, Function.comp, toC, ← h1, ← h2]
  refine ⟨d.centroids.map (fun c => (c.mean.toK, c.weight.toK)), a, b, ⟨hcs, ha, hb, ?_, ?_, ?_, ?_, ?_⟩, ?_, ?_⟩
  · rw [List.pairwise_map]; exact h.sorted
  · intro p hp
    obtain ⟨c, hc, rfl⟩ := List.mem_map.1 hp
    exact (h.good c hc).weight_pos
  · intro p hp
    obtain ⟨c, hc, rfl⟩ := List.mem_map.1 hp
    have := h.min_le c hc
    rw [ha, (h.good c hc).mean] at this
    simpa [Fl.toK] using this
  · intro p hp
    obtain ⟨c, hc, rfl⟩ := List.mem_map.1 hp
    have := h.le_max c hc
    rw [hb, (h.good c hc).mean] at this
    simpa [Fl.toK] using this
  · intro h'
    rw [List.map_eq_nil_iff] at h'
    exact hne (h.empty.1 h')
  · rw [← totalW_toC, ← hcs, h.weight]
  · intro P hP hPs p hp
    obtain ⟨c, hc, rfl⟩ := List.mem_map.1 hp
    exact h.closed P hP hPs c hc

/-- Weight of the leading pairs with mean `x`. -/
def equalW (x : K) : List (K × K) → K
  | [] => 0
  | c :: cs => if c.1 = x then c.2 + equalW x cs else 0

/-- Left and right excluded weight. -/
def exl (c n : K × K) : K := if c.2 = 1 then 1 / 2 else 0
def exr (c n : K × K) : K := if c.2 = 1 then 0 else if n.2 = 1 then 1 / 2 else 0

/-- Interpolated weight between two neighbours. -/
def btw (x s : K) (c n : K × K) : K :=
  if c.2 = 1 ∧ n.2 = 1 then s + 1
  else s + c.2 / 2 + exl c n + ((c.2 + n.2) / 2 - exl c n - exr c n) * (x - c.1) / (n.1 - c.1)

/-- Estimated weight below `x`, for `x` between the first and the last mean. -/
def wbelow (x : K) (s : K) : List (K × K) → K
  | [] => s
  | [c] => if c.2 = 1 then s else s + c.2 - 1 / 2
  | c :: n :: rest =>
    if c.1 = x then
      if c.2 = equalW x (c :: n :: rest) ∧ equalW x (c :: n :: rest) = 1 then s
      else s + equalW x (c :: n :: rest) / 2
    else if c.1 ≤ x ∧ x < n.1 then btw x s c n
    else wbelow x (s + c.2) (n :: rest)

theorem equalWeight_eq [FloatFmt.Exact K] (x : K) : ∀ (l : List (K × K)) (dw : K),
    equalWeight (.fin x) (.fin dw) (l.map toC) = .fin (dw + equalW x l)
  | [], dw => by simp [equalWeight, equalW]
  | c :: l, dw => by
    simp only [List.map_cons, equalWeight, equalW]
    show (if Fl.feq (.fin c.1) (.fin x) = true then _ else _) = _
    rw [Fl.feq_fin]
    by_cases h : c.1 = x
    · simp only [h, decide_true, if_true]
      have : (Fl.fin dw : Fl K) + (toC c).weight = .fin (dw + c.2) := by simp [toC]
      rw [this, equalWeight_eq x l]
      congr 1; ring
    · simp [h]

theorem between_eq [FloatFmt.Exact K] (x s W : K) (c n : K × K) (hW : W ≠ 0) (hcn : c.1 < n.1) :
    between (.fin x) (.fin s) (.fin W) (toC c) (toC n) = .fin (btw x s c n / W) := by
  have h2 : (2 : K) ≠ 0 := two_ne_zero
  have hne : n.1 - c.1 ≠ 0 := sub_ne_zero.2 hcn.ne'
  unfold between btw exl exr
  simp only [toC, Fl.lit_exact, Fl.sub_exact, Fl.lt_fin, Fl.feq_fin]
  rw [if_pos (by simpa using hcn)]
  by_cases h1 : c.2 = 1
  · by_cases h3 : n.2 = 1
    · simp [h1, h3, Fl.div_exact _ hW]
    · simp only [h1, h3, decide_true, decide_false, Bool.and_false, Bool.false_eq_true, if_false, if_true, and_false]
      simp only [Fl.add_exact, Fl.div_exact _ h2, Fl.sub_exact, Fl.mul_exact, Fl.div_exact _ hne, Fl.div_exact _ hW]
  · by_cases h3 : n.2 = 1
    · simp only [h1, h3, decide_true, decide_false, Bool.false_and, Bool.false_eq_true, if_false, if_true, false_and]
      simp only [Fl.add_exact, Fl.div_exact _ h2, Fl.sub_exact, Fl.mul_exact, Fl.div_exact _ hne, Fl.div_exact _ hW]
    · simp only [h1, h3, decide_false, Bool.false_and, Bool.false_eq_true, if_false, false_and]
      simp only [Fl.add_exact, Fl.div_exact _ h2, Fl.sub_exact, Fl.mul_exact, Fl.div_exact _ hne, Fl.div_exact _ hW]

theorem quantileLoop_eq [FloatFmt.Exact K] (x W : K) (hW : W ≠ 0) : ∀ (l : List (K × K)) (s : K) (hne : l ≠ []),
    l.Pairwise (fun p q => p.1 ≤ q.1) → (l.head hne).1 ≤ x → x ≤ (l.getLast hne).1 →
    (quantileLoop (.fin x) (.fin W) (.fin s) (l.map toC) = .inl (.fin (wbelow x s l / W)) ∨
     (quantileLoop (.fin x) (.fin W) (.fin s) (l.map toC) = .inr (.fin (s + wt l - (l.getLast hne).2)) ∧
       x = (l.getLast hne).1 ∧
       wbelow x s l = if (l.getLast hne).2 = 1 then s + wt l - (l.getLast hne).2 else s + wt l - 1 / 2))
  | [], _, hne, _, _, _ => absurd rfl hne
  | [c], s, hne, _, h1, h2 => by
    right
    simp only [List.head_cons, List.getLast_singleton] at h1 h2
    refine ⟨by simp [quantileLoop], le_antisymm h2 h1, ?_⟩
    simp only [wbelow, List.getLast_singleton, wt_cons, wt_nil, add_zero]
    split
    · ring
    · rfl
  | c :: n :: rest, s, hne, hs, h1, h2 => by
    simp only [List.head_cons] at h1
    simp only [List.map_cons, quantileLoop, wbelow]
    have e1 : Fl.feq (toC c).mean (.fin x) = decide (c.1 = x) := Fl.feq_fin _ _
    have e2 : Fl.le (toC c).mean (.fin x) = decide (c.1 ≤ x) := Fl.le_fin _ _
    have e3 : Fl.lt (.fin x) (toC n).mean = decide (x < n.1) := Fl.lt_fin _ _
    rw [e1, e2, e3]
    by_cases hc : c.1 = x
    · left
      have e4 := equalWeight_eq x (c :: n :: rest) 0
      simp only [List.map_cons, zero_add] at e4
      simp only [hc, decide_true, if_true, Fl.lit_exact, e4]
      have e5 : Fl.feq (toC c).weight (.fin (equalW x (c :: n :: rest))) = decide (c.2 = equalW x (c :: n :: rest)) :=
        Fl.feq_fin _ _
      rw [e5, Fl.feq_fin]
      by_cases h3 : c.2 = equalW x (c :: n :: rest) ∧ equalW x (c :: n :: rest) = 1
      · rw [if_pos h3]
        simp only [h3.1, h3.2, decide_true, Bool.and_self, if_true, Fl.div_exact _ hW]
      · rw [if_neg h3, if_neg (by simpa using h3), Fl.div_exact _ two_ne_zero, Fl.add_exact, Fl.div_exact _ hW]
    · simp only [hc, decide_false, Bool.false_eq_true, if_false, h1, decide_true, Bool.true_and, true_and]
      by_cases h3 : x < n.1
      · left
        have hcn : c.1 < n.1 := h1.trans_lt h3
        simp only [h3, decide_true, if_true]
        rw [between_eq x s W c n hW hcn]
      · simp only [h3, decide_false, Bool.false_eq_true, if_false]
        have e6 : (Fl.fin s : Fl K) + (toC c).weight = .fin (s + c.2) := by simp [toC]
        rw [e6]
        have ih := quantileLoop_eq x W hW (n :: rest) (s + c.2) (by simp) (List.pairwise_cons.1 hs).2
          (not_lt.1 h3) (by simpa using h2)
        simp only [List.map_cons] at ih
        rcases ih with ih | ⟨i1, i2, i3⟩
        · exact Or.inl ih
        · right
          rw [List.getLast_cons (by simp)]
          refine ⟨?_, i2, ?_⟩
          · rw [i1]; congr 2; simp [add_assoc]
          · rw [i3]; simp only [wt_cons, add_assoc]

/-- `est_quantile_at_value` of a digest with at least two centroids, as a function over the field. -/
def estQ (l : List (K × K)) (hne : l ≠ []) (a b x : K) : K :=
  if x < a then 0
  else if b < x then 1
  else if x < (l.head hne).1 then
    if x = a then (1 / 2) / wt l
    else (1 + (x - a) / ((l.head hne).1 - a) * ((l.head hne).2 / 2 - 1)) / wt l
  else if (l.getLast hne).1 < x then
    if x = b then 1 - (1 / 2) / wt l
    else 1 - (1 + (b - x) / (b - (l.getLast hne).1) * ((l.getLast hne).2 / 2 - 1)) / wt l
  else wbelow x 0 l / wt l

theorem wt_pos {l : List (K × K)} (h : ∀ p ∈ l, 0 < p.2) (hne : l ≠ []) : 0 < wt l := by
  rw [← totalW_toC]
  exact totalW_pos (toC_good h) (by simpa using hne)

theorem estQuantile_eq [FloatFmt.Exact K] {d : TDigest K} {l : List (K × K)} {a b : K} (h : View d l a b)
    (h2 : 2 ≤ l.length) (x : K) : d.estQuantileAtValue (.fin x) = .ret (.fin (estQ l h.ne a b x)) := by
  have hW : wt l ≠ 0 := (wt_pos h.pos h.ne).ne'
  have htot := h.total
  obtain ⟨c, n, rest, rfl⟩ : ∃ c n rest, l = c :: n :: rest := by
    match l, h2 with
    | c :: n :: rest, _ => exact ⟨c, n, rest, rfl⟩
  have hlast : ((c :: n :: rest).map toC).getLast (by simp) = toC ((c :: n :: rest).getLast h.ne) := by
    rw [List.getLast_map]
  unfold estQuantileAtValue
  have hcs := h.cs
  simp only [List.map_cons] at hcs hlast
  rw [hcs]
  simp only [hlast]
  rw [htot, h.mn, h.mx]
  simp only [Fl.lt_fin, Fl.lit_exact]
  have elast : (toC ((c :: n :: rest).getLast h.ne)).mean = .fin ((c :: n :: rest).getLast h.ne).1 := rfl
  have elastw : (toC ((c :: n :: rest).getLast h.ne)).weight = .fin ((c :: n :: rest).getLast h.ne).2 := rfl
  have ec : (toC c).mean = .fin c.1 := rfl
  have ecw : (toC c).weight = .fin c.2 := rfl
  rw [elast, elastw, ec, ecw]
  simp only [Fl.lt_fin, Fl.sub_exact, Fl.feq_fin]
  unfold estQ
  simp only [List.head_cons]
  by_cases h1 : x < a
  · simp [h1]
  by_cases h3 : b < x
  · simp [h1, h3]
  simp only [h1, h3, decide_false, Bool.false_eq_true, if_false]
  by_cases h4 : x < c.1
  · have hpos : 0 < c.1 - a := by linarith [not_lt.1 h1]
    simp only [h4, decide_true, if_true, hpos]
    by_cases h5 : x = a
    · simp only [h5, decide_true, if_true, Fl.div_exact _ hW]
    · simp only [h5, decide_false, Bool.false_eq_true, if_false, Fl.div_exact _ hpos.ne', Fl.div_exact _ (two_ne_zero (α := K)),
        Fl.sub_exact, Fl.mul_exact, Fl.add_exact, Fl.div_exact _ hW]
  simp only [h4, decide_false, Bool.false_eq_true, if_false]
  by_cases h6 : ((c :: n :: rest).getLast h.ne).1 < x
  · have hpos : 0 < b - ((c :: n :: rest).getLast h.ne).1 := by linarith [not_lt.1 h3]
    simp only [h6, decide_true, if_true, hpos]
    by_cases h5 : x = b
    · simp only [h5, decide_true, if_true, Fl.div_exact _ hW, Fl.sub_exact]
    · simp only [h5, decide_false, Bool.false_eq_true, if_false, Fl.div_exact _ hpos.ne', Fl.div_exact _ (two_ne_zero (α := K)),
        Fl.sub_exact, Fl.mul_exact, Fl.add_exact, Fl.div_exact _ hW]
  simp only [h6, decide_false, Bool.false_eq_true, if_false]
  have hq := quantileLoop_eq x (wt (c :: n :: rest)) hW (c :: n :: rest) 0 h.ne h.sorted (not_lt.1 h4) (not_lt.1 h6)
  simp only [List.map_cons] at hq
  rcases hq with hq | ⟨q1, q2, q3⟩
  · rw [hq]
  · rw [q1]
    simp only [← q2, decide_true, if_true]
    rw [q3]
    by_cases h7 : ((c :: n :: rest).getLast h.ne).2 = 1
    · simp only [h7, decide_true, if_true, Fl.div_exact _ hW]
    · simp only [h7, decide_false, Bool.false_eq_true, if_false, Fl.div_exact _ hW, Fl.sub_exact]
      congr 2
      rw [zero_add, sub_div, div_self hW]

end TDigest
end AQ

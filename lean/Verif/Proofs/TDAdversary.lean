/-
An adversary against a `k0` digest fed one item at a time. Every new item is put just right of the last centroid and left of
the items which were misplaced before; whenever it is merged into the last centroid, it ends up right of the new mean although
the digest counts it on the left. Only the items which open a new centroid are counted properly, and they become rare.
-/
import Mathlib.Tactic.Linarith
import Mathlib.Tactic.FieldSimp
import Verif.Proofs.TDAccuracy2

set_option linter.unusedSectionVars false
set_option linter.unusedVariables false

namespace AQ
open Prog Spec
variable {K : Type} [Field K] [LinearOrder K] [IsStrictOrderedRing K] [FloatFmt K]
namespace TDigest

/-- Strictly increasing means. -/
def Strict (cs : List (Centroid K)) : Prop := cs.Pairwise (fun a b => a.mean < b.mean)

theorem sortTie_strict : ∀ (l : List (Centroid K)), Strict l → sortTie Centroid.mean l = .ret l
  | [], _ => rfl
  | [a], _ => rfl
  | a :: b :: l, h => by
    have ih := sortTie_strict (b :: l) (List.pairwise_cons.1 h).2
    unfold sortTie
    rw [ih]
    show insertTie Centroid.mean a (b :: l) = _
    unfold insertTie
    rw [if_pos ((List.pairwise_cons.1 h).1 b (by simp))]

theorem insertTie_last (y : Centroid K) : ∀ (l : List (Centroid K)), (∀ c ∈ l, c.mean < y.mean) →
    insertTie Centroid.mean y l = .ret (l ++ [y])
  | [], _ => rfl
  | a :: l, h => by
    have ih := insertTie_last y l (fun c hc => h c (by simp [hc]))
    have ha := h a (by simp)
    unfold insertTie
    rw [if_neg (not_lt.2 ha.le), if_pos ha, ih]
    rfl

theorem partition_strict : ∀ (runs : List (List (Centroid K))), (∀ r ∈ runs, r ≠ []) →
    (∀ r ∈ runs, ∀ c ∈ r, Good c) → runs.flatten.Pairwise (fun a b => a.mean.toK < b.mean.toK) →
    (runs.map weightedMean).Pairwise (fun a b => a.mean.toK < b.mean.toK)
  | [], _, _, _ => List.Pairwise.nil
  | r :: rs, hne, hg, hs => by
    rw [List.flatten_cons, List.pairwise_append] at hs
    obtain ⟨h1, h2, h3⟩ := hs
    rw [List.map_cons, List.pairwise_cons]
    refine ⟨?_, partition_strict rs (fun s hs => hne s (by simp [hs])) (fun s hs => hg s (by simp [hs])) h2⟩
    intro c hc
    obtain ⟨s, hs, rfl⟩ := List.mem_map.1 hc
    have hr := hne r (by simp)
    have hs' := hne s (by simp [hs])
    have a1 : (weightedMean r).mean.toK ≤ (r.getLast hr).mean.toK := by
      refine weightedMean_le (hg r (by simp)) hr ?_
      intro c hc
      have he := List.dropLast_append_getLast hr
      have hc' : c ∈ r.dropLast ++ [r.getLast hr] := by rw [he]; exact hc
      have h1' : (r.dropLast ++ [r.getLast hr]).Pairwise (fun a b => a.mean.toK < b.mean.toK) := by rw [he]; exact h1
      rcases List.mem_append.1 hc' with h5 | h5
      · exact ((List.pairwise_append.1 h1').2.2 c h5 _ (by simp)).le
      · rw [List.mem_singleton] at h5; rw [h5]
    have a2 : (s.head hs').mean.toK ≤ (weightedMean s).mean.toK := by
      refine le_weightedMean (hg s (by simp [hs])) hs' ?_
      intro c hc
      have hsp : s.Pairwise (fun a b => a.mean.toK < b.mean.toK) :=
        (List.pairwise_flatten.1 h2).1 s hs
      match s, hs', hc, hsp with
      | a :: t, _, hc, hsp =>
        rcases List.mem_cons.1 hc with rfl | hc
        · exact le_refl _
        · exact ((List.pairwise_cons.1 hsp).1 c hc).le
    have a3 := h3 _ (List.getLast_mem hr) _ (List.mem_flatten.2 ⟨s, hs, List.head_mem hs'⟩)
    linarith

theorem last_split {α : Type} {P : List (List α)} {A : List α} {x : α} (hne : ∀ r ∈ P, r ≠ []) (h : P.flatten = A ++ [x]) :
    ∃ P1 p0, P = P1 ++ [p0 ++ [x]] ∧ P1.flatten ++ p0 = A := by
  rcases List.eq_nil_or_concat P with rfl | ⟨P1, p, rfl⟩
  · simp at h
  · rcases List.eq_nil_or_concat p with rfl | ⟨p0, z, rfl⟩
    · exact absurd rfl (hne [] (by simp))
    · simp only [List.concat_eq_append, List.flatten_append, List.flatten_cons, List.flatten_nil, List.append_nil,
        ← List.append_assoc] at h
      obtain ⟨h1, h2⟩ := List.append_inj' h rfl
      simp only [List.cons.injEq, and_true] at h2
      subst h2
      exact ⟨P1, p0, by simp, h1⟩

/-- One `add` of an item right of all means, `k0`. -/
theorem add_last [FloatFmt.Exact K] {d : TDigest K} {δ : K} (hδ : 0 < δ) (hs : d.scaleFunc = k0) (hi : d.inverseScaleFunc = invK0)
    (hc : d.compressFactor = .fin δ) (hg : ∀ c ∈ d.centroids, Good c) (hst : Strict d.centroids) {y : K}
    (hy : ∀ c ∈ d.centroids, c.mean < .fin y) :
    ∃ (d' : TDigest K) (runs : List (List (Centroid K))), d.add (.fin y) = .ret d' ∧ d'.scaleFunc = k0 ∧
      d'.inverseScaleFunc = invK0 ∧ d'.compressFactor = .fin δ ∧ (∀ c ∈ d'.centroids, Good c) ∧ Strict d'.centroids ∧
      d'.centroids = runs.map weightedMean ∧ IsPartition runs (d.centroids ++ [⟨.fin y, .fin 1⟩]) ∧
      (∀ r ∈ runs, 2 ≤ r.length → totalW r ≤ 2 * (totalW d.centroids + 1) / δ) ∧
      (∀ pre r s post c, runs = pre ++ r :: s :: post → s.head? = some c →
        2 * (totalW d.centroids + 1) / δ < totalW r + c.weight.toK) := by
  have hu : unit (.fin y : Fl K) = ⟨.fin y, .fin 1⟩ := by simp [unit]
  set Y : Centroid K := ⟨.fin y, .fin 1⟩ with hY
  have hYg : Good Y := ⟨⟨_, rfl⟩, 1, zero_lt_one, rfl⟩
  have hlg : ∀ c ∈ d.centroids ++ [Y], Good c := by
    intro c hc
    rcases List.mem_append.1 hc with h | h
    · exact hg c h
    · rw [List.mem_singleton] at h; rw [h]; exact hYg
  obtain ⟨runs, h1, h2, h3, -, -⟩ := mergeSorted_spec d (d.centroids ++ [Y]) (by simp) hlg
  have htot : totalW (d.centroids ++ [Y]) = totalW d.centroids + 1 := by
    rw [totalW_append]; simp [hY, Fl.toK]
  have hpos : totalW d.centroids + 1 ≠ 0 := by
    have := totalW_nonneg hg; linarith
  have hrg : ∀ r ∈ runs, ∀ c ∈ r, Good c := fun r hr c hc => hlg c (h1.mem hr hc)
  have hadd : d.add (.fin y) = .ret (d.mergeSorted (d.centroids ++ [Y])) := by
    unfold add addCentroidBuffer
    have : sortUnstable Centroid.mean ([unit (.fin y)] ++ d.centroids) = .ret (d.centroids ++ [Y]) := by
      unfold sortUnstable
      rw [if_neg]
      · rw [hu]
        show (sortTie Centroid.mean d.centroids).bind _ = _
        rw [sortTie_strict _ hst]
        exact insertTie_last Y _ hy
      · rintro ⟨-, h⟩
        rw [List.any_eq_true] at h
        obtain ⟨c, hc, h⟩ := h
        rw [hu] at hc
        have : Good c := by
          rcases List.mem_append.1 hc with h | h
          · rw [List.mem_singleton] at h; rw [h]; exact hYg
          · exact hg c h
        rw [this.mean] at h
        simp [Fl.isNan] at h
    rw [this]; rfl
  have hms : ∀ l, (d.mergeSorted l).scaleFunc = d.scaleFunc ∧ (d.mergeSorted l).inverseScaleFunc = d.inverseScaleFunc ∧
      (d.mergeSorted l).compressFactor = d.compressFactor := by
    intro l; cases l <;> exact ⟨rfl, rfl, rfl⟩
  have hpst : (d.centroids ++ [Y]).Pairwise (fun a b => a.mean.toK < b.mean.toK) := by
    rw [List.pairwise_append]
    refine ⟨?_, by simp, ?_⟩
    · refine List.Pairwise.imp_of_mem ?_ hst
      intro a b ha hb hab
      rw [(hg a ha).mean, (hg b hb).mean] at hab
      simpa using hab
    · intro a ha b hb
      rw [List.mem_singleton] at hb
      have := hy a ha
      rw [(hg a ha).mean] at this
      rw [hb]
      simpa [hY, Fl.toK] using this
  have hwg : ∀ c ∈ runs.map weightedMean, Good c := by
    intro c hc
    obtain ⟨r, hr, rfl⟩ := List.mem_map.1 hc
    exact weightedMean_good (hrg r hr) (h1.2 r hr)
  refine ⟨_, runs, hadd, ?_, ?_, ?_, ?_, ?_, h2, h1, ?_, ?_⟩
  · rw [(hms _).1, hs]
  · rw [(hms _).2.1, hi]
  · rw [(hms _).2.2, hc]
  · rw [h2]; exact hwg
  · rw [h2]
    have := partition_strict runs h1.2 hrg (by rw [h1.1]; exact hpst)
    refine List.Pairwise.imp_of_mem ?_ this
    intro a b ha hb hab
    rw [(hwg a ha).mean, (hwg b hb).mean]
    simpa using hab
  · intro r hr h2r
    obtain ⟨pre, post, he⟩ := List.append_of_mem hr
    have h4 := (h3 pre r post he).1 h2r
    rw [List.nil_append, htot, runLimit_eq _ _ hpos, hs, hi, hc, sizeLimit_k0 hδ.ne' hpos, Fl.le_fin] at h4
    exact of_decide_eq_true h4
  · intro pre r s post c he hsc
    have h4 := (h3 pre r (s :: post) he).2 s post c rfl hsc
    rw [List.nil_append, htot, runLimit_eq _ _ hpos, hs, hi, hc, sizeLimit_k0 hδ.ne' hpos, Fl.le_fin] at h4
    simpa using h4

/-- The state of the attack after the items `ys`: `m` is the last mean, all misplaced items are at least `u`. -/
structure Adv (δ L n0 : K) (d : TDigest K) (ys : List K) (m u : K) : Prop where
  sf : d.scaleFunc = k0
  inv : d.inverseScaleFunc = invK0
  cf : d.compressFactor = .fin δ
  good : ∀ c ∈ d.centroids, Good c
  strict : Strict d.centroids
  total : totalW d.centroids = len ys
  weight : ∀ c ∈ d.centroids, c.weight.toK ≤ Max.max 1 (2 * len ys / δ)
  gap : m < u
  sep : ∀ y ∈ ys, y ≤ m ∨ u ≤ y
  range : (∀ y ∈ ys, 0 ≤ y ∧ y ≤ 2) ∧ 0 ≤ m ∧ u ≤ 2
  phase : ∃ (front : List (Centroid K)) (f l : Centroid K), d.centroids = front ++ [f, l] ∧ l.mean = .fin m ∧
    ((l.weight.toK = 1 ∧ 2 * len ys / δ < f.weight.toK + l.weight.toK ∧
        L * les m ys ≤ L * n0 + 2 * (len ys - l.weight.toK) + L) ∨
     (2 * len ys / δ + 1 - 2 / δ < f.weight.toK + l.weight.toK ∧
        L * les m ys ≤ L * n0 + 2 * (len ys - l.weight.toK) + 2 * L))

theorem les_same {ys : List K} {m m' u : K} (hs : ∀ y ∈ ys, y ≤ m ∨ u ≤ y) (h1 : m ≤ m') (h2 : m' < u) :
    les m' ys = les m ys := by
  unfold les
  congr 1
  apply List.countP_congr
  intro y hy
  simp only [decide_eq_true_eq]
  constructor
  · intro h
    rcases hs y hy with h3 | h3
    · exact h3
    · exact absurd (h3.trans h) (not_le.2 h2)
  · intro h; exact h.trans h1

theorem Adv.step [FloatFmt.Exact K] {δ L : K} {n0 : ℕ} {d : TDigest K} {ys : List K} {m u : K} (hδ : 4 ≤ δ) (hL : 1 ≤ L)
    (hn0 : L + 1 ≤ 2 * n0 / δ) (h : Adv δ L n0 d ys m u) :
    ∃ d' y m' u', d.add (.fin y) = .ret d' ∧ Adv δ L n0 d' (ys ++ [y]) m' u' := by
  have hδ0 : 0 < δ := by linarith
  obtain ⟨front, f, l, hcs, hlm, hph⟩ := h.phase
  have hfm : f ∈ d.centroids := by rw [hcs]; simp
  have hlmem : l ∈ d.centroids := by rw [hcs]; simp
  set y := (m + u) / 2 with hy
  have hmy : m < y := by have := h.gap; rw [hy]; linarith
  have hyu : y < u := by have := h.gap; rw [hy]; linarith
  have hright : ∀ c ∈ d.centroids, c.mean < .fin y := by
    intro c hc
    have hst := h.strict
    rw [hcs] at hc hst
    have : c.mean ≤ l.mean := by
      have e : front ++ [f, l] = (front ++ [f]) ++ [l] := by simp
      unfold Strict at hst
      rw [e] at hc hst
      rcases List.mem_append.1 hc with hc | hc
      · exact ((List.pairwise_append.1 hst).2.2 c hc l (by simp)).le
      · rw [List.mem_singleton] at hc; rw [hc]
    rw [hlm] at this
    exact lt_of_le_of_lt this (by simpa using hmy)
  obtain ⟨d', runs, hadd, i1, i2, i3, i4, i5, i6, i7, i8, i9⟩ := add_last hδ0 h.sf h.inv h.cf h.good h.strict hright
  rw [h.total] at i8 i9
  set Y : Centroid K := ⟨.fin y, .fin 1⟩ with hY
  have hYw : Y.weight.toK = 1 := rfl
  set n := len ys with hn
  have hlen' : len (ys ++ [y]) = n + 1 := by rw [len_append]; simp [len, hn]
  have hn00 : 0 ≤ n := len_nonneg ys
  have hrg : ∀ r ∈ runs, ∀ c ∈ r, Good c := by
    intro r hr c hc
    rcases List.mem_append.1 (i7.mem hr hc) with hc | hc
    · exact h.good c hc
    · rw [List.mem_singleton] at hc; rw [hc]; exact ⟨⟨_, rfl⟩, 1, zero_lt_one, rfl⟩
  have htot' : totalW d'.centroids = len (ys ++ [y]) := by
    rw [i6, partition_totalW, i7.1, totalW_append, h.total, hlen', totalW_cons, totalW_nil, hYw, add_zero]
  have hell : 2 * (n + 1) / δ = 2 * n / δ + 2 / δ := by ring
  have h2δ : 2 / δ ≤ 1 / 2 := by rw [div_le_iff₀ hδ0]; linarith
  have h2δ0 : 0 < 2 / δ := by positivity
  have hw' : ∀ c ∈ d'.centroids, c.weight.toK ≤ Max.max 1 (2 * len (ys ++ [y]) / δ) := by
    rw [i6, hlen']
    intro c hc
    obtain ⟨r, hr, rfl⟩ := List.mem_map.1 hc
    show totalW r ≤ _
    by_cases h2 : 2 ≤ r.length
    · exact le_max_of_le_right (i8 r hr h2)
    · have hne := i7.2 r hr
      match r, hne, h2, hr with
      | [c], _, _, hr =>
        have : c.weight.toK ≤ Max.max 1 (2 * n / δ) := by
          rcases List.mem_append.1 (i7.mem hr (List.mem_singleton.2 rfl)) with hc | hc
          · exact h.weight c hc
          · rw [List.mem_singleton] at hc; rw [hc, hYw]; exact le_max_left _ _
        simp only [totalW_cons, totalW_nil, add_zero]
        refine this.trans (max_le_max (le_refl _) ?_)
        rw [hell]; linarith
      | _ :: _ :: _, _, h2, _ => simp at h2
  have hlw0 : 0 < l.weight.toK := (h.good l hlmem).weight_pos
  have hfw0 : 0 < f.weight.toK := (h.good f hfm).weight_pos
  have hlwn : l.weight.toK ≤ n := by
    rw [hn, ← h.total, hcs, totalW_append]
    have : 0 ≤ totalW front := totalW_nonneg (fun c hc => h.good c (by rw [hcs]; simp [hc]))
    simp only [totalW_cons, totalW_nil, add_zero]
    linarith
  have hrange' : ∀ z ∈ ys ++ [y], 0 ≤ z ∧ z ≤ 2 := by
    intro z hz
    rcases List.mem_append.1 hz with hz | hz
    · exact h.range.1 z hz
    · rw [List.mem_singleton] at hz
      have := h.range.2.1
      have := h.range.2.2
      rw [hz]; constructor <;> linarith
  have hles : ∀ m', m ≤ m' → m' < u → les m' (ys ++ [y]) = les m ys + if y ≤ m' then 1 else 0 := by
    intro m' h1 h2
    rw [les_append, les_same h.sep h1 h2]
    congr 1
    unfold les
    rw [List.countP_singleton]
    by_cases h5 : y ≤ m'
    · rw [if_pos h5, if_pos (decide_eq_true h5)]; simp
    · rw [if_neg h5, if_neg (by simpa using h5)]; simp
  have hcount : ∀ m', les m' (ys ++ [y]) ≤ n + 1 := fun m' => by rw [← hlen']; exact les_le_len _ _
  -- a small number of items so far makes the count bound trivial
  have small : n < n0 → ∀ m' w, w ≤ n + 1 → L * les m' (ys ++ [y]) ≤ L * n0 + 2 * (n + 1 - w) := by
    intro hlt m' w hw
    have hnat : n + 1 ≤ n0 := by
      rw [hn] at hlt ⊢
      unfold len at hlt ⊢
      have : ys.length < n0 := by exact_mod_cast hlt
      exact_mod_cast this
    have := mul_le_mul_of_nonneg_left ((hcount m').trans hnat) (by linarith : 0 ≤ L)
    linarith
  have large : ¬ n < n0 → L + 1 ≤ 2 * (n + 1) / δ := by
    intro hge
    have : 2 * (n0 : K) / δ ≤ 2 * (n + 1) / δ := by
      apply div_le_div_of_nonneg_right _ hδ0.le
      linarith [not_lt.1 hge]
    linarith
  have hne := i7.2
  have hfl := i7.1
  rw [hcs] at hfl
  obtain ⟨P, r0, hruns, hP⟩ := last_split (A := front ++ [f, l]) hne hfl
  have hPne : ∀ r ∈ P, r ≠ [] := fun r hr => hne r (by rw [hruns]; simp [hr])
  rcases List.eq_nil_or_concat r0 with rfl | ⟨r00, z, rfl⟩
  · -- the item stays alone
    rw [List.append_nil] at hP
    obtain ⟨P1, p0, hPP, hP1⟩ := last_split (A := front ++ [f]) (x := l) hPne (by rw [hP]; simp)
    have hruns' : runs = P1 ++ (p0 ++ [l]) :: [Y] :: [] := by rw [hruns, hPP]; simp
    have hlim := i9 P1 (p0 ++ [l]) [Y] [] Y hruns' rfl
    rw [hYw] at hlim
    have hcs' : d'.centroids = P1.map weightedMean ++ [weightedMean (p0 ++ [l]), weightedMean [Y]] := by
      rw [i6, hruns']; simp
    have hwY : weightedMean [Y] = (⟨.fin y, .fin 1⟩ : Centroid K) := by
      unfold weightedMean; simp [hY, Fl.toK]
    have hlesy : les y (ys ++ [y]) = les m ys + 1 := by rw [hles y hmy.le hyu, if_pos (le_refl y)]
    have hp0g : ∀ c ∈ p0, Good c := fun c hc => hrg (p0 ++ [l]) (by rw [hruns']; simp) c (by simp [hc])
    refine ⟨d', y, y, u, hadd, ⟨i1, i2, i3, i4, i5, htot', hw', hyu, ?_, ⟨hrange', by have := h.range.2.1; linarith, h.range.2.2⟩,
      P1.map weightedMean, weightedMean (p0 ++ [l]), weightedMean [Y], hcs', by rw [hwY], ?_⟩⟩
    · intro x hx
      rcases List.mem_append.1 hx with hx | hx
      · rcases h.sep x hx with h1 | h1
        · exact Or.inl (by linarith)
        · exact Or.inr h1
      · rw [List.mem_singleton] at hx; exact Or.inl hx.le
    · have e1 : (weightedMean [Y]).weight.toK = 1 := by rw [hwY]; rfl
      have e2 : (weightedMean (p0 ++ [l])).weight.toK = totalW (p0 ++ [l]) := rfl
      rw [e1, e2, hlen', hlesy]
      have e3 : totalW (p0 ++ [l]) = totalW p0 + l.weight.toK := by simp [totalW_append]
      have hsm := fun hlt => small hlt y 1 (by linarith)
      rw [hlesy] at hsm
      rcases List.eq_nil_or_concat p0 with rfl | ⟨q, z, rfl⟩
      · -- the last centroid was full
        left
        refine ⟨rfl, hlim, ?_⟩
        by_cases hlt : n < n0
        · have := hsm hlt
          linarith
        · have hlg := large hlt
          simp only [List.nil_append, totalW_cons, totalW_nil, add_zero] at hlim
          rcases hph with ⟨h1, h2, h3⟩ | ⟨h2, h3⟩
          · exfalso; linarith
          · have : L ≤ l.weight.toK := by linarith
            linarith
      · -- the last centroid was absorbed by its neighbour
        right
        rw [List.concat_eq_append, ← List.append_assoc] at hP1
        obtain ⟨-, hz⟩ := List.append_inj' hP1 rfl
        simp only [List.cons.injEq, and_true] at hz
        subst hz
        have e4 : totalW ((q.concat z) ++ [l]) = totalW q + z.weight.toK + l.weight.toK := by
          simp [totalW_append, add_assoc]
        have hq0 : 0 ≤ totalW q := totalW_nonneg (fun c hc => hp0g c (by simp [hc]))
        have h8 := i8 (q.concat z ++ [l]) (by rw [hruns']; simp) (by simp)
        rw [e4] at h8 ⊢
        rw [hell] at h8
        rcases hph with ⟨h1, h2, h3⟩ | ⟨h2, h3⟩
        · constructor
          · rw [hell]; linarith
          · by_cases hlt : n < n0
            · have := hsm hlt; linarith
            · linarith
        · exfalso; linarith
  · -- the item joins the last centroid
    rw [List.concat_eq_append, ← List.append_assoc, show front ++ [f, l] = (front ++ [f]) ++ [l] by simp] at hP
    obtain ⟨hP1, hz⟩ := List.append_inj' hP rfl
    simp only [List.cons.injEq, and_true] at hz
    subst hz
    have hr00g : ∀ c ∈ r00, Good c := fun c hc => hrg (r00.concat z ++ [Y]) (by rw [hruns]; simp) c (by simp [hc])
    have hjoin : 2 * n / δ < f.weight.toK + z.weight.toK := by
      rcases hph with ⟨h1, h2, h3⟩ | ⟨h2, h3⟩
      · exact h2
      · linarith
    rcases List.eq_nil_or_concat r00 with rfl | ⟨q, x, rfl⟩
    swap
    · exfalso
      rw [List.concat_eq_append, ← List.append_assoc] at hP1
      obtain ⟨-, hz⟩ := List.append_inj' hP1 rfl
      simp only [List.cons.injEq, and_true] at hz
      subst hz
      have h8 := i8 ((q.concat x).concat z ++ [Y]) (by rw [hruns]; simp) (by simp)
      have e4 : totalW ((q.concat x).concat z ++ [Y]) = totalW q + x.weight.toK + z.weight.toK + 1 := by
        simp [totalW_append, add_assoc, hYw]
      have hq0 : 0 ≤ totalW q := totalW_nonneg (fun c hc => hr00g c (by simp [hc]))
      rw [e4, hell] at h8
      linarith
    · rw [List.append_nil] at hP1
      obtain ⟨P1, p0, hPP, hP2⟩ := last_split (A := front) (x := f) hPne hP1
      have hruns' : runs = P1 ++ (p0 ++ [f]) :: [z, Y] :: [] := by rw [hruns, hPP]; simp
      have hcs' : d'.centroids = P1.map weightedMean ++ [weightedMean (p0 ++ [f]), weightedMean [z, Y]] := by
        rw [i6, hruns']; simp
      have hp0g : ∀ c ∈ p0, Good c := fun c hc => hrg (p0 ++ [f]) (by rw [hruns']; simp) c (by simp [hc])
      set w := z.weight.toK with hw
      set m' := (m * w + y) / (w + 1) with hm'
      have hw1 : 0 < w + 1 := by linarith
      have hmm' : m < m' := by rw [hm', lt_div_iff₀ hw1]; linarith
      have hm'y : m' < y := by rw [hm', div_lt_iff₀ hw1]; nlinarith
      have hwz : weightedMean [z, Y] = (⟨.fin m', .fin (w + 1)⟩ : Centroid K) := by
        unfold weightedMean
        simp only [totalW_cons, totalW_nil, totalMass_cons, totalMass_nil, add_zero, hYw, ← hw]
        rw [hlm]
        simp [hY, Fl.toK, hm']
      have hlesy : les m' (ys ++ [y]) = les m ys := by
        rw [hles m' hmm'.le (by linarith), if_neg (not_le.2 hm'y), add_zero]
      have h8 := i8 [z, Y] (by rw [hruns']; simp) (by simp)
      refine ⟨d', y, m', y, hadd, ⟨i1, i2, i3, i4, i5, htot', hw', hm'y, ?_, ⟨hrange', by have := h.range.2.1; linarith,
        by have := h.range.2.2; linarith⟩, P1.map weightedMean, weightedMean (p0 ++ [f]), weightedMean [z, Y], hcs', by rw [hwz], ?_⟩⟩
      · intro x hx
        rcases List.mem_append.1 hx with hx | hx
        · rcases h.sep x hx with h1 | h1
          · exact Or.inl (by linarith)
          · exact Or.inr (by linarith)
        · rw [List.mem_singleton] at hx; exact Or.inr hx.ge
      · right
        have e1 : (weightedMean [z, Y]).weight.toK = w + 1 := by rw [hwz]; rfl
        have e2 : (weightedMean (p0 ++ [f])).weight.toK = totalW p0 + f.weight.toK := by
          show totalW (p0 ++ [f]) = _
          simp [totalW_append]
        have hp0 : 0 ≤ totalW p0 := totalW_nonneg hp0g
        rw [e1, e2, hlen', hlesy, hell]
        constructor
        · linarith
        · rcases hph with ⟨h1, h2, h3⟩ | ⟨h2, h3⟩ <;> linarith

theorem execOps_snoc (o : TOp K) : ∀ (ops : List (TOp K)) (d : TDigest K),
    d.execOps (ops ++ [o]) = (d.execOps ops).bind (fun d' => o.exec d')
  | [], d => by
    show (o.exec d).bind _ = o.exec d
    exact bind_ret_right _
  | p :: ps, d => by
    show (p.exec d >>= fun d' => d'.execOps (ps ++ [o])) = ((p.exec d >>= fun d' => d'.execOps ps) >>= fun d' => o.exec d')
    rw [bind_assoc]
    congr 1
    funext d'
    exact execOps_snoc o ps d'

/-- The history adding the items of `ys` one by one. -/
def adds (ys : List K) : List (TOp K) := ys.map (fun y => .add (.fin y))

theorem adv_base [FloatFmt.Exact K] {δ L : K} {n0 : ℕ} (hδ : 4 ≤ δ) (hL : 1 ≤ L) (hn0 : 2 ≤ n0) :
    ∃ d, (TDigest.new k0 invK0 (.fin δ)).execOps (adds [0, 1]) = .ret d ∧ Adv δ L (n0 : K) d [0, 1] 1 2 := by
  have hδ0 : 0 < δ := by linarith
  obtain ⟨d1, runs, hadd, i1, i2, i3, i4, i5, i6, i7, i8, i9⟩ := add_last (d := TDigest.new k0 invK0 (.fin δ)) (y := (0 : K)) hδ0 rfl rfl rfl
    (by simp [TDigest.new]) (by simp [TDigest.new, Strict]) (by simp [TDigest.new])
  have hnil : (TDigest.new k0 invK0 (.fin δ) : TDigest K).centroids = [] := rfl
  rw [hnil, List.nil_append] at i7
  have hone : ∀ y : K, weightedMean [(⟨.fin y, .fin 1⟩ : Centroid K)] = ⟨.fin y, .fin 1⟩ := by
    intro y; unfold weightedMean; simp [Fl.toK]
  have hr1 : runs = [[⟨.fin 0, .fin 1⟩]] := by
    obtain ⟨P, r0, h1, h2⟩ := last_split (A := []) (x := (⟨.fin 0, .fin 1⟩ : Centroid K)) i7.2 i7.1
    rw [List.append_eq_nil_iff] at h2
    obtain ⟨h3, rfl⟩ := h2
    have : P = [] := by
      rcases P with _ | ⟨p, P⟩
      · rfl
      · exfalso
        apply i7.2 p (by rw [h1]; simp)
        simp only [List.flatten_cons, List.append_eq_nil_iff] at h3
        exact h3.1
    rw [h1, this]; rfl
  have hc1 : d1.centroids = [⟨.fin 0, .fin 1⟩] := by rw [i6, hr1]; simp [hone]
  obtain ⟨d2, runs2, hadd2, j1, j2, j3, j4, j5, j6, j7, j8, j9⟩ := add_last (y := (1 : K)) hδ0 i1 i2 i3 i4 i5
    (by rw [hc1]; intro c hc; rw [List.mem_singleton] at hc; rw [hc]; simp)
  rw [hc1] at j7 j8 j9
  have ht : totalW [(⟨.fin 0, .fin 1⟩ : Centroid K)] = 1 := by simp [totalW_cons, Fl.toK]
  rw [ht] at j8 j9
  have hr2 : runs2 = [[⟨.fin 0, .fin 1⟩], [⟨.fin 1, .fin 1⟩]] := by
    obtain ⟨P, r0, h1, h2⟩ := last_split (A := [⟨.fin 0, .fin 1⟩]) (x := (⟨.fin 1, .fin 1⟩ : Centroid K)) j7.2 j7.1
    have hPne : ∀ r ∈ P, r ≠ [] := fun r hr => j7.2 r (by rw [h1]; simp [hr])
    rcases List.eq_nil_or_concat r0 with rfl | ⟨q, z, rfl⟩
    · rw [List.append_nil] at h2
      obtain ⟨P1, p0, h3, h4⟩ := last_split (A := []) hPne h2
      rw [List.append_eq_nil_iff] at h4
      obtain ⟨h5, rfl⟩ := h4
      have : P1 = [] := by
        rcases P1 with _ | ⟨p, P'⟩
        · rfl
        · exfalso
          apply hPne p (by rw [h3]; simp)
          simp only [List.flatten_cons, List.append_eq_nil_iff] at h5
          exact h5.1
      rw [h1, h3, this]; rfl
    · exfalso
      have h3 := j8 (q.concat z ++ [⟨.fin 1, .fin 1⟩]) (by rw [h1]; simp) (by simp)
      have hz : z = ⟨.fin 0, .fin 1⟩ := by
        have : z ∈ [(⟨.fin 0, .fin 1⟩ : Centroid K)] := by rw [← h2]; simp
        simpa using this
      have hq : 0 ≤ totalW q := by
        apply totalW_nonneg
        intro c hc
        have : c ∈ [(⟨.fin 0, .fin 1⟩ : Centroid K)] := by rw [← h2]; simp [hc]
        rw [List.mem_singleton] at this
        rw [this]; exact ⟨⟨_, rfl⟩, 1, zero_lt_one, rfl⟩
      have e : totalW (q.concat z ++ [(⟨.fin 1, .fin 1⟩ : Centroid K)]) = totalW q + 1 + 1 := by
        rw [hz]; simp [totalW_append, totalW_cons, Fl.toK, add_assoc]
      rw [e, le_div_iff₀ hδ0] at h3
      nlinarith
  have hc2 : d2.centroids = [⟨.fin 0, .fin 1⟩, ⟨.fin 1, .fin 1⟩] := by rw [j6, hr2]; simp [hone]
  have hlen : len ([0, 1] : List K) = 2 := by simp [len]
  have hles : les (1 : K) [0, 1] = 2 := by simp [les]
  refine ⟨d2, ?_, ⟨j1, j2, j3, j4, j5, ?_, ?_, by norm_num, ?_, ⟨?_, by norm_num, le_refl _⟩, [], ⟨.fin 0, .fin 1⟩, ⟨.fin 1, .fin 1⟩, hc2, rfl, ?_⟩⟩
  · show ((TDigest.new k0 invK0 (.fin δ)).add (.fin 0)).bind (fun d' => (d'.add (.fin 1)).bind (fun d'' => .ret d'')) = _
    rw [hadd]
    show (d1.add (.fin 1)).bind _ = _
    rw [hadd2]; rfl
  · rw [hc2, hlen]; simp [totalW_cons, Fl.toK]; norm_num
  · rw [hc2]
    intro c hc
    simp only [List.mem_cons, List.not_mem_nil, or_false] at hc
    rcases hc with rfl | rfl <;> exact le_max_left _ _
  · intro y hy
    simp only [List.mem_cons, List.not_mem_nil, or_false] at hy
    rcases hy with rfl | rfl <;> left <;> norm_num
  · intro y hy
    simp only [List.mem_cons, List.not_mem_nil, or_false] at hy
    rcases hy with rfl | rfl <;> constructor <;> norm_num
  · left
    have e : (Fl.fin (1 : K)).toK = 1 := rfl
    simp only [e]
    rw [hlen, hles]
    have hn0' : (2 : K) ≤ n0 := by exact_mod_cast hn0
    refine ⟨trivial, ?_, by nlinarith⟩
    rw [div_lt_iff₀ hδ0]; linarith

theorem adv_run [FloatFmt.Exact K] {δ L : K} {n0 : ℕ} (hδ : 4 ≤ δ) (hL : 1 ≤ L) (h2 : 2 ≤ n0) (hn0 : L + 1 ≤ 2 * n0 / δ) (k : ℕ) :
    ∃ d ys m u, ys.length = k + 2 ∧ (TDigest.new k0 invK0 (.fin δ)).execOps (adds ys) = .ret d ∧ Adv δ L (n0 : K) d ys m u := by
  induction k with
  | zero =>
    obtain ⟨d, h1, h3⟩ := adv_base (L := L) (n0 := n0) hδ hL h2
    exact ⟨d, [0, 1], 1, 2, rfl, h1, h3⟩
  | succ k ih =>
    obtain ⟨d, ys, m, u, h1, h3, h4⟩ := ih
    obtain ⟨d', y, m', u', h5, h6⟩ := h4.step hδ hL hn0
    refine ⟨d', ys ++ [y], m', u', by simp [h1], ?_, h6⟩
    unfold adds
    rw [List.map_append, List.map_cons, List.map_nil, execOps_snoc]
    show ((TDigest.new k0 invK0 (.fin δ)).execOps (adds ys)).bind _ = _
    rw [h3]
    exact h5

end TDigest
end AQ

/-
TDigest: invariant over histories of insertions.
-/
import Verif.Proofs.TDMerge
import Verif.Spec.TDigest

set_option linter.unusedSectionVars false
set_option linter.unusedVariables false

namespace AQ
open Prog Spec
variable {K : Type} [Field K] [LinearOrder K] [IsStrictOrderedRing K] [FloatFmt K]

namespace TDigest

/-- Relation between a digest, whose centroids need not be sorted, and what was supplied to it. -/
structure CInv (d : TDigest K) (sup : List (Centroid K)) : Prop where
  good : ∀ c ∈ d.centroids, Good c
  weight : totalW d.centroids = totalW sup
  mass : totalMass d.centroids = totalMass sup
  empty : d.centroids = [] ↔ sup = []
  minmax_nil : sup = [] → d.min = Fl.maxValue ∧ d.max = Fl.minValue
  min_eq : sup ≠ [] → IsMinMean sup d.min
  max_eq : sup ≠ [] → IsMaxMean sup d.max
  min_le : ∀ c ∈ d.centroids, d.min ≤ c.mean
  le_max : ∀ c ∈ d.centroids, c.mean ≤ d.max
  closed : ∀ P : K → Prop, (∀ a b, P a → P b → P (a + b)) → (∀ c ∈ sup, P c.weight.toK) → ∀ c ∈ d.centroids, P c.weight.toK

/-- Relation between a digest and what was supplied to it by `add`, `add_buffer` and `add_centroid_buffer`. -/
structure Inv (d : TDigest K) (sup : List (Centroid K)) : Prop extends CInv d sup where
  sorted : d.centroids.Pairwise (fun a b => a.mean.toK ≤ b.mean.toK)

theorem new_inv (s i : ScaleFn K) (cf : Fl K) : (TDigest.new s i cf).Inv [] where
  good := by simp [TDigest.new]
  sorted := by simp [TDigest.new]
  weight := rfl
  mass := rfl
  empty := by simp [TDigest.new]
  minmax_nil := fun _ => ⟨rfl, rfl⟩
  min_eq := fun h => absurd rfl h
  max_eq := fun h => absurd rfl h
  min_le := by simp [TDigest.new]
  le_max := by simp [TDigest.new]
  closed := by simp [TDigest.new]

theorem good_sup_min {d : TDigest K} {sup : List (Centroid K)} (h : d.CInv sup) (hs : ∀ c ∈ sup, Good c) (hne : sup ≠ []) :
    d.min.IsFin ∧ d.max.IsFin := by
  obtain ⟨⟨c, hc, h1⟩, -⟩ := h.min_eq hne
  obtain ⟨⟨e, he, h2⟩, -⟩ := h.max_eq hne
  rw [← h1, ← h2]
  exact ⟨(hs c hc).1, (hs e he).1⟩

theorem head_le {l : List (Centroid K)} (hne : l ≠ []) (hs : l.Pairwise (fun a b => a.mean ≤ b.mean)) :
    ∀ c ∈ l, (l.head hne).mean ≤ c.mean := by
  cases l with
  | nil => exact absurd rfl hne
  | cons a l =>
    intro c hc
    rcases List.mem_cons.1 hc with rfl | hc
    · exact le_refl _
    · exact (List.pairwise_cons.1 hs).1 c hc

theorem le_getLast {l : List (Centroid K)} (hne : l ≠ []) (hs : l.Pairwise (fun a b => a.mean ≤ b.mean)) :
    ∀ c ∈ l, c.mean ≤ (l.getLast hne).mean := by
  intro c hc
  rw [← List.dropLast_append_getLast hne] at hc hs
  rcases List.mem_append.1 hc with hc | hc
  · exact (List.pairwise_append.1 hs).2.2 c hc _ (by simp)
  · rw [List.mem_singleton] at hc; rw [← hc]

theorem addCentroidBuffer_inv [FloatFmt.Exact K] {d : TDigest K} {sup batch : List (Centroid K)} (h : d.CInv sup)
    (hsup : ∀ c ∈ sup, Good c) (hb : ∀ c ∈ batch, Good c) (hr : ∀ c ∈ batch, InRange c) :
    Always (d.addCentroidBuffer batch) (fun d' => d'.Inv (sup ++ batch)) := by
  by_cases hne : batch ++ d.centroids = []
  · rw [List.append_eq_nil_iff] at hne
    obtain ⟨rfl, h2⟩ := hne
    rw [addCentroidBuffer_nil d h2, List.append_nil]
    exact ⟨h, by rw [h2]; exact List.Pairwise.nil⟩
  refine (d.addCentroidBuffer_spec batch h.good hb hne).mono ?_
  rintro d' ⟨l, runs, hl, h1, h2, h3, h4, -, h5, h6, -⟩
  have hlg : ∀ c ∈ l, Good c := by
    intro c hc
    rcases List.mem_append.1 (h1.mem_iff.1 hc) with hc | hc
    · exact hb c hc
    · exact h.good c hc
  have hrg : ∀ r ∈ runs, ∀ c ∈ r, Good c := fun r hr c hc => hlg c (h3.mem hr hc)
  have hmem : ∀ c ∈ d'.centroids, ∃ r ∈ runs, weightedMean r = c := by
    intro c hc
    rw [h4] at hc
    obtain ⟨r, hr, rfl⟩ := List.mem_map.1 hc
    exact ⟨r, hr, rfl⟩
  have hlsorted : l.Pairwise (fun a b => a.mean.toK ≤ b.mean.toK) := by
    refine h2.imp_of_mem ?_
    intro a b ha hb' hab
    rw [(hlg a ha).mean, (hlg b hb').mean] at hab
    simpa [Fl.toK] using hab
  have hsne : sup ++ batch ≠ [] := by
    intro h'
    rw [List.append_eq_nil_iff] at h'
    exact hne (by rw [h'.2, h.empty.2 h'.1]; rfl)
  have hheadmem : l.head hl ∈ batch ++ d.centroids := h1.mem_iff.1 (List.head_mem hl)
  have hlastmem : l.getLast hl ∈ batch ++ d.centroids := h1.mem_iff.1 (List.getLast_mem hl)
  have hhead := head_le hl h2
  have hlast := le_getLast hl h2
  have hdmin : d.min ≠ .nan ∧ d.max ≠ .nan := by
    by_cases hs : sup = []
    · rw [(h.minmax_nil hs).1, (h.minmax_nil hs).2]; simp [Fl.maxValue, Fl.minValue]
    · obtain ⟨⟨a, ha⟩, ⟨b, hb⟩⟩ := good_sup_min h hsup hs
      rw [ha, hb]; simp
  have hmin : d'.min = Min.min d.min (l.head hl).mean := by
    rw [h5, Fl.fmin_eq hdmin.1 (hlg _ (List.head_mem hl)).mean_ne_nan]
  have hmax : d'.max = Max.max d.max (l.getLast hl).mean := by
    rw [h6, Fl.fmax_eq hdmin.2 (hlg _ (List.getLast_mem hl)).mean_ne_nan]
  have hminmean : IsMinMean (sup ++ batch) d'.min := by
    constructor
    · rw [hmin]
      by_cases hs : sup = []
      · have hc := h.empty.2 hs
        rw [hc, List.append_nil] at hheadmem
        rw [(h.minmax_nil hs).1, min_eq_right (hr _ hheadmem).2]
        exact ⟨_, List.mem_append_right _ hheadmem, rfl⟩
      · obtain ⟨⟨c, hc, h7⟩, -⟩ := h.min_eq hs
        rcases List.mem_append.1 hheadmem with h8 | h8
        · rcases min_choice d.min (l.head hl).mean with h9 | h9 <;> rw [h9]
          · exact ⟨c, List.mem_append_left _ hc, h7⟩
          · exact ⟨_, List.mem_append_right _ h8, rfl⟩
        · rw [min_eq_left (h.min_le _ h8)]
          exact ⟨c, List.mem_append_left _ hc, h7⟩
    · intro c hc
      rw [hmin]
      rcases List.mem_append.1 hc with hc | hc
      · exact (min_le_left _ _).trans ((h.min_eq (List.ne_nil_of_mem hc)).2 c hc)
      · exact (min_le_right _ _).trans (hhead c (h1.mem_iff.2 (List.mem_append_left _ hc)))
  have hmaxmean : IsMaxMean (sup ++ batch) d'.max := by
    constructor
    · rw [hmax]
      by_cases hs : sup = []
      · have hc := h.empty.2 hs
        rw [hc, List.append_nil] at hlastmem
        rw [(h.minmax_nil hs).2, max_eq_right (hr _ hlastmem).1]
        exact ⟨_, List.mem_append_right _ hlastmem, rfl⟩
      · obtain ⟨⟨c, hc, h7⟩, -⟩ := h.max_eq hs
        rcases List.mem_append.1 hlastmem with h8 | h8
        · rcases max_choice d.max (l.getLast hl).mean with h9 | h9 <;> rw [h9]
          · exact ⟨c, List.mem_append_left _ hc, h7⟩
          · exact ⟨_, List.mem_append_right _ h8, rfl⟩
        · rw [max_eq_left (h.le_max _ h8)]
          exact ⟨c, List.mem_append_left _ hc, h7⟩
    · intro c hc
      rw [hmax]
      rcases List.mem_append.1 hc with hc | hc
      · exact ((h.max_eq (List.ne_nil_of_mem hc)).2 c hc).trans (le_max_left _ _)
      · exact (hlast c (h1.mem_iff.2 (List.mem_append_left _ hc))).trans (le_max_right _ _)
  have hgood' : ∀ c ∈ d'.centroids, Good c := by
    intro c hc
    obtain ⟨r, hr', rfl⟩ := hmem c hc
    exact weightedMean_good (hrg r hr') (h3.2 r hr')
  refine ⟨⟨hgood', ?_, ?_, ?_, fun h' => absurd h' hsne, fun _ => hminmean, fun _ => hmaxmean, ?_, ?_, ?_⟩, by
    rw [h4]
    exact partition_sorted runs h3.2 hrg (by rw [h3.1]; exact hlsorted)⟩
  · rw [h4, partition_totalW, h3.1, totalW_perm h1, totalW_append, totalW_append, h.weight, add_comm]
  · rw [h4, partition_totalMass runs h3.2 hrg, h3.1, totalMass_perm h1, totalMass_append, totalMass_append, h.mass, add_comm]
  · refine ⟨fun h' => ?_, fun h' => absurd h' hsne⟩
    exfalso
    rw [h4, List.map_eq_nil_iff] at h'
    rw [h'] at h3
    exact hl h3.1.symm
  · intro c hc
    rw [(hgood' c hc).mean]
    obtain ⟨r, hr', rfl⟩ := hmem c hc
    have hb1 : (l.head hl).mean.toK ≤ (weightedMean r).mean.toK :=
      le_weightedMean (hrg r hr') (h3.2 r hr') (fun a ha => by
        have := hhead a (h3.mem hr' ha)
        rw [(hlg _ (List.head_mem hl)).mean, (hlg a (h3.mem hr' ha)).mean] at this
        simpa [Fl.toK] using this)
    rw [hmin]
    refine (min_le_right _ _).trans ?_
    rw [(hlg _ (List.head_mem hl)).mean]
    simpa using hb1
  · intro c hc
    rw [(hgood' c hc).mean]
    obtain ⟨r, hr', rfl⟩ := hmem c hc
    have hb1 : (weightedMean r).mean.toK ≤ (l.getLast hl).mean.toK :=
      weightedMean_le (hrg r hr') (h3.2 r hr') (fun a ha => by
        have := hlast a (h3.mem hr' ha)
        rw [(hlg _ (List.getLast_mem hl)).mean, (hlg a (h3.mem hr' ha)).mean] at this
        simpa [Fl.toK] using this)
    rw [hmax]
    refine le_trans ?_ (le_max_right _ _)
    rw [(hlg _ (List.getLast_mem hl)).mean]
    simpa using hb1
  · intro P hP hPs c hc
    obtain ⟨r, hr', rfl⟩ := hmem c hc
    refine totalW_closed hP r (h3.2 r hr') ?_
    intro a ha
    rcases List.mem_append.1 (h1.mem_iff.1 (h3.mem hr' ha)) with h7 | h7
    · exact hPs a (List.mem_append_right _ h7)
    · exact h.closed P hP (fun e he => hPs e (List.mem_append_left _ he)) a h7

theorem exec_eq [FloatFmt.Exact K] (d : TDigest K) (o : TOp K) : o.exec d = d.addCentroidBuffer o.supplied := by
  cases o with
  | add x => simp [TOp.exec, TOp.supplied, add, unit]
  | addBuffer xs => 
    simp only [TOp.exec, TOp.supplied, addBuffer]
    congr 1
    apply List.map_congr_left
    intro x _
    simp [unit]
  | addCentroids cs => rfl

theorem execOps_inv [FloatFmt.Exact K] : ∀ (ops : List (TOp K)) (d : TDigest K) (sup : List (Centroid K)), d.Inv sup →
    (∀ c ∈ sup, Good c) → (∀ c ∈ supplied ops, Good c ∧ InRange c) →
    Always (d.execOps ops) (fun d' => d'.Inv (sup ++ supplied ops))
  | [], d, sup, h, _, _ => by simpa [execOps, supplied] using h
  | o :: os, d, sup, h, hs, hg => by
    have hg1 : ∀ c ∈ o.supplied, Good c ∧ InRange c := fun c hc => hg c (by simp [supplied]; exact Or.inl hc)
    have hg2 : ∀ c ∈ supplied os, Good c ∧ InRange c := fun c hc => hg c (by
      simp only [supplied, List.flatMap_cons, List.mem_append] at hc ⊢; exact Or.inr hc)
    unfold execOps
    rw [always_bind, exec_eq]
    refine (addCentroidBuffer_inv h.toCInv hs (fun c hc => (hg1 c hc).1) (fun c hc => (hg1 c hc).2)).mono ?_
    intro d' h'
    have := execOps_inv os d' (sup ++ o.supplied) h' (by
      intro c hc
      rcases List.mem_append.1 hc with hc | hc
      · exact hs c hc
      · exact (hg1 c hc).1) hg2
    simpa [supplied, List.flatMap_cons, List.append_assoc] using this

end TDigest
end AQ

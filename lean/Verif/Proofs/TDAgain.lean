/-
TDigest: a merge pass without new items, straight after another pass, changes nothing.
-/
import Verif.Proofs.TDHist

set_option linter.unusedSectionVars false
set_option linter.unusedVariables false

namespace AQ
open Prog Spec
variable {K : Type} [Field K] [LinearOrder K] [IsStrictOrderedRing K] [FloatFmt K]

namespace TDigest

/-- No two centroids have the same mean. -/
def DistinctMeans (d : TDigest K) : Prop := (d.centroids.map Centroid.mean).Nodup

/-- A pass without new items leaves the digest as it is. -/
def Settled (d : TDigest K) : Prop := Always (d.addCentroidBuffer []) (fun d' => d' = d)

theorem totalW_ge_head {s : List (Centroid K)} (h : ∀ c ∈ s, Good c) {c : Centroid K} (hc : s.head? = some c) : c.weight.toK ≤ totalW s := by
  cases s with
  | nil => simp at hc
  | cons a s =>
    simp only [List.head?_cons, Option.some.injEq] at hc
    subst hc
    rw [totalW_cons]
    have := totalW_nonneg (l := s) (fun d hd => h d (by simp [hd]))
    linarith

/-- The loop does not merge the runs that an earlier loop has closed. -/
theorem mergeLoop_again [FloatFmt.Exact K] (limit : Fl K → Fl K) : ∀ (rest : List (List (Centroid K))) (done : List (List (Centroid K)))
    (r : List (Centroid K)), (∀ s ∈ r :: rest, s ≠ [] ∧ ∀ c ∈ s, Good c) → RunsOK limit done (r :: rest) →
    mergeLoop limit (.fin (totalW done.flatten)) (runLimit limit done) (.fin (totalW r)) (.fin (totalMass r)) (rest.map weightedMean)
      = (r :: rest).map weightedMean
  | [], done, r, hr, h => by
    have hp := totalW_pos (hr r (by simp)).2 (hr r (by simp)).1
    simp only [mergeLoop, List.map_cons, List.map_nil]
    rw [Fl.div_exact _ hp.ne']; rfl
  | s :: rest, done, r, hr, h => by
    have hp := totalW_pos (hr r (by simp)).2 (hr r (by simp)).1
    have hs := hr s (by simp)
    have hps := totalW_pos hs.2 hs.1
    obtain ⟨c, hc⟩ : ∃ c, s.head? = some c := by
      cases s with
      | nil => exact absurd rfl hs.1
      | cons a s => exact ⟨a, rfl⟩
    have h1 := (h [] r (s :: rest) rfl).2 s rest c rfl hc
    rw [List.append_nil] at h1
    have h2 : ¬ Fl.le (.fin (totalW r) + (weightedMean s).weight) (runLimit limit done) = true := by
      intro h2
      have e : (Fl.fin (totalW r) : Fl K) + (weightedMean s).weight = .fin (totalW r + totalW s) := Fl.add_exact _ _
      rw [e] at h2
      have hw := totalW_ge_head hs.2 hc
      rcases hlim : runLimit limit done with x | _ | _ | _
      all_goals rw [hlim] at h1 h2
      all_goals simp [Fl.le] at h1 h2
      all_goals linarith
    rw [List.map_cons, mergeLoop]
    simp only []
    rw [if_neg h2]
    have e0 : (Fl.fin (totalW done.flatten) : Fl K) + .fin (totalW r) = .fin (totalW (done ++ [r]).flatten) := by
      rw [Fl.add_exact]; simp
    have e1 : (weightedMean s).weight = .fin (totalW s) := rfl
    have e2 : (weightedMean s).mean * (weightedMean s).weight = .fin (totalMass s) := by
      show (Fl.fin _ : Fl K) * Fl.fin _ = _
      rw [Fl.mul_exact, div_mul_cancel₀ _ hps.ne']
    have e3 : limit (.fin (totalW (done ++ [r]).flatten)) - .fin (totalW (done ++ [r]).flatten) = runLimit limit (done ++ [r]) := by
      unfold runLimit; rw [if_neg (by simp)]
    rw [e0, e2, e3, e1, mergeLoop_again limit rest (done ++ [r]) s (fun t ht => hr t (by simp [List.mem_cons.1 ht])) (by
      intro pre t post ht
      have := h (r :: pre) t post (by rw [ht]; rfl)
      simpa using this)]
    rw [Fl.div_exact _ hp.ne']
    rfl

/-- After a pass, another one without new items changes nothing (no two means being equal). -/
theorem pass_settles [FloatFmt.Exact K] {d : TDigest K} {sup batch : List (Centroid K)} (h : d.CInv sup)
    (hsup : ∀ c ∈ sup, Good c) (hb : ∀ c ∈ batch, Good c) (hr : ∀ c ∈ batch, InRange c) :
    Always (d.addCentroidBuffer batch) (fun d' => d'.Inv (sup ++ batch) ∧ (d'.DistinctMeans → d'.Settled)) := by
  by_cases hne : batch ++ d.centroids = []
  · refine Always.and (addCentroidBuffer_inv h hsup hb hr) ?_
    rw [List.append_eq_nil_iff] at hne
    obtain ⟨rfl, h2⟩ := hne
    rw [addCentroidBuffer_nil d h2]
    intro _
    rw [Settled, addCentroidBuffer_nil d h2]
    rfl
  refine ((addCentroidBuffer_spec d batch h.good hb hne).and (addCentroidBuffer_inv h hsup hb hr).partially).mono ?_
  rintro d' ⟨⟨l, runs, hl, l1, l2, l3, l4, l5, l6, l7, l8, l9, l10⟩, inv⟩
  refine ⟨inv, fun hd => ?_⟩
  have hg : ∀ c ∈ l, Good c := by
    intro c hc
    rcases List.mem_append.1 (l1.mem_iff.1 hc) with hc | hc
    · exact hb c hc
    · exact h.good c hc
  have hruns : ∀ s ∈ runs, s ≠ [] ∧ ∀ c ∈ s, Good c := fun s hs =>
    ⟨l3.2 s hs, fun c hc => hg c (by rw [← l3.1]; exact List.mem_flatten.2 ⟨s, hs, hc⟩)⟩
  unfold Settled addCentroidBuffer
  rw [always_bind, List.nil_append]
  refine (sortUnstable_spec Centroid.mean _ (fun c hc => (inv.good c hc).mean_ne_nan)).mono ?_
  rintro l' ⟨p1, p2⟩
  have hsorted : d'.centroids.Pairwise (fun a b => a.mean ≤ b.mean) := by
    refine List.Pairwise.imp_of_mem ?_ inv.sorted
    intro a b ha hb' hab
    rw [(inv.good a ha).mean, (inv.good b hb').mean, Fl.fin_le_fin]
    exact hab
  have e : l' = d'.centroids := by
    refine p1.eq_of_pairwise (le := fun a b => a.mean ≤ b.mean) ?_ p2 hsorted
    intro a b ha hb' h1 h2
    exact List.inj_on_of_nodup_map hd (p1.mem_iff.1 ha) hb' (le_antisymm h1 h2)
  subst e
  show d'.mergeSorted d'.centroids = d'
  have hc := l4
  cases runs with
  | nil =>
    exfalso
    apply hl
    rw [← l3.1]; rfl
  | cons r rest =>
    have hw : weightSum d'.centroids = .fin (totalW (batch ++ d.centroids)) := by
      rw [weightSum_exact inv.good, inv.weight, totalW_append, totalW_append, h.weight, add_comm]
    have hlim : d'.wLimit = d.wLimit := by
      unfold wLimit
      rw [l8, l9, l10]
    have again := mergeLoop_again (d.wLimit (.fin (totalW (batch ++ d.centroids)))) rest [] r hruns l5
    have hne' : sup ++ batch ≠ [] := by
      intro h0
      have := inv.empty.2 h0
      rw [l4] at this
      simp at this
    have hfin := good_sup_min inv.toCInv (by
      intro c hc
      rcases List.mem_append.1 hc with hc | hc
      · exact hsup c hc
      · exact hb c hc) hne'
    have hn1 : d'.min ≠ .nan := by obtain ⟨x, hx⟩ := hfin.1; rw [hx]; simp
    have hn2 : d'.max ≠ .nan := by obtain ⟨x, hx⟩ := hfin.2; rw [hx]; simp
    have hmin : ∀ c ∈ d'.centroids, Fl.fmin d'.min c.mean = d'.min := by
      intro c hc
      rw [Fl.fmin_eq hn1 (inv.good c hc).mean_ne_nan]
      exact min_eq_left (inv.min_le c hc)
    have hmax : ∀ c ∈ d'.centroids, Fl.fmax d'.max c.mean = d'.max := by
      intro c hc
      rw [Fl.fmax_eq hn2 (inv.good c hc).mean_ne_nan]
      exact max_eq_left (inv.le_max c hc)
    have hps := totalW_pos (hruns r (by simp)).2 (hruns r (by simp)).1
    have e2 : (weightedMean r).mean * (weightedMean r).weight = .fin (totalMass r) := by
      show (Fl.fin _ : Fl K) * Fl.fin _ = _
      rw [Fl.mul_exact, div_mul_cancel₀ _ hps.ne']
    have e0 : runLimit (d.wLimit (.fin (totalW (batch ++ d.centroids)))) [] = d.wLimit (.fin (totalW (batch ++ d.centroids))) (Fl.lit 0) := by
      simp [runLimit]
    rw [e0] at again
    have e4 : (Fl.fin (totalW ([] : List (List (Centroid K))).flatten) : Fl K) = Fl.lit 0 := by simp
    rw [e4] at again
    obtain ⟨cs, cf, sf, isf, mn, mx⟩ := d'
    simp only at hc
    subst hc
    rw [List.map_cons] at hmin hmax hw hlim
    have a1 := hmin (weightedMean r) (by simp)
    have a2 := hmax ((weightedMean r :: rest.map weightedMean).getLast (by simp)) (List.getLast_mem _)
    simp only [mergeSorted, List.map_cons, hw]
    rw [hlim, e2, show (weightedMean r).weight = .fin (totalW r) from rfl, again]
    congr 1
end TDigest
end AQ

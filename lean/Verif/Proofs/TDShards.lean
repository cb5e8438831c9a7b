/-
TDigests merged in any shape: invariants.
-/
import Verif.Spec.TDShards
import Verif.Props.ParTSize

set_option linter.unusedSectionVars false
set_option linter.unusedVariables false

namespace AQ
open Prog Spec
variable {K : Type} [Field K] [LinearOrder K] [IsStrictOrderedRing K] [FloatFmt K]

namespace TTree
open TDigest

/-- `got` stands for `sup`: same weight and mass, weights that are sums, means in between. -/
structure Stands (got sup : List (Centroid K)) : Prop where
  good : ∀ c ∈ got, Good c ∧ InRange c
  weight : totalW got = totalW sup
  mass : totalMass got = totalMass sup
  empty : got = [] ↔ sup = []
  closed : ∀ P : K → Prop, (∀ a b, P a → P b → P (a + b)) → (∀ c ∈ sup, P c.weight.toK) → ∀ c ∈ got, P c.weight.toK
  lower : ∀ x : Fl K, (∀ c ∈ sup, x ≤ c.mean) → ∀ c ∈ got, x ≤ c.mean
  upper : ∀ x : Fl K, (∀ c ∈ sup, c.mean ≤ x) → ∀ c ∈ got, c.mean ≤ x

theorem Stands.refl {l : List (Centroid K)} (h : ∀ c ∈ l, Good c ∧ InRange c) : Stands l l :=
  ⟨h, rfl, rfl, Iff.rfl, fun _ _ h => h, fun _ h => h, fun _ h => h⟩

theorem Stands.append {a b sa sb : List (Centroid K)} (h : Stands a sa) (h' : Stands b sb) : Stands (a ++ b) (sa ++ sb) where
  good := by
    intro c hc
    rcases List.mem_append.1 hc with hc | hc
    · exact h.good c hc
    · exact h'.good c hc
  weight := by rw [totalW_append, totalW_append, h.weight, h'.weight]
  mass := by rw [totalMass_append, totalMass_append, h.mass, h'.mass]
  empty := by rw [List.append_eq_nil_iff, List.append_eq_nil_iff, h.empty, h'.empty]
  closed := by
    intro P hP hs c hc
    rcases List.mem_append.1 hc with hc | hc
    · exact h.closed P hP (fun c hc => hs c (by simp [hc])) c hc
    · exact h'.closed P hP (fun c hc => hs c (by simp [hc])) c hc
  lower := by
    intro x hs c hc
    rcases List.mem_append.1 hc with hc | hc
    · exact h.lower x (fun c hc => hs c (by simp [hc])) c hc
    · exact h'.lower x (fun c hc => hs c (by simp [hc])) c hc
  upper := by
    intro x hs c hc
    rcases List.mem_append.1 hc with hc | hc
    · exact h.upper x (fun c hc => hs c (by simp [hc])) c hc
    · exact h'.upper x (fun c hc => hs c (by simp [hc])) c hc

/-- The centroids of a digest stand for what it was given. -/
theorem Stands.centroids {d : TDigest K} {got sup : List (Centroid K)} (hi : d.Inv got) (h : Stands got sup) : Stands d.centroids sup where
  good := by
    intro c hc
    have hne : got ≠ [] := fun e => by rw [hi.empty.2 e] at hc; simp at hc
    obtain ⟨⟨e, he, h1⟩, -⟩ := hi.min_eq hne
    obtain ⟨⟨e', he', h2⟩, -⟩ := hi.max_eq hne
    refine ⟨hi.good c hc, ?_, ?_⟩
    · exact le_trans (h.good e he).2.1 (by rw [h1]; exact hi.min_le c hc)
    · exact le_trans (hi.le_max c hc) (by rw [← h2]; exact (h.good e' he').2.2)
  weight := hi.weight.trans h.weight
  mass := hi.mass.trans h.mass
  empty := hi.empty.trans h.empty
  closed := fun P hP hs => hi.closed P hP (h.closed P hP hs)
  lower := by
    intro x hs c hc
    have hne : got ≠ [] := fun e => by rw [hi.empty.2 e] at hc; simp at hc
    obtain ⟨⟨e, he, h1⟩, -⟩ := hi.min_eq hne
    exact le_trans (h.lower x hs e he) (by rw [h1]; exact hi.min_le c hc)
  upper := by
    intro x hs c hc
    have hne : got ≠ [] := fun e => by rw [hi.empty.2 e] at hc; simp at hc
    obtain ⟨⟨e, he, h1⟩, -⟩ := hi.max_eq hne
    exact le_trans (hi.le_max c hc) (by rw [← h1]; exact h.upper x hs e he)

/-- The state of a digest in a tree. -/
def TInv (d : TDigest K) (sup : List (Centroid K)) : Prop := ∃ got, d.Inv got ∧ Stands got sup

theorem TInv.good {d : TDigest K} {sup : List (Centroid K)} (h : TInv d sup) : ∀ c ∈ d.centroids, Good c := by
  obtain ⟨got, hi, -⟩ := h
  exact hi.good

theorem step_inv [FloatFmt.Exact K] {d : TDigest K} {sup b sb : List (Centroid K)} (h : TInv d sup) (hb : Stands b sb) :
    Always (d.addCentroidBuffer b) (fun d' => TInv d' (sup ++ sb)) := by
  obtain ⟨got, hi, hs⟩ := h
  refine (addCentroidBuffer_inv hi.toCInv (fun c hc => (hs.good c hc).1) (fun c hc => (hb.good c hc).1)
    (fun c hc => (hb.good c hc).2)).mono ?_
  intro d' hi'
  exact ⟨_, hi', hs.append hb⟩

theorem run_inv [FloatFmt.Exact K] : ∀ t : TTree K, (∀ c ∈ t.supplied, Good c ∧ InRange c) → Always t.run (fun d => TInv d t.supplied)
  | new s i cf, _ => ⟨[], new_inv s i cf, Stands.refl (by simp)⟩
  | ins t o, h => by
    unfold run
    rw [always_bind]
    refine (run_inv t (fun c hc => h c (by simp [supplied, hc]))).mono ?_
    intro d hd
    rw [exec_eq]
    exact step_inv hd (Stands.refl (fun c hc => h c (by simp [supplied, hc])))
  | merge a b, h => by
    unfold run
    rw [always_bind]
    refine (run_inv a (fun c hc => h c (by simp [supplied, hc]))).mono ?_
    intro d hd
    rw [always_bind]
    refine (run_inv b (fun c hc => h c (by simp [supplied, hc]))).mono ?_
    rintro d' ⟨got, hi, hs⟩
    exact step_inv hd (Stands.centroids hi hs)

theorem TInv.view {d : TDigest K} {sup : List (Centroid K)} (h : TInv d sup) (hne : sup ≠ []) :
    ∃ l a b, View d l a b ∧ wt l = totalW sup ∧
      (∀ P : K → Prop, (∀ a b, P a → P b → P (a + b)) → (∀ c ∈ sup, P c.weight.toK) → ∀ p ∈ l, P p.2) ∧
      (∀ x, (∀ c ∈ sup, .fin x ≤ c.mean) → x ≤ a) ∧ (∀ x, (∀ c ∈ sup, c.mean ≤ .fin x) → b ≤ x) := by
  obtain ⟨got, hi, hs⟩ := h
  have hgn : got ≠ [] := fun e => hne (hs.empty.1 e)
  obtain ⟨l, a, b, hv, h1, h2⟩ := hi.view (fun c hc => (hs.good c hc).1) hgn
  refine ⟨l, a, b, hv, h1.trans hs.weight, fun P hP h => h2 P hP (hs.closed P hP h), ?_, ?_⟩
  · intro x hx
    obtain ⟨⟨e, he, h3⟩, -⟩ := hi.min_eq hgn
    have := hs.lower _ hx e he
    rw [h3, hv.mn] at this
    simpa using this
  · intro x hx
    obtain ⟨⟨e, he, h3⟩, -⟩ := hi.max_eq hgn
    have := hs.upper _ hx e he
    rw [h3, hv.mx] at this
    simpa using this

/-- Nothing changes the scale functions of a digest. -/
theorem addCentroidBuffer_params (d : TDigest K) (b : List (Centroid K)) : Partially (d.addCentroidBuffer b) (fun d' =>
    (d'.scaleFunc, d'.inverseScaleFunc, d'.compressFactor) = (d.scaleFunc, d.inverseScaleFunc, d.compressFactor)) := by
  unfold addCentroidBuffer
  rw [partially_bind]
  refine (partially_true _).mono (fun l _ => ?_)
  cases l with
  | nil => rfl
  | cons c cs => rfl

theorem run_params [FloatFmt.Exact K] : ∀ t : TTree K, Partially t.run (fun d => (d.scaleFunc, d.inverseScaleFunc, d.compressFactor) = t.root)
  | new s i cf => rfl
  | ins t o => by
    unfold run
    rw [partially_bind]
    refine (run_params t).mono ?_
    intro d hd
    rw [exec_eq]
    exact (addCentroidBuffer_params d _).mono (fun d' h => h.trans hd)
  | merge a b => by
    unfold run
    rw [partially_bind]
    refine (run_params a).mono ?_
    intro d hd
    rw [partially_bind]
    refine (partially_true _).mono (fun d' _ => ?_)
    exact (addCentroidBuffer_params d _).mono (fun d' h => h.trans hd)

theorem heavy_of' {c : Centroid K} (h : Good c) (h1 : 1 ≤ c.weight.toK) : Heavy c := by
  obtain ⟨hm, w, -, hw⟩ := h
  rw [hw] at h1
  exact ⟨hm, w, h1, hw⟩

/-- Sizes. -/
theorem run_size [FloatFmt.Exact K] {L : Nat → Prop} : ∀ t : TTree K, (∀ c ∈ t.supplied, Good c ∧ InRange c) →
    (∀ c ∈ t.supplied, 1 ≤ c.weight.toK) → L 0 →
    (∀ cs : List (Centroid K), cs ≠ [] → (∀ c ∈ cs, Heavy c) →
      Always ((TDigest.new t.root.1 t.root.2.1 t.root.2.2).addCentroidBuffer cs) (fun d => L d.centroids.length)) →
    Always t.run (fun d => L d.centroids.length) := by
  have key : ∀ (d : TDigest K) (b : List (Centroid K)) (r : ScaleFn K × ScaleFn K × Fl K), L 0 → (∀ c ∈ b ++ d.centroids, Heavy c) →
      (d.scaleFunc, d.inverseScaleFunc, d.compressFactor) = r →
      (∀ cs : List (Centroid K), cs ≠ [] → (∀ c ∈ cs, Heavy c) →
        Always ((TDigest.new r.1 r.2.1 r.2.2).addCentroidBuffer cs) (fun d => L d.centroids.length)) →
      Always (d.addCentroidBuffer b) (fun d => L d.centroids.length) := by
    intro d b r h0 hh he hT
    by_cases hne : b ++ d.centroids = []
    · obtain ⟨rfl, h2⟩ := List.append_eq_nil_iff.1 hne
      rw [addCentroidBuffer_nil d h2]
      show L d.centroids.length
      rw [h2]
      exact h0
    · subst he
      refine (centroids_as_new d b (P := fun cs => L cs.length) (hT _ hne hh)).mono ?_
      rintro d' (h | h)
      · exact h.1
      · exact absurd h.1 hne
  have heavy : ∀ {l sup : List (Centroid K)}, Stands l sup → (∀ c ∈ sup, 1 ≤ c.weight.toK) → ∀ c ∈ l, Heavy c := by
    intro l sup h hw c hc
    exact heavy_of' (h.good c hc).1 (h.closed (fun w => 1 ≤ w) (fun a b ha hb => by linarith) hw c hc)
  intro t h hw h0 hT
  cases t with
  | new s i cf => exact h0
  | ins t o =>
    unfold run
    rw [always_bind]
    refine ((run_inv t (fun c hc => h c (by simp [supplied, hc]))).and (run_params t)).mono ?_
    rintro d ⟨⟨got, hi, hs⟩, hp⟩
    rw [exec_eq]
    refine key d _ _ h0 ?_ hp hT
    intro c hc
    rcases List.mem_append.1 hc with hc | hc
    · exact heavy_of' (h c (by simp [supplied, hc])).1 (hw c (by simp [supplied, hc]))
    · exact heavy (Stands.centroids hi hs) (fun c hc => hw c (by simp [supplied, hc])) c hc
  | merge a b =>
    unfold run
    rw [always_bind]
    refine ((run_inv a (fun c hc => h c (by simp [supplied, hc]))).and (run_params a)).mono ?_
    rintro d ⟨⟨got, hi, hs⟩, hp⟩
    rw [always_bind]
    refine (run_inv b (fun c hc => h c (by simp [supplied, hc]))).mono ?_
    rintro d' ⟨got', hi', hs'⟩
    refine key d _ _ h0 ?_ hp hT
    intro c hc
    rcases List.mem_append.1 hc with hc | hc
    · exact heavy (Stands.centroids hi' hs') (fun c hc => hw c (by simp [supplied, hc])) c hc
    · exact heavy (Stands.centroids hi hs) (fun c hc => hw c (by simp [supplied, hc])) c hc

/-- What a digest with `k0` in a tree knows about what was supplied. -/
structure KInv (δ M : K) (d : TDigest K) (sup : List (Centroid K)) (E : K) : Prop where
  sf : d.scaleFunc = k0
  isf : d.inverseScaleFunc = invK0
  cf : ∃ δ', d.compressFactor = .fin δ' ∧ δ ≤ δ'
  wt : ∀ c ∈ d.centroids, c.weight.toK ≤ Max.max M (2 * totalW sup / δ)
  near : ∀ x, Near x d.centroids sup E

theorem step_kinv [FloatFmt.Exact K] {δ M E F : K} (hδ : 0 < δ) {d : TDigest K} {sup b sb : List (Centroid K)} (hd : ∀ c ∈ d.centroids, Good c)
    (hb : ∀ c ∈ b, Good c) (hW : totalW d.centroids = totalW sup) (hWb : totalW b = totalW sb) (h : KInv δ M d sup E)
    (hw : ∀ c ∈ b, c.weight.toK ≤ Max.max M (2 * totalW sb / δ)) (hn : ∀ x, Near x b sb F) :
    Partially (d.addCentroidBuffer b) (fun d' => KInv δ M d' (sup ++ sb) (E + F + 2 / δ * totalW (sup ++ sb))) := by
  refine (merged d b hd hb).partially.mono ?_
  rintro d' ⟨runs, hm⟩
  obtain ⟨δ', hcf, hle⟩ := h.cf
  have hδ' : 0 < δ' := lt_of_lt_of_le hδ hle
  have n1 : 0 ≤ totalW sup := hW ▸ totalW_nonneg hd
  have n2 : 0 ≤ totalW sb := hWb ▸ totalW_nonneg hb
  have htot : totalW (b ++ d.centroids) = totalW (sup ++ sb) := by rw [totalW_append, totalW_append, hW, hWb, add_comm]
  have hsum : totalW (sup ++ sb) = totalW sup + totalW sb := totalW_append _ _
  have hrun := hm.k0_run hδ' h.sf h.isf hcf (by
    intro c hc
    rcases List.mem_append.1 hc with hc | hc
    · exact hb c hc
    · exact hd c hc)
  rw [htot] at hrun
  have hn0 : 0 ≤ totalW (sup ++ sb) := by rw [hsum]; linarith
  have hrun' : ∀ r ∈ runs, 2 ≤ r.length → totalW r ≤ 2 * totalW (sup ++ sb) / δ := by
    intro r hr h2
    refine (hrun r hr h2).trans (div_le_div_of_nonneg_left (by linarith) hδ hle)
  refine ⟨hm.sf.trans h.sf, hm.isf.trans h.isf, ⟨δ', hm.cf.trans hcf, hle⟩, ?_, ?_⟩
  · refine hm.weight_le hrun' (le_max_right _ _) ?_
    intro c hc
    rcases List.mem_append.1 hc with hc | hc
    · refine (hw c hc).trans (max_le_max le_rfl ?_)
      rw [div_le_div_iff_of_pos_right hδ]
      linarith
    · refine (h.wt c hc).trans (max_le_max le_rfl ?_)
      rw [div_le_div_iff_of_pos_right hδ]
      linarith
  · intro x
    have hq := hm.drift (D := 2 / δ * totalW (sup ++ sb)) (by positivity)
      (fun r hr h2 => (hrun' r hr h2).trans (le_of_eq (by ring))) x
    rw [lw_append, uw_append] at hq
    obtain ⟨n1, n2⟩ := hq
    obtain ⟨n3, n4⟩ := h.near x
    obtain ⟨n5, n6⟩ := hn x
    unfold Near
    rw [lw_append, uw_append]
    constructor <;> linarith

theorem run_kinv [FloatFmt.Exact K] {δ M : K} (hδ : 0 < δ) : ∀ t : TTree K, t.AllK0 δ → (∀ c ∈ t.supplied, Good c ∧ InRange c) →
    (∀ c ∈ t.supplied, c.weight.toK ≤ M) → Partially t.run (fun d => KInv δ M d t.supplied (2 / δ * t.passes))
  | new s i cf, ⟨h1, h2, h3⟩, _, _ => ⟨h1, h2, h3, by simp [TDigest.new], fun x => by simp [Near, TDigest.new, supplied, passes]⟩
  | ins t o, hk, h, hM => by
    have ht : ∀ c ∈ t.supplied, Good c ∧ InRange c := fun c hc => h c (by simp [supplied, hc])
    have ho : ∀ c ∈ o.supplied, Good c ∧ InRange c := fun c hc => h c (by simp [supplied, hc])
    unfold run
    rw [partially_bind]
    refine ((run_inv t ht).partially.and (run_kinv hδ t hk ht (fun c hc => hM c (by simp [supplied, hc])))).mono ?_
    rintro d ⟨⟨got, hi, hs⟩, hd⟩
    rw [exec_eq]
    refine (step_kinv (F := 0) hδ hi.good (fun c hc => (ho c hc).1) (hi.weight.trans hs.weight) rfl hd
      (fun c hc => le_max_of_le_left (hM c (by simp [supplied, hc]))) (fun x => ⟨by simp, by simp⟩)).mono ?_
    intro d' h'
    rw [add_zero] at h'
    simp only [supplied, passes, mul_add]
    exact h'
  | merge a b, hk, h, hM => by
    have ha : ∀ c ∈ a.supplied, Good c ∧ InRange c := fun c hc => h c (by simp [supplied, hc])
    have hb : ∀ c ∈ b.supplied, Good c ∧ InRange c := fun c hc => h c (by simp [supplied, hc])
    unfold run
    rw [partially_bind]
    refine ((run_inv a ha).partially.and (run_kinv hδ a hk.1 ha (fun c hc => hM c (by simp [supplied, hc])))).mono ?_
    rintro d ⟨⟨got, hi, hs⟩, hd⟩
    rw [partially_bind]
    refine ((run_inv b hb).partially.and (run_kinv hδ b hk.2 hb (fun c hc => hM c (by simp [supplied, hc])))).mono ?_
    rintro e ⟨⟨got', hi', hs'⟩, he⟩
    refine (step_kinv hδ hi.good hi'.good (hi.weight.trans hs.weight) (hi'.weight.trans hs'.weight) hd he.wt he.near).mono ?_
    intro d' h'
    simp only [supplied, passes, mul_add]
    exact h'

/-- With rounding. -/
def RTInv (A B : K) (d : TDigest K) (sup : List (Centroid K)) : Prop :=
  ∃ got, RInv A B d got ∧ (∀ c ∈ got, Within A B c) ∧ totalW got = totalW sup ∧ (got = [] ↔ sup = [])

theorem totalW_within {A B : K} {l : List (Centroid K)} (h : ∀ c ∈ l, Within A B c) : 0 ≤ totalW l :=
  totalW_nonneg (fun c hc => (h c hc).good)

theorem run_rinv [FloatFmt.Mono K] {A B : K} {N : Nat} (R : Roomy N A B) : ∀ t : TTree K, (∀ c ∈ t.supplied, Within A B c) →
    totalW t.supplied ≤ N → Always t.run (fun d => RTInv A B d t.supplied)
  | new s i cf, _, _ => ⟨[], new_rinv A B s i cf, by simp, rfl, Iff.rfl⟩
  | ins t o, h, hN => by
    have ht : ∀ c ∈ t.supplied, Within A B c := fun c hc => h c (by simp [supplied, hc])
    have ho : ∀ c ∈ o.supplied, Within A B c := fun c hc => h c (by simp [supplied, hc])
    have e : totalW (ins t o).supplied = totalW t.supplied + totalW o.supplied := totalW_append _ _
    unfold run
    rw [always_bind]
    refine (run_rinv R t ht (by linarith [totalW_within ho])).mono ?_
    rintro d ⟨got, hi, hg, hW, hE⟩
    rw [TOp.exec_eq]
    refine (addCentroidBuffer_rinv R hi hg _ ho (by rw [totalW_append, hW, ← e]; exact hN)).mono ?_
    intro d' hi'
    refine ⟨_, hi', ?_, by rw [totalW_append, hW, e], by simp [supplied, hE]⟩
    intro c hc
    rcases List.mem_append.1 hc with hc | hc
    · exact hg c hc
    · exact ho c hc
  | merge a b, h, hN => by
    have ha : ∀ c ∈ a.supplied, Within A B c := fun c hc => h c (by simp [supplied, hc])
    have hb : ∀ c ∈ b.supplied, Within A B c := fun c hc => h c (by simp [supplied, hc])
    have e : totalW (merge a b).supplied = totalW a.supplied + totalW b.supplied := totalW_append _ _
    unfold run
    rw [always_bind]
    refine (run_rinv R a ha (by linarith [totalW_within hb])).mono ?_
    rintro d ⟨got, hi, hg, hW, hE⟩
    rw [always_bind]
    refine (run_rinv R b hb (by linarith [totalW_within ha])).mono ?_
    rintro f ⟨got', hi', hg', hW', hE'⟩
    refine (addCentroidBuffer_rinv R hi hg _ hi'.within (by rw [totalW_append, hW, hi'.weight, hW', ← e]; exact hN)).mono ?_
    intro d' h2
    refine ⟨_, h2, ?_, by rw [totalW_append, hW, hi'.weight, hW', e], by simp [supplied, hE, hi'.empty, hE']⟩
    intro c hc
    rcases List.mem_append.1 hc with hc | hc
    · exact hg c hc
    · exact hi'.within c hc

theorem totalW_ones {l : List (Centroid K)} (h : ∀ c ∈ l, c.weight = .fin 1) : totalW l = (l.length : K) := by
  induction l with
  | nil => simp
  | cons a l ih =>
    rw [totalW_cons, ih (fun c hc => h c (by simp [hc])), h a (by simp)]
    simp [Fl.toK, add_comm]

theorem half_le {M W δ w : K} (hM : 1 ≤ M) (h : w ≤ Max.max M (2 * W / δ)) : w / 2 ≤ Max.max M (W / δ) := by
  rcases le_max_iff.1 h with h | h
  · exact le_max_of_le_left (by linarith)
  · refine le_max_of_le_right ?_
    rw [mul_div_assoc] at h
    linarith

theorem exists_least (l : List (Centroid K)) (g : Centroid K → K) (hne : l ≠ []) : ∃ c ∈ l, ∀ x ∈ l, g c ≤ g x := by
  induction l with
  | nil => exact absurd rfl hne
  | cons a l ih =>
    by_cases hl : l = []
    · subst hl
      exact ⟨a, by simp, by simp⟩
    · obtain ⟨c, hc, h⟩ := ih hl
      rcases le_total (g a) (g c) with h' | h'
      · refine ⟨a, by simp, ?_⟩
        intro x hx
        rcases List.mem_cons.1 hx with rfl | hx
        · exact le_rfl
        · exact h'.trans (h x hx)
      · refine ⟨c, by simp [hc], ?_⟩
        intro x hx
        rcases List.mem_cons.1 hx with rfl | hx
        · exact h'
        · exact h x hx

theorem shards_supplied (s i : ScaleFn K) (cf : Fl K) : ∀ (h : Nat) (f : Nat → List (Fl K)),
    (shards s i cf h f).supplied = ((List.range (2 ^ h)).flatMap f).map (fun x => ⟨x, .fin 1⟩)
  | 0, f => by simp [shards, supplied, TOp.supplied]
  | h + 1, f => by
    simp only [shards, supplied]
    rw [shards_supplied s i cf h f, shards_supplied s i cf h, ← List.map_append, pow_succ, mul_two, List.range_add, List.flatMap_append,
      List.flatMap_map]

theorem shards_passes (s i : ScaleFn K) (cf : Fl K) : ∀ (h : Nat) (f : Nat → List (Fl K)),
    (shards s i cf h f).passes = (h + 1) * (((List.range (2 ^ h)).flatMap f).length : K)
  | 0, f => by
    have := shards_supplied s i cf 0 f
    simp only [shards, supplied, List.nil_append] at this
    simp only [shards, passes, supplied, List.nil_append, this, totalW_items]
    simp
  | h + 1, f => by
    have := shards_supplied s i cf (h + 1) f
    simp only [shards, supplied] at this
    simp only [shards, passes, this, totalW_items]
    rw [shards_passes s i cf h f, shards_passes s i cf h]
    have e : (((List.range (2 ^ (h + 1))).flatMap f).length : K) = (((List.range (2 ^ h)).flatMap f).length : K) +
        (((List.range (2 ^ h)).flatMap (fun j => f (2 ^ h + j))).length : K) := by
      rw [pow_succ, mul_two, List.range_add, List.flatMap_append, List.flatMap_map, List.length_append]
      push_cast
      rfl
    rw [e]
    push_cast
    ring

theorem shards_allK0 (δ : K) : ∀ (h : Nat) (f : Nat → List (Fl K)), (shards k0 invK0 (.fin δ) h f).AllK0 δ
  | 0, f => ⟨rfl, rfl, δ, rfl, le_rfl⟩
  | h + 1, f => ⟨shards_allK0 δ h f, shards_allK0 δ h _⟩

end TTree
end AQ

/-
`add_cluster` on data and on their multiples by a positive number.
-/
import Verif.Proofs.Affine
import Verif.Proofs.KeyedSumTree

set_option linter.unusedSectionVars false
set_option linter.unusedVariables false

namespace AQ
open Prog Spec
variable {K : Type} [Field K] [LinearOrder K] [IsStrictOrderedRing K] [FloatFmt K]

section
variable {a b : K} {P : K → Prop}

theorem affine_strictMono (ha : 0 < a) : StrictMono (Fl.affine a b : Fl K → Fl K) := by
  intro x y h
  cases x <;> cases y <;> first | exact h | skip
  rw [Fl.fin_lt_fin] at h
  exact Fl.fin_lt_fin.2 ((affine_lt ha).2 h)

theorem bsearchOk_map {φ : Fl K → Fl K} (hφ : StrictMono φ) (ks : List (Fl K)) (t : Fl K) (i : Nat) :
    bsearchOk (ks.map φ) (φ t) i = bsearchOk ks t i := by
  have e1 : (ks.map φ).Pairwise (· ≤ ·) ↔ ks.Pairwise (· ≤ ·) := by
    rw [List.pairwise_map]; simp only [hφ.le_iff_le]
  have e2 : φ t ∈ ks.map φ ↔ t ∈ ks := by
    rw [List.mem_map]
    exact ⟨fun ⟨x, hx, h⟩ => hφ.injective h ▸ hx, fun h => ⟨t, h, rfl⟩⟩
  have e3 : (ks.map φ)[i]? = some (φ t) ↔ ks[i]? = some t := by
    rw [List.getElem?_map]
    cases ks[i]? with
    | none => simp
    | some x => simp [hφ.injective.eq_iff]
  have e4 : ((∀ x ∈ (ks.map φ).take i, x < φ t) ∧ (∀ x ∈ (ks.map φ).drop i, φ t < x)) ↔
      ((∀ x ∈ ks.take i, x < t) ∧ (∀ x ∈ ks.drop i, t < x)) := by
    rw [← List.map_take, ← List.map_drop]
    simp only [List.forall_mem_map, hφ.lt_iff_lt]
  unfold bsearchOk
  simp only [e1, e2, e3, e4]

theorem rel_binarySearch (ha : 0 < a) {cs cs' : List (Centroid K)} (hcs : List.Forall₂ (CAff a b P) cs cs') {x x' : Centroid K}
    (hx : CAff a b P x x') : binarySearch Centroid.mean cs' x'.mean = binarySearch Centroid.mean cs x.mean := by
  have e1 : cs'.any (fun c => c.mean.isNan) = cs.any (fun c => c.mean.isNan) :=
    (forall₂_any (by rintro _ _ ⟨m, w, -, rfl, rfl⟩; rfl) hcs).symm
  have e2 : x'.mean.isNan = x.mean.isNan := by obtain ⟨m, w, -, rfl, rfl⟩ := hx; rfl
  have e3 : x'.mean = x.mean.affine a b := by obtain ⟨m, w, -, rfl, rfl⟩ := hx; rfl
  have e4 : cs'.map Centroid.mean = (cs.map Centroid.mean).map (Fl.affine a b) := by
    rw [CAff.eq_map hcs]; simp [Centroid.affine]
  have e5 : bsearchOk (cs'.map Centroid.mean) x'.mean = bsearchOk (cs.map Centroid.mean) x.mean := by
    funext i
    rw [e3, e4, bsearchOk_map (affine_strictMono ha)]
  have e6 : cs' = [] ↔ cs = [] := by rw [CAff.eq_map hcs]; simp
  unfold binarySearch
  simp only [e1, e2, e5, hcs.length_eq.symm, ne_eq, e6]

namespace TDigest

theorem sub_aff [FloatFmt.Exact K] {c c' x x' : Centroid K} (hc : CAff a b P c c') (hx : CAff a b P x x') :
    ∃ y : K, c.mean - x.mean = .fin y ∧ c'.mean - x'.mean = .fin (a * y) := by
  obtain ⟨m, w, -, rfl, rfl⟩ := hc
  obtain ⟨m', w', -, rfl, rfl⟩ := hx
  refine ⟨m - m', by simp, ?_⟩
  simp only [Fl.sub_exact]
  congr 1
  ring

/-- A difference of means and its multiple. -/
def DAff (a : K) (y y' : Fl K) : Prop := ∃ z : K, y = .fin z ∧ y' = .fin (a * z)

theorem DAff.le (ha : 0 < a) {x x' y y' : Fl K} (hx : DAff a x x') (hy : DAff a y y') : Fl.le x' y' = Fl.le x y := by
  obtain ⟨u, rfl, rfl⟩ := hx
  obtain ⟨v, rfl, rfl⟩ := hy
  simp only [Fl.le_fin, mul_le_mul_iff_right₀ ha]

theorem DAff.feq (ha : 0 < a) {x x' y y' : Fl K} (hx : DAff a x x') (hy : DAff a y y') : Fl.feq x' y' = Fl.feq x y := by
  obtain ⟨u, rfl, rfl⟩ := hx
  obtain ⟨v, rfl, rfl⟩ := hy
  simp only [Fl.feq_fin, mul_right_inj' ha.ne']

theorem closestLeft_aff [FloatFmt.Exact K] (ha : 0 < a) {cs cs' : List (Centroid K)} (hcs : List.Forall₂ (CAff a b P) cs cs')
    {x x' : Centroid K} (hx : CAff a b P x x') {y y' : Fl K} (hy : DAff a y y') : ∀ i : Nat,
    Rel (· = ·) (closestLeft cs x.mean y i) (closestLeft cs' x'.mean y' i)
  | 0 => rfl
  | i + 1 => by
    unfold closestLeft
    refine rel_bind (rel_idx hcs i) ?_
    intro c c' hc
    rw [DAff.feq ha (sub_aff hc hx) hy]
    split
    · exact closestLeft_aff ha hcs hx hy i
    · rfl

theorem closestRight_aff [FloatFmt.Exact K] (ha : 0 < a) {cs cs' : List (Centroid K)} (hcs : List.Forall₂ (CAff a b P) cs cs')
    {x x' : Centroid K} (hx : CAff a b P x x') {y y' : Fl K} (hy : DAff a y y') : ∀ fuel r : Nat,
    Rel (· = ·) (closestRight cs x.mean y fuel r) (closestRight cs' x'.mean y' fuel r)
  | 0, r => rfl
  | fuel + 1, r => by
    unfold closestRight
    rw [hcs.length_eq]
    split
    · refine rel_bind (rel_idx hcs (r + 1)) ?_
      intro c c' hc
      rw [DAff.feq ha (sub_aff hc hx) hy]
      split
      · exact closestRight_aff ha hcs hx hy fuel (r + 1)
      · rfl
    · rfl

theorem closestStart_aff [FloatFmt.Exact K] (ha : 0 < a) {cs cs' : List (Centroid K)} (hcs : List.Forall₂ (CAff a b P) cs cs')
    {x x' : Centroid K} (hx : CAff a b P x x') (i : Nat) :
    Rel (fun s s' => DAff a s.1 s'.1 ∧ s.2 = s'.2) (closestStart cs x.mean i) (closestStart cs' x'.mean i) := by
  unfold closestStart
  rw [hcs.length_eq]
  split
  · refine rel_bind (rel_idx hcs i) ?_
    intro c c' hc
    exact ⟨sub_aff hc hx, rfl⟩
  split
  · refine rel_bind (rel_idx hcs (i - 1)) ?_
    intro c c' hc
    exact ⟨sub_aff hc hx, rfl⟩
  · refine rel_bind (rel_idx hcs (i - 1)) ?_
    intro c c' hc
    refine rel_bind (rel_idx hcs i) ?_
    intro e e' he
    refine ⟨?_, rfl⟩
    dsimp only
    rw [DAff.le ha (sub_aff hc hx) (sub_aff he hx)]
    split
    · exact sub_aff hc hx
    · exact sub_aff he hx

theorem findClosest_aff [FloatFmt.Exact K] (ha : 0 < a) {d d' : TDigest K} (h : Aff a b P d d') {x x' : Centroid K} (hx : CAff a b P x x') :
    Rel (· = ·) (d.findClosestCentroids x) (d'.findClosestCentroids x') := by
  have e6 : d'.centroids = [] ↔ d.centroids = [] := by rw [CAff.eq_map h.centroids]; simp
  unfold findClosestCentroids
  simp only [e6]
  split
  · rfl
  rw [rel_binarySearch ha h.centroids hx]
  refine rel_bind (R := (· = ·)) (rel_refl (fun _ => rfl) _) ?_
  rintro i _ rfl
  refine rel_bind (closestStart_aff ha h.centroids hx i) ?_
  rintro ⟨y, l, r⟩ ⟨y', l', r'⟩ ⟨hy, he⟩
  cases he
  refine rel_bind (closestLeft_aff ha h.centroids hx hy l) ?_
  rintro l _ rfl
  rw [← h.centroids.length_eq]
  refine rel_bind (closestRight_aff ha h.centroids hx hy _ r) ?_
  rintro r _ rfl
  rfl

theorem add_aff [FloatFmt.Exact K] (hP : WPred P) {c c' x x' : Centroid K} (hc : CAff a b P c c') (hx : CAff a b P x x') :
    CAff a b P (c.add x) (c'.add x') := by
  obtain ⟨m, w, hw, rfl, rfl⟩ := hc
  obtain ⟨m', w', hw', rfl, rfl⟩ := hx
  have h0 : w + w' ≠ 0 := (hP.pos _ (hP.add _ _ hw hw')).ne'
  refine ⟨(m * w + m' * w') / (w + w'), w + w', hP.add _ _ hw hw', ?_, ?_⟩
  · simp only [Centroid.add, Fl.mul_exact, Fl.add_exact, Fl.div_exact _ h0]
  · simp only [Centroid.add, Fl.mul_exact, Fl.add_exact, Fl.div_exact _ h0]
    congr 2
    field_simp
    ring

theorem kSize_aff (ha : 0 < a) {d d' : TDigest K} (h : Aff a b P d d') {x x' : Centroid K} (hx : CAff a b P x x') (total : Fl K) :
    d'.kSize x' total = d.kSize x total := by
  have ew : x'.weight = x.weight := by obtain ⟨m, w, -, rfl, rfl⟩ := hx; rfl
  have el : d'.weightLeft x' = d.weightLeft x := by
    have : ∀ {cs cs' : List (Centroid K)}, List.Forall₂ (CAff a b P) cs cs' →
        List.Forall₂ (CAff a b P) (cs.filter (fun c => Fl.lt c.mean x.mean)) (cs'.filter (fun c => Fl.lt c.mean x'.mean)) := by
      intro cs cs' hcs
      induction hcs with
      | nil => exact .nil
      | @cons c c' cs cs' hc _ ih =>
        have e : Fl.lt c'.mean x'.mean = Fl.lt c.mean x.mean := by
          obtain ⟨m, w, -, rfl, rfl⟩ := hx
          obtain ⟨m', w', -, rfl, rfl⟩ := hc
          simp only [Fl.lt_fin, affine_lt ha]
        cases hb : Fl.lt c.mean x.mean
        · rw [List.filter_cons_of_neg (by simp [hb]), List.filter_cons_of_neg (by simp [e, hb])]
          exact ih
        · rw [List.filter_cons_of_pos (by simp [hb]), List.filter_cons_of_pos (by simp [e, hb])]
          exact .cons hc ih
    exact CAff.weightSum (this h.centroids)
  simp only [kSize, kSizeFromWeights, h.compressFactor, h.scaleFunc, ew, el]

theorem chooseIndex_aff [FloatFmt.Exact K] (ha : 0 < a) (hP : WPred P) {d d' : TDigest K} (h : Aff a 0 P d d') {x x' : Centroid K}
    (hx : CAff a 0 P x x') (total : Fl K) : ∀ (is : List Nat) (best : Option Nat),
    Rel (· = ·) (chooseIndex d x total is best) (chooseIndex d' x' total is best)
  | [], best => rfl
  | i :: is, best => by
    unfold chooseIndex
    refine rel_bind (rel_idx h.centroids i) ?_
    intro c c' hc
    dsimp only
    rw [kSize_aff ha h (add_aff hP hx hc)]
    split
    · cases best with
      | none => exact chooseIndex_aff ha hP h hx total is _
      | some j =>
        refine rel_bind (rel_idx h.centroids j) ?_
        intro o o' ho
        have e : Fl.lt (c'.mean * c'.weight) (o'.mean * o'.weight) = Fl.lt (c.mean * c.weight) (o.mean * o.weight) := by
          obtain ⟨m, w, -, rfl, rfl⟩ := hc
          obtain ⟨m', w', -, rfl, rfl⟩ := ho
          simp only [Fl.mul_exact, Fl.lt_fin, add_zero, mul_assoc, mul_lt_mul_iff_right₀ ha]
        rw [e]
        split
        · exact chooseIndex_aff ha hP h hx total is _
        · exact chooseIndex_aff ha hP h hx total is _
    · exact chooseIndex_aff ha hP h hx total is _

theorem forall₂_take_drop {α β : Type} {R : α → β → Prop} : ∀ {l : List α} {l' : List β} (i : Nat), List.Forall₂ R l l' →
    List.Forall₂ R (l.take i) (l'.take i) ∧ List.Forall₂ R (l.drop i) (l'.drop i)
  | _, _, 0, h => ⟨by simp, by simpa using h⟩
  | [], [], i + 1, h => by simp
  | a :: l, b :: l', i + 1, .cons h hs => by
    obtain ⟨h1, h2⟩ := forall₂_take_drop i hs
    exact ⟨by simpa using ⟨h, h1⟩, by simpa using h2⟩

/-- The state of `add_cluster` between clusters: limits already taken. -/
structure Aff2 (a b : K) (P : K → Prop) (d d' : TDigest K) : Prop where
  aff : Aff a b P d d'
  lims : ∃ l u : K, d.min = .fin l ∧ d.max = .fin u ∧ d'.min = .fin (a * l + b) ∧ d'.max = .fin (a * u + b)

theorem Aff2.centroids {d d' : TDigest K} (h : Aff2 a b P d d') {cs cs' : List (Centroid K)} (hcs : List.Forall₂ (CAff a b P) cs cs') :
    Aff2 a b P { d with centroids := cs } { d' with centroids := cs' } :=
  ⟨⟨hcs, h.aff.compressFactor, h.aff.scaleFunc, h.aff.inverseScaleFunc, Or.inr h.lims⟩, h.lims⟩

theorem insertCluster_aff (ha : 0 < a) {d d' : TDigest K} (h : Aff2 a b P d d') {x x' : Centroid K} (hx : CAff a b P x x') :
    Rel (Aff2 a b P) (d.insertCluster x) (d'.insertCluster x') := by
  unfold insertCluster
  rw [rel_binarySearch ha h.aff.centroids hx]
  refine rel_bind (R := (· = ·)) (rel_refl (fun _ => rfl) _) ?_
  rintro i _ rfl
  obtain ⟨h1, h2⟩ := forall₂_take_drop i h.aff.centroids
  exact h.centroids (List.rel_append h1 (.cons hx h2))

theorem mergeCluster_aff [FloatFmt.Exact K] (hP : WPred P) {d d' : TDigest K} (h : Aff2 a b P d d') {x x' : Centroid K} (hx : CAff a b P x x')
    (i : Nat) : Rel (Aff2 a b P) (d.mergeCluster x i) (d'.mergeCluster x' i) := by
  unfold mergeCluster
  refine rel_bind (rel_idx h.aff.centroids i) ?_
  intro c c' hc
  exact h.centroids (forall₂_set (add_aff hP hc hx) i h.aff.centroids)

theorem placeCluster_aff [FloatFmt.Exact K] (ha : 0 < a) (hP : WPred P) {d d' : TDigest K} (h : Aff2 a 0 P d d') {x x' : Centroid K}
    (hx : CAff a 0 P x x') (total : Fl K) : Rel (Aff2 a 0 P) (d.placeCluster x total) (d'.placeCluster x' total) := by
  unfold placeCluster
  refine rel_bind (findClosest_aff ha h.aff hx) ?_
  rintro o _ rfl
  match o with
  | none => exact insertCluster_aff ha h hx
  | some (l, r) =>
    refine rel_bind (chooseIndex_aff ha hP h.aff hx total _ none) ?_
    rintro o _ rfl
    match o with
    | some i => exact mergeCluster_aff hP h hx i
    | none => exact insertCluster_aff ha h hx

theorem addBufferNil_aff [FloatFmt.Exact K] (ha : 0 < a) (hP : WPred P) {d d' : TDigest K} (h : Aff2 a b P d d') :
    Rel (Aff2 a b P) (d.addBuffer []) (d'.addBuffer []) := by
  have e6 : d'.centroids = [] ↔ d.centroids = [] := by rw [CAff.eq_map h.aff.centroids]; simp
  by_cases he : d.centroids = []
  · have e1 : d.addBuffer [] = .ret d := by
      simp [TDigest.addBuffer, TDigest.addCentroidBuffer, he, sortUnstable, sortTie, mergeSorted]
    have e2 : d'.addBuffer [] = .ret d' := by
      simp [TDigest.addBuffer, TDigest.addCentroidBuffer, e6.2 he, sortUnstable, sortTie, mergeSorted]
    rw [e1, e2]
    exact h
  · have h1 := h.aff.addCentroidBuffer ha hP (cs := []) (cs' := []) .nil (by simp)
    have h2 : Partially (d.addCentroidBuffer []) (fun e => e.centroids ≠ []) := by
      unfold TDigest.addCentroidBuffer
      refine partially_bind.2 ((sortUnstable_partially _ _).mono ?_)
      intro l hl
      show (d.mergeSorted l).centroids ≠ []
      cases l with
      | nil => exact absurd hl.1.symm.eq_nil (by simpa using he)
      | cons c l => exact mergeLoop_ne _ _ _ _ _ _
    refine rel_mono ?_ (rel_and_left h1 h2)
    rintro e e' ⟨h3, h4⟩
    rcases h3.limits with ⟨h5, -⟩ | h5
    · exact absurd h5 h4
    · exact ⟨h3, h5⟩

theorem minBy_aff (ha : 0 < a) {cs cs' : List (Centroid K)} (hcs : List.Forall₂ (CAff a b P) cs cs') (hne : cs ≠ []) :
    ∃ m : K, (∃ c ∈ cs, c.mean = .fin m) ∧ minBy id (cs.map (·.mean)) = .ret (some (.fin m)) ∧
      minBy id (cs'.map (·.mean)) = .ret (some (.fin (a * m + b))) := by
  have fin : ∀ {cs cs' : List (Centroid K)}, List.Forall₂ (CAff a b P) cs cs' → ∀ c ∈ cs, ∃ m, c.mean = .fin m := by
    intro cs cs' h
    induction h with
    | nil => simp
    | cons hc _ ih =>
      obtain ⟨m, w, -, rfl, rfl⟩ := hc
      intro c hc
      rcases List.mem_cons.1 hc with rfl | hc
      · exact ⟨m, rfl⟩
      · exact ih c hc
  have e4 : cs'.map (·.mean) = (cs.map (·.mean)).map (Fl.affine a b) := by
    rw [CAff.eq_map hcs]; simp [Centroid.affine]
  have nn : ∀ v ∈ cs.map (·.mean), v ≠ .nan := by
    intro v hv
    obtain ⟨c, hc, rfl⟩ := List.mem_map.1 hv
    obtain ⟨m, hm⟩ := fin hcs c hc
    simp [hm]
  obtain ⟨r, h1, h2, h3⟩ := minBy_spec id (cs.map (·.mean)) (by simpa using hne) nn
  obtain ⟨r', h1', h2', h3'⟩ := minBy_spec id (cs'.map (·.mean)) (by rw [e4]; simpa using hne) (by
    intro v hv
    rw [e4] at hv
    obtain ⟨u, hu, rfl⟩ := List.mem_map.1 hv
    have := nn u hu
    cases u <;> simp [Fl.affine] at this ⊢)
  obtain ⟨c, hc, rfl⟩ := List.mem_map.1 h2
  obtain ⟨m, hm⟩ := fin hcs c hc
  refine ⟨m, ⟨c, hc, hm⟩, by rw [h1, hm], ?_⟩
  rw [h1']
  rw [e4] at h2' h3'
  obtain ⟨u, hu, rfl⟩ := List.mem_map.1 h2'
  have l1 := h3 u hu
  have l2 := h3' _ (List.mem_map_of_mem (f := Fl.affine a b) h2)
  simp only [id] at l1 l2
  have : u = c.mean := le_antisymm ((affine_strictMono ha).le_iff_le.1 l2) l1
  rw [this, hm]
  rfl

theorem maxBy_aff (ha : 0 < a) {cs cs' : List (Centroid K)} (hcs : List.Forall₂ (CAff a b P) cs cs') (hne : cs ≠ []) :
    ∃ m : K, (∃ c ∈ cs, c.mean = .fin m) ∧ maxBy id (cs.map (·.mean)) = .ret (some (.fin m)) ∧
      maxBy id (cs'.map (·.mean)) = .ret (some (.fin (a * m + b))) := by
  have fin : ∀ {cs cs' : List (Centroid K)}, List.Forall₂ (CAff a b P) cs cs' → ∀ c ∈ cs, ∃ m, c.mean = .fin m := by
    intro cs cs' h
    induction h with
    | nil => simp
    | cons hc _ ih =>
      obtain ⟨m, w, -, rfl, rfl⟩ := hc
      intro c hc
      rcases List.mem_cons.1 hc with rfl | hc
      · exact ⟨m, rfl⟩
      · exact ih c hc
  have e4 : cs'.map (·.mean) = (cs.map (·.mean)).map (Fl.affine a b) := by
    rw [CAff.eq_map hcs]; simp [Centroid.affine]
  have nn : ∀ v ∈ cs.map (·.mean), v ≠ .nan := by
    intro v hv
    obtain ⟨c, hc, rfl⟩ := List.mem_map.1 hv
    obtain ⟨m, hm⟩ := fin hcs c hc
    simp [hm]
  obtain ⟨r, h1, h2, h3⟩ := maxBy_spec id (cs.map (·.mean)) (by simpa using hne) nn
  obtain ⟨r', h1', h2', h3'⟩ := maxBy_spec id (cs'.map (·.mean)) (by rw [e4]; simpa using hne) (by
    intro v hv
    rw [e4] at hv
    obtain ⟨u, hu, rfl⟩ := List.mem_map.1 hv
    have := nn u hu
    cases u <;> simp [Fl.affine] at this ⊢)
  obtain ⟨c, hc, rfl⟩ := List.mem_map.1 h2
  obtain ⟨m, hm⟩ := fin hcs c hc
  refine ⟨m, ⟨c, hc, hm⟩, by rw [h1, hm], ?_⟩
  rw [h1']
  rw [e4] at h2' h3'
  obtain ⟨u, hu, rfl⟩ := List.mem_map.1 h2'
  have l1 := h3 u hu
  have l2 := h3' _ (List.mem_map_of_mem (f := Fl.affine a b) h2)
  simp only [id] at l1 l2
  have : u = c.mean := le_antisymm l1 ((affine_strictMono ha).le_iff_le.1 l2)
  rw [this, hm]
  rfl

theorem updateLimits_aff [FloatFmt.Exact K] (ha : 0 < a) {d d' : TDigest K} (h : Aff a b P d d') {cs cs' : List (Centroid K)}
    (hcs : List.Forall₂ (CAff a b P) cs cs') (hne : cs ≠ []) (hr : ∀ c ∈ cs, BothIn a b c) :
    Rel (Aff2 a b P) (d.updateLimits cs) (d'.updateLimits cs') := by
  obtain ⟨m, ⟨c, hc, hcm⟩, h1, h2⟩ := minBy_aff ha hcs hne
  obtain ⟨M, ⟨C, hC, hCM⟩, h3, h4⟩ := maxBy_aff ha hcs hne
  unfold updateLimits
  rw [h1, h2, h3, h4]
  simp only [bind_ret, Option.getD_some]
  have r1 := hr c hc
  have r2 := hr C hC
  simp only [BothIn, InRange, Centroid.affine, hcm, hCM, Fl.affine, Fl.maxValue, Fl.minValue, Fl.fin_le_fin] at r1 r2
  have key : ∃ l u : K, Fl.fmin (.fin m) d.min = .fin l ∧ Fl.fmax (.fin M) d.max = .fin u ∧
      Fl.fmin (.fin (a * m + b)) d'.min = .fin (a * l + b) ∧ Fl.fmax (.fin (a * M + b)) d'.max = .fin (a * u + b) := by
    rcases h.limits with ⟨he, e1, e2, e3, e4⟩ | ⟨l, u, e1, e2, e3, e4⟩
    · refine ⟨m, M, ?_, ?_, ?_, ?_⟩
      · rw [e1, Fl.maxValue, Fl.fmin_fin, min_eq_left r1.1.2]
      · rw [e2, Fl.minValue, Fl.fmax_fin, max_eq_left r2.1.1]
      · rw [e3, Fl.maxValue, Fl.fmin_fin, min_eq_left r1.2.2]
      · rw [e4, Fl.minValue, Fl.fmax_fin, max_eq_left r2.2.1]
    · refine ⟨Min.min m l, Max.max M u, ?_, ?_, ?_, ?_⟩
      · rw [e1, Fl.fmin_fin]
      · rw [e2, Fl.fmax_fin]
      · rw [e3, Fl.fmin_fin, affine_min ha]
      · rw [e4, Fl.fmax_fin, affine_max ha]
  exact ⟨⟨h.centroids, h.compressFactor, h.scaleFunc, h.inverseScaleFunc, Or.inr key⟩, key⟩

section
variable [FloorRing K]

theorem limitGrowth_aff [FloatFmt.Exact K] (ha : 0 < a) (hP : WPred P) {d d' : TDigest K} (h : Aff2 a b P d d') (g : Fl K) :
    Rel (Aff2 a b P) (d.limitGrowth g) (d'.limitGrowth g) := by
  unfold limitGrowth
  rw [h.aff.compressFactor]
  refine rel_bind (R := (· = ·)) (rel_refl (fun _ => rfl) _) ?_
  rintro n _ rfl
  rw [← h.aff.centroids.length_eq]
  split
  · exact addBufferNil_aff ha hP h
  · exact h

theorem addClusterLoop_aff [FloatFmt.Exact K] (ha : 0 < a) (hP : WPred P) (g : Fl K) {cs cs' : List (Centroid K)}
    (hcs : List.Forall₂ (CAff a 0 P) cs cs') : ∀ {d d' : TDigest K} (total : Fl K), Aff2 a 0 P d d' →
    Rel (Aff2 a 0 P) (addClusterLoop g d total cs) (addClusterLoop g d' total cs') := by
  induction hcs with
  | nil => intro d d' total h; exact h
  | @cons x x' cs cs' hx _ ih =>
    intro d d' total h
    unfold addClusterLoop
    refine rel_bind (placeCluster_aff ha hP h hx total) ?_
    intro e e' he
    refine rel_bind (limitGrowth_aff ha hP he g) ?_
    intro f f' hf
    have ew : x'.weight = x.weight := by obtain ⟨m, w, -, rfl, rfl⟩ := hx; rfl
    rw [ew]
    exact ih _ hf

theorem addCluster_aff [FloatFmt.Exact K] (ha : 0 < a) (hP : WPred P) {d d' : TDigest K} (h : Aff a 0 P d d') {cs cs' : List (Centroid K)}
    (hcs : List.Forall₂ (CAff a 0 P) cs cs') (hr : ∀ c ∈ cs, BothIn a 0 c) (g : Fl K) :
    Rel (Aff a 0 P) (d.addCluster cs g) (d'.addCluster cs' g) := by
  unfold addCluster
  by_cases hne : cs = []
  · subst hne
    cases hcs
    have e : ∀ e : TDigest K, e.updateLimits [] = .ret { e with min := Fl.fmin .pinf e.min, max := Fl.fmax .ninf e.max } := fun e => rfl
    rw [e, e]
    simp only [bind_ret, addClusterLoop]
    refine ⟨h.centroids, h.compressFactor, h.scaleFunc, h.inverseScaleFunc, ?_⟩
    have e1 : ∀ x : K, Fl.fmin (.pinf : Fl K) (.fin x) = .fin x := fun x => by
      rw [Fl.fmin_eq (by simp) (by simp), min_eq_right]
      simp
    have e2 : ∀ x : K, Fl.fmax (.ninf : Fl K) (.fin x) = .fin x := fun x => by
      rw [Fl.fmax_eq (by simp) (by simp), max_eq_right]
      simp
    rcases h.limits with ⟨he, h1, h2, h3, h4⟩ | ⟨l, u, h1, h2, h3, h4⟩
    · refine Or.inl ⟨he, ?_, ?_, ?_, ?_⟩ <;> simp only [h1, h2, h3, h4, Fl.maxValue, Fl.minValue, e1, e2]
    · exact Or.inr ⟨l, u, by simp only [h1, e1], by simp only [h2, e2], by simp only [h3, e1], by simp only [h4, e2]⟩
  · refine rel_bind (updateLimits_aff ha h hcs hne hr) ?_
    intro e e' he
    have et : e'.totalWeight = e.totalWeight := CAff.weightSum he.aff.centroids
    rw [et]
    exact rel_mono (fun _ _ h => h.aff) (addClusterLoop_aff ha hP g hcs _ he)

theorem execAOps_aff [FloatFmt.Exact K] (ha : 0 < a) (hP : WPred P) : ∀ (ops : List (AOp K)) {d d' : TDigest K}, Aff a 0 P d d' →
    (∀ cs g, AOp.clusterTree cs g ∉ ops) → (∀ c ∈ suppliedA ops, Good c) → (∀ c ∈ suppliedA ops, P c.weight.toK) →
    (∀ c ∈ suppliedA ops, BothIn a 0 c) → Rel (Aff a 0 P) (d.execAOps ops) (d'.execAOps (ops.map (AOp.affine a 0)))
  | [], d, d', h, _, _, _, _ => h
  | o :: os, d, d', h, ht, hg, hp, hr => by
    have hm : ∀ c ∈ o.supplied, c ∈ suppliedA (o :: os) := fun c hc => by simp [suppliedA, hc]
    have hm' : ∀ c ∈ suppliedA os, c ∈ suppliedA (o :: os) := fun c hc => by
      rw [suppliedA, List.flatMap_cons]; exact List.mem_append_right _ hc
    refine rel_bind (R := Aff a 0 P) ?_ (fun e e' he => execAOps_aff ha hP os he (fun cs g hc => ht cs g (List.mem_cons_of_mem _ hc))
      (fun c hc => hg c (hm' c hc)) (fun c hc => hp c (hm' c hc)) (fun c hc => hr c (hm' c hc)))
    cases o with
    | ins o =>
      have := Aff.execOps ha hP [o] h (fun c hc => hg c (hm c (by simpa [supplied, AOp.supplied] using hc))) (fun c hc => hp c (hm c (by simpa [supplied, AOp.supplied] using hc)))
        (fun c hc => hr c (hm c (by simpa [supplied, AOp.supplied] using hc)))
      simp only [TDigest.execOps, List.map_cons, List.map_nil] at this
      have e : ∀ q : Prog (TDigest K), (q >>= fun d => .ret d) = q := fun q => bind_ret_right q
      rw [e, e] at this
      exact this
    | cluster cs g =>
      exact addCluster_aff ha hP h (CAff.of_good (fun c hc => hg c (hm c hc)) (fun c hc => hp c (hm c hc))) (fun c hc => hr c (hm c hc)) g
    | clusterTree cs g => exact absurd (by simp) (ht cs g)

end

end TDigest
end
end AQ

/-
ParTDigest: what a flush does to the inner digest.
-/
import Verif.Model.ParTDigest
import Verif.Proofs.TDTree
import Verif.Props.TDigestQuery

set_option linter.unusedSectionVars false
set_option linter.unusedVariables false

namespace AQ
open Prog Spec
variable {K : Type} [Field K] [LinearOrder K] [IsStrictOrderedRing K] [FloatFmt K]

namespace TDigest

/-- A merging pass on a digest whose limits are arbitrary numbers. -/
theorem addCentroidBuffer_gen [FloatFmt.Exact K] (d : TDigest K) (batch : List (Centroid K)) (hd : ∀ c ∈ d.centroids, Good c)
    (hb : ∀ c ∈ batch, Good c) (hne : batch ++ d.centroids ≠ []) (hmn : d.min ≠ .nan) (hmx : d.max ≠ .nan) :
    Always (d.addCentroidBuffer batch) (fun d' =>
      (∀ c ∈ d'.centroids, Good c) ∧ d'.centroids ≠ [] ∧
      totalW d'.centroids = totalW (batch ++ d.centroids) ∧ totalMass d'.centroids = totalMass (batch ++ d.centroids) ∧
      (∃ m, IsMinMean (batch ++ d.centroids) m ∧ d'.min = Min.min d.min m ∧ ∀ c ∈ d'.centroids, m ≤ c.mean) ∧
      (∃ m, IsMaxMean (batch ++ d.centroids) m ∧ d'.max = Max.max d.max m ∧ ∀ c ∈ d'.centroids, c.mean ≤ m) ∧
      d'.centroids.Pairwise (fun a b => a.mean.toK ≤ b.mean.toK) ∧
      ∀ P : K → Prop, (∀ a b, P a → P b → P (a + b)) → (∀ c ∈ batch ++ d.centroids, P c.weight.toK) →
        ∀ c ∈ d'.centroids, P c.weight.toK) := by
  -- the digest as the result of supplying its own centroids, with the limits put aside
  refine (d.addCentroidBuffer_spec batch hd hb hne).mono ?_
  rintro d' ⟨l, runs, hl, h1, h2, h3, h4, -, h5, h6, -⟩
  have hlg : ∀ c ∈ l, Good c := by
    intro c hc
    rcases List.mem_append.1 (h1.mem_iff.1 hc) with hc | hc
    · exact hb c hc
    · exact hd c hc
  have hrg : ∀ r ∈ runs, ∀ c ∈ r, Good c := fun r hr c hc => hlg c (h3.mem hr hc)
  have hmem : ∀ c ∈ d'.centroids, ∃ r ∈ runs, weightedMean r = c := by
    intro c hc
    rw [h4] at hc
    obtain ⟨r, hr, rfl⟩ := List.mem_map.1 hc
    exact ⟨r, hr, rfl⟩
  have hhead := head_le hl h2
  have hlast := le_getLast hl h2
  have hlsorted : l.Pairwise (fun a b => a.mean.toK ≤ b.mean.toK) := by
    refine h2.imp_of_mem ?_
    intro a b ha hb' hab
    rw [(hlg a ha).mean, (hlg b hb').mean] at hab
    simpa [Fl.toK] using hab
  have hgood' : ∀ c ∈ d'.centroids, Good c := by
    intro c hc
    obtain ⟨r, hr', rfl⟩ := hmem c hc
    exact weightedMean_good (hrg r hr') (h3.2 r hr')
  refine ⟨hgood', ?_, ?_, ?_, ⟨(l.head hl).mean, ?_, ?_, ?_⟩, ⟨(l.getLast hl).mean, ?_, ?_, ?_⟩, ?_, ?_⟩
  · intro h'
    rw [h4, List.map_eq_nil_iff] at h'
    rw [h'] at h3
    exact hl h3.1.symm
  · rw [h4, partition_totalW, h3.1, totalW_perm h1]
  · rw [h4, partition_totalMass runs h3.2 hrg, h3.1, totalMass_perm h1]
  · exact ⟨⟨_, h1.mem_iff.1 (List.head_mem hl), rfl⟩, fun c hc => hhead c (h1.mem_iff.2 hc)⟩
  · rw [h5, Fl.fmin_eq hmn (hlg _ (List.head_mem hl)).mean_ne_nan]
  · intro c hc
    rw [(hgood' c hc).mean]
    obtain ⟨r, hr', rfl⟩ := hmem c hc
    have hb1 : (l.head hl).mean.toK ≤ (weightedMean r).mean.toK :=
      le_weightedMean (hrg r hr') (h3.2 r hr') (fun a ha => by
        have := hhead a (h3.mem hr' ha)
        rw [(hlg _ (List.head_mem hl)).mean, (hlg a (h3.mem hr' ha)).mean] at this
        simpa [Fl.toK] using this)
    rw [(hlg _ (List.head_mem hl)).mean]
    simpa using hb1
  · exact ⟨⟨_, h1.mem_iff.1 (List.getLast_mem hl), rfl⟩, fun c hc => hlast c (h1.mem_iff.2 hc)⟩
  · rw [h6, Fl.fmax_eq hmx (hlg _ (List.getLast_mem hl)).mean_ne_nan]
  · intro c hc
    rw [(hgood' c hc).mean]
    obtain ⟨r, hr', rfl⟩ := hmem c hc
    have hb1 : (weightedMean r).mean.toK ≤ (l.getLast hl).mean.toK :=
      weightedMean_le (hrg r hr') (h3.2 r hr') (fun a ha => by
        have := hlast a (h3.mem hr' ha)
        rw [(hlg _ (List.getLast_mem hl)).mean, (hlg a (h3.mem hr' ha)).mean] at this
        simpa [Fl.toK] using this)
    rw [(hlg _ (List.getLast_mem hl)).mean]
    simpa using hb1
  · rw [h4]
    exact partition_sorted runs h3.2 hrg (by rw [h3.1]; exact hlsorted)
  · intro P hP hPs c hc
    obtain ⟨r, hr', rfl⟩ := hmem c hc
    exact totalW_closed hP r (h3.2 r hr') (fun a ha => hPs a (h1.mem_iff.1 (h3.mem hr' ha)))

theorem unit_good [FloatFmt.Exact K] {x : Fl K} (h : x.IsFin) : Good (unit x) :=
  ⟨h, 1, zero_lt_one, by simp [unit]⟩

theorem totalW_units [FloatFmt.Exact K] : ∀ xs : List (Fl K), totalW (xs.map unit) = (xs.length : K)
  | [] => by simp
  | x :: xs => by
    rw [List.map_cons, totalW_cons, totalW_units xs]
    simp [unit, Fl.toK, add_comm]

theorem totalMass_units [FloatFmt.Exact K] : ∀ xs : List (Fl K), totalMass (xs.map unit) = (xs.map Fl.toK).sum
  | [] => by simp
  | x :: xs => by
    rw [List.map_cons, totalMass_cons, totalMass_units xs]
    simp [unit, Fl.toK]

end TDigest


namespace ParTDigest

/-- Relation between the inner digest and the items flushed into it. -/
structure PInv (d : TDigest K) (fl : List (Fl K)) : Prop where
  good : ∀ c ∈ d.centroids, Good c
  sorted : d.centroids.Pairwise (fun a b => a.mean.toK ≤ b.mean.toK)
  weight : totalW d.centroids = (fl.length : K)
  mass : totalMass d.centroids = (fl.map Fl.toK).sum
  closed : ∀ P : K → Prop, (∀ a b, P a → P b → P (a + b)) → P 1 → ∀ c ∈ d.centroids, P c.weight.toK
  nil : fl = [] → d.centroids = [] ∧ d.min = Fl.maxValue ∧ d.max = Fl.minValue
  fin : fl ≠ [] → d.centroids ≠ [] ∧ d.min.IsFin ∧ d.max.IsFin
  min_le : ∀ c ∈ d.centroids, d.min ≤ c.mean
  le_max : ∀ c ∈ d.centroids, c.mean ≤ d.max
  lower : fl ≠ [] → ∀ b, (∀ x ∈ fl, b ≤ x) → b ≤ d.min
  upper : fl ≠ [] → ∀ b, (∀ x ∈ fl, x ≤ b) → d.max ≤ b

theorem new_pinv (s i : ScaleFn K) (cf : Fl K) : PInv (TDigest.new s i cf) [] :=
  ⟨by simp [TDigest.new], by simp [TDigest.new], by simp [TDigest.new], by simp [TDigest.new], by simp [TDigest.new],
    fun _ => ⟨rfl, rfl, rfl⟩, by simp, by simp [TDigest.new], by simp [TDigest.new], by simp, by simp⟩

theorem chunkDigests_spec [FloatFmt.Exact K] (s i : ScaleFn K) (cf : Fl K) : ∀ cs : List (List (Fl K)),
    (∀ c ∈ cs, ∀ x ∈ c, Item x) →
    Always (chunkDigests (.ret (TDigest.new s i cf)) cs) (fun ds =>
      List.Forall₂ (fun (d : TDigest K) c => d.Inv (c.map TDigest.unit)) ds cs)
  | [], _ => List.Forall₂.nil
  | c :: cs, h => by
    unfold chunkDigests
    rw [bind_ret, always_bind]
    have h1 : ∀ x ∈ c.map TDigest.unit, Good x ∧ InRange x := by
      intro x hx
      obtain ⟨y, hy, rfl⟩ := List.mem_map.1 hx
      have := h c (by simp) y hy
      exact ⟨TDigest.unit_good this.1, this.2⟩
    have h2 := TDigest.addCentroidBuffer_inv (TDigest.new_inv s i cf).toCInv (by simp) (fun x hx => (h1 x hx).1)
      (fun x hx => (h1 x hx).2)
    rw [List.nil_append] at h2
    refine h2.mono ?_
    intro d' hd'
    rw [always_bind]
    refine (chunkDigests_spec s i cf cs (fun c' hc' => h c' (by simp [hc']))).mono ?_
    intro ds hds
    exact List.Forall₂.cons hd' hds

/-- The chunk digests together. -/
theorem chunk_totals [FloatFmt.Exact K] : ∀ (ds : List (TDigest K)) (cs : List (List (Fl K))),
    List.Forall₂ (fun (d : TDigest K) c => d.Inv (c.map TDigest.unit)) ds cs →
    totalW (ds.flatMap TDigest.centroids) = (cs.flatten.length : K) ∧
    totalMass (ds.flatMap TDigest.centroids) = (cs.flatten.map Fl.toK).sum
  | [], [], _ => by simp
  | d :: ds, c :: cs, h => by
    cases h with
    | cons h1 h2 =>
      obtain ⟨i1, i2⟩ := chunk_totals ds cs h2
      rw [List.flatMap_cons, totalW_append, totalMass_append, i1, i2, h1.weight, h1.mass, TDigest.totalW_units,
        TDigest.totalMass_units, List.flatten_cons, List.length_append, List.map_append, List.sum_append]
      exact ⟨by push_cast; rfl, rfl⟩

theorem forall₂_left {α β : Type} {R : α → β → Prop} : ∀ {as : List α} {bs : List β}, List.Forall₂ R as bs →
    ∀ a ∈ as, ∃ b ∈ bs, R a b
  | _, _, .cons h t, a, ha => by
    rcases List.mem_cons.1 ha with rfl | ha
    · exact ⟨_, by simp, h⟩
    · obtain ⟨b, hb, hr⟩ := forall₂_left t a ha
      exact ⟨b, by simp [hb], hr⟩

theorem forall₂_right {α β : Type} {R : α → β → Prop} : ∀ {as : List α} {bs : List β}, List.Forall₂ R as bs →
    ∀ b ∈ bs, ∃ a ∈ as, R a b
  | _, _, .cons h t, b, hb => by
    rcases List.mem_cons.1 hb with rfl | hb
    · exact ⟨_, by simp, h⟩
    · obtain ⟨a, ha, hr⟩ := forall₂_right t b hb
      exact ⟨a, by simp [ha], hr⟩

/-- A flush moves the buffer into the digest. -/
theorem flush_spec [FloatFmt.Exact K] (s i : ScaleFn K) (cf : Fl K) (p : ParTDigest K) (fl : List (Fl K))
    (hc : p.creator = .ret (TDigest.new s i cf)) (ht : p.threads ≠ 0) (h : PInv p.digest fl) (hb : ∀ x ∈ p.buffer, Item x) :
    Always p.flush (fun p' => (PInv p'.digest (fl ++ p.buffer) ∧
        p' = { p with digest := p'.digest, buffer := [] }) ∧
      (p.buffer = [] → p' = p) ∧
      (p.buffer ≠ [] → IsMinMean (p.buffer.map TDigest.unit ++ p.digest.centroids) p'.digest.min ∧
        IsMaxMean (p.buffer.map TDigest.unit ++ p.digest.centroids) p'.digest.max)) := by
  unfold flush
  by_cases hbn : p.buffer = []
  · rw [if_pos hbn]
    rw [hbn, List.append_nil]
    obtain ⟨d, t, b, c, cr⟩ := p
    simp only at hbn h ⊢
    subst hbn
    exact ⟨⟨h, rfl⟩, fun _ => rfl, by simp⟩
  rw [if_neg hbn]
  unfold chunks
  rw [if_neg ht, bind_ret, hc, always_bind]
  have hfl := chunksAux_flatten p.threads ht p.buffer.length p.buffer (le_refl _)
  have hcne := chunksAux_ne_nil p.threads ht p.buffer.length p.buffer
  generalize chunksAux p.threads p.buffer.length p.buffer = cs at hfl hcne
  refine (chunkDigests_spec s i cf cs (fun c hc x hx => hb x (by rw [← hfl]; exact List.mem_flatten.2 ⟨c, hc, hx⟩))).mono ?_
  intro ds hds
  obtain ⟨hW, hM⟩ := chunk_totals ds cs hds
  rw [hfl] at hW hM
  have hL := forall₂_left hds
  have hR := forall₂_right hds
  have hunit : ∀ c ∈ cs, ∀ u ∈ c.map TDigest.unit, Good u := by
    intro c hc u hu
    obtain ⟨x, hx, rfl⟩ := List.mem_map.1 hu
    exact TDigest.unit_good (hb x (by rw [← hfl]; exact List.mem_flatten.2 ⟨c, hc, hx⟩)).1
  have hne1 : ∀ c ∈ cs, c.map TDigest.unit ≠ [] := fun c hc => by simpa using hcne c hc
  have hsub : ∀ c ∈ cs, ∀ u ∈ c.map TDigest.unit, u ∈ p.buffer.map TDigest.unit := by
    intro c hc u hu
    obtain ⟨x, hx, rfl⟩ := List.mem_map.1 hu
    exact List.mem_map.2 ⟨x, by rw [← hfl]; exact List.mem_flatten.2 ⟨c, hc, hx⟩, rfl⟩
  have hbuf : ∀ x ∈ p.buffer, ∃ d ∈ ds, ∃ c ∈ cs, x ∈ c ∧ d.Inv (c.map TDigest.unit) := by
    intro x hx
    rw [← hfl] at hx
    obtain ⟨c, hc, hxc⟩ := List.mem_flatten.1 hx
    obtain ⟨d, hd, hi⟩ := hR c hc
    exact ⟨d, hd, c, hc, hxc, hi⟩
  have hdsne : ds ≠ [] := by
    obtain ⟨x, hx⟩ := List.exists_mem_of_ne_nil _ hbn
    obtain ⟨d, hd, -⟩ := hbuf x hx
    exact List.ne_nil_of_mem hd
  have hfin : ∀ d ∈ ds, d.min.IsFin ∧ d.max.IsFin := by
    intro d hd
    obtain ⟨c, hc, hi⟩ := hL d hd
    exact TDigest.good_sup_min hi.toCInv (hunit c hc) (hne1 c hc)
  have hnn : ∀ {x : Fl K}, x.IsFin → x ≠ .nan := by rintro x ⟨a, rfl⟩; simp
  obtain ⟨dmn, e1, m1, l1⟩ := minBy_spec TDigest.min ds hdsne (fun d hd => hnn (hfin d hd).1)
  obtain ⟨dmx, e2, m2, l2⟩ := maxBy_spec TDigest.max ds hdsne (fun d hd => hnn (hfin d hd).2)
  rw [e1, bind_ret, unwrap_some, bind_ret, e2, bind_ret, unwrap_some, bind_ret, always_bind]
  -- the limits are those of the buffer
  have hmin : IsMinMean (p.buffer.map TDigest.unit) dmn.min := by
    obtain ⟨c, hc, hi⟩ := hL dmn m1
    obtain ⟨⟨u, hu, hum⟩, -⟩ := hi.min_eq (hne1 c hc)
    refine ⟨⟨u, hsub c hc u hu, hum⟩, ?_⟩
    intro u' hu'
    obtain ⟨x, hx, rfl⟩ := List.mem_map.1 hu'
    obtain ⟨d, hd, c', hc', hxc, hi'⟩ := hbuf x hx
    exact (l1 d hd).trans ((hi'.min_eq (hne1 c' hc')).2 _ (List.mem_map.2 ⟨x, hxc, rfl⟩))
  have hmax : IsMaxMean (p.buffer.map TDigest.unit) dmx.max := by
    obtain ⟨c, hc, hi⟩ := hL dmx m2
    obtain ⟨⟨u, hu, hum⟩, -⟩ := hi.max_eq (hne1 c hc)
    refine ⟨⟨u, hsub c hc u hu, hum⟩, ?_⟩
    intro u' hu'
    obtain ⟨x, hx, rfl⟩ := List.mem_map.1 hu'
    obtain ⟨d, hd, c', hc', hxc, hi'⟩ := hbuf x hx
    exact ((hi'.max_eq (hne1 c' hc')).2 _ (List.mem_map.2 ⟨x, hxc, rfl⟩)).trans (l2 d hd)
  have hbg : ∀ c ∈ ds.flatMap TDigest.centroids, Good c := by
    intro c hc
    obtain ⟨d, hd, hcd⟩ := List.mem_flatMap.1 hc
    obtain ⟨ch, hch, hi⟩ := hL d hd
    exact hi.good c hcd
  have hbr : ∀ c ∈ ds.flatMap TDigest.centroids, dmn.min ≤ c.mean ∧ c.mean ≤ dmx.max := by
    intro c hc
    obtain ⟨d, hd, hcd⟩ := List.mem_flatMap.1 hc
    obtain ⟨ch, hch, hi⟩ := hL d hd
    exact ⟨(l1 d hd).trans (hi.min_le c hcd), (hi.le_max c hcd).trans (l2 d hd)⟩
  have hbp : ds.flatMap TDigest.centroids ≠ [] := by
    intro h0
    rw [h0, totalW_nil] at hW
    have := List.length_pos_of_ne_nil hbn
    have : (0 : K) < (p.buffer.length : K) := by exact_mod_cast this
    linarith
  refine (TDigest.addCentroidBuffer_gen { p.digest with min := dmn.min, max := dmx.max } (ds.flatMap TDigest.centroids)
    h.good hbg (by simp [hbp]) (hnn (hfin _ m1).1) (hnn (hfin _ m2).2)).mono ?_
  rintro d' ⟨g1, g2, g3, g4, ⟨mn, ⟨⟨cm, hcm, hcme⟩, g5⟩, g6, g7⟩, ⟨mx, ⟨⟨cx, hcx, hcxe⟩, g8⟩, g9, g10⟩, g11, g12⟩
  simp only at g3 g4 hcm hcx g5 g8 g6 g9 g12
  -- the resulting limits
  have hmn' : IsMinMean (p.buffer.map TDigest.unit ++ p.digest.centroids) d'.min := by
    constructor
    · rw [g6]
      rcases le_total dmn.min mn with hle | hle
      · rw [min_eq_left hle]
        obtain ⟨u, hu, hum⟩ := hmin.1
        exact ⟨u, List.mem_append_left _ hu, hum⟩
      · rw [min_eq_right hle]
        rcases List.mem_append.1 hcm with hcm | hcm
        · have : mn = dmn.min := le_antisymm hle (hcme ▸ (hbr cm hcm).1)
          rw [this]
          obtain ⟨u, hu, hum⟩ := hmin.1
          exact ⟨u, List.mem_append_left _ hu, hum⟩
        · exact ⟨cm, List.mem_append_right _ hcm, hcme⟩
    · intro c hc
      rw [g6]
      rcases List.mem_append.1 hc with hc | hc
      · exact (min_le_left _ _).trans (hmin.2 c hc)
      · exact (min_le_right _ _).trans (g5 c (List.mem_append_right _ hc))
  have hmx' : IsMaxMean (p.buffer.map TDigest.unit ++ p.digest.centroids) d'.max := by
    constructor
    · rw [g9]
      rcases le_total mx dmx.max with hle | hle
      · rw [max_eq_left hle]
        obtain ⟨u, hu, hum⟩ := hmax.1
        exact ⟨u, List.mem_append_left _ hu, hum⟩
      · rw [max_eq_right hle]
        rcases List.mem_append.1 hcx with hcx | hcx
        · have : mx = dmx.max := le_antisymm (hcxe ▸ (hbr cx hcx).2) hle
          rw [this]
          obtain ⟨u, hu, hum⟩ := hmax.1
          exact ⟨u, List.mem_append_left _ hu, hum⟩
        · exact ⟨cx, List.mem_append_right _ hcx, hcxe⟩
    · intro c hc
      rw [g9]
      rcases List.mem_append.1 hc with hc | hc
      · exact (hmax.2 c hc).trans (le_max_left _ _)
      · exact (g8 c (List.mem_append_right _ hc)).trans (le_max_right _ _)
  have hallgood : ∀ c ∈ p.buffer.map TDigest.unit ++ p.digest.centroids, Good c := by
    intro c hc
    rcases List.mem_append.1 hc with hc | hc
    · obtain ⟨x, hx, rfl⟩ := List.mem_map.1 hc
      exact TDigest.unit_good (hb x hx).1
    · exact h.good c hc
  have hfl_ne : fl ++ p.buffer ≠ [] := by simp [hbn]
  refine ⟨⟨⟨g1, g11, ?_, ?_, ?_, fun h' => absurd h' hfl_ne, ?_, ?_, ?_, ?_, ?_⟩, rfl⟩, fun h' => absurd h' hbn, fun _ => ⟨hmn', hmx'⟩⟩
  · show totalW d'.centroids = _
    rw [g3, totalW_append, hW, h.weight, List.length_append]; push_cast; ring
  · show totalMass d'.centroids = _
    rw [g4, totalMass_append, hM, h.mass, List.map_append, List.sum_append]; ring
  · intro P hP h1
    refine g12 P hP ?_
    intro c hc
    rcases List.mem_append.1 hc with hc | hc
    · obtain ⟨d, hd, hcd⟩ := List.mem_flatMap.1 hc
      obtain ⟨ch, hch, hi⟩ := hL d hd
      refine hi.closed P hP ?_ c hcd
      intro u hu
      obtain ⟨x, hx, rfl⟩ := List.mem_map.1 hu
      simpa [TDigest.unit, Fl.toK] using h1
    · exact h.closed P hP h1 c hc
  · intro _
    refine ⟨g2, ?_, ?_⟩
    · obtain ⟨c, hc, e⟩ := hmn'.1
      show d'.min.IsFin
      rw [← e]; exact (hallgood c hc).1
    · obtain ⟨c, hc, e⟩ := hmx'.1
      show d'.max.IsFin
      rw [← e]; exact (hallgood c hc).1
  · intro c hc
    show d'.min ≤ _
    rw [g6]
    exact (min_le_right _ _).trans (g7 c hc)
  · intro c hc
    show _ ≤ d'.max
    rw [g9]
    exact (g10 c hc).trans (le_max_right _ _)
  · intro _ b hb'
    obtain ⟨c, hc, e⟩ := hmn'.1
    show b ≤ d'.min
    rw [← e]
    rcases List.mem_append.1 hc with hc | hc
    · obtain ⟨x, hx, rfl⟩ := List.mem_map.1 hc
      exact hb' x (List.mem_append_right _ hx)
    · have hfl' : fl ≠ [] := fun h0 => by rw [(h.nil h0).1] at hc; simp at hc
      exact (h.lower hfl' b (fun x hx => hb' x (List.mem_append_left _ hx))).trans (h.min_le c hc)
  · intro _ b hb'
    obtain ⟨c, hc, e⟩ := hmx'.1
    show d'.max ≤ b
    rw [← e]
    rcases List.mem_append.1 hc with hc | hc
    · obtain ⟨x, hx, rfl⟩ := List.mem_map.1 hc
      exact hb' x (List.mem_append_right _ hx)
    · have hfl' : fl ≠ [] := fun h0 => by rw [(h.nil h0).1] at hc; simp at hc
      exact (h.le_max c hc).trans (h.upper hfl' b (fun x hx => hb' x (List.mem_append_left _ hx)))

theorem PInv.view {d : TDigest K} {fl : List (Fl K)} (h : PInv d fl) (hne : fl ≠ []) :
    ∃ l a b, TDigest.View d l a b ∧ TDigest.wt l = (fl.length : K) ∧ ∀ p ∈ l, 1 ≤ p.2 := by
  obtain ⟨h1, ⟨a, ha⟩, ⟨b, hb⟩⟩ := h.fin hne
  have hl : d.centroids = (d.centroids.map (fun c => (c.mean.toK, c.weight.toK))).map TDigest.toC := by
    rw [List.map_map]
    refine (List.map_id d.centroids).symm.trans (List.map_congr_left ?_)
    intro c hc
    have hg := h.good c hc
    obtain ⟨m, w⟩ := c
    obtain ⟨⟨m', hm⟩, w', -, hw⟩ := hg
    simp only at hm hw
    subst hm hw
    rfl
  have hmem : ∀ p ∈ d.centroids.map (fun c => (c.mean.toK, c.weight.toK)), ∃ c ∈ d.centroids, p = (c.mean.toK, c.weight.toK) := by
    intro p hp
    obtain ⟨c, hc, rfl⟩ := List.mem_map.1 hp
    exact ⟨c, hc, rfl⟩
  refine ⟨_, a, b, ⟨hl, ha, hb, ?_, ?_, ?_, ?_, by simpa using h1⟩, ?_, ?_⟩
  · rw [List.pairwise_map]; exact h.sorted
  · intro p hp
    obtain ⟨c, hc, rfl⟩ := hmem p hp
    exact (h.good c hc).weight_pos
  · intro p hp
    obtain ⟨c, hc, rfl⟩ := hmem p hp
    have := h.min_le c hc
    rw [ha, (h.good c hc).mean] at this
    simpa using this
  · intro p hp
    obtain ⟨c, hc, rfl⟩ := hmem p hp
    have := h.le_max c hc
    rw [hb, (h.good c hc).mean] at this
    simpa using this
  · rw [← TDigest.totalW_toC, ← hl, h.weight]
  · intro p hp
    obtain ⟨c, hc, rfl⟩ := hmem p hp
    exact h.closed (fun w => 1 ≤ w) (fun a b ha hb => by linarith) le_rfl c hc

section
variable [FloorRing K]

/-- Queries of the inner digest return. -/
theorem PInv.queries [FloatFmt.Exact K] {d : TDigest K} {fl : List (Fl K)} (h : PInv d fl) (h64 : (fl.length : K) < 2 ^ 64)
    (x : K) : (∃ r, d.estQuantileAtValue (.fin x) = .ret r) ∧ ∃ r, d.estValueAtQuantile (.fin x) = .ret r := by
  by_cases hne : fl = []
  · obtain ⟨h1, h2, h3⟩ := h.nil hne
    constructor
    · refine ⟨.nan, ?_⟩
      unfold TDigest.estQuantileAtValue
      rw [h1]
    · refine ⟨d.min, ?_⟩
      unfold TDigest.estValueAtQuantile TDigest.totalWeight
      rw [h1]
      simp [TDigest.weightSum, Fl.sum64]
  · obtain ⟨l, a, b, hv, hw, h1⟩ := h.view hne
    constructor
    · obtain ⟨p, hp, -⟩ := TDigest.estQuantile_total hv h1 x
      exact ⟨_, hp⟩
    · rw [← hw] at h64
      exact ⟨_, TDigest.estValue_eq hv h1 h64 x⟩

/-- The state after a history that supplied `sup`. -/
def HInv (s i : ScaleFn K) (cf : Fl K) (t c : Nat) (p : ParTDigest K) (sup : List (Fl K)) : Prop :=
  ∃ fl, sup = fl ++ p.buffer ∧ PInv p.digest fl ∧ (∀ x ∈ p.buffer, Item x) ∧ p.buffer.length ≤ c ∧
    p.threads = t ∧ p.capacity = c ∧ p.creator = .ret (TDigest.new s i cf)

theorem flush_hinv [FloatFmt.Exact K] {s i : ScaleFn K} {cf : Fl K} {t c : Nat} (ht : t ≠ 0) {p : ParTDigest K} {fl : List (Fl K)}
    (h : PInv p.digest fl) (hb : ∀ x ∈ p.buffer, Item x) (e1 : p.threads = t) (e2 : p.capacity = c)
    (e3 : p.creator = .ret (TDigest.new s i cf)) :
    Always p.flush (fun p' => p'.buffer = [] ∧ PInv p'.digest (fl ++ p.buffer) ∧ HInv s i cf t c p' (fl ++ p.buffer)) := by
  refine (flush_spec s i cf p fl e3 (by rw [e1]; exact ht) h hb).mono ?_
  rintro p' ⟨⟨h1, h2⟩, -⟩
  have hbuf : p'.buffer = [] := by rw [h2]
  refine ⟨hbuf, h1, fl ++ p.buffer, by rw [hbuf]; simp, h1, by rw [hbuf]; simp, by rw [hbuf]; simp, ?_, ?_, ?_⟩
  · rw [h2]; exact e1
  · rw [h2]; exact e2
  · rw [h2]; exact e3

theorem exec_hinv [FloatFmt.Exact K] {s i : ScaleFn K} {cf : Fl K} {t c : Nat} (ht : t ≠ 0) {p : ParTDigest K} {sup : List (Fl K)}
    (h : HInv s i cf t c p sup) (o : Op (Fl K)) (ho : OrdinaryOp o) (h64 : (sup.length : K) < 2 ^ 64) :
    Always (o.exec p) (fun p' => HInv s i cf t c p' (sup ++ o.items)) := by
  obtain ⟨fl, e0, h1, h2, h3, e1, e2, e3⟩ := h
  have hins : ∀ xs : List (Fl K), (∀ x ∈ xs, Item x) →
      Always (flushIfFull { p with buffer := p.buffer ++ xs }) (fun p' => HInv s i cf t c p' (sup ++ xs)) := by
    intro xs hxs
    have hb : ∀ x ∈ p.buffer ++ xs, Item x := by
      intro x hx
      rcases List.mem_append.1 hx with hx | hx
      · exact h2 x hx
      · exact hxs x hx
    unfold flushIfFull
    split
    · refine (flush_hinv (p := { p with buffer := p.buffer ++ xs }) ht h1 hb e1 e2 e3).mono ?_
      rintro p' ⟨-, -, h'⟩
      rw [e0, List.append_assoc]
      exact h'
    · next hle =>
      refine ⟨fl, ?_, h1, hb, ?_, e1, e2, e3⟩
      · rw [e0, List.append_assoc]
      · simp only [e2] at hle
        exact not_lt.1 hle
  cases o with
  | add x => exact hins [x] (by intro y hy; rw [List.mem_singleton] at hy; subst hy; exact ho)
  | addBuffer xs => exact hins xs ho
  | quantile v =>
    obtain ⟨x, rfl⟩ := ho
    simp only [Op.exec, Op.items, List.append_nil]
    rw [always_bind]
    show Always (estQuantileAtValue p (.fin x)) _
    unfold estQuantileAtValue
    rw [always_bind]
    refine (flush_hinv ht h1 h2 e1 e2 e3).mono ?_
    rintro p' ⟨-, h4, h5⟩
    rw [← e0] at h4 h5
    obtain ⟨⟨r, hr⟩, -⟩ := h4.queries h64 x
    rw [hr, bind_ret]
    exact h5
  | value q =>
    obtain ⟨x, rfl⟩ := ho
    simp only [Op.exec, Op.items, List.append_nil]
    rw [always_bind]
    show Always (estValueAtQuantile p (.fin x)) _
    unfold estValueAtQuantile
    rw [always_bind]
    refine (flush_hinv ht h1 h2 e1 e2 e3).mono ?_
    rintro p' ⟨-, h4, h5⟩
    rw [← e0] at h4 h5
    obtain ⟨-, r, hr⟩ := h4.queries h64 x
    rw [hr, bind_ret]
    exact h5

theorem execAll_hinv [FloatFmt.Exact K] {s i : ScaleFn K} {cf : Fl K} {t c : Nat} (ht : t ≠ 0) :
    ∀ (ops : List (Op (Fl K))) (p : ParTDigest K) (sup : List (Fl K)), HInv s i cf t c p sup → (∀ o ∈ ops, OrdinaryOp o) →
    ((sup ++ itemsOf ops).length : K) < 2 ^ 64 →
    Always (execAll p ops) (fun p' => HInv s i cf t c p' (sup ++ itemsOf ops))
  | [], p, sup, h, _, _ => by simpa [execAll, itemsOf] using h
  | o :: os, p, sup, h, ho, h64 => by
    have e : sup ++ itemsOf (o :: os) = (sup ++ o.items) ++ itemsOf os := by
      simp [itemsOf, List.flatMap_cons, List.append_assoc]
    rw [e] at h64 ⊢
    unfold execAll
    rw [always_bind]
    refine (exec_hinv ht h o (ho o (by simp)) ?_).mono ?_
    · refine lt_of_le_of_lt ?_ h64
      exact Nat.cast_le.2 (by simp only [List.length_append]; omega)
    · intro p' h'
      exact execAll_hinv ht os p' _ h' (fun o' ho' => ho o' (by simp [ho'])) h64

end
end ParTDigest
end AQ

/-
Property C108: accuracy of a TDigest after any number of batches, as far as it goes.
-/
import Verif.Proofs.TDDrift
import Verif.Props.TDOutward

set_option linter.unusedSectionVars false
set_option linter.unusedVariables false

namespace AQ
open Prog Spec
variable {K : Type} [Field K] [LinearOrder K] [IsStrictOrderedRing K] [FloatFmt K]

namespace Spec

/-- Sum of the weights of the pairs whose key is at most `key`. -/
def weightUpTo (l : List (Centroid K)) (key : Fl K) : K :=
  ((l.filter (fun c => c.mean ≤ key)).map (fun c => c.weight.toK)).sum

/-- `r` is a weight that lies, up to `err`, between the weight of the clusters below `x` and that of the clusters up to `x`. -/
def WeightWithin (l : List (Centroid K)) (r x err : K) : Prop :=
  weightBelow l (.fin x) ≤ r + err ∧ r ≤ weightUpTo l (.fin x) + err

/-- For every batch the number of items supplied with it and before it (`n` before the first batch), added up. -/
def heldSum (n : K) : List (List (Fl K)) → K
  | [] => 0
  | b :: bs => (n + b.length) + heldSum (n + b.length) bs

end Spec

namespace TDigest

theorem weightBelow_eq_lw (x : K) : ∀ {l : List (Centroid K)}, (∀ c ∈ l, Good c) → weightBelow l (.fin x) = lw x l
  | [], _ => rfl
  | c :: l, h => by
    have ih := weightBelow_eq_lw x (l := l) (fun d hd => h d (by simp [hd]))
    obtain ⟨⟨m, hm⟩, -⟩ := h c (by simp)
    unfold weightBelow at *
    rw [lw_cons, List.filter_cons, hm, show (Fl.fin m : Fl K).toK = m from rfl]
    by_cases hx : m < x
    · simp only [Fl.fin_lt_fin, hx, decide_true, if_true, List.map_cons, List.sum_cons, ih]
    · simp only [Fl.fin_lt_fin, hx, decide_false, if_false, ih, zero_add, Bool.false_eq_true]

theorem weightUpTo_eq_uw (x : K) : ∀ {l : List (Centroid K)}, (∀ c ∈ l, Good c) → weightUpTo l (.fin x) = uw x l
  | [], _ => rfl
  | c :: l, h => by
    have ih := weightUpTo_eq_uw x (l := l) (fun d hd => h d (by simp [hd]))
    obtain ⟨⟨m, hm⟩, -⟩ := h c (by simp)
    unfold weightUpTo at *
    rw [uw_cons, List.filter_cons, hm, show (Fl.fin m : Fl K).toK = m from rfl]
    by_cases hx : m ≤ x
    · simp only [Fl.fin_le_fin, hx, decide_true, if_true, List.map_cons, List.sum_cons, ih]
    · simp only [Fl.fin_le_fin, hx, decide_false, if_false, ih, zero_add, Bool.false_eq_true]

/-- One merge pass. -/
structure Merged (d : TDigest K) (batch : List (Centroid K)) (d' : TDigest K) (runs : List (List (Centroid K))) : Prop where
  cs : d'.centroids = runs.map weightedMean
  perm : runs.flatten.Perm (batch ++ d.centroids)
  ne : ∀ r ∈ runs, r ≠ []
  good : ∀ r ∈ runs, ∀ c ∈ r, Good c
  sorted : runs.flatten.Pairwise (fun a b => a.mean.toK ≤ b.mean.toK)
  limit : ∀ pre r post, runs = pre ++ r :: post → 2 ≤ r.length → Fl.le (.fin (totalW r))
    (sizeLimit d.scaleFunc d.inverseScaleFunc d.compressFactor (totalW (batch ++ d.centroids)) (totalW pre.flatten)) = true
  sf : d'.scaleFunc = d.scaleFunc
  isf : d'.inverseScaleFunc = d.inverseScaleFunc
  cf : d'.compressFactor = d.compressFactor

theorem merged [FloatFmt.Exact K] (d : TDigest K) (batch : List (Centroid K)) (hd : ∀ c ∈ d.centroids, Good c)
    (hb : ∀ c ∈ batch, Good c) : Always (d.addCentroidBuffer batch) (fun d' => ∃ runs, Merged d batch d' runs) := by
  by_cases hne : batch ++ d.centroids = []
  · obtain ⟨rfl, h2⟩ := List.append_eq_nil_iff.1 hne
    rw [addCentroidBuffer_nil d h2]
    exact ⟨[], by simpa using h2, by simp [h2], by simp, by simp, by simp, by simp, rfl, rfl, rfl⟩
  have hg : ∀ c ∈ batch ++ d.centroids, Good c := by
    intro c hc
    rcases List.mem_append.1 hc with hc | hc
    · exact hb c hc
    · exact hd c hc
  refine (d.addCentroidBuffer_spec batch hd hb hne).mono ?_
  rintro d' ⟨l, runs, hl, h1, h2, h3, h4, h5, -, -, h6, h7, h8⟩
  have hlg : ∀ c ∈ l, Good c := fun c hc => hg c (h1.mem_iff.1 hc)
  have hfl : runs.flatten = l := h3.1
  refine ⟨runs, h4, by rw [hfl]; exact h1, h3.2, ?_, ?_, ?_, h7, h8, h6⟩
  · intro r hr c hc
    exact hlg c (by rw [← hfl]; exact List.mem_flatten.2 ⟨r, hr, hc⟩)
  · rw [hfl]
    exact h2.imp_of_mem (fun {a b} ha hb hab => by
      obtain ⟨⟨m, hm⟩, -⟩ := hlg a ha
      obtain ⟨⟨m', hm'⟩, -⟩ := hlg b hb
      rw [hm, hm'] at hab ⊢
      simpa [Fl.toK] using hab)
  · intro pre r post hr h2
    have h9 := (h5 pre r post hr).1 h2
    rw [List.nil_append, runLimit_eq _ _ (totalW_pos hg hne).ne'] at h9
    exact h9

namespace Merged
variable {d d' : TDigest K} {batch : List (Centroid K)} {runs : List (List (Centroid K))}

theorem drift (h : Merged d batch d' runs) {D : K} (hD : 0 ≤ D) (hw : ∀ r ∈ runs, 2 ≤ r.length → totalW r ≤ D) (x : K) :
    lw x (batch ++ d.centroids) ≤ lw x d'.centroids + D ∧ uw x d'.centroids ≤ uw x (batch ++ d.centroids) + D := by
  rw [← lw_perm x h.perm, ← uw_perm x h.perm, h.cs]
  exact ⟨lw_merge hD runs h.ne h.good h.sorted hw, uw_merge hD runs h.ne h.good h.sorted hw⟩

theorem run_weight (h : Merged d batch d' runs) {r : List (Centroid K)} (hr : r ∈ runs) {M : K} (hM : ∀ c ∈ d'.centroids, c.weight.toK ≤ M) :
    totalW r ≤ M := hM (weightedMean r) (by rw [h.cs]; exact List.mem_map_of_mem hr)

/-- Centroids only ever grow. -/
theorem grow (h : Merged d batch d' runs) {M : K} (hM : ∀ c ∈ d'.centroids, c.weight.toK ≤ M) : ∀ c ∈ d.centroids, c.weight.toK ≤ M := by
  intro c hc
  have hm : c ∈ runs.flatten := h.perm.mem_iff.2 (by simp [hc])
  obtain ⟨r, hr, hcr⟩ := List.mem_flatten.1 hm
  refine le_trans ?_ (h.run_weight hr hM)
  have hg := h.good r hr
  clear hM hm
  generalize r = r at hcr hg
  clear hr
  induction r with
  | nil => simp at hcr
  | cons a r ih =>
    rw [totalW_cons]
    have h0 := totalW_nonneg (l := r) (fun e he => hg e (by simp [he]))
    rcases List.mem_cons.1 hcr with rfl | hcr
    · linarith
    · have := ih hcr (fun e he => hg e (by simp [he]))
      have := (hg a (by simp)).weight_pos
      linarith

end Merged

/-- The centroids represent what was supplied up to `E`. -/
def Near (x : K) (cs sup : List (Centroid K)) (E : K) : Prop := lw x sup ≤ lw x cs + E ∧ uw x cs ≤ uw x sup + E

theorem Near.step {x E D : K} {d d' : TDigest K} {batch sup : List (Centroid K)} {runs : List (List (Centroid K))}
    (hn : Near x d.centroids sup E) (h : Merged d batch d' runs) (hD : 0 ≤ D) (hw : ∀ r ∈ runs, 2 ≤ r.length → totalW r ≤ D) :
    Near x d'.centroids (sup ++ batch) (E + D) := by
  obtain ⟨h1, h2⟩ := h.drift hD hw x
  rw [lw_append] at h1
  rw [uw_append] at h2
  unfold Near
  rw [lw_append, uw_append]
  obtain ⟨h3, h4⟩ := hn
  constructor <;> linarith

theorem Near.query [FloatFmt.Exact K] {E H : K} {d : TDigest K} {sup : List (Centroid K)} {l : List (K × K)} {a b : K}
    (hn : ∀ x, Near x d.centroids sup E) (hs : ∀ c ∈ sup, Good c) (hv : View d l a b) (hW : wt l = totalW sup) (hH : 1 ≤ H)
    (hM : ∀ c ∈ d.centroids, c.weight.toK / 2 ≤ H) (x : K) :
    ∃ e, d.estQuantileAtValue (.fin x) = .ret (.fin e) ∧ WeightWithin sup (totalW sup * e) x (H + E) := by
  obtain ⟨e, h1, h2, h3⟩ := view_quantile hv hH (fun p hp => hM (toC p) (by rw [hv.cs]; exact List.mem_map_of_mem hp)) x
  refine ⟨e, h1, ?_⟩
  obtain ⟨h4, h5⟩ := hn x
  unfold WeightWithin
  rw [weightBelow_eq_lw x hs, weightUpTo_eq_uw x hs, ← hW]
  constructor <;> linarith

theorem Near.value [FloorRing K] [FloatFmt.Exact K] {E H : K} {d : TDigest K} {sup : List (Centroid K)} {l : List (K × K)} {a b : K}
    (hn : ∀ x, Near x d.centroids sup E) (hs : ∀ c ∈ sup, Good c) (hv : View d l a b) (hW : wt l = totalW sup) (hw1 : ∀ p ∈ l, 1 ≤ p.2)
    (h64 : totalW sup < 2 ^ 64) (hH : 1 ≤ H) (hM : ∀ c ∈ d.centroids, c.weight.toK / 2 ≤ H) {last : Centroid K} {q : K}
    (hlast : d.centroids.getLast? = some last) (h0 : 0 ≤ q) (h1 : q ≤ 1) (ht : ¬ InLastTail (totalW sup) last.weight.toK q) :
    ∃ v, d.estValueAtQuantile (.fin q) = .ret (.fin v) ∧ WeightWithin sup (totalW sup * q) v (H + E) := by
  have hlst : d.centroids.getLast? = some (toC (l.getLast hv.ne)) := by
    rw [hv.cs, List.getLast?_map, List.getLast?_eq_some_getLast hv.ne]; rfl
  rw [hlst, Option.some.injEq] at hlast
  subst hlast
  have hW0 := wt_pos hv.pos hv.ne
  rw [← hW] at ht h64 ⊢
  obtain ⟨v, h2, h3, h4⟩ := estV_range (a := a) (b := b) (t := wt l * q) hv.ne hv.sorted hw1 hv.lo hv.hi hH
    (fun p hp => hM (toC p) (by rw [hv.cs]; exact List.mem_map_of_mem hp)) (mul_nonneg hW0.le h0) (mul_le_of_le_one_right hW0.le h1) ht
  refine ⟨v, by rw [estValue_eq hv hw1 h64, h2], ?_⟩
  obtain ⟨h5, h6⟩ := hn v
  rw [hv.cs] at h5 h6
  unfold WeightWithin
  rw [weightBelow_eq_lw v hs, weightUpTo_eq_uw v hs]
  constructor <;> linarith

theorem execOps_near [FloatFmt.Exact K] : ∀ (ops : List (TOp K)) (d : TDigest K) (sup : List (Centroid K)) (E : K → K), (∀ c ∈ d.centroids, Good c) →
    (∀ c ∈ supplied ops, Good c ∧ InRange c) → d.Inv sup → (∀ c ∈ sup, Good c) →
    (∀ M, (∀ c ∈ d.centroids, c.weight.toK ≤ M) → 0 ≤ M → ∀ x, Near x d.centroids sup (E M)) →
    Always (d.execOps ops) (fun d' => ∀ M, (∀ c ∈ d'.centroids, c.weight.toK ≤ M) → 0 ≤ M → (∀ c ∈ d.centroids, c.weight.toK ≤ M) ∧
      ∀ x, Near x d'.centroids (sup ++ supplied ops) (E M + ops.length * M))
  | [], d, sup, E, hd, _, _, _, hn => by
    intro M hM h0
    refine ⟨hM, fun x => ?_⟩
    simpa [supplied] using hn M hM h0 x
  | o :: os, d, sup, E, hd, hg, hi, hs, hn => by
    have hg1 : ∀ c ∈ o.supplied, Good c ∧ InRange c := fun c hc => hg c (by simp [supplied]; exact Or.inl hc)
    have hg2 : ∀ c ∈ supplied os, Good c ∧ InRange c := fun c hc => hg c (by
      simp only [supplied, List.flatMap_cons, List.mem_append] at hc ⊢; exact Or.inr hc)
    unfold execOps
    rw [always_bind, exec_eq]
    refine ((addCentroidBuffer_inv hi.toCInv hs (fun c hc => (hg1 c hc).1) (fun c hc => (hg1 c hc).2)).and
      (merged d o.supplied hd (fun c hc => (hg1 c hc).1)).partially).mono ?_
    rintro d' ⟨hi', runs, h'⟩
    have hs' : ∀ c ∈ sup ++ o.supplied, Good c := by
      intro c hc
      rcases List.mem_append.1 hc with hc | hc
      · exact hs c hc
      · exact (hg1 c hc).1
    refine (execOps_near os d' (sup ++ o.supplied) (fun M => E M + M) hi'.good hg2 hi' hs' ?_).mono ?_
    · intro M hM h0 x
      exact (hn M (h'.grow hM) h0 x).step h' h0 (fun r hr _ => h'.run_weight hr hM)
    · intro d'' h2 M hM h0
      obtain ⟨h3, h4⟩ := h2 M hM h0
      refine ⟨h'.grow h3, fun x => ?_⟩
      have := h4 x
      rw [List.append_assoc] at this
      have e1 : o.supplied ++ supplied os = supplied (o :: os) := by simp [supplied]
      have e2 : E M + M + (os.length : K) * M = E M + ((o :: os).length : K) * M := by push_cast [List.length_cons]; ring
      rw [e1, e2] at this
      exact this

end TDigest

/-- C108. After any history of `B` calls of `add`, `add_buffer` and `add_centroid_buffer` on a new digest, with any scale
functions, the quantile estimated for any `x` is, as a weight, within `max 1 (M / 2) + B * M` of the weight supplied below and up
to `x`, `M` the weight of the heaviest centroid in the end. -/
theorem C108_error_per_call [FloatFmt.Exact K] (s i : ScaleFn K) (cf : Fl K) (ops : List (TDigest.TOp K))
    (hne : TDigest.supplied ops ≠ []) (hg : ∀ c ∈ TDigest.supplied ops, Good c ∧ InRange c) :
    Always ((TDigest.new s i cf).execOps ops) (fun d => ∀ M : K, (∀ c ∈ d.centroids, c.weight.toK ≤ M) → ∀ x : K,
      ∃ e : K, d.estQuantileAtValue (.fin x) = .ret (.fin e) ∧
        WeightWithin (TDigest.supplied ops) (totalW (TDigest.supplied ops) * e) x (Max.max 1 (M / 2) + ops.length * M)) := by
  have h1 := TDigest.execOps_near ops (TDigest.new s i cf) [] (fun _ => 0) (by simp [TDigest.new]) hg (TDigest.new_inv s i cf) (by simp)
    (fun M _ _ x => ⟨by simp [TDigest.new], by simp [TDigest.new]⟩)
  refine ((TDigest.reach_view s i cf ops hne hg).and h1.partially).mono ?_
  rintro d ⟨⟨hi, l, a, b, hv, hwt, -⟩, h2⟩ M hM x
  have h0 : 0 ≤ M := by
    obtain ⟨c, hc⟩ := List.exists_mem_of_ne_nil d.centroids (fun h => hne (hi.empty.1 h))
    exact (hi.good c hc).weight_pos.le.trans (hM c hc)
  obtain ⟨-, h3⟩ := h2 M hM h0
  simp only [List.nil_append, zero_add] at h3
  exact TDigest.Near.query h3 (fun c hc => (hg c hc).1) hv hwt (le_max_left _ _)
    (fun c hc => le_max_of_le_right (by have := hM c hc; linarith)) x

/-- C108 for value queries, weights of at least 1 and targets not right of the middle of the last centroid (see C84): the value
found for the quantile `q` has, up to the same error, the weight `n * q` on its left. -/
theorem C108_value_error_per_call [FloorRing K] [FloatFmt.Exact K] (s i : ScaleFn K) (cf : Fl K) (ops : List (TDigest.TOp K))
    (hne : TDigest.supplied ops ≠ []) (hg : ∀ c ∈ TDigest.supplied ops, Good c ∧ InRange c)
    (hw : ∀ c ∈ TDigest.supplied ops, 1 ≤ c.weight.toK) (h64 : totalW (TDigest.supplied ops) < 2 ^ 64) :
    Always ((TDigest.new s i cf).execOps ops) (fun d => ∀ M : K, (∀ c ∈ d.centroids, c.weight.toK ≤ M) →
      ∀ (last : Centroid K) (q : K), d.centroids.getLast? = some last → 0 ≤ q → q ≤ 1 →
      ¬ InLastTail (totalW (TDigest.supplied ops)) last.weight.toK q →
      ∃ v : K, d.estValueAtQuantile (.fin q) = .ret (.fin v) ∧
        WeightWithin (TDigest.supplied ops) (totalW (TDigest.supplied ops) * q) v (Max.max 1 (M / 2) + ops.length * M)) := by
  have h1 := TDigest.execOps_near ops (TDigest.new s i cf) [] (fun _ => 0) (by simp [TDigest.new]) hg (TDigest.new_inv s i cf) (by simp)
    (fun M _ _ x => ⟨by simp [TDigest.new], by simp [TDigest.new]⟩)
  refine ((TDigest.reach_view s i cf ops hne hg).and h1.partially).mono ?_
  rintro d ⟨⟨hi, l, a, b, hv, hwt, hcl⟩, h2⟩ M hM last q hlast hq0 hq1 ht
  have h0 : 0 ≤ M := by
    obtain ⟨c, hc⟩ := List.exists_mem_of_ne_nil d.centroids (fun h => hne (hi.empty.1 h))
    exact (hi.good c hc).weight_pos.le.trans (hM c hc)
  obtain ⟨-, h3⟩ := h2 M hM h0
  simp only [List.nil_append, zero_add] at h3
  exact TDigest.Near.value h3 (fun c hc => (hg c hc).1) hv hwt (hcl _ TDigest.one_le_closed hw) h64 (le_max_left _ _)
    (fun c hc => le_max_of_le_right (by have := hM c hc; linarith)) hlast hq0 hq1 ht

namespace TDigest

theorem totalW_items (xs : List (Fl K)) : totalW (xs.map (fun x => (⟨x, .fin 1⟩ : Centroid K))) = (xs.length : K) := by
  induction xs with
  | nil => simp
  | cons x xs ih => rw [List.map_cons, totalW_cons, ih]; push_cast [List.length_cons]; simp [Fl.toK]; ring

theorem weightBelow_items {xs : List (Fl K)} (hg : ∀ x ∈ xs, Item x) (x : K) :
    weightBelow (xs.map (fun x => (⟨x, .fin 1⟩ : Centroid K))) (.fin x) = (xs.countP (fun y => Fl.lt y (.fin x)) : K) := by
  unfold weightBelow
  induction xs with
  | nil => simp
  | cons y xs ih =>
    obtain ⟨z, rfl⟩ := (hg y (by simp)).1
    have ih := ih (fun w hw => hg w (by simp [hw]))
    rw [List.map_cons, List.filter_cons, List.countP_cons]
    by_cases h : z < x
    · simp only [Fl.fin_lt_fin, h, decide_true, if_true, List.map_cons, List.sum_cons, ih, Fl.lt_fin]
      push_cast
      rw [show (Fl.fin (1 : K)).toK = 1 from rfl, add_comm]
    · simp only [Fl.fin_lt_fin, h, decide_false, Bool.false_eq_true, if_false, ih, Fl.lt_fin, add_zero]

theorem weightUpTo_items {xs : List (Fl K)} (hg : ∀ x ∈ xs, Item x) (x : K) :
    weightUpTo (xs.map (fun x => (⟨x, .fin 1⟩ : Centroid K))) (.fin x) = (xs.countP (fun y => Fl.le y (.fin x)) : K) := by
  unfold weightUpTo
  induction xs with
  | nil => simp
  | cons y xs ih =>
    obtain ⟨z, rfl⟩ := (hg y (by simp)).1
    have ih := ih (fun w hw => hg w (by simp [hw]))
    rw [List.map_cons, List.filter_cons, List.countP_cons]
    by_cases h : z ≤ x
    · simp only [Fl.fin_le_fin, h, decide_true, if_true, List.map_cons, List.sum_cons, ih, Fl.le_fin]
      push_cast
      rw [show (Fl.fin (1 : K)).toK = 1 from rfl, add_comm]
    · simp only [Fl.fin_le_fin, h, decide_false, Bool.false_eq_true, if_false, ih, Fl.le_fin, add_zero]

theorem weightWithin_items {xs : List (Fl K)} (hg : ∀ x ∈ xs, Item x) {r x err : K} :
    WeightWithin (xs.map (fun x => (⟨x, .fin 1⟩ : Centroid K))) r x err ↔ RankWithin xs r x err := by
  unfold WeightWithin RankWithin
  rw [weightBelow_items hg, weightUpTo_items hg]

theorem execOps_near_k0 [FloatFmt.Exact K] {δ : K} (hδ : 0 < δ) : ∀ (bs : List (List (Fl K))) (d : TDigest K) (sup : List (Centroid K)) (E : K),
    d.scaleFunc = k0 → d.inverseScaleFunc = invK0 → d.compressFactor = .fin δ →
    (∀ x ∈ bs.flatten, Item x) → d.Inv sup → (∀ c ∈ sup, Good c) → (∀ x, Near x d.centroids sup E) →
    (∀ c ∈ d.centroids, c.weight.toK ≤ Max.max 1 (2 * totalW sup / δ)) →
    Always (d.execOps (bs.map TOp.addBuffer)) (fun d' =>
      (∀ c ∈ d'.centroids, c.weight.toK ≤ Max.max 1 (2 * totalW (sup ++ supplied (bs.map TOp.addBuffer)) / δ)) ∧
      ∀ x, Near x d'.centroids (sup ++ supplied (bs.map TOp.addBuffer)) (E + 2 / δ * heldSum (totalW sup) bs))
  | [], d, sup, E, _, _, _, _, hi, _, hn, hw => by
    refine ⟨?_, fun x => ?_⟩
    · simpa [supplied] using hw
    · simpa [supplied, heldSum] using hn x
  | b :: bs, d, sup, E, h1, h2, h3, hg, hi, hs, hn, hw => by
    have hg1 : ∀ c ∈ b.map (fun x => (⟨x, .fin 1⟩ : Centroid K)), Good c ∧ InRange c := by
      intro c hc
      obtain ⟨x, hx, rfl⟩ := List.mem_map.1 hc
      have := hg x (by simp [hx])
      exact ⟨⟨this.1, 1, zero_lt_one, rfl⟩, this.2⟩
    rw [List.map_cons, execOps, always_bind, exec_eq]
    refine ((addCentroidBuffer_inv hi.toCInv hs (fun c hc => (hg1 c hc).1) (fun c hc => (hg1 c hc).2)).and
      (merged d _ hi.good (fun c hc => (hg1 c hc).1)).partially).mono ?_
    rintro d' ⟨hi', runs, h'⟩
    have hs' : ∀ c ∈ sup ++ b.map (fun x => (⟨x, .fin 1⟩ : Centroid K)), Good c := by
      intro c hc
      rcases List.mem_append.1 hc with hc | hc
      · exact hs c hc
      · exact (hg1 c hc).1
    have hn0 := totalW_nonneg hs
    have hb0 : (0 : K) ≤ b.length := Nat.cast_nonneg _
    have htot : totalW (b.map (fun x => (⟨x, .fin 1⟩ : Centroid K)) ++ d.centroids) = totalW sup + b.length := by
      rw [totalW_append, totalW_items, hi.weight, add_comm]
    have hD : ∀ r ∈ runs, 2 ≤ r.length → totalW r ≤ 2 * (totalW sup + b.length) / δ := by
      intro r hr hr2
      obtain ⟨pre, post, he⟩ := List.append_of_mem hr
      have h4 := h'.limit pre r post he hr2
      have hpos : totalW sup + b.length ≠ 0 := by
        rw [← htot]
        refine (totalW_pos ?_ ?_).ne'
        · intro c hc
          rcases List.mem_append.1 hc with hc | hc
          · exact (hg1 c hc).1
          · exact hi.good c hc
        · intro h0
          have hp := h'.perm
          rw [h0, List.perm_nil, he] at hp
          simp only [List.flatten_append, List.flatten_cons, List.append_eq_nil_iff] at hp
          rw [hp.2.1] at hr2
          simp at hr2
      rw [htot, h1, h2, h3,
        sizeLimit_k0 hδ.ne' hpos, Fl.le_fin] at h4
      exact of_decide_eq_true h4
    have hD0 : 0 ≤ 2 * (totalW sup + b.length) / δ := by positivity
    have htot' : totalW (sup ++ b.map (fun x => (⟨x, .fin 1⟩ : Centroid K))) = totalW sup + b.length := by
      rw [totalW_append, totalW_items]
    have ih := execOps_near_k0 hδ bs d' (sup ++ b.map (fun x => (⟨x, .fin 1⟩ : Centroid K))) (E + 2 * (totalW sup + b.length) / δ)
      (h'.sf.trans h1) (h'.isf.trans h2) (h'.cf.trans h3) (fun x hx => hg x (by rw [List.flatten_cons]; exact List.mem_append_right _ hx)) hi' hs'
      (fun x => (hn x).step h' hD0 hD) (by
        intro c hc
        rw [htot']
        rw [h'.cs] at hc
        obtain ⟨r, hr, rfl⟩ := List.mem_map.1 hc
        by_cases hr2 : 2 ≤ r.length
        · exact le_max_of_le_right (hD r hr hr2)
        · obtain ⟨e, rfl⟩ : ∃ e, r = [e] := by
            match r, h'.ne r hr, hr2 with
            | [e], _, _ => exact ⟨e, rfl⟩
            | _ :: _ :: _, _, h => simp at h
          show totalW [e] ≤ _
          rw [totalW_cons, totalW_nil, add_zero]
          have hm : e ∈ runs.flatten := List.mem_flatten.2 ⟨[e], hr, by simp⟩
          rcases List.mem_append.1 (h'.perm.mem_iff.1 hm) with hm | hm
          · obtain ⟨x, hx, rfl⟩ := List.mem_map.1 (show e ∈ b.map (fun x => (⟨x, .fin 1⟩ : Centroid K)) from hm)
            exact le_max_left _ _
          · refine (hw e hm).trans (max_le_max le_rfl ?_)
            rw [div_le_div_iff_of_pos_right hδ]
            linarith)
    refine ih.mono ?_
    rintro d'' ⟨h5, h6⟩
    have e1 : (sup ++ b.map (fun x => (⟨x, .fin 1⟩ : Centroid K))) ++ supplied (bs.map TOp.addBuffer) =
        sup ++ supplied (TOp.addBuffer b :: bs.map TOp.addBuffer) := by
      rw [List.append_assoc]; rfl
    rw [e1] at h5 h6
    refine ⟨h5, fun x => ?_⟩
    have := h6 x
    rw [htot'] at this
    have e2 : E + 2 * (totalW sup + b.length) / δ + 2 / δ * heldSum (totalW sup + b.length) bs = E + 2 / δ * heldSum (totalW sup) (b :: bs) := by
      rw [heldSum]; ring
    rw [e2] at this
    exact this

theorem heldSum_le (bs : List (List (Fl K))) : ∀ n : K, 0 ≤ n → heldSum n bs ≤ bs.length * (n + bs.flatten.length) := by
  induction bs with
  | nil => intro n hn; simp [heldSum]
  | cons b bs ih =>
    intro n hn
    have h1 := ih (n + b.length) (by positivity)
    rw [heldSum, List.flatten_cons, List.length_append]
    push_cast [List.length_cons]
    have h2 : (0 : K) ≤ bs.flatten.length := Nat.cast_nonneg _
    have e : ((bs.length : K) + 1) * (n + ((b.length : K) + bs.flatten.length)) =
      bs.length * (n + b.length + bs.flatten.length) + (n + b.length + bs.flatten.length) := by ring
    rw [e]
    linarith

end TDigest

/-- C108 with `k0`: after any batches of any items, the error in ranks is at most `max 1 (n / δ)` plus `2 / δ` times the number of
items held after each batch, added up over the batches. -/
theorem C108_error_k0 [FloatFmt.Exact K] (δ : K) (hδ : 0 < δ) (batches : List (List (Fl K)))
    (hne : batches.flatten ≠ []) (hg : ∀ x ∈ batches.flatten, Item x) :
    Always ((TDigest.new k0 invK0 (.fin δ)).execOps (batches.map TDigest.TOp.addBuffer)) (fun d => ∀ x : K,
      ∃ e : K, d.estQuantileAtValue (.fin x) = .ret (.fin e) ∧
        RankWithin batches.flatten (batches.flatten.length * e) x
          (Max.max 1 (batches.flatten.length / δ) + 2 / δ * heldSum 0 batches)) := by
  have hsup := TDigest.supplied_batches batches
  have hsn : TDigest.supplied (batches.map TDigest.TOp.addBuffer) ≠ [] := by rw [hsup]; simpa using hne
  have hgd : ∀ c ∈ TDigest.supplied (batches.map TDigest.TOp.addBuffer), Good c ∧ InRange c := by
    intro c hc
    rw [hsup] at hc
    obtain ⟨x, hx, rfl⟩ := List.mem_map.1 hc
    exact ⟨⟨(hg x hx).1, 1, zero_lt_one, rfl⟩, (hg x hx).2⟩
  have h1 := TDigest.execOps_near_k0 hδ batches (TDigest.new k0 invK0 (.fin δ)) [] 0 rfl rfl rfl hg (TDigest.new_inv _ _ _) (by simp)
    (fun x => ⟨by simp [TDigest.new], by simp [TDigest.new]⟩) (by simp [TDigest.new])
  refine ((TDigest.reach_view (k0 : ScaleFn K) invK0 (.fin δ) _ hsn hgd).and h1.partially).mono ?_
  rintro d ⟨⟨hi, l, a, b, hv, hwt, -⟩, h2, h3⟩ x
  simp only [List.nil_append, zero_add, totalW_nil] at h2 h3
  have h4 := TDigest.Near.query (H := Max.max 1 (batches.flatten.length / δ)) h3 (fun c hc => (hgd c hc).1) hv hwt (le_max_left _ _) (by
    intro c hc
    have h5 := h2 c hc
    rw [hsup, TDigest.totalW_items] at h5
    rcases le_max_iff.1 h5 with h | h
    · exact le_max_of_le_left (by linarith)
    · refine le_max_of_le_right ?_
      rw [mul_div_assoc] at h
      linarith) x
  rw [hsup, TDigest.totalW_items] at h4
  obtain ⟨e, h5, h6⟩ := h4
  exact ⟨e, h5, (TDigest.weightWithin_items hg).1 h6⟩

/-- C108 with `k0` for value queries, not right of the middle of the last centroid. -/
theorem C108_value_error_k0 [FloorRing K] [FloatFmt.Exact K] (δ : K) (hδ : 0 < δ) (batches : List (List (Fl K)))
    (hne : batches.flatten ≠ []) (hg : ∀ x ∈ batches.flatten, Item x) (h64 : (batches.flatten.length : K) < 2 ^ 64) :
    Always ((TDigest.new k0 invK0 (.fin δ)).execOps (batches.map TDigest.TOp.addBuffer)) (fun d =>
      ∀ (last : Centroid K) (q : K), d.centroids.getLast? = some last → 0 ≤ q → q ≤ 1 →
      ¬ InLastTail (batches.flatten.length : K) last.weight.toK q →
      ∃ v : K, d.estValueAtQuantile (.fin q) = .ret (.fin v) ∧
        RankWithin batches.flatten (batches.flatten.length * q) v
          (Max.max 1 (batches.flatten.length / δ) + 2 / δ * heldSum 0 batches)) := by
  have hsup := TDigest.supplied_batches batches
  have hsn : TDigest.supplied (batches.map TDigest.TOp.addBuffer) ≠ [] := by rw [hsup]; simpa using hne
  have hgd : ∀ c ∈ TDigest.supplied (batches.map TDigest.TOp.addBuffer), Good c ∧ InRange c := by
    intro c hc
    rw [hsup] at hc
    obtain ⟨x, hx, rfl⟩ := List.mem_map.1 hc
    exact ⟨⟨(hg x hx).1, 1, zero_lt_one, rfl⟩, (hg x hx).2⟩
  have h1 := TDigest.execOps_near_k0 hδ batches (TDigest.new k0 invK0 (.fin δ)) [] 0 rfl rfl rfl hg (TDigest.new_inv _ _ _) (by simp)
    (fun x => ⟨by simp [TDigest.new], by simp [TDigest.new]⟩) (by simp [TDigest.new])
  refine ((TDigest.reach_view (k0 : ScaleFn K) invK0 (.fin δ) _ hsn hgd).and h1.partially).mono ?_
  rintro d ⟨⟨hi, l, a, b, hv, hwt, hcl⟩, h2, h3⟩ last q hlast hq0 hq1 ht
  simp only [List.nil_append, zero_add, totalW_nil] at h2 h3
  have hsw : totalW (TDigest.supplied (batches.map TDigest.TOp.addBuffer)) = (batches.flatten.length : K) := by
    rw [hsup, TDigest.totalW_items]
  have hw1 : ∀ p ∈ l, 1 ≤ p.2 := hcl _ TDigest.one_le_closed (by
    intro c hc
    rw [hsup] at hc
    obtain ⟨x, hx, rfl⟩ := List.mem_map.1 hc
    exact le_refl _)
  have h4 := TDigest.Near.value (H := Max.max 1 (batches.flatten.length / δ)) h3 (fun c hc => (hgd c hc).1) hv hwt hw1 (by rw [hsw]; exact h64)
    (le_max_left _ _) (by
    intro c hc
    have h5 := h2 c hc
    rw [hsw] at h5
    rcases le_max_iff.1 h5 with h | h
    · exact le_max_of_le_left (by linarith)
    · refine le_max_of_le_right ?_
      rw [mul_div_assoc] at h
      linarith) hlast hq0 hq1 (by rw [hsw]; exact ht)
  rw [hsw, hsup] at h4
  obtain ⟨v, h5, h6⟩ := h4
  exact ⟨v, h5, (TDigest.weightWithin_items hg).1 h6⟩

/-- C108: with `B` batches the quantile of `x` is off by at most `max (1 / n) (1 / δ) + 2 B / δ`. -/
theorem C108_error_k0_batches [FloatFmt.Exact K] (δ : K) (hδ : 0 < δ) (batches : List (List (Fl K)))
    (hne : batches.flatten ≠ []) (hg : ∀ x ∈ batches.flatten, Item x) :
    Always ((TDigest.new k0 invK0 (.fin δ)).execOps (batches.map TDigest.TOp.addBuffer)) (fun d => ∀ x : K,
      ∃ e : K, d.estQuantileAtValue (.fin x) = .ret (.fin e) ∧
        RankWithin batches.flatten (batches.flatten.length * e) x
          (Max.max 1 (batches.flatten.length / δ) + 2 * batches.length / δ * batches.flatten.length)) := by
  refine (C108_error_k0 δ hδ batches hne hg).mono ?_
  intro d h x
  obtain ⟨e, h1, h2, h3⟩ := h x
  have h4 := TDigest.heldSum_le batches 0 le_rfl
  have h5 : 2 / δ * heldSum 0 batches ≤ 2 * batches.length / δ * batches.flatten.length := by
    have := mul_le_mul_of_nonneg_left h4 (by positivity : 0 ≤ 2 / δ)
    refine this.trans (le_of_eq ?_)
    ring
  exact ⟨e, h1, by linarith, by linarith⟩

section examples
attribute [local instance] ratExact ratExact_exact

/-- Four interleaving batches: batch `j` holds the numbers below 40 that leave the remainder `j`. -/
def driftData : List (List (Fl ℚ)) := (List.range 4).map (fun j : ℕ => (List.range 10).map (fun i : ℕ => .fin ((4 * i + j : ℕ) : ℚ)))

/-- Non-vacuity: the batches meet the hypotheses, centroids are merged, and the bound is less than the number of items. -/
theorem C108_example : driftData.flatten ≠ [] ∧ (∀ x ∈ driftData.flatten, Item x) ∧
    Always ((TDigest.new k0 invK0 (.fin 20) : TDigest ℚ).execOps (driftData.map TDigest.TOp.addBuffer)) (fun d => d.centroids.length < 20) ∧
    Max.max 1 ((driftData.flatten.length : ℚ) / 20) + 2 / 20 * heldSum (K := ℚ) 0 driftData = 12 := by
  refine ⟨by decide +kernel, ?_, by decide +kernel, by decide +kernel⟩
  have h : ∀ x ∈ driftData.flatten, x = .fin x.toK ∧ Fl.minValue ≤ x ∧ x ≤ Fl.maxValue := by decide +kernel
  exact fun x hx => ⟨⟨_, (h x hx).1⟩, (h x hx).2⟩

end examples
end AQ

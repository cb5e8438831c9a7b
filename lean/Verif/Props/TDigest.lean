/-
Properties C29–C33 and C60 (TDigest insertion, src/t_digest/t_digest.rs).
-/
import Verif.Model.ScaleK0
import Verif.Spec.F64
import Verif.Proofs.TDHist

set_option linter.unusedSectionVars false
set_option linter.unusedVariables false

namespace AQ
open Prog Spec
variable {K : Type} [Field K] [LinearOrder K] [IsStrictOrderedRing K] [FloatFmt K]

/-- C29. The total weight is the supplied weight, for every history and every scale function; no call panics. -/
theorem C29_total_weight [FloatFmt.Exact K] (s i : ScaleFn K) (cf : Fl K) (ops : List (TDigest.TOp K))
    (hg : ∀ c ∈ TDigest.supplied ops, Good c ∧ InRange c) :
    Always ((TDigest.new s i cf).execOps ops) (fun d =>
      d.totalWeight = .fin (totalW (TDigest.supplied ops)) ∧
      totalW d.centroids = totalW (TDigest.supplied ops)) := by
  refine (TDigest.execOps_inv ops _ [] (TDigest.new_inv s i cf) (by simp) hg).mono ?_
  intro d h
  simp only [List.nil_append] at h
  refine ⟨?_, h.weight⟩
  unfold TDigest.totalWeight
  rw [TDigest.weightSum_exact h.good, h.weight]

/-- C29. `count()` is the number of items, for every history of plain items (fewer than `2^64`). -/
theorem C29_count [FloorRing K] [FloatFmt.Exact K] (s i : ScaleFn K) (cf : Fl K) (ops : List (TDigest.TOp K))
    (hg : ∀ c ∈ TDigest.supplied ops, Good c ∧ InRange c) (hu : ∀ c ∈ TDigest.supplied ops, c.weight = .fin 1)
    (hn : (TDigest.supplied ops).length < 2 ^ 64) :
    Always ((TDigest.new s i cf).execOps ops) (fun d => d.count = .ret (TDigest.supplied ops).length) := by
  refine (C29_total_weight s i cf ops hg).mono ?_
  rintro d ⟨h, -⟩
  have hw : ∀ l : List (Centroid K), (∀ c ∈ l, c.weight = .fin 1) → totalW l = (l.length : K) := by
    intro l
    induction l with
    | nil => intro _; simp
    | cons a l ih =>
      intro h
      rw [totalW_cons, ih (fun c hc => h c (by simp [hc])), h a (by simp)]
      simp [Fl.toK, add_comm]
  unfold TDigest.count
  rw [h, hw _ hu]
  have h1 : (-1 : K) < ((TDigest.supplied ops).length : K) :=
    lt_of_lt_of_le neg_one_lt_zero (Nat.cast_nonneg _)
  have h2 : ((TDigest.supplied ops).length : K) < 2 ^ 64 := by
    have : (((TDigest.supplied ops).length : ℕ) : K) < ((2 ^ 64 : ℕ) : K) := Nat.cast_lt.2 hn
    rwa [Nat.cast_pow, Nat.cast_ofNat] at this
  simp only [Fl.toUsize]
  rw [if_pos ⟨h1, h2⟩]
  simp [unwrap]

/-- C30, partial: in exact arithmetic, after any non-empty history `min` and `max` are exactly the smallest and the largest
value supplied. The full statement (any rounding) is false, see `C30_max_exceeds_data_with_rounding`. -/
theorem C30_min_max_partial [FloatFmt.Exact K] (s i : ScaleFn K) (cf : Fl K) (ops : List (TDigest.TOp K))
    (hne : TDigest.supplied ops ≠ []) (hg : ∀ c ∈ TDigest.supplied ops, Good c ∧ InRange c) :
    Always ((TDigest.new s i cf).execOps ops) (fun d =>
      IsMinMean (TDigest.supplied ops) d.min ∧ IsMaxMean (TDigest.supplied ops) d.max) := by
  refine (TDigest.execOps_inv ops _ [] (TDigest.new_inv s i cf) (by simp) hg).mono ?_
  intro d h
  simp only [List.nil_append] at h
  exact ⟨h.min_eq hne, h.max_eq hne⟩

/-- C30, partial: for the first batch this holds in every arithmetic (no rounding error can enter). -/
theorem C30_min_max_first_batch_partial (s i : ScaleFn K) (cf : Fl K) (xs : List (Fl K)) (hne : xs ≠ [])
    (hr : ∀ x ∈ xs, x ≠ .nan ∧ Fl.minValue ≤ x ∧ x ≤ Fl.maxValue) :
    Always ((TDigest.new s i cf).addBuffer xs) (fun d =>
      (d.min ∈ xs ∧ ∀ x ∈ xs, d.min ≤ x) ∧ (d.max ∈ xs ∧ ∀ x ∈ xs, x ≤ d.max)) := by
  unfold TDigest.addBuffer TDigest.addCentroidBuffer
  rw [always_bind]
  have hmem : ∀ c ∈ xs.map TDigest.unit ++ (TDigest.new s i cf).centroids, c.mean ∈ xs := by
    intro c hc
    simp only [TDigest.new, List.append_nil] at hc
    obtain ⟨x, hx, rfl⟩ := List.mem_map.1 hc
    exact hx
  refine (sortUnstable_spec Centroid.mean _ (fun c hc => (hr _ (hmem c hc)).1)).mono ?_
  rintro l ⟨h1, h2⟩
  have hl : l ≠ [] := by
    rintro rfl
    have := h1.nil_eq
    simp [TDigest.new, hne] at this
  have hmem' : ∀ c ∈ l, c.mean ∈ xs := fun c hc => hmem c (h1.mem_iff.1 hc)
  have hall : ∀ x ∈ xs, ∃ c ∈ l, c.mean = x := fun x hx =>
    ⟨TDigest.unit x, h1.mem_iff.2 (by simp only [List.mem_append, List.mem_map]; exact Or.inl ⟨x, hx, rfl⟩), rfl⟩
  have hmin : ((TDigest.new s i cf).mergeSorted l).min = (l.head hl).mean := by
    have : ((TDigest.new s i cf).mergeSorted l).min = Fl.fmin Fl.maxValue (l.head hl).mean := by
      cases l with
      | nil => exact absurd rfl hl
      | cons a l => rfl
    rw [this, Fl.fmin_eq (by simp [Fl.maxValue]) (hr _ (hmem' _ (List.head_mem hl))).1]
    exact min_eq_right (hr _ (hmem' _ (List.head_mem hl))).2.2
  have hmax : ((TDigest.new s i cf).mergeSorted l).max = (l.getLast hl).mean := by
    have : ((TDigest.new s i cf).mergeSorted l).max = Fl.fmax Fl.minValue (l.getLast hl).mean := by
      cases l with
      | nil => exact absurd rfl hl
      | cons a l => rfl
    rw [this, Fl.fmax_eq (by simp [Fl.minValue]) (hr _ (hmem' _ (List.getLast_mem hl))).1]
    exact max_eq_right (hr _ (hmem' _ (List.getLast_mem hl))).2.1
  show _ ∧ _
  rw [hmin, hmax]
  refine ⟨⟨hmem' _ (List.head_mem hl), ?_⟩, ⟨hmem' _ (List.getLast_mem hl), ?_⟩⟩
  · intro x hx
    obtain ⟨c, hc, rfl⟩ := hall x hx
    exact TDigest.head_le hl h2 c hc
  · intro x hx
    obtain ⟨c, hc, rfl⟩ := hall x hx
    exact TDigest.le_getLast hl h2 c hc

/-- C31. After any history the centroids are sorted by mean, have positive weights and means within `[min, max]`; a digest
without centroids was given nothing. -/
theorem C31_sorted_in_range [FloatFmt.Exact K] (s i : ScaleFn K) (cf : Fl K) (ops : List (TDigest.TOp K))
    (hg : ∀ c ∈ TDigest.supplied ops, Good c ∧ InRange c) :
    Always ((TDigest.new s i cf).execOps ops) (fun d =>
      d.centroids.Pairwise (fun a b => a.mean ≤ b.mean) ∧
      (∀ c ∈ d.centroids, Good c ∧ d.min ≤ c.mean ∧ c.mean ≤ d.max) ∧
      (d.centroids = [] ↔ TDigest.supplied ops = [])) := by
  refine (TDigest.execOps_inv ops _ [] (TDigest.new_inv s i cf) (by simp) hg).mono ?_
  intro d h
  simp only [List.nil_append] at h
  refine ⟨h.sorted.imp_of_mem ?_, fun c hc => ⟨h.good c hc, h.min_le c hc, h.le_max c hc⟩, h.empty⟩
  intro a b ha hb hab
  rw [(h.good a ha).mean, (h.good b hb).mean]
  simpa using hab

/-- C32. The sum of `mean · weight` over the centroids is that of everything supplied. -/
theorem C32_mass [FloatFmt.Exact K] (s i : ScaleFn K) (cf : Fl K) (ops : List (TDigest.TOp K))
    (hg : ∀ c ∈ TDigest.supplied ops, Good c ∧ InRange c) :
    Always ((TDigest.new s i cf).execOps ops) (fun d => totalMass d.centroids = totalMass (TDigest.supplied ops)) := by
  refine (TDigest.execOps_inv ops _ [] (TDigest.new_inv s i cf) (by simp) hg).mono ?_
  intro d h
  simpa using h.mass

theorem TDigest.runLimit_eq [FloatFmt.Exact K] (d : TDigest K) (n : K) (hn : n ≠ 0) (done : List (List (Centroid K))) :
    TDigest.runLimit (d.wLimit (.fin n)) done =
      sizeLimit d.scaleFunc d.inverseScaleFunc d.compressFactor n (totalW done.flatten) := by
  have hz : ∀ a : Fl K, a - .fin 0 = a := by
    intro a
    cases a with
    | fin x => simp
    | nan => rfl
    | pinf => rfl
    | ninf => rfl
  unfold TDigest.runLimit TDigest.wLimit sizeLimit
  simp only [Fl.lit_exact]
  by_cases h : done = []
  · rw [if_pos h, h, Fl.div_exact _ hn]
    simp [hz]
  · rw [if_neg h, Fl.div_exact _ hn]

/-- C33. One merge pass: the new centroids are the weighted means of a partition of the sorted input into consecutive
non-empty runs; a run has several members only when its weight is within the limit given by the scale function, and a run
ends only where the next member would exceed that limit. Holds for any digest with ordinary centroids (sorted or not). -/
theorem C33_merge_joins_neighbours [FloatFmt.Exact K] (d : TDigest K) (batch : List (Centroid K))
    (hd : ∀ c ∈ d.centroids, Good c) (hb : ∀ c ∈ batch, Good c) (hne : batch ++ d.centroids ≠ []) :
    Always (d.addCentroidBuffer batch) (fun d' =>
      ∃ (l : List (Centroid K)) (runs : List (List (Centroid K))), l.Perm (batch ++ d.centroids) ∧
        l.Pairwise (fun a b => a.mean ≤ b.mean) ∧ IsPartition runs l ∧ d'.centroids = runs.map weightedMean ∧
        ∀ pre r post, runs = pre ++ r :: post →
          let lim := sizeLimit d.scaleFunc d.inverseScaleFunc d.compressFactor (totalW (batch ++ d.centroids))
            (totalW pre.flatten)
          (2 ≤ r.length → Fl.le (.fin (totalW r)) lim = true) ∧
          (∀ c, post.flatten.head? = some c → Fl.le (.fin (totalW (r ++ [c]))) lim = false)) := by
  have hg : ∀ c ∈ batch ++ d.centroids, Good c := by
    intro c hc
    rcases List.mem_append.1 hc with hc | hc
    · exact hb c hc
    · exact hd c hc
  refine (d.addCentroidBuffer_spec batch hd hb hne).mono ?_
  rintro d' ⟨l, runs, hl, h1, h2, h3, h4, h5, -⟩
  refine ⟨l, runs, h1, h2, h3, h4, ?_⟩
  intro pre r post hr
  obtain ⟨h6, h7⟩ := h5 pre r post hr
  rw [List.nil_append, TDigest.runLimit_eq _ _ (totalW_pos hg hne).ne'] at h6 h7
  refine ⟨h6, ?_⟩
  intro c hc
  cases post with
  | nil => simp at hc
  | cons q post' =>
    have hq : q ≠ [] := h3.2 q (by rw [hr]; simp)
    cases q with
    | nil => exact absurd rfl hq
    | cons e q' =>
      simp only [List.flatten_cons, List.cons_append, List.head?_cons, Option.some.injEq] at hc
      subst hc
      have := h7 _ _ e rfl rfl
      simpa using this

/-- C60. Adding a NaN to a non-empty digest, or a batch of at least two values one of which is NaN, panics. -/
theorem C60_tdigest_nan_panics (d : TDigest K) (batch : List (Centroid K)) (h2 : 2 ≤ (batch ++ d.centroids).length)
    (hn : ∃ c ∈ batch, c.mean = .nan) : Panics (d.addCentroidBuffer batch) := by
  unfold TDigest.addCentroidBuffer
  obtain ⟨c, hc, h⟩ := hn
  rw [sortUnstable_nan _ _ h2 ⟨c, List.mem_append_left _ hc, h⟩]
  show Err.unwrap ≠ Err.fuel
  decide

section examples
attribute [local instance] ratExact
attribute [local instance] ratExact_exact

/-- A history mixing the three kinds of calls, with ties. -/
def tdOps : List (TDigest.TOp ℚ) :=
  [.addBuffer [.fin 5, .fin 1, .fin 5, .fin 3], .add (.fin 2), .addCentroids [⟨.fin 4, .fin 3⟩, ⟨.fin (1 / 2), .fin 2⟩]]

/-- It meets the hypotheses of C29–C32, supplies weight 10 and mass 29. -/
example : (∀ c ∈ TDigest.supplied tdOps, Good c ∧ InRange c) ∧ totalW (TDigest.supplied tdOps) = 10 ∧
    totalMass (TDigest.supplied tdOps) = 29 := by
  refine ⟨?_, by decide +kernel, by decide +kernel⟩
  have hle : ∀ a b : ℚ, a ≤ b → (Fl.fin a : Fl ℚ) ≤ .fin b := fun a b h => h
  intro c hc
  simp only [TDigest.supplied, tdOps, TDigest.TOp.supplied, List.flatMap_cons, List.flatMap_nil, List.map_cons, List.map_nil,
    List.append_nil, List.cons_append, List.nil_append, List.mem_cons, List.not_mem_nil, or_false] at hc
  rcases hc with rfl | rfl | rfl | rfl | rfl | rfl | rfl <;>
    exact ⟨⟨⟨_, rfl⟩, _, by norm_num, rfl⟩, hle _ _ (by decide +kernel), hle _ _ (by decide +kernel)⟩

/-- The history really merges: with `k0` and compression factor 4 the seven values end up in fewer centroids. -/
example : Always ((TDigest.new k0 invK0 (.fin 4) : TDigest ℚ).execOps tdOps) (fun d =>
    d.centroids.length < 7 ∧ d.min = .fin (1 / 2) ∧ d.max = .fin 5 ∧ d.totalWeight = .fin 10) := by decide +kernel

/-- C29's count: a history of plain items. -/
example : Always ((TDigest.new k0 invK0 (.fin 2) : TDigest ℚ).execOps
    [.addBuffer [.fin 5, .fin 1, .fin 5, .fin 3], .add (.fin 2)]) (fun d =>
      Always d.count (fun n => n = 5) ∧ d.centroids.length < 5) := by decide +kernel

/-- C33's hypotheses: an unsorted digest and an unsorted batch. -/
example : (∀ c ∈ ([⟨.fin 3, .fin 2⟩, ⟨.fin 1, .fin 1⟩] : List (Centroid ℚ)), Good c) := by
  intro c hc
  simp only [List.mem_cons, List.not_mem_nil, or_false] at hc
  rcases hc with rfl | rfl <;> exact ⟨⟨_, rfl⟩, _, by norm_num, rfl⟩

/-- A single NaN added to an empty digest is *not* rejected (no comparison happens): C60 needs two values. -/
theorem C60_single_nan_accepted : Always ((TDigest.new k0 invK0 (.fin 2) : TDigest ℚ).add .nan) (fun d =>
    d.centroids.map (·.mean) = [.nan]) := by decide +kernel

end examples

section rounding
attribute [local instance] f64Fmt

/-- `0.1` as a double. -/
def tenth : Fl ℚ := Ieee.double.rnd (1 / 10)

/-- `0.05` as a double. -/
def twentieth : Fl ℚ := Ieee.double.rnd (1 / 20)

/-- C30 fails under `f64` rounding once an earlier batch has been merged: the data are 0.1, 0.1, 0.1 and then 0.05, but the
mean of the merged centroid, (0.1 + 0.1 + 0.1)/3, is rounded above 0.1, and the next insertion takes it for the maximum. -/
theorem C30_max_exceeds_data_with_rounding :
    Always ((TDigest.new k0 invK0 (.fin 1) : TDigest ℚ).execOps
      [.addBuffer [tenth, tenth, tenth], .add twentieth])
      (fun d => tenth < d.max ∧ TDigest.supplied [.addBuffer [tenth, tenth, tenth], .add twentieth]
        = [⟨tenth, .fin 1⟩, ⟨tenth, .fin 1⟩, ⟨tenth, .fin 1⟩, ⟨twentieth, .fin 1⟩]) := by
  decide +kernel

end rounding
end AQ

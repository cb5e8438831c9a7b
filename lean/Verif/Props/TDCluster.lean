/-
Properties C41–C43 and C67–C69 (TDigest insertion by clustering, src/t_digest/t_digest.rs; Centroid addition,
src/t_digest/centroid.rs).
-/
import Verif.Model.ScaleK0
import Verif.Proofs.TDTree
import Verif.Props.TDigestQuery

set_option linter.unusedSectionVars false
set_option linter.unusedVariables false

namespace AQ
open Prog Spec
variable {K : Type} [Field K] [LinearOrder K] [IsStrictOrderedRing K] [FloatFmt K]

/-! ### C41: `add_cluster` -/

/-- C41. Every history of `add`, `add_buffer`, `add_centroid_buffer` and `add_cluster` runs without a panic, conserves total
weight and total mass, tracks minimum and maximum exactly and keeps all means between them. -/
theorem C41_cluster_history [FloorRing K] [FloatFmt.Exact K] (s i : ScaleFn K) (δ : K) (ops : List (TDigest.AOp K))
    (hgr : TDigest.GrowthOK δ ops) (hg : ∀ c ∈ TDigest.suppliedA ops, Good c ∧ InRange c) :
    Always ((TDigest.new s i (.fin δ)).execAOps ops) (fun d =>
      d.totalWeight = .fin (totalW (TDigest.suppliedA ops)) ∧
      totalW d.centroids = totalW (TDigest.suppliedA ops) ∧
      totalMass d.centroids = totalMass (TDigest.suppliedA ops) ∧
      (TDigest.suppliedA ops ≠ [] → IsMinMean (TDigest.suppliedA ops) d.min ∧ IsMaxMean (TDigest.suppliedA ops) d.max) ∧
      ∀ c ∈ d.centroids, Good c ∧ d.min ≤ c.mean ∧ c.mean ≤ d.max) := by
  refine (TDigest.execAOps_inv δ ops _ [] (TDigest.new_inv s i (.fin δ)).toCInv rfl hgr (by simp) hg).mono ?_
  rintro d ⟨h, -⟩
  rw [List.nil_append] at h
  refine ⟨?_, h.weight, h.mass, fun hne => ⟨h.min_eq hne, h.max_eq hne⟩,
    fun c hc => ⟨h.good c hc, h.min_le c hc, h.le_max c hc⟩⟩
  unfold TDigest.totalWeight
  rw [TDigest.weightSum_exact h.good, h.weight]

theorem TDigest.compact_k0 [FloatFmt.Exact K] {d0 d : TDigest K} {lim : Nat} {δ : K} (hδ : 0 < δ) (hs : d0.scaleFunc = k0)
    (hi : d0.inverseScaleFunc = invK0) (hc : d0.compressFactor = .fin δ) (h : TDigest.Compact d0 d lim) :
    d.centroids.length ≤ lim ∨ (d.centroids.length : K) < δ + 1 := by
  rcases h with h | ⟨d1, g, p, r⟩
  · exact Or.inl h
  · right
    have := TDigest.k0_size d1 δ hδ (p.2.1.trans hs) (p.2.2.trans hi) (p.1.trans hc) [] g (by simp)
    exact (partially_iff _ _).1 this.partially d r

/-- C41. Under `k0`, after a non-empty `add_cluster` with growth limit `γ` the digest has at most `γ·δ` centroids, or fewer than
`δ + 1`. -/
theorem C41_cluster_size [FloorRing K] [FloatFmt.Exact K] (δ γ : K) (hδ : 0 < δ) (h0 : 0 ≤ γ * δ) (h1 : γ * δ < 2 ^ 64)
    (ops : List (TDigest.AOp K)) (cs : List (Centroid K)) (hne : cs ≠ []) (hgr : TDigest.GrowthOK δ ops)
    (hg : ∀ c ∈ TDigest.suppliedA ops, Good c ∧ InRange c) (hcs : ∀ c ∈ cs, Good c ∧ InRange c) :
    Always ((TDigest.new k0 invK0 (.fin δ)).execAOps ops >>= fun d => d.addCluster cs (.fin γ)) (fun d =>
      (d.centroids.length : K) ≤ γ * δ ∨ (d.centroids.length : K) < δ + 1) := by
  rw [always_bind]
  refine (TDigest.execAOps_inv δ ops _ [] (TDigest.new_inv k0 invK0 (.fin δ)).toCInv rfl hgr (by simp) hg).mono ?_
  rintro d ⟨h, p⟩
  rw [List.nil_append] at h
  refine (TDigest.addCluster_spec h (fun c hc => (hg c hc).1) hcs p.1 h0 h1).mono ?_
  rintro d' ⟨-, hc⟩
  refine (TDigest.compact_k0 hδ p.2.1 p.2.2 p.1 (hc hne)).imp ?_ id
  intro hl
  exact le_trans (Nat.cast_le.2 hl) (Nat.floor_le h0)

/-! ### C42, C67: `find_closest_centroids` -/

/-- C42. `find_closest_centroids` answers `None` exactly for an empty digest, otherwise a non-empty range of valid indices; no
panic (any arithmetic, any non-NaN means, sorted or not). -/
theorem C42_closest_bounds (d : TDigest K) (x : Centroid K) (hd : ∀ c ∈ d.centroids, c.mean ≠ .nan) (hx : x.mean ≠ .nan) :
    Always (d.findClosestCentroids x) (fun o => (o = none ↔ d.centroids = []) ∧
      ∀ l r, o = some (l, r) → l < r ∧ r ≤ d.centroids.length) :=
  TDigest.findClosest_bounds d x hd hx

/-- C42. On a digest with sorted finite means the range contains a centroid at minimal distance from the target (any monotone
rounding). -/
theorem C42_closest_contains_nearest [FloatFmt.Mono K] (d : TDigest K) (x : Centroid K) (t : K) (hx : x.mean = .fin t)
    (hd : ∀ c ∈ d.centroids, c.mean.IsFin) (hs : d.centroids.Pairwise (fun a b => a.mean ≤ b.mean)) :
    Always (d.findClosestCentroids x) (fun o => ∀ l r, o = some (l, r) →
      ∃ i, ∃ h : i < d.centroids.length, l ≤ i ∧ i < r ∧
        ∀ c ∈ d.centroids, |d.centroids[i].mean.toK - t| ≤ |c.mean.toK - t|) :=
  TDigest.findClosest_nearest d x t hx hd hs

/-- C67, partial: with strictly increasing means the range contains every centroid at minimal distance. The full statement,
that it contains exactly these, is false: see `C67_range_contains_far` and, for equal means, `C67_range_misses_tie`. -/
theorem C67_closest_contains_all_nearest_partial [FloatFmt.Mono K] (d : TDigest K) (x : Centroid K) (t : K)
    (hx : x.mean = .fin t) (hd : ∀ c ∈ d.centroids, c.mean.IsFin)
    (hs : d.centroids.Pairwise (fun a b => a.mean < b.mean)) :
    Always (d.findClosestCentroids x) (fun o => ∀ l r, o = some (l, r) →
      ∀ i, ∀ h : i < d.centroids.length, (∀ c ∈ d.centroids, |d.centroids[i].mean.toK - t| ≤ |c.mean.toK - t|) →
        l ≤ i ∧ i < r) :=
  TDigest.findClosest_all_nearest d x t hx hd hs

/-! ### C43: `add_cluster_tree` -/

/-- C43. Every execution of a history that also uses `add_cluster_tree` and returns conserves total weight and total mass and
tracks minimum and maximum, for any growth limits. -/
theorem C43_tree_history [FloorRing K] [FloatFmt.Exact K] (s i : ScaleFn K) (cf : Fl K) (ops : List (TDigest.AOp K))
    (hg : ∀ c ∈ TDigest.suppliedA ops, Good c ∧ InRange c) (d : TDigest K)
    (hd : CanReturn ((TDigest.new s i cf).execAOps ops) d) :
    totalW d.centroids = totalW (TDigest.suppliedA ops) ∧ totalMass d.centroids = totalMass (TDigest.suppliedA ops) ∧
    (TDigest.suppliedA ops ≠ [] → IsMinMean (TDigest.suppliedA ops) d.min ∧ IsMaxMean (TDigest.suppliedA ops) d.max) ∧
    ∀ c ∈ d.centroids, Good c ∧ d.min ≤ c.mean ∧ c.mean ≤ d.max := by
  have h := (partially_iff _ _).1 (TDigest.execAOps_partially ops _ [] (TDigest.new_inv s i cf).toCInv (by simp) hg) d hd
  replace h := h.1
  rw [List.nil_append] at h
  exact ⟨h.weight, h.mass, fun hne => ⟨h.min_eq hne, h.max_eq hne⟩,
    fun c hc => ⟨h.good c hc, h.min_le c hc, h.le_max c hc⟩⟩

/-- C43. After `add_cluster_tree` the means are strictly increasing. -/
theorem C43_tree_sorted [FloorRing K] [FloatFmt.Exact K] (s i : ScaleFn K) (cf g : Fl K) (ops : List (TDigest.AOp K))
    (cs : List (Centroid K)) (hg : ∀ c ∈ TDigest.suppliedA ops, Good c ∧ InRange c) (hcs : ∀ c ∈ cs, Good c ∧ InRange c) :
    Partially ((TDigest.new s i cf).execAOps ops >>= fun d => d.addClusterTree cs g) (fun d =>
      d.centroids.Pairwise (fun a b => a.mean < b.mean)) := by
  rw [partially_bind]
  refine (TDigest.execAOps_partially ops _ [] (TDigest.new_inv s i cf).toCInv (by simp) hg).mono ?_
  rintro d ⟨h, -⟩
  rw [List.nil_append] at h
  exact (TDigest.addClusterTree_spec h (fun c hc => (hg c hc).1) hcs).mono (fun d' h' => h'.2.1)

/-- C43. Under `k0`, after a non-empty `add_cluster_tree` with growth limit `γ` that returns, the digest has at most `γ·δ`
centroids, or fewer than `δ + 1`. -/
theorem C43_tree_size [FloorRing K] [FloatFmt.Exact K] (δ γ : K) (hδ : 0 < δ) (ops : List (TDigest.AOp K))
    (cs : List (Centroid K)) (hne : cs ≠ []) (hg : ∀ c ∈ TDigest.suppliedA ops, Good c ∧ InRange c)
    (hcs : ∀ c ∈ cs, Good c ∧ InRange c) :
    Partially ((TDigest.new k0 invK0 (.fin δ)).execAOps ops >>= fun d => d.addClusterTree cs (.fin γ)) (fun d =>
      (d.centroids.length : K) ≤ γ * δ ∨ (d.centroids.length : K) < δ + 1) := by
  rw [partially_bind]
  refine (TDigest.execAOps_partially ops _ [] (TDigest.new_inv k0 invK0 (.fin δ)).toCInv (by simp) hg).mono ?_
  rintro d ⟨h, p⟩
  rw [List.nil_append] at h
  refine (TDigest.addClusterTree_spec h (fun c hc => (hg c hc).1) hcs).mono (fun d' h' => ?_)
  obtain ⟨lim, e, hc⟩ := h'.2.2 hne
  rcases hc with hc | ⟨d1, d2, c1, c2, c3, c4⟩
  · rw [p.1, show (TDigest.new k0 invK0 (.fin δ)).compressFactor = .fin δ from rfl, Fl.mul_exact] at e
    unfold Fl.toUsize at e
    dsimp only at e
    split at e
    · obtain rfl := Option.some.inj e
      rcases le_total 0 (γ * δ) with h0 | h0
      · exact Or.inl (le_trans (Nat.cast_le.2 hc) (Nat.floor_le h0))
      · right
        rw [Nat.floor_of_nonpos h0] at hc
        rw [Nat.le_zero.1 hc, Nat.cast_zero]
        linarith
    · exact absurd e (by simp)
  · right
    rw [c4]
    exact (TDigest.compact_k0 (lim := 0) hδ p.2.1 p.2.2 p.1 (Or.inr ⟨d1, c1, c2, c3⟩)).elim (fun h0 => by
      rw [Nat.le_zero.1 h0, Nat.cast_zero]; linarith) id

/-- C43. `add_cluster_tree` panics whenever two centroids of the digest have the same mean. -/
theorem C43_tree_duplicate_panics [FloorRing K] (d : TDigest K) (cs : List (Centroid K)) (g : Fl K)
    (hd : ∀ c ∈ d.centroids, Good c) (hcs : ∀ c ∈ cs, Good c) (hmin : d.min ≠ .nan) (hmax : d.max ≠ .nan)
    (hdup : ¬ (d.centroids.map (·.mean)).Nodup) : Panics (d.addClusterTree cs g) := by
  obtain ⟨lo, hi, e, -⟩ := TDigest.updateLimits_spec d cs hcs hmin hmax
  unfold TDigest.addClusterTree
  rw [e, bind_ret]
  unfold TDigest.rebuildTree
  rw [bind_assoc']
  refine panics_of_always ((shuffle_perm d.centroids).mono ?_)
  intro l hl
  refine panics_bind_left ?_
  refine TDigest.fromAux_dup l _ [] KeyedSumTree.new_holds (fun p hp => (hd p (hl.mem_iff.1 hp)).mean_ne_nan) ?_
  rw [List.append_nil]
  exact fun h => hdup ((hl.map _).nodup_iff.1 h)

/-! ### C68: centroid addition -/

/-- C68. Adding two centroids of positive weight adds the weights, adds the masses, and gives a mean between the two; the order
of the operands does not matter. -/
theorem C68_centroid_add [FloatFmt.Exact K] (a b : Centroid K) (ha : Good a) (hb : Good b) :
    ∃ m w : K, a.add b = ⟨.fin m, .fin w⟩ ∧ w = a.weight.toK + b.weight.toK ∧ 0 < w ∧
      m * w = a.mean.toK * a.weight.toK + b.mean.toK * b.weight.toK ∧
      min a.mean.toK b.mean.toK ≤ m ∧ m ≤ max a.mean.toK b.mean.toK ∧ b.add a = a.add b := by
  obtain ⟨am, aw⟩ := a
  obtain ⟨bm, bw⟩ := b
  obtain ⟨⟨x, hx⟩, u, hu, hu'⟩ := ha
  obtain ⟨⟨y, hy⟩, v, hv, hv'⟩ := hb
  simp only at hx hy hu' hv'
  subst hx hy hu' hv'
  have hpos : 0 < u + v := by linarith
  refine ⟨(x * u + y * v) / (u + v), u + v, ?_, rfl, hpos, ?_, ?_, ?_, ?_⟩
  · simp only [Centroid.add, Fl.mul_exact, Fl.add_exact, Fl.div_exact _ hpos.ne']
  · change (x * u + y * v) / (u + v) * (u + v) = x * u + y * v
    field_simp
  · change min x y ≤ _
    rw [le_div_iff₀ hpos]
    have h1 : min x y * u ≤ x * u := mul_le_mul_of_nonneg_right (min_le_left _ _) hu.le
    have h2 : min x y * v ≤ y * v := mul_le_mul_of_nonneg_right (min_le_right _ _) hv.le
    linarith
  · change _ ≤ max x y
    rw [div_le_iff₀ hpos]
    have h1 : x * u ≤ max x y * u := mul_le_mul_of_nonneg_right (le_max_left _ _) hu.le
    have h2 : y * v ≤ max x y * v := mul_le_mul_of_nonneg_right (le_max_right _ _) hv.le
    linarith
  · simp only [Centroid.add, Fl.mul_exact, Fl.add_exact]
    rw [add_comm (y * v), add_comm v u]

/-! ### C69: which merges `add_cluster` allows -/

/-- How cluster `x` may enter the centroids `cs` under compression factor `δ`: as a centroid of its own, or merged into one centroid
such that the merged weight `w` satisfies `w·δ < 2·(n + w)`, `n` the total weight of `cs`. -/
def Placed (δ : K) (cs : List (Centroid K)) (x : Centroid K) (cs' : List (Centroid K)) : Prop :=
  cs'.Perm (x :: cs) ∨ ∃ pre c post, cs = pre ++ c :: post ∧ cs' = pre ++ c.add x :: post ∧
    (c.weight.toK + x.weight.toK) * δ < 2 * (totalW cs + (c.weight.toK + x.weight.toK))

/-- Clusters placed one after the other. -/
def PlacedAll (δ : K) : List (Centroid K) → List (Centroid K) → List (Centroid K) → Prop
  | cs, [], cs' => cs' = cs
  | cs, x :: xs, cs' => ∃ cs1, Placed δ cs x cs1 ∧ PlacedAll δ cs1 xs cs'

/-- Placing one cluster: own centroid, or merged into one that satisfies the size rule. -/
theorem TDigest.placeCluster_fits [FloatFmt.Exact K] (d : TDigest K) (x : Centroid K) (δ : K) (hδ : 0 < δ) (hs : d.scaleFunc = k0)
    (hc : d.compressFactor = .fin δ) (hd : ∀ c ∈ d.centroids, Good c) (hx : Good x) :
    Always (d.placeCluster x d.totalWeight) (fun d' => Placed δ d.centroids x d'.centroids ∧ TDigest.SameParams d' d) := by
  have hins : Always (d.insertCluster x) (fun d' => d'.centroids.Perm (x :: d.centroids) ∧ TDigest.SameParams d' d) := by
    unfold TDigest.insertCluster
    rw [always_bind]
    refine (binarySearch_spec _ _ _ (fun c hc => (hd c hc).mean_ne_nan) hx.mean_ne_nan).mono ?_
    intro i _
    refine ⟨?_, rfl, rfl, rfl⟩
    show (d.centroids.take i ++ x :: d.centroids.drop i).Perm _
    refine List.perm_middle.trans ?_
    rw [List.take_append_drop]
  have hn : d.totalWeight = .fin (totalW d.centroids) := by
    unfold TDigest.totalWeight
    rw [TDigest.weightSum_exact hd]
  unfold TDigest.placeCluster
  rw [always_bind]
  refine (TDigest.findClosest_bounds d x (fun c hc => (hd c hc).mean_ne_nan) hx.mean_ne_nan).mono ?_
  rintro o ⟨-, ho⟩
  cases o with
  | none => exact hins.mono (fun d' h => ⟨Or.inl h.1, h.2⟩)
  | some p =>
    obtain ⟨l, r⟩ := p
    obtain ⟨h1, h2⟩ := ho l r rfl
    simp only
    rw [always_bind]
    refine (TDigest.chooseIndex_fits d x d.totalWeight (fun i => ∃ h : i < d.centroids.length,
        (d.centroids[i].weight.toK + x.weight.toK) * δ <
          2 * (totalW d.centroids + (d.centroids[i].weight.toK + x.weight.toK))) ?_ (List.range' l (r - l)) none (by
      intro i hi
      rw [List.mem_range'_1] at hi
      omega) (by simp)).mono ?_
    · intro i hi ht
      refine ⟨hi, ?_⟩
      have hg := hd _ (List.getElem_mem hi)
      generalize d.centroids[i] = c at hg ht ⊢
      obtain ⟨cm, cw⟩ := c
      obtain ⟨xm, xw⟩ := x
      obtain ⟨⟨a, ha⟩, u, hu, hu'⟩ := hg
      obtain ⟨⟨b, hb⟩, v, hv, hv'⟩ := hx
      simp only at ha hb hu' hv'
      subst ha hb hu' hv'
      have hw0 : 0 ≤ totalW d.centroids := totalW_nonneg hd
      change (u + v) * δ < 2 * (totalW d.centroids + (u + v))
      have hpos : 0 < v + u := by linarith
      have hL : ∃ L : K, d.weightLeft (Centroid.add ⟨.fin b, .fin v⟩ ⟨.fin a, .fin u⟩) = .fin L := by
        unfold TDigest.weightLeft
        rw [TDigest.weightSum_exact (fun c hc => hd c (List.mem_filter.1 hc).1)]
        exact ⟨_, rfl⟩
      obtain ⟨L, hL⟩ := hL
      have hN : 0 < totalW d.centroids + (v + u) := by linarith
      unfold TDigest.kSize at ht
      rw [hL, hn] at ht
      simp only [Centroid.add, TDigest.kSizeFromWeights, hs, hc, k0, Fl.add_exact, Fl.div_exact _ hN.ne', Fl.mul_exact,
        Fl.lit_exact, Fl.div_exact _ (two_ne_zero (α := K)), Fl.sub_exact, Fl.fabs_fin, Fl.lt_fin, decide_eq_true_eq] at ht
      have e : (L / (totalW d.centroids + (v + u)) + (v + u) / (totalW d.centroids + (v + u))) * δ / 2 -
          L / (totalW d.centroids + (v + u)) * δ / 2 = (v + u) * δ / (2 * (totalW d.centroids + (v + u))) := by
        field_simp
        ring
      rw [e] at ht
      have h3 := lt_of_le_of_lt (le_abs_self _) ht
      rw [div_lt_one (by linarith)] at h3
      linarith [add_comm u v, mul_comm (u + v) δ]
    · intro best hb
      cases best with
      | none => exact hins.mono (fun d' h => ⟨Or.inl h.1, h.2⟩)
      | some i =>
        obtain ⟨hi, hi', hfit⟩ := hb i rfl
        unfold TDigest.mergeCluster
        simp only
        rw [idx_eq hi, bind_ret]
        refine ⟨Or.inr ?_, rfl, rfl, rfl⟩
        refine ⟨d.centroids.take i, d.centroids[i], d.centroids.drop (i + 1), ?_, ?_, hfit⟩
        · rw [List.getElem_cons_drop, List.take_append_drop]
        · show d.centroids.set i _ = _
          rw [List.set_eq_take_append_cons_drop, if_pos hi]
          rfl

theorem Placed.good [FloatFmt.Exact K] {δ : K} {cs cs' : List (Centroid K)} {x : Centroid K} (h : Placed δ cs x cs')
    (hcs : ∀ c ∈ cs, Good c) (hx : Good x) : (∀ c ∈ cs', Good c) ∧ totalW cs' = totalW cs + x.weight.toK ∧
      cs'.length ≤ cs.length + 1 := by
  rcases h with h | ⟨pre, c, post, rfl, rfl, -⟩
  · refine ⟨fun c hc => ?_, ?_, h.length_eq.le⟩
    · rcases List.mem_cons.1 (h.mem_iff.1 hc) with rfl | hc
      · exact hx
      · exact hcs c hc
    · rw [totalW_perm h, totalW_cons, add_comm]
  · obtain ⟨m, w, e, hw, hpos, -⟩ := C68_centroid_add c x (hcs c (by simp)) hx
    refine ⟨fun c' hc => ?_, ?_, by simp⟩
    · rcases List.mem_append.1 hc with hc | hc
      · exact hcs c' (by simp [hc])
      · rcases List.mem_cons.1 hc with rfl | hc
        · rw [e]; exact ⟨⟨m, rfl⟩, w, hpos, rfl⟩
        · exact hcs c' (by simp [hc])
    · rw [totalW_append, totalW_append, totalW_cons, totalW_cons, e]
      change _ + (w + _) = _
      rw [hw]; ring

theorem TDigest.clusterLoop_fits [FloorRing K] [FloatFmt.Exact K] (δ g : K) (hδ : 0 < δ) (hg' : g * δ < 2 ^ 64) :
    ∀ (xs : List (Centroid K)) (d : TDigest K), d.scaleFunc = k0 → d.compressFactor = .fin δ → (∀ c ∈ d.centroids, Good c) →
    (∀ x ∈ xs, Good x) → ((d.centroids.length + xs.length : ℕ) : K) ≤ g * δ →
    Always (TDigest.addClusterLoop (.fin g) d (.fin (totalW d.centroids)) xs) (fun d' => PlacedAll δ d.centroids xs d'.centroids)
  | [], d, _, _, _, _, _ => rfl
  | x :: xs, d, hs, hc, hd, hx, hg => by
    have hn : (.fin (totalW d.centroids) : Fl K) = d.totalWeight := by
      unfold TDigest.totalWeight
      rw [TDigest.weightSum_exact hd]
    unfold TDigest.addClusterLoop
    rw [hn, always_bind]
    refine (TDigest.placeCluster_fits d x δ hδ hs hc hd (hx x (by simp))).mono ?_
    rintro d1 ⟨h, hp⟩
    obtain ⟨g1, g2, g3⟩ := h.good hd (hx x (by simp))
    have hlen : ((d1.centroids.length + xs.length : ℕ) : K) ≤ g * δ := by
      refine le_trans (Nat.cast_le.2 ?_) hg
      rw [List.length_cons]; omega
    rw [always_bind]
    unfold TDigest.limitGrowth
    rw [hp.1, hc, Fl.mul_exact, TDigest.toUsize_fin (le_trans (by positivity) hg) hg', unwrap_some, bind_ret, if_neg]
    · obtain ⟨w, hw, hw'⟩ := (hx x (by simp)).2
      have e : d.totalWeight + x.weight = .fin (totalW d1.centroids) := by
        rw [← hn, g2, hw', Fl.add_exact]; rfl
      show Always (TDigest.addClusterLoop (.fin g) d1 (d.totalWeight + x.weight) xs) _
      rw [e]
      refine (clusterLoop_fits δ g hδ hg' xs d1 (hp.2.1.trans hs) (hp.1.trans hc) g1 (fun y hy => hx y (by simp [hy])) hlen).mono ?_
      intro d' h'
      exact ⟨_, h, h'⟩
    · rw [not_lt]
      refine Nat.le_floor (le_trans (Nat.cast_le.2 ?_) hlen)
      omega

/-- C69, partial (`add_cluster` only; false for `add_cluster_tree`, see `C69_tree_ignores_size`). Under `k0`, adding clusters
with a growth limit that leaves room for all of them places them one after the other (`Placed`): each becomes a centroid of its
own or is merged into one centroid, and then the merged weight `w` satisfies `w·δ < 2·(n + w)`, where `n` is the total weight of
the centroids before this cluster. -/
theorem C69_merge_fits_partial [FloorRing K] [FloatFmt.Exact K] (d : TDigest K) (xs : List (Centroid K)) (δ g : K) (hδ : 0 < δ)
    (hs : d.scaleFunc = k0) (hc : d.compressFactor = .fin δ) (hd : ∀ c ∈ d.centroids, Good c) (hx : ∀ x ∈ xs, Good x)
    (hmin : d.min ≠ .nan) (hmax : d.max ≠ .nan)
    (hg : ((d.centroids.length + xs.length : ℕ) : K) ≤ g * δ) (hg' : g * δ < 2 ^ 64) :
    Always (d.addCluster xs (.fin g)) (fun d' => PlacedAll δ d.centroids xs d'.centroids) := by
  obtain ⟨lo, hi, e, -⟩ := TDigest.updateLimits_spec d xs hx hmin hmax
  unfold TDigest.addCluster
  rw [e, bind_ret]
  have hn : TDigest.totalWeight { d with min := lo, max := hi } = .fin (totalW d.centroids) := by
    unfold TDigest.totalWeight
    rw [TDigest.weightSum_exact hd]
  rw [hn]
  exact TDigest.clusterLoop_fits δ g hδ hg' xs { d with min := lo, max := hi } hs hc hd hx hg

/-! ### Concrete cases -/

section examples
attribute [local instance] ratExact

/-- A history mixing all calls, with merges and growth limits. -/
def tdMixed : List (TDigest.AOp ℚ) :=
  [.ins (.addBuffer [.fin 3, .fin 1, .fin 2]), .cluster [⟨.fin (5 / 2), .fin 2⟩, ⟨.fin 7, .fin 1⟩] (.fin 1),
   .ins (.add (.fin 4)), .cluster [⟨.fin 0, .fin 1⟩] (.fin 2)]

/-- The history meets the hypotheses of C41. -/
example : TDigest.GrowthOK (2 : ℚ) tdMixed ∧ ∀ c ∈ TDigest.suppliedA tdMixed, Good c ∧ InRange c := by
  refine ⟨⟨by simp [tdMixed], ?_⟩, ?_⟩
  · intro cs g h
    simp only [tdMixed, List.mem_cons, TDigest.AOp.cluster.injEq, reduceCtorEq, List.not_mem_nil, or_false, false_or] at h
    rcases h with ⟨-, rfl⟩ | ⟨-, rfl⟩
    · exact ⟨1, rfl, by norm_num, by norm_num⟩
    · exact ⟨2, rfl, by norm_num, by norm_num⟩
  · have hle : ∀ a b : ℚ, a ≤ b → (Fl.fin a : Fl ℚ) ≤ .fin b := fun a b h => h
    intro c hc
    simp only [TDigest.suppliedA, tdMixed, TDigest.AOp.supplied, TDigest.TOp.supplied, List.flatMap_cons, List.flatMap_nil,
      List.map_cons, List.map_nil, List.append_nil, List.cons_append, List.nil_append, List.mem_cons, List.not_mem_nil,
      or_false] at hc
    rcases hc with rfl | rfl | rfl | rfl | rfl | rfl | rfl <;>
      exact ⟨⟨⟨_, rfl⟩, _, by norm_num, rfl⟩, hle _ _ (by decide +kernel), hle _ _ (by decide +kernel)⟩

/-- What C41 says about it: total weight 8, minimum 0, maximum 7. -/
example : Always ((TDigest.new k0 invK0 (.fin 2) : TDigest ℚ).execAOps tdMixed) (fun d =>
    d.totalWeight = .fin 8 ∧ d.min = .fin 0 ∧ d.max = .fin 7 ∧ d.centroids.length ≤ 4) := by decide +kernel

/-- `add_cluster` can leave the centroids unsorted: of two centroids with mean 1 the first is moved to 5/4. The sortedness of
C31 is restored only by the next merging pass. -/
theorem C41_cluster_unsorted :
    CanReturn ((TDigest.new k0 invK0 (.fin 3) : TDigest ℚ).execAOps
        [.ins (.addBuffer [.fin 1, .fin 1]), .cluster [⟨.fin (3 / 2), .fin 1⟩] (.fin 10)] >>= fun d =>
          .ret (d.centroids.map (·.mean)))
      [.fin (5 / 4), .fin 1] := by decide +kernel

/-- C41's size bound: five clusters with growth limit 1 and compression factor 2 leave at most two centroids. -/
example : Always ((TDigest.new k0 invK0 (.fin 2) : TDigest ℚ).addCluster
    [⟨.fin 5, .fin 1⟩, ⟨.fin 1, .fin 1⟩, ⟨.fin 4, .fin 1⟩, ⟨.fin 2, .fin 1⟩, ⟨.fin 3, .fin 1⟩] (.fin 1)) (fun d =>
      d.centroids.length ≤ 2) := by decide +kernel

/-- A digest with two centroids for C42 and C67. -/
def tdTwo (a b : ℚ) : TDigest ℚ := { TDigest.new k0 invK0 (.fin 5) with centroids := [⟨.fin a, .fin 1⟩, ⟨.fin b, .fin 1⟩] }

/-- C42 on two equidistant centroids: both are found. -/
example : Always ((tdTwo 0 10).findClosestCentroids ⟨.fin 5, .fin 1⟩) (fun o => o = some (0, 2)) := by decide +kernel

/-- C67 is false: for centroids 0 and 10 and target 9 the range holds both, although only 10 is at minimal distance. -/
theorem C67_range_contains_far :
    Always ((tdTwo 0 10).findClosestCentroids ⟨.fin 9, .fin 1⟩) (fun o => o = some (0, 2)) := by decide +kernel

/-- C67 is false the other way round too: of two centroids at distance 0 the range can miss one. -/
theorem C67_range_misses_tie :
    CanReturn ((tdTwo 5 5).findClosestCentroids ⟨.fin 5, .fin 1⟩) (some (0, 1)) := by decide +kernel

/-- C43: a run of `add_cluster_tree` that returns, with a merge. -/
example : Always ((TDigest.new k0 invK0 (.fin 100) : TDigest ℚ).execAOps
    [.ins (.addBuffer [.fin (-1), .fin 2, .fin 3]), .clusterTree [⟨.fin 0, .fin 1000⟩, ⟨.fin 50, .fin 4⟩] (.fin 10)]) (fun d =>
      d.totalWeight = .fin 1007 ∧ d.max = .fin 50 ∧ d.centroids.length = 4) := by decide +kernel

/-- C43's size bound: four clusters with growth limit 1 and compression factor 2 leave at most two centroids. -/
example : Always ((TDigest.new k0 invK0 (.fin 2) : TDigest ℚ).addClusterTree
    [⟨.fin 5, .fin 1⟩, ⟨.fin 1, .fin 1⟩, ⟨.fin 4, .fin 1⟩, ⟨.fin 2, .fin 1⟩] (.fin 1)) (fun d =>
      d.centroids.length ≤ 2) := by decide +kernel

/-- C43: the panic on equal means, from data any user may supply. -/
example : Panics ((TDigest.new k0 invK0 (.fin 100) : TDigest ℚ).execAOps
    [.ins (.addBuffer [.fin 2, .fin 2]), .clusterTree [⟨.fin 0, .fin 2⟩] (.fin 10)]) := by decide +kernel

/-- C68 on concrete centroids. -/
example : Centroid.add (⟨.fin 1, .fin 3⟩ : Centroid ℚ) ⟨.fin 5, .fin 1⟩ = ⟨.fin 2, .fin 4⟩ := by decide +kernel

/-- C69: a merge that happens: total weight 2 before, merged weight 2, factor 3 and `2·3 < 2·(2+2)`. -/
example : Always ((TDigest.new k0 invK0 (.fin 3) : TDigest ℚ).addBuffer [.fin 1, .fin 2] >>= fun d =>
    d.addCluster [⟨.fin 3, .fin 1⟩] (.fin 1)) (fun d =>
      d.centroids = [⟨.fin 1, .fin 1⟩, ⟨.fin (5 / 2), .fin 2⟩]) := by decide +kernel

/-- C69: two clusters in one call. The second merge is allowed because the first cluster counts: merged weight 2, weight 4 before,
factor 5 and `2·5 < 2·(4+2)`; with weight 3, before the first cluster, `2·5 < 2·(3+2)` fails. -/
example : Always ((TDigest.new k0 invK0 (.fin 5) : TDigest ℚ).addBuffer [.fin 1, .fin 2, .fin 4] >>= fun d =>
    d.addCluster [⟨.fin 9, .fin 1⟩, ⟨.fin 10, .fin 1⟩] (.fin 1)) (fun d =>
      d.centroids = [⟨.fin 1, .fin 1⟩, ⟨.fin 2, .fin 1⟩, ⟨.fin 4, .fin 1⟩, ⟨.fin (19 / 2), .fin 2⟩]) := by decide +kernel

/-- C69 is false for `add_cluster_tree`: it puts the mean where the weight belongs, and so merges a cluster of weight 10^6 into the
centroid -1, although with compression factor 100 the merged weight is far above what the size rule of C69 allows. The same
call of `add_cluster` keeps them apart. -/
theorem C69_tree_ignores_size :
    Always ((TDigest.new k0 invK0 (.fin 100) : TDigest ℚ).execAOps
      [.ins (.addBuffer [.fin (-1), .fin 2, .fin 3]), .clusterTree [⟨.fin 0, .fin 1000000⟩] (.fin 10)]) (fun d =>
        d.centroids = [⟨.fin (-1 / 1000001), .fin 1000001⟩, ⟨.fin 2, .fin 1⟩, ⟨.fin 3, .fin 1⟩]) ∧
    ¬ ((1000001 : ℚ) * 100 < 2 * (3 + 1000001)) ∧
    Always ((TDigest.new k0 invK0 (.fin 100) : TDigest ℚ).execAOps
      [.ins (.addBuffer [.fin (-1), .fin 2, .fin 3]), .cluster [⟨.fin 0, .fin 1000000⟩] (.fin 10)]) (fun d =>
        d.centroids = [⟨.fin (-1), .fin 1⟩, ⟨.fin 0, .fin 1000000⟩, ⟨.fin 2, .fin 1⟩, ⟨.fin 3, .fin 1⟩]) := by
  refine ⟨by decide +kernel, by norm_num, by decide +kernel⟩

end examples

end AQ

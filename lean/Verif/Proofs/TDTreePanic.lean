/-
TDigest: when `add_cluster_tree` returns and when it panics.
-/
import Verif.Model.ScaleK0
import Verif.Proofs.TDTree

set_option linter.unusedSectionVars false
set_option linter.unusedVariables false

namespace AQ
open Prog Spec
variable {K : Type} [Field K] [LinearOrder K] [IsStrictOrderedRing K] [FloatFmt K]

namespace KeyedSumTree

theorem lessThanSumGo_returns (key : Fl K) (hk : key ≠ .nan) : ∀ (n : KNode K) (acc : Fl K), n.Bst →
    ∃ r, n.lessThanSumGo key acc = .ret r
  | .nil, acc, _ => ⟨acc, rfl⟩
  | .node k w s l r, acc, hb => by
    obtain ⟨hl, hr, hkn, -, -⟩ := KNode.bst_node.1 hb
    unfold KNode.lessThanSumGo
    cases hc : Fl.cmp key k with
    | none => exact absurd hc (by rw [Fl.cmp_eq hk hkn]; simp)
    | some o =>
      cases o with
      | gt =>
        cases l with
        | nil => exact lessThanSumGo_returns key hk r _ hr
        | node k' w' s' l' r' => exact lessThanSumGo_returns key hk r _ hr
      | lt => exact lessThanSumGo_returns key hk l _ hl
      | eq => exact lessThanSumGo_returns key hk l _ hl

/-- `less_than_sum` returns on every tree ordered by its keys. -/
theorem lessThanSum_returns {t : KeyedSumTree K} (h : t.root.Bst) (key : Fl K) (hk : key ≠ .nan) :
    ∃ r, t.lessThanSum key = .ret r := by
  unfold lessThanSum
  cases hr : t.root with
  | nil => exact ⟨none, rfl⟩
  | node k w s l r =>
    simp only []
    obtain ⟨x, hx⟩ := lessThanSumGo_returns key hk (.node k w s l r) (Fl.lit 0) (hr ▸ h)
    rw [hx, bind_ret]
    exact ⟨_, rfl⟩

/-- Inserting pairs with distinct fresh keys one after the other returns; the sums stay right. -/
theorem fromAux_always [FloatFmt.Exact K] : ∀ (cs : List (Centroid K)) (t : KeyedSumTree K) (c : List (Centroid K)),
    t.Holds c → t.root.SpineOK → (∀ p ∈ cs, Good p) → ((cs ++ c).map (·.mean)).Nodup →
    Always (t.fromAux cs) (fun t' => t'.Holds (cs ++ c) ∧ t'.root.SpineOK)
  | [], t, c, h, hs, _, _ => ⟨h, hs⟩
  | a :: cs, t, c, h, hs, hg, hd => by
    unfold fromAux
    have ha := hg a (by simp)
    rw [always_bind]
    rw [List.cons_append, List.map_cons (a := a), List.nodup_cons] at hd
    have hfr : ∀ p ∈ c, p.mean ≠ a.mean := fun p hp he =>
      hd.1 (List.mem_map.2 ⟨p, List.mem_append_right _ hp, he⟩)
    refine ((insert_holds h a.mean a.weight ha.mean_ne_nan hfr).and (insert_spine h hs ha)).mono ?_
    rintro t' ⟨h', hs'⟩
    have hperm : (cs ++ a :: c).Perm (a :: (cs ++ c)) := List.perm_middle
    refine (fromAux_always cs t' _ h' hs' (fun p hp => hg p (by simp [hp])) ?_).mono ?_
    · rw [(hperm.map _).nodup_iff, List.map_cons (a := a), List.nodup_cons]
      exact hd
    · rintro t'' ⟨h'', hs''⟩
      exact ⟨h''.perm hperm, hs''⟩
where
  insert_spine {t : KeyedSumTree K} {c : List (Centroid K)} (h : t.Holds c) (hs : t.root.SpineOK) {a : Centroid K}
      (ha : Good a) : Partially (t.insert a.mean a.weight) (fun t' => t'.root.SpineOK) := by
    unfold insert
    rw [partially_bind, ha.weight]
    refine (KNode.insert_spineOK a.mean a.weight.toK t.root hs).mono ?_
    intro r hr
    exact hr

end KeyedSumTree

namespace TDigest

/-- Merging runs of a strictly increasing list gives strictly increasing means. -/
theorem partition_increasing : ∀ (runs : List (List (Centroid K))), (∀ r ∈ runs, r ≠ []) →
    (∀ r ∈ runs, ∀ c ∈ r, Good c) → runs.flatten.Pairwise (fun a b => a.mean.toK < b.mean.toK) →
    (runs.map weightedMean).Pairwise (fun a b => a.mean.toK < b.mean.toK)
  | [], _, _, _ => List.Pairwise.nil
  | r :: rs, hne, hg, hs => by
    rw [List.flatten_cons, List.pairwise_append] at hs
    obtain ⟨h1, h2, h3⟩ := hs
    rw [List.map_cons (a := r), List.pairwise_cons]
    refine ⟨?_, partition_increasing rs (fun s hs => hne s (by simp [hs])) (fun s hs => hg s (by simp [hs])) h2⟩
    intro c hc
    obtain ⟨s, hs, rfl⟩ := List.mem_map.1 hc
    have hrne := hne r (by simp)
    have hsne := hne s (by simp [hs])
    have hlast := List.getLast_mem hrne
    have hle : ∀ a ∈ r, a.mean.toK ≤ (r.getLast hrne).mean.toK := by
      intro a ha
      rw [← List.dropLast_concat_getLast hrne] at ha h1
      rw [List.pairwise_append] at h1
      rcases List.mem_append.1 ha with ha | ha
      · exact (h1.2.2 a ha _ (by simp)).le
      · rw [List.mem_singleton.1 ha]
    have hb : (weightedMean r).mean.toK ≤ (r.getLast hrne).mean.toK :=
      weightedMean_le (hg r (by simp)) hrne hle
    have hhead := List.head_mem hsne
    have hge : ∀ a ∈ s, (s.head hsne).mean.toK ≤ a.mean.toK := by
      intro a ha
      have hps : s.Pairwise (fun a b => a.mean.toK < b.mean.toK) :=
        h2.sublist (List.sublist_flatten_of_mem hs)
      rw [← List.cons_head_tail hsne] at ha hps
      rw [List.pairwise_cons] at hps
      rcases List.mem_cons.1 ha with rfl | ha
      · exact le_rfl
      · exact (hps.1 a ha).le
    have hc' : (s.head hsne).mean.toK ≤ (weightedMean s).mean.toK :=
      le_weightedMean (hg s (by simp [hs])) hsne hge
    have := h3 _ hlast _ (List.mem_flatten.2 ⟨s, hs, hhead⟩)
    linarith

/-- A merging pass over centroids with distinct means leaves distinct means. -/
theorem addBuffer_nil_nodup [FloatFmt.Exact K] (d : TDigest K) (hg : ∀ c ∈ d.centroids, Good c)
    (hd : (d.centroids.map (·.mean)).Nodup) :
    Partially (d.addBuffer []) (fun d' => (d'.centroids.map (·.mean)).Nodup) := by
  unfold addBuffer
  simp only [List.map_nil]
  by_cases hne : d.centroids = []
  · rw [addCentroidBuffer_nil d hne]; exact hd
  refine (d.addCentroidBuffer_spec [] hg (by simp) (by simpa using hne)).partially.mono ?_
  rintro d' ⟨l, runs, hl, h1, h2, h3, h4, -⟩
  rw [List.nil_append] at h1
  have hlg : ∀ c ∈ l, Good c := fun c hc => hg c (h1.mem_iff.1 hc)
  have hrg : ∀ r ∈ runs, ∀ c ∈ r, Good c := fun r hr c hc => hlg c (h3.mem hr hc)
  have hln : (l.map (·.mean)).Nodup := (h1.map _).nodup_iff.2 hd
  have hst : l.Pairwise (fun a b => a.mean.toK < b.mean.toK) := by
    have h5 : l.Pairwise (fun a b => a.mean ≠ b.mean) := List.pairwise_map.1 hln
    refine (h2.and h5).imp_of_mem ?_
    rintro a b ha hb ⟨hab, hne⟩
    have : a.mean < b.mean := lt_of_le_of_ne hab hne
    rw [(hlg a ha).mean, (hlg b hb).mean] at this
    simpa using this
  rw [← h3.1] at hst
  have := partition_increasing runs h3.2 hrg hst
  rw [← h4] at this
  refine List.pairwise_map.2 (this.imp ?_)
  intro a b hab he
  rw [he] at hab
  exact lt_irrefl _ hab

theorem rebuildTree_always [FloatFmt.Exact K] (d : TDigest K) (hg : ∀ c ∈ d.centroids, Good c)
    (hd : (d.centroids.map (·.mean)).Nodup) :
    Always d.rebuildTree (fun t => t.Holds d.centroids ∧ t.root.SpineOK) := by
  unfold rebuildTree
  rw [always_bind]
  refine (shuffle_perm d.centroids).mono ?_
  intro cs hp
  refine (KeyedSumTree.fromAux_always cs _ [] KeyedSumTree.new_holds trivial
    (fun p hpm => hg p (hp.mem_iff.1 hpm)) ?_).mono ?_
  · rw [List.append_nil]; exact (hp.map _).nodup_iff.2 hd
  · rintro t ⟨ht, hs⟩
    rw [List.append_nil] at ht
    exact ⟨ht.perm hp, hs⟩

theorem holds_nodup {t : KeyedSumTree K} {c : List (Centroid K)} (hh : t.Holds c) : (c.map (·.mean)).Nodup := by
  refine (hh.2.1.map _).nodup_iff.1 ?_
  have := hh.1.1
  rw [← List.pairwise_map] at this
  exact this.imp (fun h => ne_of_lt h)

section
variable [FloorRing K]

theorem add_mean_fin [FloatFmt.Exact K] {x c : Centroid K} (hx : Good x) (hc : Good c) :
    (x.add c).mean = .fin ((x.mean.toK * x.weight.toK + c.mean.toK * c.weight.toK) / (x.weight.toK + c.weight.toK)) := by
  unfold Centroid.add
  rw [hx.mean, hx.weight, hc.mean, hc.weight]
  simp only [show ∀ m : K, (Fl.fin m : Fl K).toK = m from fun _ => rfl, Fl.mul_exact, Fl.add_exact]
  exact Fl.div_exact _ (by linarith [hx.weight_pos, hc.weight_pos])

theorem chooseCentroid_always [FloatFmt.Exact K] (d : TDigest K) {t : KeyedSumTree K} (ht : t.root.Bst) {x : Centroid K}
    (hx : Good x) (total : Fl K) :
    ∀ (cs : List (Centroid K)) (best : Option (Centroid K)), (∀ c ∈ cs, Good c) →
    Always (d.chooseCentroid t x total cs best) (fun _ => True)
  | [], best, _ => trivial
  | c :: cs, best, hg => by
    have hg' : ∀ j ∈ cs, Good j := fun j hj => hg j (by simp [hj])
    unfold chooseCentroid
    obtain ⟨r, hr⟩ := KeyedSumTree.lessThanSum_returns ht (x.add c).mean (by rw [add_mean_fin hx (hg c (by simp))]; simp)
    simp only [hr, bind_ret]
    split
    · cases best with
      | none => exact chooseCentroid_always d ht hx total cs _ hg'
      | some o =>
        simp only
        split
        · exact chooseCentroid_always d ht hx total cs _ hg'
        · exact chooseCentroid_always d ht hx total cs _ hg'
    · exact chooseCentroid_always d ht hx total cs _ hg'

/-- Any two different means are at least 1/1000 apart. -/
def Apart (cs : List (Centroid K)) : Prop :=
  ∀ p ∈ cs, ∀ q ∈ cs, p.mean ≠ q.mean → 1 / 1000 ≤ |p.mean.toK - q.mean.toK|

/-- Where a merge lands: strictly between the chosen centroid and the cluster, where there is no other key. -/
theorem merge_fresh {c : List (Centroid K)} {x a : Centroid K} {mean : K} (hx : Good x) (hg : ∀ p ∈ c, Good p)
    (hfr : ∀ p ∈ c, p.mean ≠ x.mean) (hap : Apart c) (ha : a ∈ c)
    (hcl : ∀ q ∈ c, |a.mean.toK - x.mean.toK| < |q.mean.toK - x.mean.toK| + 1 / 1000)
    (hm : mean * (a.weight.toK + x.weight.toK) = a.mean.toK * a.weight.toK + x.mean.toK * x.weight.toK) :
    ∀ p ∈ c, p.mean ≠ a.mean → p.mean ≠ .fin mean := by
  intro p hp hpa he
  have ga := hg a ha
  have wa := ga.weight_pos
  have wx := hx.weight_pos
  have hpm : p.mean.toK = mean := by rw [he]; rfl
  have hsep := hap p hp a ha hpa
  have hclp := hcl p hp
  have hax : a.mean.toK ≠ x.mean.toK := by
    intro h; apply hfr a ha; rw [ga.mean, hx.mean, h]
  rw [hpm] at hsep hclp
  have hs : 0 < a.weight.toK + x.weight.toK := by linarith
  generalize a.mean.toK = A at *
  generalize x.mean.toK = X at *
  generalize a.weight.toK = u at *
  generalize x.weight.toK = v at *
  have k1 : (mean - A) * (u + v) = (X - A) * v := by rw [sub_mul, hm]; ring
  have k2 : (X - mean) * (u + v) = (X - A) * u := by rw [sub_mul, hm]; ring
  rcases lt_or_gt_of_ne hax with h | h
  · have p1 : 0 < mean - A := by
      by_contra hn
      have := mul_nonpos_of_nonpos_of_nonneg (not_lt.1 hn) hs.le
      have := mul_pos (sub_pos.2 h) wx
      linarith
    have p2 : 0 < X - mean := by
      by_contra hn
      have := mul_nonpos_of_nonpos_of_nonneg (not_lt.1 hn) hs.le
      have := mul_pos (sub_pos.2 h) wa
      linarith
    rw [abs_of_pos p1] at hsep
    rw [abs_of_neg (by linarith), abs_of_neg (by linarith)] at hclp
    linarith
  · have p1 : mean - A < 0 := by
      by_contra hn
      have := mul_nonneg (not_lt.1 hn) hs.le
      have := mul_pos (sub_pos.2 h) wx
      linarith
    have p2 : X - mean < 0 := by
      by_contra hn
      have := mul_nonneg (not_lt.1 hn) hs.le
      have := mul_pos (sub_pos.2 h) wa
      linarith
    rw [abs_of_neg p1] at hsep
    rw [abs_of_pos (by linarith), abs_of_pos (by linarith)] at hclp
    linarith

/-- Placing a cluster with a fresh mean among keys at least 1/1000 apart returns. -/
theorem placeTree_always [FloatFmt.Exact K] {d : TDigest K} {t : KeyedSumTree K} {c : List (Centroid K)} (hh : t.Holds c)
    (hg : ∀ p ∈ c, Good p) {x : Centroid K} (hx : Good x) (hfr : ∀ p ∈ c, p.mean ≠ x.mean) (hap : Apart c) (total : Fl K) :
    Always (placeTree d t x total) (fun _ => True) := by
  unfold placeTree
  by_cases hne : c = []
  · have hnil : t.root = .nil := by
      cases hr : t.root with
      | nil => rfl
      | node k w s l r =>
        have := hh.2.1.length_eq
        unfold KeyedSumTree.sortedVecKey at this
        rw [hr, hne] at this
        simp [KNode.sortedVecKey] at this
    unfold KeyedSumTree.closestKeys
    rw [hnil]
    simp only [bind_ret, if_true]
    exact (KeyedSumTree.insert_holds hh x.mean x.weight hx.mean_ne_nan hfr).mono fun _ _ => trivial
  rw [always_bind, hx.mean]
  refine (KeyedSumTree.closestKeys_spec hh (fun p hp => ⟨_, (hg p hp).mean⟩) hne x.mean.toK).mono ?_
  rintro res ⟨r1, r2, -, r4⟩
  rw [if_neg r1, always_bind]
  have hch := chooseCentroid_mem d t x total (fun a => a ∈ c ∧
    ∀ q ∈ c, |a.mean.toK - x.mean.toK| < |q.mean.toK - x.mean.toK| + 1 / 1000) res none
    (fun a ha => ⟨r2 a ha, r4 a ha⟩) (by simp)
  refine ((chooseCentroid_always d hh.1 hx total res none (fun a ha => hg a (r2 a ha))).and hch).mono ?_
  rintro best ⟨-, hb⟩
  cases best with
  | none =>
    simp only
    rw [← hx.mean]
    exact (KeyedSumTree.insert_holds hh x.mean x.weight hx.mean_ne_nan hfr).mono fun _ _ => trivial
  | some a =>
    obtain ⟨ha, hcl⟩ := hb a rfl
    simp only
    obtain ⟨mean, e1, e2, e3, -⟩ := merge_two (hg a ha) hx (lo := .ninf) (hi := .nan)
      ⟨by simp, by simp⟩ ⟨by simp, by simp⟩
    rw [hx.mean] at e1
    rw [always_bind]
    refine (KeyedSumTree.delete_holds hh a.mean ⟨a, ha, rfl⟩).mono ?_
    intro t1 h1
    rw [e1]
    refine (KeyedSumTree.insert_holds h1 _ _ (by simp) ?_).mono fun _ _ => trivial
    intro p hp
    obtain ⟨hp1, hp2⟩ := List.mem_filter.1 hp
    exact merge_fresh hx hg hfr hap ha hcl e3 p hp1 (by simpa using hp2)

/-- `add_cluster_tree` of one cluster with a fresh mean to a digest whose means are at least 1/1000 apart returns. -/
theorem addClusterTree_one [FloatFmt.Exact K] {d : TDigest K} {sup : List (Centroid K)} {x : Centroid K} {g : Fl K} {lim : Nat}
    (h : d.CInv sup) (hsup : ∀ c ∈ sup, Good c) (hx : Good x ∧ InRange x)
    (hl : Fl.toUsize (g * d.compressFactor) = some lim) (hnd : (d.centroids.map (·.mean)).Nodup)
    (hap : Apart d.centroids) (hfr : ∀ p ∈ d.centroids, p.mean ≠ x.mean) :
    Always (d.addClusterTree [x] g) (fun _ => True) := by
  obtain ⟨hn1, hn2⟩ := cinv_ne_nan h hsup
  obtain ⟨lo, hi, e, n1, n2, u1, u2, u3, -⟩ := updateLimits_spec d [x] (by simpa using hx.1) hn1 hn2
  unfold addClusterTree
  rw [e, bind_ret, always_bind]
  have hmid : Mid { d with min := lo, max := hi } (totalW sup) (totalMass sup) lo hi (fun _ => True) := by
    refine ⟨h.good, h.weight, h.mass, rfl, rfl, ?_, by simp⟩
    intro c hc
    exact ⟨u1.trans (h.min_le c hc), (h.le_max c hc).trans u2⟩
  refine (rebuildTree_always { d with min := lo, max := hi } h.good hnd).mono ?_
  rintro t ⟨hh, -⟩
  rw [always_bind]
  unfold addClusterTreeLoop
  rw [always_bind]
  refine ((placeTree_always hh h.good hx.1 hfr hap _).and (tmid_place (P := fun _ => True) (by simp) ⟨_, hh, hmid⟩ hx.1
    (u3 x (by simp)) trivial _)).mono ?_
  rintro t1 ⟨-, c, h1, m1⟩
  rw [hl, unwrap_some, bind_ret]
  split
  · rw [always_bind]
    have hmid1 : Mid { d with min := lo, max := hi, centroids := t1.sortedVecKey } _ _ lo hi (fun _ => True) := m1.perm h1.2.1
    refine ((mid_merge (by simp) n1 n2 hmid1).and (addBuffer_nil_nodup _ hmid1.good
      ((h1.2.1.map _).nodup_iff.2 (holds_nodup h1)))).mono ?_
    rintro d1 ⟨⟨m2, -⟩, hnd1⟩
    rw [always_bind]
    refine (rebuildTree_always d1 m2.good hnd1).mono ?_
    intro t2 _
    trivial
  · trivial

/-! ### `k0` and values that are large compared with the weights -/

/-- Under `k0` the size test of `add_cluster_tree`, with the mean in place of the weight, fails for a large mean. -/
theorem k0_size_large [FloatFmt.Exact K] {d : TDigest K} {δ m b T : K} (hs : d.scaleFunc = k0) (hc : d.compressFactor = .fin δ)
    (hT : 0 < T) (h : 2 * T ≤ m * δ) :
    Fl.lt (Fl.fabs (d.kSizeFromWeights (.fin m) (.fin b) (.fin T))) (Fl.lit 1) = false := by
  unfold kSizeFromWeights
  rw [hs, hc]
  unfold k0
  simp only [Fl.div_exact _ hT.ne', Fl.add_exact, Fl.mul_exact, Fl.lit_exact, Fl.div_exact _ (two_ne_zero (α := K)),
    Fl.sub_exact, Fl.fabs_fin, Fl.lt_fin, decide_eq_false_iff_not, not_lt]
  have e : (b / T + m / T) * δ / 2 - b / T * δ / 2 = m * δ / (2 * T) := by field_simp; ring
  rw [e]
  refine le_trans ?_ (le_abs_self _)
  rw [le_div_iff₀ (by linarith)]
  linarith

theorem choose_none [FloatFmt.Exact K] {d : TDigest K} {t : KeyedSumTree K} {c : List (Centroid K)} {x : Centroid K} {δ M W : K}
    (hs : d.scaleFunc = k0) (hc : d.compressFactor = .fin δ) (hδ : 0 < δ) (hh : t.Holds c) (hsp : t.root.SpineOK)
    (hg : ∀ p ∈ c, Good p) (hx : Good x) (hM : ∀ p ∈ c, M ≤ p.mean.toK) (hMx : M ≤ x.mean.toK) (hT : 0 < W + x.weight.toK)
    (hb : 2 * (W + x.weight.toK) ≤ M * δ) :
    ∀ (cs : List (Centroid K)), (∀ p ∈ cs, p ∈ c) → d.chooseCentroid t x (.fin W) cs none = .ret none
  | [], _ => rfl
  | a :: cs, hcs => by
    unfold chooseCentroid
    have hac := hcs a (by simp)
    have hga := hg a hac
    have w1 := hga.weight_pos
    have w2 := hx.weight_pos
    have hm : M ≤ (x.mean.toK * x.weight.toK + a.mean.toK * a.weight.toK) / (x.weight.toK + a.weight.toK) := by
      rw [le_div_iff₀ (by linarith)]
      nlinarith [mul_le_mul_of_nonneg_right hMx w2.le, mul_le_mul_of_nonneg_right (hM a hac) w1.le]
    rw [add_mean_fin hx hga]
    generalize (x.mean.toK * x.weight.toK + a.mean.toK * a.weight.toK) / (x.weight.toK + a.weight.toK) = m at hm ⊢
    dsimp only
    rw [KeyedSumTree.lessThanSum_spec hh hsp (fun p hp => ⟨_, (hg p hp).weight⟩) (.fin m) (by simp)]
    have hne : c ≠ [] := List.ne_nil_of_mem hac
    rw [if_neg hne, bind_ret, Option.getD_some, hx.weight, Fl.add_exact,
      k0_size_large hs hc hT (hb.trans (mul_le_mul_of_nonneg_right hm hδ.le))]
    exact choose_none hs hc hδ hh hsp hg hx hM hMx hT hb cs (fun p hp => hcs p (by simp [hp]))

/-- Then the cluster is put into the tree on its own, which fails if its mean is already a key. -/
theorem placeTree_large [FloatFmt.Exact K] {d : TDigest K} {t : KeyedSumTree K} {c : List (Centroid K)} {x : Centroid K} {δ M W : K}
    (hs : d.scaleFunc = k0) (hc : d.compressFactor = .fin δ) (hδ : 0 < δ) (hh : t.Holds c) (hsp : t.root.SpineOK)
    (hg : ∀ p ∈ c, Good p) (hx : Good x) (hM : ∀ p ∈ c, M ≤ p.mean.toK) (hMx : M ≤ x.mean.toK) (hT : 0 < W + x.weight.toK)
    (hb : 2 * (W + x.weight.toK) ≤ M * δ) :
    ((∀ p ∈ c, p.mean ≠ x.mean) → Always (placeTree d t x (.fin W)) (fun t' => t'.Holds (x :: c) ∧ t'.root.SpineOK)) ∧
    ((∃ p ∈ c, p.mean = x.mean) → Panics (placeTree d t x (.fin W))) := by
  have key : Always (t.closestKeys x.mean) (fun res => res = [] ∨ res ≠ [] ∧
      d.chooseCentroid t x (.fin W) res none = .ret none) := by
    by_cases hne : c = []
    · have hnil : t.root = .nil := by
        cases hr : t.root with
        | nil => rfl
        | node k w s l r =>
          have := hh.2.1.length_eq
          unfold KeyedSumTree.sortedVecKey at this
          rw [hr, hne] at this
          simp [KNode.sortedVecKey] at this
      unfold KeyedSumTree.closestKeys
      rw [hnil]
      exact Or.inl rfl
    · have hcl := KeyedSumTree.closestKeys_spec hh (fun p hp => ⟨_, (hg p hp).mean⟩) hne x.mean.toK
      rw [← hx.mean] at hcl
      refine hcl.mono ?_
      rintro res ⟨r1, r2, -⟩
      exact Or.inr ⟨r1, choose_none hs hc hδ hh hsp hg hx hM hMx hT hb res r2⟩
  constructor
  · intro hfr
    have hins : Always (t.insert x.mean x.weight) (fun t' => t'.Holds (x :: c) ∧ t'.root.SpineOK) :=
      (KeyedSumTree.insert_holds hh x.mean x.weight hx.mean_ne_nan hfr).and (KeyedSumTree.fromAux_always.insert_spine hh hsp hx)
    unfold placeTree
    rw [always_bind]
    refine key.mono ?_
    rintro res (h | ⟨h, h'⟩)
    · rw [if_pos h]; exact hins
    · rw [if_neg h, h', bind_ret]; exact hins
  · rintro ⟨p, hp, hpx⟩
    have hins : Panics (t.insert x.mean x.weight) := by
      unfold KeyedSumTree.insert
      rw [KNode.insert_dup x.mean x.weight t.root hh.1 ⟨p, hh.2.1.mem_iff.2 hp, hpx⟩]
      intro h; cases h
    unfold placeTree
    refine panics_of_always (key.mono ?_)
    rintro res (h | ⟨h, h'⟩)
    · rw [if_pos h]; exact hins
    · rw [if_neg h, h', bind_ret]; exact hins

theorem loop_large [FloatFmt.Exact K] {d : TDigest K} {δ M : K} {g : Fl K} {lim : Nat} (hs : d.scaleFunc = k0)
    (hc : d.compressFactor = .fin δ) (hδ : 0 < δ) (hl : Fl.toUsize (g * d.compressFactor) = some lim) :
    ∀ (xs : List (Centroid K)) (t : KeyedSumTree K) (c : List (Centroid K)), t.Holds c → t.root.SpineOK →
    (∀ p ∈ c, Good p) → (∀ x ∈ xs, Good x) → (∀ p ∈ c, M ≤ p.mean.toK) → (∀ x ∈ xs, M ≤ x.mean.toK) →
    2 * (totalW c + totalW xs) ≤ M * δ → c.length + xs.length ≤ lim →
    (((c ++ xs).map (·.mean)).Nodup → Always (addClusterTreeLoop g d t (.fin (totalW c)) xs) (fun r =>
      r.1 = d ∧ r.2.Holds (c ++ xs))) ∧
    (¬ ((c ++ xs).map (·.mean)).Nodup → Panics (addClusterTreeLoop g d t (.fin (totalW c)) xs))
  | [], t, c, hh, hsp, hg, hgx, hM, hMx, hb, hsz => by
    rw [List.append_nil]
    exact ⟨fun _ => ⟨rfl, hh⟩, fun h => absurd (holds_nodup hh) h⟩
  | x :: xs, t, c, hh, hsp, hg, hgx, hM, hMx, hb, hsz => by
    have gx := hgx x (by simp)
    have wx := gx.weight_pos
    have wc := totalW_nonneg hg
    have wxs := totalW_nonneg (fun y hy => hgx y (List.mem_cons_of_mem _ hy) : ∀ y ∈ xs, Good y)
    rw [totalW_cons] at hb
    obtain ⟨p1, p2⟩ := placeTree_large (W := totalW c) hs hc hδ hh hsp hg gx hM (hMx x (by simp)) (by linarith) (by linarith)
    have hperm : (c ++ x :: xs).Perm (x :: c ++ xs) := List.perm_middle
    by_cases hfr : ∀ p ∈ c, p.mean ≠ x.mean
    · have step : ∀ t' : KeyedSumTree K, t'.Holds (x :: c) → t'.root.SpineOK → _ := fun t' h1 h2 =>
        loop_large hs hc hδ hl xs t' (x :: c) h1 h2
          (fun p hp => (List.mem_cons.1 hp).elim (fun e => e ▸ gx) (hg p))
          (fun y hy => hgx y (List.mem_cons_of_mem _ hy))
          (fun p hp => (List.mem_cons.1 hp).elim (fun e => e ▸ hMx x (by simp)) (hM p))
          (fun y hy => hMx y (List.mem_cons_of_mem _ hy))
          (by rw [totalW_cons]; linarith) (by simp only [List.length_cons] at hsz ⊢; omega)
      have etot : (.fin (totalW c) + x.weight : Fl K) = .fin (totalW (x :: c)) := by
        rw [gx.weight, Fl.add_exact, totalW_cons, add_comm]
      have hlt : ∀ t' : KeyedSumTree K, t'.Holds (x :: c) → ¬ lim < t'.size := by
        intro t' h1
        rw [h1.2.2]
        simp only [List.length_cons] at hsz ⊢
        omega
      unfold addClusterTreeLoop
      constructor
      · intro hnd
        rw [always_bind]
        refine (p1 hfr).mono ?_
        rintro t' ⟨h1, h2⟩
        rw [hl, unwrap_some, bind_ret, if_neg (hlt t' h1), etot]
        refine ((step t' h1 h2).1 ((hperm.map _).nodup_iff.1 hnd)).mono ?_
        rintro r ⟨r1, r2⟩
        exact ⟨r1, r2.perm hperm.symm⟩
      · intro hnd
        refine panics_of_always ((p1 hfr).mono ?_)
        rintro t' ⟨h1, h2⟩
        rw [hl, unwrap_some, bind_ret, if_neg (hlt t' h1), etot]
        exact (step t' h1 h2).2 (fun h => hnd ((hperm.map _).nodup_iff.2 h))
    · push Not at hfr
      obtain ⟨p, hp, hpx⟩ := hfr
      constructor
      · intro hnd
        exfalso
        rw [(hperm.map _).nodup_iff, List.cons_append, List.map_cons (a := x), List.nodup_cons] at hnd
        exact hnd.1 (List.mem_map.2 ⟨p, List.mem_append_left _ hp, hpx⟩)
      · intro _
        unfold addClusterTreeLoop
        exact panics_bind_left (p2 ⟨p, hp, hpx⟩)

end
end TDigest
end AQ

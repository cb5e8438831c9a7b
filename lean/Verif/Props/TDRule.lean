/-
Property C101 (which centroid `add_cluster` merges a cluster into, for any scale function; `weight_left`, `k_size`,
src/t_digest/t_digest.rs).
-/
import Verif.Props.TDCluster
import Verif.Proofs.TDRound
import Verif.Props.TDRound

set_option linter.unusedSectionVars false
set_option linter.unusedVariables false

namespace AQ
open Prog Spec
variable {K : Type} [Field K] [LinearOrder K] [IsStrictOrderedRing K] [FloatFmt K]

namespace Spec

/-- The weight of the centroids with a mean strictly below `t`. -/
def meanBelowW (cs : List (Centroid K)) (t : K) : K := (cs.map (fun c => if c.mean.toK < t then c.weight.toK else 0)).sum

/-- The rule of `add_cluster` for a merged centroid of mean `m` and weight `w`: placed in a digest of total weight `N`, the weight
`w` already added, it spans less than one unit of the scale function `s`. -/
def SizeRule (s : ScaleFn K) (δ : Fl K) (cs : List (Centroid K)) (m w : K) : Prop :=
  ∀ N q : K, N = totalW cs + w → q = meanBelowW cs m / N →
    Fl.lt (Fl.fabs (s (.fin (q + w / N)) δ (.fin N) - s (.fin q) δ (.fin N))) (.fin 1) = true

/-- The rule for merging `x` into `c`, with mean and weight of the merged centroid written out. -/
def MayMerge (s : ScaleFn K) (δ : Fl K) (cs : List (Centroid K)) (x c : Centroid K) : Prop :=
  SizeRule s δ cs ((x.mean.toK * x.weight.toK + c.mean.toK * c.weight.toK) / (x.weight.toK + c.weight.toK))
    (x.weight.toK + c.weight.toK)

/-- `c` is as near to `x` as any centroid. -/
def Nearest (cs : List (Centroid K)) (x c : Centroid K) : Prop :=
  c ∈ cs ∧ ∀ c' ∈ cs, |c.mean.toK - x.mean.toK| ≤ |c'.mean.toK - x.mean.toK|

/-- How one cluster enters the centroids `cs`. Either it is merged into a centroid the rule allows, of least mass among the nearest
ones it allows; or it becomes a centroid of its own, and the rule allows none of the nearest ones. (The parts on the nearest
centroids are for strictly increasing means.) -/
def Ruled (s : ScaleFn K) (δ : Fl K) (cs : List (Centroid K)) (x : Centroid K) (cs' : List (Centroid K)) : Prop :=
  (∃ pre c post, cs = pre ++ c :: post ∧ cs' = pre ++ c.add x :: post ∧ MayMerge s δ cs x c ∧
    (cs.Pairwise (fun a b => a.mean < b.mean) → ∀ c', Nearest cs x c' → MayMerge s δ cs x c' →
      c.mean.toK * c.weight.toK ≤ c'.mean.toK * c'.weight.toK)) ∨
  ((∃ pre post, cs = pre ++ post ∧ cs' = pre ++ x :: post ∧
    (cs.Pairwise (fun a b => a.mean ≤ b.mean) → (∀ c ∈ pre, c.mean ≤ x.mean) ∧ ∀ c ∈ post, x.mean ≤ c.mean)) ∧
    (cs.Pairwise (fun a b => a.mean < b.mean) → ∀ c', Nearest cs x c' → ¬ MayMerge s δ cs x c'))

/-- Clusters entering one after the other. -/
def RuledAll (s : ScaleFn K) (δ : Fl K) : List (Centroid K) → List (Centroid K) → List (Centroid K) → Prop
  | cs, [], cs' => cs' = cs
  | cs, x :: xs, cs' => ∃ cs1, Ruled s δ cs x cs1 ∧ RuledAll s δ cs1 xs cs'

end Spec

/-! ### `weight_left` and `k_size` -/

theorem meanBelowW_filter (cs : List (Centroid K)) (t : K) (h : ∀ c ∈ cs, c.mean.IsFin) :
    totalW (cs.filter (fun c => Fl.lt c.mean (.fin t))) = meanBelowW cs t := by
  induction cs with
  | nil => rfl
  | cons c cs ih =>
    obtain ⟨m, hm⟩ := h c (by simp)
    have ih := ih (fun c hc => h c (by simp [hc]))
    have e : meanBelowW (c :: cs) t = (if m < t then c.weight.toK else 0) + meanBelowW cs t := by
      unfold meanBelowW
      rw [List.map_cons, List.sum_cons, hm]
      rfl
    rw [e, List.filter_cons, hm, Fl.lt_fin, ← ih]
    by_cases hlt : m < t
    · simp [hlt, totalW_cons]
    · simp [hlt]

/-- C101. `weight_left` is the total weight of the centroids with a mean strictly below the target's. -/
theorem C101_weight_left [FloatFmt.Exact K] (d : TDigest K) (x : Centroid K) (t : K) (hx : x.mean = .fin t)
    (hd : ∀ c ∈ d.centroids, Good c) : d.weightLeft x = .fin (meanBelowW d.centroids t) := by
  unfold TDigest.weightLeft
  rw [TDigest.weightSum_exact (fun c hc => hd c (List.mem_filter.1 hc).1), hx, meanBelowW_filter _ _ (fun c hc => (hd c hc).1)]

/-- C101, floating point: the same with rounding, for whole weights, as long as counts are exact. -/
theorem C101_weight_left_round {A B : K} {N : Nat} (R : Roomy N A B) (d : TDigest K) (x : Centroid K) (t : K)
    (hx : x.mean = .fin t) (hd : ∀ c ∈ d.centroids, Within A B c) (hN : totalW d.centroids ≤ N) :
    d.weightLeft x = .fin (meanBelowW d.centroids t) := by
  have hf : ∀ c ∈ d.centroids, c.mean.IsFin := fun c hc => by
    obtain ⟨m, w, h, -⟩ := hd c hc
    exact ⟨m, h⟩
  have h0 : ∀ c ∈ d.centroids, 0 ≤ c.weight.toK := fun c hc => by
    obtain ⟨m, w, -, -, -, h, -⟩ := hd c hc
    rw [h]
    exact Nat.cast_nonneg w
  have hle : totalW (d.centroids.filter (fun c => Fl.lt c.mean (.fin t))) ≤ totalW d.centroids := by
    unfold totalW
    refine List.Sublist.sum_le_sum (List.filter_sublist.map _) ?_
    intro a ha
    obtain ⟨c, hc, rfl⟩ := List.mem_map.1 ha
    exact h0 c hc
  unfold TDigest.weightLeft
  rw [hx, TDigest.weightSum_roomy R (fun c hc => hd c (List.mem_filter.1 hc).1) (hle.trans hN), meanBelowW_filter _ _ hf]

/-- C101. `k_size` with the digest's own total weight decides the rule. -/
theorem C101_k_size [FloatFmt.Exact K] (d : TDigest K) (m w : K) (hw : 0 < w) (hd : ∀ c ∈ d.centroids, Good c) :
    Fl.lt (Fl.fabs (d.kSize ⟨.fin m, .fin w⟩ d.totalWeight)) (Fl.lit 1) = true ↔
      SizeRule d.scaleFunc d.compressFactor d.centroids m w := by
  have hn : d.totalWeight = .fin (totalW d.centroids) := by
    unfold TDigest.totalWeight
    rw [TDigest.weightSum_exact hd]
  have hN : totalW d.centroids + w ≠ 0 := by
    have := totalW_nonneg hd
    exact (by linarith : 0 < totalW d.centroids + w).ne'
  unfold TDigest.kSize TDigest.kSizeFromWeights
  rw [C101_weight_left d ⟨.fin m, .fin w⟩ m rfl hd, hn]
  simp only [Fl.add_exact, Fl.div_exact _ hN, Fl.lit_exact]
  constructor
  · rintro h N q rfl rfl
    simpa using h
  · intro h
    simpa using h _ _ rfl rfl

namespace TDigest

/-- The choice loop: the answer passes the test and no candidate that passes is smaller; no answer means no candidate passes. -/
theorem chooseIndex_best (d : TDigest K) (x : Centroid K) (total : Fl K) (P : Nat → Prop) (f : Nat → K)
    (hP : ∀ i (h : i < d.centroids.length), Fl.lt (Fl.fabs (d.kSize (x.add d.centroids[i]) total)) (Fl.lit 1) = true ↔ P i)
    (hf : ∀ i (h : i < d.centroids.length), d.centroids[i].mean * d.centroids[i].weight = .fin (f i)) :
    ∀ (is : List Nat) (best : Option Nat), (∀ i ∈ is, i < d.centroids.length) →
    (∀ i, best = some i → i < d.centroids.length ∧ P i) →
    Always (d.chooseIndex x total is best) (fun o =>
      (∀ i, o = some i → i < d.centroids.length ∧ P i ∧ (∀ j ∈ is, P j → f i ≤ f j) ∧ ∀ j, best = some j → f i ≤ f j) ∧
      (o = none → best = none ∧ ∀ j ∈ is, ¬ P j))
  | [], best, _, hb => by
    refine ⟨fun i hi => ⟨(hb i hi).1, (hb i hi).2, by simp, ?_⟩, fun h => ⟨h, by simp⟩⟩
    intro j hj
    rw [hi] at hj
    cases hj
    exact le_rfl
  | i :: is, best, hi, hb => by
    have h1 : i < d.centroids.length := hi i (by simp)
    have h2 : ∀ j ∈ is, j < d.centroids.length := fun j hj => hi j (by simp [hj])
    unfold chooseIndex
    rw [idx_eq h1, bind_ret]
    simp only
    cases ht : Fl.lt (Fl.fabs (d.kSize (x.add d.centroids[i]) total)) (Fl.lit 1) with
    | true =>
      have hq := (hP i h1).1 ht
      simp only [if_true]
      cases best with
      | none =>
        refine (chooseIndex_best d x total P f hP hf is (some i) h2 (by rintro j ⟨⟩; exact ⟨h1, hq⟩)).mono ?_
        rintro o ⟨ho, hn⟩
        refine ⟨fun j hj => ?_, fun h => absurd (hn h).1 (by simp)⟩
        obtain ⟨a, b, c, e⟩ := ho j hj
        refine ⟨a, b, ?_, by simp⟩
        intro k hk hp
        rcases List.mem_cons.1 hk with rfl | hk
        · exact e k rfl
        · exact c k hk hp
      | some j =>
        simp only
        rw [idx_eq (hb j rfl).1, bind_ret, hf i h1, hf j (hb j rfl).1, Fl.lt_fin]
        by_cases hlt : f i < f j
        · simp only [hlt, decide_true, if_true]
          refine (chooseIndex_best d x total P f hP hf is (some i) h2 (by rintro j ⟨⟩; exact ⟨h1, hq⟩)).mono ?_
          rintro o ⟨ho, hn⟩
          refine ⟨fun k hk => ?_, fun h => absurd (hn h).1 (by simp)⟩
          obtain ⟨a, b, c, e⟩ := ho k hk
          refine ⟨a, b, ?_, ?_⟩
          · intro m hm hp
            rcases List.mem_cons.1 hm with rfl | hm
            · exact e m rfl
            · exact c m hm hp
          · rintro m ⟨⟩
            exact (e i rfl).trans hlt.le
        · simp only [hlt, decide_false, Bool.false_eq_true, if_false]
          refine (chooseIndex_best d x total P f hP hf is (some j) h2 hb).mono ?_
          rintro o ⟨ho, hn⟩
          refine ⟨fun k hk => ?_, fun h => absurd (hn h).1 (by simp)⟩
          obtain ⟨a, b, c, e⟩ := ho k hk
          refine ⟨a, b, ?_, e⟩
          intro m hm hp
          rcases List.mem_cons.1 hm with rfl | hm
          · exact (e j rfl).trans (not_lt.1 hlt)
          · exact c m hm hp
    | false =>
      have hq : ¬ P i := fun h => by rw [(hP i h1).2 h] at ht; cases ht
      simp only [Bool.false_eq_true, if_false]
      refine (chooseIndex_best d x total P f hP hf is best h2 hb).mono ?_
      rintro o ⟨ho, hn⟩
      refine ⟨fun k hk => ?_, fun h => ⟨(hn h).1, ?_⟩⟩
      · obtain ⟨a, b, c, e⟩ := ho k hk
        refine ⟨a, b, ?_, e⟩
        intro m hm hp
        rcases List.mem_cons.1 hm with rfl | hm
        · exact absurd hp hq
        · exact c m hm hp
      · intro m hm
        rcases List.mem_cons.1 hm with rfl | hm
        · exact hq
        · exact (hn h).2 m hm

/-- Inserting a cluster: at its place, if the means are sorted. -/
theorem insertCluster_place (d : TDigest K) (x : Centroid K) (hd : ∀ c ∈ d.centroids, c.mean ≠ .nan) (hx : x.mean ≠ .nan) :
    Always (d.insertCluster x) (fun d' => (∃ pre post, d.centroids = pre ++ post ∧ d'.centroids = pre ++ x :: post ∧
      (d.centroids.Pairwise (fun a b => a.mean ≤ b.mean) → (∀ c ∈ pre, c.mean ≤ x.mean) ∧ ∀ c ∈ post, x.mean ≤ c.mean)) ∧
      SameParams d' d) := by
  unfold insertCluster
  rw [always_bind]
  refine (binarySearch_spec _ _ _ hd hx).mono ?_
  rintro i ⟨hi, hok⟩
  refine ⟨⟨d.centroids.take i, d.centroids.drop i, (List.take_append_drop _ _).symm, rfl, ?_⟩, rfl, rfl, rfl⟩
  intro hs
  have hs' : (d.centroids.map Centroid.mean).Pairwise (· ≤ ·) := List.pairwise_map.2 hs
  unfold bsearchOk at hok
  rw [if_pos hs'] at hok
  split at hok
  · have hok := of_decide_eq_true hok
    rw [List.getElem?_map, Option.map_eq_some_iff] at hok
    obtain ⟨c, hc, hm⟩ := hok
    obtain ⟨hlt, rfl⟩ := List.getElem?_eq_some_iff.1 hc
    rw [← hm]
    constructor
    · intro a ha
      obtain ⟨j, hj, rfl⟩ := List.mem_take_iff_getElem.1 ha
      exact (List.pairwise_iff_getElem.1 hs) j i (by omega) hlt (by omega)
    · intro a ha
      obtain ⟨j, hj, rfl⟩ := List.mem_drop_iff_getElem.1 ha
      rcases Nat.eq_zero_or_pos j with rfl | hpos
      · exact le_of_eq (by simp)
      · exact (List.pairwise_iff_getElem.1 hs) i (i + j) hlt (by omega) (by omega)
  · have hok := of_decide_eq_true hok
    rw [← List.map_take, ← List.map_drop] at hok
    exact ⟨fun c hc => (hok.1 _ (List.mem_map.2 ⟨c, hc, rfl⟩)).le, fun c hc => (hok.2 _ (List.mem_map.2 ⟨c, hc, rfl⟩)).le⟩

/-- Placing one cluster follows the rule. -/
theorem placeCluster_ruled [FloatFmt.Exact K] (d : TDigest K) (x : Centroid K) (hd : ∀ c ∈ d.centroids, Good c) (hx : Good x) :
    Always (d.placeCluster x d.totalWeight) (fun d' =>
      Ruled d.scaleFunc d.compressFactor d.centroids x d'.centroids ∧ SameParams d' d) := by
  have hins := insertCluster_place d x (fun c hc => (hd c hc).mean_ne_nan) hx.mean_ne_nan
  obtain ⟨t, ht⟩ := hx.1
  have hb := findClosest_bounds d x (fun c hc => (hd c hc).mean_ne_nan) hx.mean_ne_nan
  have hall : Always (d.findClosestCentroids x) (fun o => d.centroids.Pairwise (fun a b => a.mean < b.mean) →
      ∀ l r, o = some (l, r) → ∀ i, ∀ h : i < d.centroids.length, Nearest d.centroids x d.centroids[i] → l ≤ i ∧ i < r) := by
    by_cases hs : d.centroids.Pairwise (fun a b => a.mean < b.mean)
    · refine (findClosest_all_nearest d x t ht (fun c hc => (hd c hc).1) hs).mono ?_
      intro o ho _ l r e i h hn
      refine ho l r e i h ?_
      have := hn.2
      rw [ht] at this
      exact this
    · exact hb.mono (fun o _ h => absurd h hs)
  have hP : ∀ i (h : i < d.centroids.length),
      Fl.lt (Fl.fabs (d.kSize (x.add d.centroids[i]) d.totalWeight)) (Fl.lit 1) = true ↔
        ∃ h : i < d.centroids.length, MayMerge d.scaleFunc d.compressFactor d.centroids x d.centroids[i] := by
    intro i hi
    have hg := hd _ (List.getElem_mem hi)
    have e : x.add d.centroids[i] = ⟨.fin ((x.mean.toK * x.weight.toK + d.centroids[i].mean.toK * d.centroids[i].weight.toK) /
        (x.weight.toK + d.centroids[i].weight.toK)), .fin (x.weight.toK + d.centroids[i].weight.toK)⟩ ∧
        0 < x.weight.toK + d.centroids[i].weight.toK := by
      generalize d.centroids[i] = c at hg
      obtain ⟨cm, cw⟩ := c
      obtain ⟨xm, xw⟩ := x
      obtain ⟨⟨a, ha⟩, u, hu, hu'⟩ := hg
      obtain ⟨⟨b, hb⟩, v, hv, hv'⟩ := hx
      simp only at ha hb hu' hv'
      subst ha hb hu' hv'
      have hpos : 0 < v + u := by linarith
      refine ⟨?_, hpos⟩
      simp only [Centroid.add, Fl.mul_exact, Fl.add_exact, Fl.div_exact _ hpos.ne']
      rfl
    rw [e.1, C101_k_size d _ _ e.2 hd]
    exact ⟨fun h => ⟨hi, h⟩, fun h => h.2⟩
  have hf : ∀ i (h : i < d.centroids.length), d.centroids[i].mean * d.centroids[i].weight =
      .fin (if h : i < d.centroids.length then d.centroids[i].mean.toK * d.centroids[i].weight.toK else 0) := by
    intro i hi
    rw [dif_pos hi]
    have hg := hd _ (List.getElem_mem hi)
    obtain ⟨⟨a, ha⟩, u, hu, hu'⟩ := hg
    rw [ha, hu', Fl.mul_exact]
    rfl
  unfold placeCluster
  rw [always_bind]
  refine (hb.and hall.partially).mono ?_
  rintro o ⟨⟨hnone, ho⟩, hnear⟩
  cases o with
  | none =>
    refine hins.mono (fun d' h => ⟨Or.inr ⟨h.1, ?_⟩, h.2⟩)
    intro _ c hc
    have := hc.1
    rw [hnone.1 rfl] at this
    cases this
  | some p =>
    obtain ⟨l, r⟩ := p
    obtain ⟨h1, h2⟩ := ho l r rfl
    simp only
    rw [always_bind]
    refine (chooseIndex_best d x d.totalWeight _ _ hP hf (List.range' l (r - l)) none (by
      intro i hi
      rw [List.mem_range'_1] at hi
      omega) (by simp)).mono ?_
    rintro best ⟨hsome, hno⟩
    cases best with
    | none =>
      refine hins.mono (fun d' h => ⟨Or.inr ⟨h.1, ?_⟩, h.2⟩)
      intro hs c hc hm
      obtain ⟨i, hi, rfl⟩ := List.getElem_of_mem hc.1
      have := hnear hs l r rfl i hi hc
      exact (hno rfl).2 i (by rw [List.mem_range'_1]; omega) ⟨hi, hm⟩
    | some i =>
      obtain ⟨hi, ⟨_, hm⟩, hleast, -⟩ := hsome i rfl
      unfold mergeCluster
      simp only
      rw [idx_eq hi, bind_ret]
      refine ⟨Or.inl ?_, rfl, rfl, rfl⟩
      refine ⟨d.centroids.take i, d.centroids[i], d.centroids.drop (i + 1), ?_, ?_, hm, ?_⟩
      · rw [List.getElem_cons_drop, List.take_append_drop]
      · show d.centroids.set i _ = _
        rw [List.set_eq_take_append_cons_drop, if_pos hi]
        rfl
      · intro hs c hc hm'
        obtain ⟨j, hj, rfl⟩ := List.getElem_of_mem hc.1
        have := hnear hs l r rfl j hj hc
        have := hleast j (by rw [List.mem_range'_1]; omega) ⟨hj, hm'⟩
        rwa [dif_pos hi, dif_pos hj] at this

theorem _root_.AQ.Spec.Ruled.good [FloatFmt.Exact K] {s : ScaleFn K} {δ : Fl K} {cs cs' : List (Centroid K)} {x : Centroid K}
    (h : Ruled s δ cs x cs') (hcs : ∀ c ∈ cs, Good c) (hx : Good x) :
    (∀ c ∈ cs', Good c) ∧ totalW cs' = totalW cs + x.weight.toK ∧ cs'.length ≤ cs.length + 1 := by
  rcases h with ⟨pre, c, post, rfl, rfl, -⟩ | ⟨⟨pre, post, rfl, rfl, -⟩, -⟩
  · obtain ⟨m, w, e, hw, hpos, -⟩ := C68_centroid_add c x (hcs c (by simp)) hx
    refine ⟨fun c' hc => ?_, ?_, by simp⟩
    · rcases List.mem_append.1 hc with hc | hc
      · exact hcs c' (by simp [hc])
      · rcases List.mem_cons.1 hc with rfl | hc
        · rw [e]; exact ⟨⟨m, rfl⟩, w, hpos, rfl⟩
        · exact hcs c' (by simp [hc])
    · rw [totalW_append, totalW_append, totalW_cons, totalW_cons, e]
      change _ + (w + _) = _
      rw [hw]; ring
  · refine ⟨fun c' hc => ?_, ?_, by simp; omega⟩
    · rcases List.mem_append.1 hc with hc | hc
      · exact hcs c' (by simp [hc])
      · rcases List.mem_cons.1 hc with rfl | hc
        · exact hx
        · exact hcs c' (by simp [hc])
    · rw [totalW_append, totalW_append, totalW_cons]
      ring

theorem clusterLoop_ruled [FloorRing K] [FloatFmt.Exact K] (δ g : K) (hg' : g * δ < 2 ^ 64) :
    ∀ (xs : List (Centroid K)) (d : TDigest K), d.compressFactor = .fin δ → (∀ c ∈ d.centroids, Good c) →
    (∀ x ∈ xs, Good x) → ((d.centroids.length + xs.length : ℕ) : K) ≤ g * δ →
    Always (addClusterLoop (.fin g) d (.fin (totalW d.centroids)) xs) (fun d' =>
      RuledAll d.scaleFunc (.fin δ) d.centroids xs d'.centroids)
  | [], d, _, _, _, _ => rfl
  | x :: xs, d, hc, hd, hx, hg => by
    have hn : (.fin (totalW d.centroids) : Fl K) = d.totalWeight := by
      unfold totalWeight
      rw [weightSum_exact hd]
    unfold addClusterLoop
    rw [hn, always_bind]
    refine (placeCluster_ruled d x hd (hx x (by simp))).mono ?_
    rintro d1 ⟨h, hp⟩
    obtain ⟨g1, g2, g3⟩ := h.good hd (hx x (by simp))
    have hlen : ((d1.centroids.length + xs.length : ℕ) : K) ≤ g * δ := by
      refine le_trans (Nat.cast_le.2 ?_) hg
      rw [List.length_cons]; omega
    rw [always_bind]
    unfold limitGrowth
    rw [hp.1, hc, Fl.mul_exact, toUsize_fin (le_trans (by positivity) hg) hg', unwrap_some, bind_ret, if_neg]
    · obtain ⟨w, hw, hw'⟩ := (hx x (by simp)).2
      have e : d.totalWeight + x.weight = .fin (totalW d1.centroids) := by
        rw [← hn, g2, hw', Fl.add_exact]; rfl
      show Always (addClusterLoop (.fin g) d1 (d.totalWeight + x.weight) xs) _
      rw [e]
      refine (clusterLoop_ruled δ g hg' xs d1 (hp.1.trans hc) g1 (fun y hy => hx y (by simp [hy])) hlen).mono ?_
      intro d' h'
      rw [hc] at h
      rw [hp.2.1] at h'
      exact ⟨_, h, h'⟩
    · rw [not_lt]
      refine Nat.le_floor (le_trans (Nat.cast_le.2 ?_) hlen)
      omega

end TDigest

/-- C101. `add_cluster` with any scale function and a growth limit that leaves room for all clusters places them one after the
other by the rule `Ruled`. -/
theorem C101_cluster_rule [FloorRing K] [FloatFmt.Exact K] (d : TDigest K) (xs : List (Centroid K)) (δ g : K)
    (hc : d.compressFactor = .fin δ) (hd : ∀ c ∈ d.centroids, Good c) (hx : ∀ x ∈ xs, Good x)
    (hmin : d.min ≠ .nan) (hmax : d.max ≠ .nan)
    (hg : ((d.centroids.length + xs.length : ℕ) : K) ≤ g * δ) (hg' : g * δ < 2 ^ 64) :
    Always (d.addCluster xs (.fin g)) (fun d' => RuledAll d.scaleFunc (.fin δ) d.centroids xs d'.centroids) := by
  obtain ⟨lo, hi, e, -⟩ := TDigest.updateLimits_spec d xs hx hmin hmax
  unfold TDigest.addCluster
  rw [e, bind_ret]
  have hn : TDigest.totalWeight { d with min := lo, max := hi } = .fin (totalW d.centroids) := by
    unfold TDigest.totalWeight
    rw [TDigest.weightSum_exact hd]
  rw [hn]
  exact TDigest.clusterLoop_ruled δ g hg' xs { d with min := lo, max := hi } hc hd hx hg

/-! ### Concrete cases -/

section examples
attribute [local instance] ratExact ratExact_exact

/-- A scale function that is steep near 0 and flat near 1: `8q - 4q²`. -/
def steep : ScaleFn ℚ := fun q _ _ => Fl.lit 8 * q - Fl.lit 4 * (q * q)

/-- A digest with two centroids at 0 and 10 and total weight 6. -/
def tdSteep : TDigest ℚ := { TDigest.new steep invK0 (.fin 5) with centroids := [⟨.fin 0, .fin 5⟩, ⟨.fin 10, .fin 1⟩] }

/-- The digest meets the hypotheses of C101. -/
example : (∀ c ∈ tdSteep.centroids, Good c) ∧ tdSteep.centroids.Pairwise (fun a b => a.mean < b.mean) ∧
    ((tdSteep.centroids.length + 1 : ℕ) : ℚ) ≤ 10 * 5 := by
  refine ⟨?_, ?_, by norm_num [tdSteep]⟩
  · intro c hc
    simp only [tdSteep, List.mem_cons, List.not_mem_nil, or_false] at hc
    rcases hc with rfl | rfl <;> exact ⟨⟨_, rfl⟩, _, by norm_num, rfl⟩
  · simp only [tdSteep, List.pairwise_cons, List.mem_cons, List.not_mem_nil, or_false, forall_eq, List.Pairwise.nil, and_true,
      false_implies, implies_true]
    exact Fl.fin_lt_fin.2 (by norm_num)

/-- `weight_left` does not count a centroid with the target's own mean: below 10 there is weight 5, below 11 weight 6. -/
example : tdSteep.weightLeft ⟨.fin 10, .fin 1⟩ = .fin 5 ∧ tdSteep.weightLeft ⟨.fin 11, .fin 1⟩ = .fin 6 ∧
    tdSteep.weightLeft ⟨.fin 0, .fin 1⟩ = .fin 0 := by decide +kernel

/-- The cluster `(10, 1)` joined to the centroid `10` would have weight 2 and reach from 5/8 to 7/8, where `k` grows by 1/2; it is
merged. The cluster `(0, 1)` joined to the centroid `0` would reach from 0 to 1/2, where `k` grows by 3; it is kept apart. -/
example : Always (tdSteep.addCluster [⟨.fin 10, .fin 1⟩] (.fin 10)) (fun d =>
      d.centroids = [⟨.fin 0, .fin 5⟩, ⟨.fin 10, .fin 2⟩]) ∧
    Always (tdSteep.addCluster [⟨.fin 0, .fin 1⟩] (.fin 10)) (fun d =>
      d.centroids = [⟨.fin 0, .fin 1⟩, ⟨.fin 0, .fin 5⟩, ⟨.fin 10, .fin 1⟩]) := by decide +kernel

end examples

end AQ

/-
TDigest: insertion by clustering (`find_closest_centroids`, `add_cluster`).
-/
import Verif.Proofs.TDHist
import Verif.Proofs.KeyedSumTree

set_option linter.unusedSectionVars false
set_option linter.unusedVariables false

namespace AQ
open Prog Spec
variable {K : Type} [Field K] [LinearOrder K] [IsStrictOrderedRing K] [FloatFmt K]

namespace TDigest

/-! ### `find_closest_centroids` -/

theorem closestLeft_le (cs : List (Centroid K)) (t dist : Fl K) : ∀ i : Nat, i ≤ cs.length →
    Always (closestLeft cs t dist i) (fun j => j ≤ i)
  | 0, _ => le_refl _
  | i + 1, h => by
    unfold closestLeft
    rw [idx_eq (by omega), bind_ret]
    split
    · exact (closestLeft_le cs t dist i (by omega)).mono (fun j hj => by omega)
    · exact le_refl _

/-- The left end moves at least past a neighbour at the given distance. -/
theorem closestLeft_step (cs : List (Centroid K)) (t dist : Fl K) (i : Nat) (h : i < cs.length)
    (he : Fl.feq (cs[i].mean - t) dist = true) : Always (closestLeft cs t dist (i + 1)) (fun j => j ≤ i) := by
  unfold closestLeft
  rw [idx_eq h, bind_ret, if_pos he]
  exact closestLeft_le cs t dist i h.le

theorem closestRight_bounds (cs : List (Centroid K)) (t dist : Fl K) : ∀ (fuel r : Nat), r ≤ cs.length →
    Always (closestRight cs t dist fuel r) (fun j => r ≤ j ∧ j ≤ cs.length)
  | 0, r, h => ⟨le_refl _, h⟩
  | fuel + 1, r, h => by
    unfold closestRight
    split
    · next hr =>
      rw [idx_eq (by omega), bind_ret]
      split
      · exact (closestRight_bounds cs t dist fuel (r + 1) (by omega)).mono (fun j hj => ⟨by omega, hj.2⟩)
      · exact ⟨le_refl _, h⟩
    · exact ⟨le_refl _, h⟩

/-- The loop bound of `closestRight` is never the reason to stop. -/
theorem closestRight_fuel (cs : List (Centroid K)) (t dist : Fl K) : ∀ (fuel r : Nat), cs.length ≤ r + fuel →
    closestRight cs t dist fuel r = closestRight cs t dist (fuel + 1) r
  | 0, r, h => by
    unfold closestRight
    rw [if_neg (by omega)]
  | fuel + 1, r, h => by
    rw [closestRight]
    conv_rhs => rw [closestRight]
    by_cases hr : r < cs.length - 1
    · rw [if_pos hr, if_pos hr, idx_eq (by omega), bind_ret, bind_ret, closestRight_fuel cs t dist fuel (r + 1) (by omega)]
    · rw [if_neg hr, if_neg hr]

theorem closestStart_bounds (cs : List (Centroid K)) (t : Fl K) (i : Nat) (hne : cs ≠ []) (hi : i ≤ cs.length) :
    Always (closestStart cs t i) (fun s => s.2.1 < s.2.2 ∧ s.2.2 ≤ cs.length) := by
  have hl : 0 < cs.length := List.length_pos_of_ne_nil hne
  unfold closestStart
  split
  · next h => subst h; rw [idx_eq hl, bind_ret]; exact ⟨by simp, hl⟩
  · next h =>
    split
    · next h' => rw [idx_eq (by omega), bind_ret]; exact ⟨by simp; omega, hi⟩
    · next h' =>
      rw [idx_eq (by omega), bind_ret, idx_eq (by omega), bind_ret]
      exact ⟨by simp, by simp; omega⟩

/-- On any digest without NaN means, sorted or not, the range is a non-empty range of valid indices. -/
theorem findClosest_bounds (d : TDigest K) (x : Centroid K) (hd : ∀ c ∈ d.centroids, c.mean ≠ .nan) (hx : x.mean ≠ .nan) :
    Always (d.findClosestCentroids x) (fun o => (o = none ↔ d.centroids = []) ∧
      ∀ l r, o = some (l, r) → l < r ∧ r ≤ d.centroids.length) := by
  unfold findClosestCentroids
  by_cases hne : d.centroids = []
  · rw [if_pos hne]
    exact ⟨by simp [hne], by simp⟩
  · rw [if_neg hne, always_bind]
    refine (binarySearch_spec _ _ _ hd hx).mono ?_
    rintro i ⟨hi, -⟩
    rw [always_bind]
    refine (closestStart_bounds d.centroids x.mean i hne hi).mono ?_
    rintro ⟨dist, l0, r0⟩ ⟨h1, h2⟩
    simp only at h1 h2 ⊢
    rw [always_bind]
    refine (closestLeft_le d.centroids x.mean dist l0 (by omega)).mono ?_
    intro l hl
    rw [always_bind]
    refine (closestRight_bounds d.centroids x.mean dist d.centroids.length r0 h2).mono ?_
    rintro r ⟨hr1, hr2⟩
    refine ⟨by simp [hne], ?_⟩
    intro l' r' h
    simp only [Option.some.injEq, Prod.mk.injEq] at h
    obtain ⟨rfl, rfl⟩ := h
    exact ⟨by omega, hr2⟩

/-- Where the range lies: some position `i` splits the means at the target, and the centroids next to it are in the range. -/
theorem findClosest_index [FloatFmt.Mono K] (d : TDigest K) (x : Centroid K) (t : K) (hx : x.mean = .fin t)
    (hd : ∀ c ∈ d.centroids, c.mean.IsFin) (hs : d.centroids.Pairwise (fun a b => a.mean ≤ b.mean)) :
    Always (d.findClosestCentroids x) (fun o => ∀ l r, o = some (l, r) → ∃ i ≤ d.centroids.length,
      (∀ (j : Nat) (hj : j < d.centroids.length), j < i → d.centroids[j].mean.toK ≤ t) ∧
      (∀ (j : Nat) (hj : j < d.centroids.length), i ≤ j → t ≤ d.centroids[j].mean.toK) ∧
      (0 < i → l ≤ i - 1 ∧ i - 1 < r) ∧ (i < d.centroids.length → l ≤ i ∧ i < r) ∧ d.centroids ≠ []) := by
  set cs := d.centroids with hcs
  have hnan : ∀ c ∈ cs, c.mean ≠ .nan := fun c hc => by obtain ⟨y, hy⟩ := hd c hc; rw [hy]; simp
  have hfin : ∀ (i : Nat) (h : i < cs.length), cs[i].mean = .fin cs[i].mean.toK := fun i h => by
    obtain ⟨y, hy⟩ := hd _ (List.getElem_mem h); rw [hy]; rfl
  have hmono : ∀ (i j : Nat) (hi : i < cs.length) (hj : j < cs.length), i ≤ j → cs[i].mean.toK ≤ cs[j].mean.toK := by
    intro i j hi hj hij
    rcases Nat.eq_or_lt_of_le hij with h | h
    · subst h; exact le_refl _
    · have := List.pairwise_iff_getElem.1 hs i j hi hj h
      rw [hfin i hi, hfin j hj] at this
      simpa using this
  unfold findClosestCentroids
  rw [← hcs]
  by_cases hne : cs = []
  · rw [if_pos hne]; simp
  have hlen : 0 < cs.length := List.length_pos_of_ne_nil hne
  rw [if_neg hne, always_bind, hx]
  refine (binarySearch_spec _ _ _ hnan (by simp)).mono ?_
  rintro i ⟨hi, hok⟩
  -- what the index means
  have hsm : (cs.map Centroid.mean).Pairwise (· ≤ ·) := by rw [List.pairwise_map]; exact hs
  have hbefore : ∀ (j : Nat) (hj : j < cs.length), j < i → cs[j].mean.toK ≤ t := by
    intro j hj hji
    unfold bsearchOk at hok
    rw [if_pos hsm] at hok
    split at hok
    · simp only [decide_eq_true_eq, List.getElem?_map, Option.map_eq_some_iff] at hok
      obtain ⟨c, hc, hct⟩ := hok
      obtain ⟨h1, h2⟩ := List.getElem?_eq_some_iff.1 hc
      have := hmono j i hj h1 hji.le
      rw [h2, hct] at this
      exact this
    · simp only [decide_eq_true_eq] at hok
      have h1 := hok.1 cs[j].mean (by
        rw [← List.map_take]
        exact List.mem_map.2 ⟨cs[j], List.mem_take_iff_getElem.2 ⟨j, by omega, rfl⟩, rfl⟩)
      rw [hfin j hj] at h1
      exact le_of_lt (by simpa using h1)
  have hafter : ∀ (j : Nat) (hj : j < cs.length), i ≤ j → t ≤ cs[j].mean.toK := by
    intro j hj hji
    unfold bsearchOk at hok
    rw [if_pos hsm] at hok
    split at hok
    · simp only [decide_eq_true_eq, List.getElem?_map, Option.map_eq_some_iff] at hok
      obtain ⟨c, hc, hct⟩ := hok
      obtain ⟨h1, h2⟩ := List.getElem?_eq_some_iff.1 hc
      have := hmono i j h1 hj hji
      rw [h2, hct] at this
      exact this
    · simp only [decide_eq_true_eq] at hok
      have h1 := hok.2 cs[j].mean (by
        rw [← List.map_drop]
        refine List.mem_map.2 ⟨cs[j], List.mem_drop_iff_getElem.2 ⟨j - i, by omega, ?_⟩, rfl⟩
        congr 1; omega)
      rw [hfin j hj] at h1
      exact le_of_lt (by simpa using h1)
  rw [always_bind]
  unfold closestStart
  by_cases h0 : i = 0
  · subst h0
    rw [if_pos rfl, idx_eq hlen, bind_ret]
    simp only [pure_eq, always_ret]
    rw [always_bind]
    refine (closestLeft_le cs _ _ 0 (by omega)).mono ?_
    intro l hl
    rw [always_bind]
    refine (closestRight_bounds cs _ _ cs.length 1 (by omega)).mono ?_
    rintro r ⟨hr1, hr2⟩ l' r' h
    simp only [Option.some.injEq, Prod.mk.injEq] at h
    obtain ⟨rfl, rfl⟩ := h
    exact ⟨0, by omega, hbefore, hafter, by omega, fun _ => ⟨by omega, by omega⟩, hne⟩
  rw [if_neg h0]
  by_cases hlast : i = cs.length
  · rw [if_pos hlast, idx_eq (by omega), bind_ret]
    simp only [pure_eq, always_ret]
    rw [always_bind]
    refine (closestLeft_le cs _ _ (i - 1) (by omega)).mono ?_
    intro l hl
    rw [always_bind]
    refine (closestRight_bounds cs _ _ cs.length i (by omega)).mono ?_
    rintro r ⟨hr1, hr2⟩ l' r' h
    simp only [Option.some.injEq, Prod.mk.injEq] at h
    obtain ⟨rfl, rfl⟩ := h
    exact ⟨i, hi, hbefore, hafter, fun _ => ⟨by omega, by omega⟩, by omega, hne⟩
  · rw [if_neg hlast, idx_eq (by omega), bind_ret, idx_eq (by omega), bind_ret]
    simp only [pure_eq, always_ret]
    have hlow : Fl.le (cs[i - 1].mean - .fin t) (cs[i].mean - .fin t) = true := by
      rw [hfin (i - 1) (by omega), hfin i (by omega), Fl.sub_fin, Fl.sub_fin]
      rw [Fl.le_eq (FloatFmt.Mono.rnd_ne_nan _) (FloatFmt.Mono.rnd_ne_nan _), decide_eq_true_eq]
      refine FloatFmt.Mono.rnd_mono _ _ ?_
      have := hmono (i - 1) i (by omega) (by omega) (by omega)
      linarith
    rw [if_pos hlow, always_bind]
    have hself : Fl.feq (cs[i - 1].mean - .fin t) (cs[i - 1].mean - .fin t) = true := by
      rw [hfin (i - 1) (by omega), Fl.sub_fin]
      rw [Fl.feq_eq (FloatFmt.Mono.rnd_ne_nan _) (FloatFmt.Mono.rnd_ne_nan _), decide_eq_true_eq]
    have hstep := closestLeft_step cs (.fin t) (cs[i - 1].mean - .fin t) (i - 1) (by omega) hself
    rw [show i - 1 + 1 = i by omega] at hstep
    refine hstep.mono ?_
    intro l hl
    rw [always_bind]
    refine (closestRight_bounds cs _ _ cs.length (i + 1) (by omega)).mono ?_
    rintro r ⟨hr1, hr2⟩ l' r' h
    simp only [Option.some.injEq, Prod.mk.injEq] at h
    obtain ⟨rfl, rfl⟩ := h
    exact ⟨i, hi, hbefore, hafter, fun _ => ⟨by omega, by omega⟩, fun _ => ⟨by omega, by omega⟩, hne⟩

/-- The range contains a nearest centroid. -/
theorem findClosest_nearest [FloatFmt.Mono K] (d : TDigest K) (x : Centroid K) (t : K) (hx : x.mean = .fin t)
    (hd : ∀ c ∈ d.centroids, c.mean.IsFin) (hs : d.centroids.Pairwise (fun a b => a.mean ≤ b.mean)) :
    Always (d.findClosestCentroids x) (fun o => ∀ l r, o = some (l, r) →
      ∃ i, ∃ h : i < d.centroids.length, l ≤ i ∧ i < r ∧
        ∀ c ∈ d.centroids, |d.centroids[i].mean.toK - t| ≤ |c.mean.toK - t|) := by
  refine (findClosest_index d x t hx hd hs).mono ?_
  intro o ho l r hlr
  obtain ⟨i, hi, hbefore, hafter, hl, hr, hne⟩ := ho l r hlr
  set cs := d.centroids with hcs
  have hlen : 0 < cs.length := List.length_pos_of_ne_nil hne
  have hfin : ∀ (i : Nat) (h : i < cs.length), cs[i].mean = .fin cs[i].mean.toK := fun i h => by
    obtain ⟨y, hy⟩ := hd _ (List.getElem_mem h); rw [hy]; rfl
  have hmono : ∀ (i j : Nat) (hi : i < cs.length) (hj : j < cs.length), i ≤ j → cs[i].mean.toK ≤ cs[j].mean.toK := by
    intro i j hi hj hij
    rcases Nat.eq_or_lt_of_le hij with h | h
    · subst h; exact le_refl _
    · have := List.pairwise_iff_getElem.1 hs i j hi hj h
      rw [hfin i hi, hfin j hj] at this
      simpa using this
  -- nearest among those before / after
  have hL : ∀ (j : Nat) (hj : j < cs.length) (h1 : 0 < i) (h2 : j < i),
      |(cs[i - 1]'(by omega)).mean.toK - t| ≤ |cs[j].mean.toK - t| := by
    intro j hj h1 h2
    have a1 := hbefore j hj h2
    have a2 := hbefore (i - 1) (by omega) (by omega)
    have a3 := hmono j (i - 1) hj (by omega) (by omega)
    rw [abs_of_nonpos (by linarith), abs_of_nonpos (by linarith)]
    linarith
  have hR : ∀ (j : Nat) (hj : j < cs.length) (h1 : i < cs.length) (h2 : i ≤ j), |cs[i].mean.toK - t| ≤ |cs[j].mean.toK - t| := by
    intro j hj h1 h2
    have a1 := hafter j hj h2
    have a2 := hafter i h1 (le_refl _)
    have a3 := hmono i j h1 hj h2
    rw [abs_of_nonneg (by linarith), abs_of_nonneg (by linarith)]
    linarith
  by_cases h0 : i = 0
  · obtain ⟨a1, a2⟩ := hr (by omega)
    refine ⟨i, by omega, a1, a2, ?_⟩
    intro c hc
    obtain ⟨j, hj, rfl⟩ := List.getElem_of_mem hc
    exact hR j hj (by omega) (by omega)
  by_cases hlast : i = cs.length
  · obtain ⟨a1, a2⟩ := hl (by omega)
    refine ⟨i - 1, by omega, a1, a2, ?_⟩
    intro c hc
    obtain ⟨j, hj, rfl⟩ := List.getElem_of_mem hc
    exact hL j hj (by omega) (by omega)
  have hi' : i < cs.length := by omega
  obtain ⟨a1, a2⟩ := hl (by omega)
  obtain ⟨a3, a4⟩ := hr hi'
  by_cases hcmp : |(cs[i - 1]'(by omega)).mean.toK - t| ≤ |cs[i].mean.toK - t|
  · refine ⟨i - 1, by omega, a1, a2, ?_⟩
    intro c hc
    obtain ⟨j, hj, rfl⟩ := List.getElem_of_mem hc
    by_cases hji : j < i
    · exact hL j hj (by omega) hji
    · exact hcmp.trans (hR j hj (by omega) (by omega))
  · refine ⟨i, hi', a3, a4, ?_⟩
    intro c hc
    obtain ⟨j, hj, rfl⟩ := List.getElem_of_mem hc
    by_cases hji : j < i
    · exact (not_le.1 hcmp).le.trans (hL j hj (by omega) hji)
    · exact hR j hj (by omega) (by omega)

/-- With pairwise different means the range contains every nearest centroid. -/
theorem findClosest_all_nearest [FloatFmt.Mono K] (d : TDigest K) (x : Centroid K) (t : K) (hx : x.mean = .fin t)
    (hd : ∀ c ∈ d.centroids, c.mean.IsFin) (hs : d.centroids.Pairwise (fun a b => a.mean < b.mean)) :
    Always (d.findClosestCentroids x) (fun o => ∀ l r, o = some (l, r) →
      ∀ i, ∀ h : i < d.centroids.length, (∀ c ∈ d.centroids, |d.centroids[i].mean.toK - t| ≤ |c.mean.toK - t|) →
        l ≤ i ∧ i < r) := by
  refine (findClosest_index d x t hx hd (hs.imp (fun h => le_of_lt h))).mono ?_
  intro o ho l r hlr j hj hnear
  obtain ⟨i, hi, hbefore, hafter, hl, hr, hne⟩ := ho l r hlr
  set cs := d.centroids with hcs
  have hfin : ∀ (i : Nat) (h : i < cs.length), cs[i].mean = .fin cs[i].mean.toK := fun i h => by
    obtain ⟨y, hy⟩ := hd _ (List.getElem_mem h); rw [hy]; rfl
  have hmono : ∀ (i j : Nat) (hi : i < cs.length) (hj : j < cs.length), i < j → cs[i].mean.toK < cs[j].mean.toK := by
    intro i j hi hj h
    have := List.pairwise_iff_getElem.1 hs i j hi hj h
    rw [hfin i hi, hfin j hj] at this
    simpa using this
  by_cases hji : j < i
  · have : j = i - 1 := by
      by_contra hne'
      have a1 := hmono j (i - 1) hj (by omega) (by omega)
      have a2 := hbefore (i - 1) (by omega) (by omega)
      have a3 := hnear _ (List.getElem_mem (show i - 1 < cs.length by omega))
      rw [abs_of_nonpos (by linarith), abs_of_nonpos (by linarith)] at a3
      linarith
    subst this
    exact hl (by omega)
  · have : j = i := by
      by_contra hne'
      have a1 := hmono i j (by omega) hj (by omega)
      have a2 := hafter i (by omega) (le_refl _)
      have a3 := hnear _ (List.getElem_mem (show i < cs.length by omega))
      rw [abs_of_nonneg (by linarith), abs_of_nonneg (by linarith)] at a3
      linarith
    subst this
    exact hr hj

/-! ### `add_cluster` -/

/-- State of a digest in the middle of `add_cluster`. -/
structure Mid (d : TDigest K) (w m : K) (lo hi : Fl K) (P : K → Prop) : Prop where
  good : ∀ c ∈ d.centroids, Good c
  weight : totalW d.centroids = w
  mass : totalMass d.centroids = m
  min : d.min = lo
  max : d.max = hi
  range : ∀ c ∈ d.centroids, lo ≤ c.mean ∧ c.mean ≤ hi
  closed : ∀ c ∈ d.centroids, P c.weight.toK

/-- The parameters are never changed. -/
def SameParams (d' d : TDigest K) : Prop :=
  d'.compressFactor = d.compressFactor ∧ d'.scaleFunc = d.scaleFunc ∧ d'.inverseScaleFunc = d.inverseScaleFunc

theorem SameParams.refl (d : TDigest K) : SameParams d d := ⟨rfl, rfl, rfl⟩
theorem SameParams.trans {a b c : TDigest K} (h : SameParams a b) (h' : SameParams b c) : SameParams a c :=
  ⟨h.1.trans h'.1, h.2.1.trans h'.2.1, h.2.2.trans h'.2.2⟩

theorem mid_merge [FloatFmt.Exact K] {d : TDigest K} {w m : K} {lo hi : Fl K} {P : K → Prop}
    (hP : ∀ a b, P a → P b → P (a + b)) (hlo : lo ≠ .nan) (hhi : hi ≠ .nan) (h : Mid d w m lo hi P) :
    Always (d.addBuffer []) (fun d' => Mid d' w m lo hi P ∧ SameParams d' d) := by
  unfold addBuffer
  simp only [List.map_nil]
  by_cases hne : d.centroids = []
  · rw [addCentroidBuffer_nil d hne]; exact ⟨h, SameParams.refl d⟩
  refine (d.addCentroidBuffer_spec [] h.good (by simp) (by simpa using hne)).mono ?_
  rintro d' ⟨l, runs, hl, h1, h2, h3, h4, -, h5, h6, h7⟩
  rw [List.nil_append] at h1
  have hlg : ∀ c ∈ l, Good c := fun c hc => h.good c (h1.mem_iff.1 hc)
  have hrg : ∀ r ∈ runs, ∀ c ∈ r, Good c := fun r hr c hc => hlg c (h3.mem hr hc)
  have hmem : ∀ c ∈ d'.centroids, ∃ r ∈ runs, weightedMean r = c := by
    intro c hc
    rw [h4] at hc
    obtain ⟨r, hr, rfl⟩ := List.mem_map.1 hc
    exact ⟨r, hr, rfl⟩
  have hhead := head_le hl h2
  have hlast := le_getLast hl h2
  have hhm := h1.mem_iff.1 (List.head_mem hl)
  have hlm := h1.mem_iff.1 (List.getLast_mem hl)
  refine ⟨⟨?_, ?_, ?_, ?_, ?_, ?_, ?_⟩, h7⟩
  · intro c hc
    obtain ⟨r, hr, rfl⟩ := hmem c hc
    exact weightedMean_good (hrg r hr) (h3.2 r hr)
  · rw [h4, partition_totalW, h3.1, totalW_perm h1, h.weight]
  · rw [h4, partition_totalMass runs h3.2 hrg, h3.1, totalMass_perm h1, h.mass]
  · rw [h5, h.min, Fl.fmin_eq hlo (hlg _ (List.head_mem hl)).mean_ne_nan, min_eq_left (h.range _ hhm).1]
  · rw [h6, h.max, Fl.fmax_eq hhi (hlg _ (List.getLast_mem hl)).mean_ne_nan, max_eq_left (h.range _ hlm).2]
  · intro c hc
    obtain ⟨r, hr, rfl⟩ := hmem c hc
    constructor
    · refine (h.range _ hhm).1.trans ?_
      rw [(hlg _ (List.head_mem hl)).mean, (weightedMean_good (hrg r hr) (h3.2 r hr)).mean]
      refine Fl.fin_le_fin.2 (le_weightedMean (hrg r hr) (h3.2 r hr) (fun a ha => ?_))
      have := hhead a (h3.mem hr ha)
      rw [(hlg _ (List.head_mem hl)).mean, (hlg a (h3.mem hr ha)).mean] at this
      simpa [Fl.toK] using this
    · refine le_trans ?_ (h.range _ hlm).2
      rw [(hlg _ (List.getLast_mem hl)).mean, (weightedMean_good (hrg r hr) (h3.2 r hr)).mean]
      refine Fl.fin_le_fin.2 (weightedMean_le (hrg r hr) (h3.2 r hr) (fun a ha => ?_))
      have := hlast a (h3.mem hr ha)
      rw [(hlg _ (List.getLast_mem hl)).mean, (hlg a (h3.mem hr ha)).mean] at this
      simpa [Fl.toK] using this
  · intro c hc
    obtain ⟨r, hr, rfl⟩ := hmem c hc
    exact totalW_closed hP r (h3.2 r hr) (fun a ha => h.closed a (h1.mem_iff.1 (h3.mem hr ha)))

theorem mid_insert {d : TDigest K} {w m : K} {lo hi : Fl K} {P : K → Prop} (h : Mid d w m lo hi P) {x : Centroid K}
    (hx : Good x) (hr : lo ≤ x.mean ∧ x.mean ≤ hi) (hPx : P x.weight.toK) :
    Always (d.insertCluster x) (fun d' => (Mid d' (w + x.weight.toK) (m + x.mean.toK * x.weight.toK) lo hi P ∧ SameParams d' d) ∧
      d'.centroids.length = d.centroids.length + 1) := by
  unfold insertCluster
  rw [always_bind]
  refine (binarySearch_spec _ _ _ (fun c hc => (h.good c hc).mean_ne_nan) hx.mean_ne_nan).mono ?_
  rintro i ⟨hi', -⟩
  have hp : (d.centroids.take i ++ x :: d.centroids.drop i).Perm (x :: d.centroids) := by
    have := List.perm_middle (a := x) (l₁ := d.centroids.take i) (l₂ := d.centroids.drop i)
    rwa [List.take_append_drop] at this
  have hm : ∀ c ∈ d.centroids.take i ++ x :: d.centroids.drop i, c = x ∨ c ∈ d.centroids := fun c hc =>
    List.mem_cons.1 (hp.mem_iff.1 hc)
  refine ⟨⟨⟨?_, ?_, ?_, h.min, h.max, ?_, ?_⟩, rfl, rfl, rfl⟩, hp.length_eq⟩
  · intro c hc
    rcases hm c hc with rfl | hc
    · exact hx
    · exact h.good c hc
  · show totalW (d.centroids.take i ++ x :: d.centroids.drop i) = _
    rw [totalW_perm hp, totalW_cons, h.weight, add_comm]
  · show totalMass (d.centroids.take i ++ x :: d.centroids.drop i) = _
    rw [totalMass_perm hp, totalMass_cons, h.mass, add_comm]
  · intro c hc
    rcases hm c hc with rfl | hc
    · exact hr
    · exact h.range c hc
  · intro c hc
    rcases hm c hc with rfl | hc
    · exact hPx
    · exact h.closed c hc

theorem totalW_set (l : List (Centroid K)) (i : Nat) (h : i < l.length) (c : Centroid K) :
    totalW (l.set i c) = totalW l - l[i].weight.toK + c.weight.toK := by
  induction l generalizing i with
  | nil => simp at h
  | cons a l ih =>
    cases i with
    | zero => simp; ring
    | succ i =>
      have := ih i (by simpa using h)
      simp only [List.set_cons_succ, totalW_cons, List.getElem_cons_succ, this]; ring

theorem totalMass_set (l : List (Centroid K)) (i : Nat) (h : i < l.length) (c : Centroid K) :
    totalMass (l.set i c) = totalMass l - l[i].mean.toK * l[i].weight.toK + c.mean.toK * c.weight.toK := by
  induction l generalizing i with
  | nil => simp at h
  | cons a l ih =>
    cases i with
    | zero => simp; ring
    | succ i =>
      have := ih i (by simpa using h)
      simp only [List.set_cons_succ, totalMass_cons, List.getElem_cons_succ, this]; ring

/-- Merging two centroids as `mergeCluster` and `placeTree` do. -/
theorem merge_two [FloatFmt.Exact K] {a x : Centroid K} (ha : Good a) (hx : Good x) {lo hi : Fl K}
    (hra : lo ≤ a.mean ∧ a.mean ≤ hi) (hrx : lo ≤ x.mean ∧ x.mean ≤ hi) :
    ∃ mean : K, (a.mean * a.weight + x.mean * x.weight) / (a.weight + x.weight) = .fin mean ∧
      a.weight + x.weight = .fin (a.weight.toK + x.weight.toK) ∧
      mean * (a.weight.toK + x.weight.toK) = a.mean.toK * a.weight.toK + x.mean.toK * x.weight.toK ∧
      lo ≤ .fin mean ∧ (.fin mean : Fl K) ≤ hi := by
  obtain ⟨a1, a2⟩ := a
  obtain ⟨x1, x2⟩ := x
  obtain ⟨⟨am, ham⟩, aw, wa, haw⟩ := ha
  obtain ⟨⟨xm, hxm⟩, xw, wx, hxw⟩ := hx
  simp only at ham haw hxm hxw
  subst ham haw hxm hxw
  simp only [Fl.toK] at *
  have hs : aw + xw ≠ 0 := by linarith
  refine ⟨(am * aw + xm * xw) / (aw + xw), ?_, by simp, by field_simp, ?_, ?_⟩
  · simp only [Fl.mul_exact, Fl.add_exact]
    rw [Fl.div_exact _ hs]
  · rcases le_total am xm with h | h
    · refine hra.1.trans (Fl.fin_le_fin.2 ?_)
      rw [le_div_iff₀ (by linarith)]
      nlinarith
    · refine hrx.1.trans (Fl.fin_le_fin.2 ?_)
      rw [le_div_iff₀ (by linarith)]
      nlinarith
  · rcases le_total am xm with h | h
    · refine le_trans (Fl.fin_le_fin.2 ?_) hrx.2
      rw [div_le_iff₀ (by linarith)]
      nlinarith
    · refine le_trans (Fl.fin_le_fin.2 ?_) hra.2
      rw [div_le_iff₀ (by linarith)]
      nlinarith

theorem mid_mergeCluster [FloatFmt.Exact K] {d : TDigest K} {w m : K} {lo hi : Fl K} {P : K → Prop}
    (hP : ∀ a b, P a → P b → P (a + b)) (h : Mid d w m lo hi P) {x : Centroid K}
    (hx : Good x) (hr : lo ≤ x.mean ∧ x.mean ≤ hi) (hPx : P x.weight.toK) (i : Nat) (hi' : i < d.centroids.length) :
    Always (d.mergeCluster x i) (fun d' => (Mid d' (w + x.weight.toK) (m + x.mean.toK * x.weight.toK) lo hi P ∧ SameParams d' d) ∧
      d'.centroids.length = d.centroids.length) := by
  unfold mergeCluster
  rw [idx_eq hi', bind_ret]
  have hm := List.getElem_mem hi'
  have hga := h.good _ hm
  obtain ⟨mean, e1, e2, e3, e4, e5⟩ := merge_two hga hx (h.range _ hm) hr
  rw [e1, e2]
  have hpos : 0 < d.centroids[i].weight.toK + x.weight.toK := by linarith [hga.weight_pos, hx.weight_pos]
  have hmem : ∀ c ∈ d.centroids.set i ⟨.fin mean, .fin (d.centroids[i].weight.toK + x.weight.toK)⟩,
      c ∈ d.centroids ∨ c = ⟨.fin mean, .fin (d.centroids[i].weight.toK + x.weight.toK)⟩ := fun c hc =>
    List.mem_or_eq_of_mem_set hc
  refine ⟨⟨⟨?_, ?_, ?_, h.min, h.max, ?_, ?_⟩, rfl, rfl, rfl⟩, by simp⟩
  · intro c hc
    rcases hmem c hc with hc | rfl
    · exact h.good c hc
    · exact ⟨⟨_, rfl⟩, _, hpos, rfl⟩
  · show totalW (d.centroids.set i _) = _
    rw [totalW_set _ _ hi', h.weight]
    simp only [Fl.toK]; ring
  · show totalMass (d.centroids.set i _) = _
    rw [totalMass_set _ _ hi', h.mass]
    change m - _ + mean * (d.centroids[i].weight.toK + x.weight.toK) = _
    rw [e3]; ring
  · intro c hc
    rcases hmem c hc with hc | rfl
    · exact h.range c hc
    · exact ⟨e4, e5⟩
  · intro c hc
    rcases hmem c hc with hc | rfl
    · exact h.closed c hc
    · exact hP _ _ (h.closed _ hm) hPx

theorem chooseIndex_mem (d : TDigest K) (x : Centroid K) (total : Fl K) : ∀ (is : List Nat) (best : Option Nat),
    (∀ i ∈ is, i < d.centroids.length) → (∀ i, best = some i → i < d.centroids.length) →
    Always (d.chooseIndex x total is best) (fun o => ∀ i, o = some i → i < d.centroids.length)
  | [], best, _, hb => hb
  | i :: is, best, hi, hb => by
    have h1 : i < d.centroids.length := hi i (by simp)
    have h2 : ∀ j ∈ is, j < d.centroids.length := fun j hj => hi j (by simp [hj])
    unfold chooseIndex
    rw [idx_eq h1, bind_ret]
    simp only
    split
    · cases best with
      | none => exact chooseIndex_mem d x total is (some i) h2 (by rintro j ⟨⟩; exact h1)
      | some j =>
        simp only
        rw [idx_eq (hb j rfl), bind_ret]
        split
        · exact chooseIndex_mem d x total is (some i) h2 (by rintro j ⟨⟩; exact h1)
        · exact chooseIndex_mem d x total is (some j) h2 hb
    · exact chooseIndex_mem d x total is best h2 hb

theorem mid_place [FloatFmt.Exact K] {d : TDigest K} {w m : K} {lo hi : Fl K} {P : K → Prop}
    (hP : ∀ a b, P a → P b → P (a + b)) (h : Mid d w m lo hi P) {x : Centroid K}
    (hx : Good x) (hr : lo ≤ x.mean ∧ x.mean ≤ hi) (hPx : P x.weight.toK) (total : Fl K) :
    Always (d.placeCluster x total) (fun d' => (Mid d' (w + x.weight.toK) (m + x.mean.toK * x.weight.toK) lo hi P ∧ SameParams d' d) ∧
      d'.centroids.length ≤ d.centroids.length + 1) := by
  unfold placeCluster
  rw [always_bind]
  refine (findClosest_bounds d x (fun c hc => (h.good c hc).mean_ne_nan) hx.mean_ne_nan).mono ?_
  rintro o ⟨-, ho⟩
  cases o with
  | none => exact (mid_insert h hx hr hPx).mono (fun d' h' => ⟨h'.1, h'.2.le⟩)
  | some p =>
    obtain ⟨l, r⟩ := p
    obtain ⟨h1, h2⟩ := ho l r rfl
    simp only
    rw [always_bind]
    refine (chooseIndex_mem d x total (List.range' l (r - l)) none (by
      intro i hi
      rw [List.mem_range'_1] at hi
      omega) (by simp)).mono ?_
    intro best hb
    cases best with
    | none => exact (mid_insert h hx hr hPx).mono (fun d' h' => ⟨h'.1, h'.2.le⟩)
    | some i => exact (mid_mergeCluster hP h hx hr hPx i (hb i rfl)).mono (fun d' h' => ⟨h'.1, by omega⟩)

section
variable [FloorRing K]

theorem toUsize_fin {y : K} (h0 : 0 ≤ y) (h1 : y < 2 ^ 64) : Fl.toUsize (.fin y) = some ⌊y⌋₊ := by
  show (if -1 < y ∧ y < 2 ^ 64 then some ⌊y⌋₊ else none) = _
  rw [if_pos ⟨by linarith, h1⟩]

theorem mid_limitGrowth [FloatFmt.Exact K] {d : TDigest K} {w m : K} {lo hi : Fl K} {P : K → Prop} {γ δ : K}
    (hP : ∀ a b, P a → P b → P (a + b)) (hlo : lo ≠ .nan) (hhi : hi ≠ .nan) (h : Mid d w m lo hi P)
    (hδ : d.compressFactor = .fin δ) (h0 : 0 ≤ γ * δ) (h1 : γ * δ < 2 ^ 64) :
    Always (d.limitGrowth (.fin γ)) (fun d' => (Mid d' w m lo hi P ∧ SameParams d' d) ∧
      (d'.centroids.length ≤ ⌊γ * δ⌋₊ ∨ CanReturn (d.addCentroidBuffer []) d')) := by
  unfold limitGrowth
  rw [hδ, Fl.mul_exact, toUsize_fin h0 h1, unwrap_some, bind_ret]
  split
  · next hlt =>
    refine (((mid_merge hP hlo hhi h).and (R := fun d' => CanReturn (d.addCentroidBuffer []) d') ?_)).mono ?_
    · exact (partially_iff _ _).2 (fun d' hd' => hd')
    · intro d' h'; exact ⟨h'.1, Or.inr h'.2⟩
  · next hge => exact ⟨⟨h, SameParams.refl d⟩, Or.inl (not_lt.1 hge)⟩

/-- A digest that just went through a merging pass, or has at most `lim` centroids. -/
def Compact (d0 d : TDigest K) (lim : Nat) : Prop :=
  d.centroids.length ≤ lim ∨ ∃ d1 : TDigest K, (∀ c ∈ d1.centroids, Good c) ∧ SameParams d1 d0 ∧
    CanReturn (d1.addCentroidBuffer []) d

theorem mid_loop [FloatFmt.Exact K] {P : K → Prop} {γ δ : K} {lo hi : Fl K}
    (hP : ∀ a b, P a → P b → P (a + b)) (hlo : lo ≠ .nan) (hhi : hi ≠ .nan) (h0 : 0 ≤ γ * δ) (h1 : γ * δ < 2 ^ 64) :
    ∀ (xs : List (Centroid K)) (d : TDigest K) (w m : K) (total : Fl K), Mid d w m lo hi P → d.compressFactor = .fin δ →
    (∀ x ∈ xs, Good x ∧ (lo ≤ x.mean ∧ x.mean ≤ hi) ∧ P x.weight.toK) →
    Always (addClusterLoop (.fin γ) d total xs) (fun d' =>
      (Mid d' (w + totalW xs) (m + totalMass xs) lo hi P ∧ SameParams d' d) ∧ (xs ≠ [] → Compact d d' ⌊γ * δ⌋₊) ∧ (xs = [] → d' = d))
  | [], d, w, m, total, h, hδ, hx => by
    rw [totalW_nil, totalMass_nil, add_zero, add_zero]
    exact ⟨⟨h, SameParams.refl d⟩, fun hne => absurd rfl hne, fun _ => rfl⟩
  | x :: xs, d, w, m, total, h, hδ, hx => by
    obtain ⟨g1, g2, g3⟩ := hx x (by simp)
    unfold addClusterLoop
    rw [always_bind]
    refine (mid_place hP h g1 g2 g3 total).mono ?_
    rintro d1 ⟨⟨m1, p1⟩, -⟩
    rw [always_bind]
    refine (mid_limitGrowth hP hlo hhi m1 (p1.1.trans hδ) h0 h1).mono ?_
    rintro d2 ⟨⟨m2, p2⟩, c2⟩
    refine (mid_loop hP hlo hhi h0 h1 xs d2 _ _ _ m2 ((p2.1.trans p1.1).trans hδ) (fun y hy => hx y (by simp [hy]))).mono ?_
    rintro d3 ⟨⟨m3, p3⟩, c3, e3⟩
    refine ⟨⟨?_, p3.trans (p2.trans p1)⟩, fun _ => ?_, by simp⟩
    · rw [totalW_cons, totalMass_cons, ← add_assoc, ← add_assoc]
      exact m3
    · by_cases hxs : xs = []
      · rw [e3 hxs]
        rcases c2 with c | c
        · exact Or.inl c
        · exact Or.inr ⟨d1, m1.good, p1, c⟩
      · rcases c3 hxs with c | ⟨d1', a1, a2, a3⟩
        · exact Or.inl c
        · exact Or.inr ⟨d1', a1, a2.trans (p2.trans p1), a3⟩

/-- `update_limits` on clusters that are all ordinary. -/
theorem updateLimits_spec (d : TDigest K) (cs : List (Centroid K)) (hcs : ∀ c ∈ cs, Good c) (hmin : d.min ≠ .nan)
    (hmax : d.max ≠ .nan) : ∃ lo hi : Fl K, d.updateLimits cs = .ret { d with min := lo, max := hi } ∧
      lo ≠ .nan ∧ hi ≠ .nan ∧ lo ≤ d.min ∧ d.max ≤ hi ∧ (∀ c ∈ cs, lo ≤ c.mean ∧ c.mean ≤ hi) ∧
      (lo = d.min ∨ ∃ c ∈ cs, c.mean = lo) ∧ (hi = d.max ∨ ∃ c ∈ cs, c.mean = hi) ∧
      (cs = [] → lo = d.min ∧ hi = d.max) := by
  unfold updateLimits
  by_cases hne : cs = []
  · subst hne
    refine ⟨d.min, d.max, ?_, hmin, hmax, le_refl _, le_refl _, by simp, Or.inl rfl, Or.inl rfl, fun _ => ⟨rfl, rfl⟩⟩
    simp only [List.map_nil, minBy, maxBy, bind_ret, Option.getD_none]
    rw [Fl.fmin_eq (by simp) hmin, Fl.fmax_eq (by simp) hmax]
    rw [min_eq_right, max_eq_right]
    · rfl
    · exact Fl.ninf_le _
    · cases hd : d.min <;> first | exact absurd hd hmin | trivial
  · have hn : ∀ a ∈ cs.map (·.mean), id a ≠ (.nan : Fl K) := by
      intro a ha
      obtain ⟨c, hc, rfl⟩ := List.mem_map.1 ha
      exact (hcs c hc).mean_ne_nan
    obtain ⟨mn, e1, m1, l1⟩ := minBy_spec id (cs.map (·.mean)) (by simpa using hne) hn
    obtain ⟨mx, e2, m2, l2⟩ := maxBy_spec id (cs.map (·.mean)) (by simpa using hne) hn
    have n1 := hn mn m1
    have n2 := hn mx m2
    simp only [id] at n1 n2 l1 l2
    rw [e1, e2]
    simp only [bind_ret, Option.getD_some]
    rw [Fl.fmin_eq n1 hmin, Fl.fmax_eq n2 hmax]
    refine ⟨Min.min mn d.min, Max.max mx d.max, rfl, ?_, ?_, min_le_right _ _, le_max_right _ _, ?_, ?_, ?_, fun h => absurd h hne⟩
    · rcases min_choice mn d.min with h | h <;> rw [h]
      · exact n1
      · exact hmin
    · rcases max_choice mx d.max with h | h <;> rw [h]
      · exact n2
      · exact hmax
    · intro c hc
      exact ⟨(min_le_left _ _).trans (l1 _ (List.mem_map.2 ⟨c, hc, rfl⟩)),
        (l2 _ (List.mem_map.2 ⟨c, hc, rfl⟩)).trans (le_max_left _ _)⟩
    · rcases min_choice mn d.min with h | h <;> rw [h]
      · right
        obtain ⟨c, hc, h'⟩ := List.mem_map.1 m1
        exact ⟨c, hc, h'⟩
      · exact Or.inl rfl
    · rcases max_choice mx d.max with h | h <;> rw [h]
      · right
        obtain ⟨c, hc, h'⟩ := List.mem_map.1 m2
        exact ⟨c, hc, h'⟩
      · exact Or.inl rfl

theorem cinv_ne_nan {d : TDigest K} {sup : List (Centroid K)} (h : d.CInv sup) (hs : ∀ c ∈ sup, Good c) :
    d.min ≠ .nan ∧ d.max ≠ .nan := by
  by_cases hs' : sup = []
  · rw [(h.minmax_nil hs').1, (h.minmax_nil hs').2]; simp [Fl.maxValue, Fl.minValue]
  · obtain ⟨⟨a, ha⟩, ⟨b, hb⟩⟩ := good_sup_min h hs hs'
    rw [ha, hb]; simp

/-- New limits after supplying `cs` to a digest that has seen `sup`. -/
theorem limits_eq {d : TDigest K} {sup cs : List (Centroid K)} (h : d.CInv sup) (hc : ∀ c ∈ cs, InRange c) {lo hi : Fl K}
    (h1 : lo ≤ d.min) (h2 : d.max ≤ hi) (h3 : ∀ c ∈ cs, lo ≤ c.mean ∧ c.mean ≤ hi)
    (h4 : lo = d.min ∨ ∃ c ∈ cs, c.mean = lo) (h5 : hi = d.max ∨ ∃ c ∈ cs, c.mean = hi) (hne : sup ++ cs ≠ []) :
    IsMinMean (sup ++ cs) lo ∧ IsMaxMean (sup ++ cs) hi := by
  by_cases hs : sup = []
  · subst hs
    simp only [List.nil_append] at hne ⊢
    obtain ⟨a, ha⟩ := List.exists_mem_of_ne_nil cs hne
    refine ⟨⟨?_, fun c hc' => (h3 c hc').1⟩, ⟨?_, fun c hc' => (h3 c hc').2⟩⟩
    · rcases h4 with h4 | h4
      · refine ⟨a, ha, le_antisymm ?_ (h3 a ha).1⟩
        rw [h4, (h.minmax_nil rfl).1]; exact (hc a ha).2
      · exact h4
    · rcases h5 with h5 | h5
      · refine ⟨a, ha, le_antisymm (h3 a ha).2 ?_⟩
        rw [h5, (h.minmax_nil rfl).2]; exact (hc a ha).1
      · exact h5
  · obtain ⟨⟨c1, m1, e1⟩, l1⟩ := h.min_eq hs
    obtain ⟨⟨c2, m2, e2⟩, l2⟩ := h.max_eq hs
    refine ⟨⟨?_, ?_⟩, ⟨?_, ?_⟩⟩
    · rcases h4 with h4 | ⟨c, hc', h4⟩
      · exact ⟨c1, List.mem_append_left _ m1, by rw [e1, h4]⟩
      · exact ⟨c, List.mem_append_right _ hc', h4⟩
    · intro c hc'
      rcases List.mem_append.1 hc' with hc' | hc'
      · exact h1.trans (l1 c hc')
      · exact (h3 c hc').1
    · rcases h5 with h5 | ⟨c, hc', h5⟩
      · exact ⟨c2, List.mem_append_left _ m2, by rw [e2, h5]⟩
      · exact ⟨c, List.mem_append_right _ hc', h5⟩
    · intro c hc'
      rcases List.mem_append.1 hc' with hc' | hc'
      · exact (l2 c hc').trans h2
      · exact (h3 c hc').2

theorem addCluster_spec [FloatFmt.Exact K] {d : TDigest K} {sup cs : List (Centroid K)} {γ δ : K} (h : d.CInv sup)
    (hsup : ∀ c ∈ sup, Good c) (hcs : ∀ c ∈ cs, Good c ∧ InRange c) (hδ : d.compressFactor = .fin δ)
    (h0 : 0 ≤ γ * δ) (h1 : γ * δ < 2 ^ 64) :
    Always (d.addCluster cs (.fin γ)) (fun d' => (d'.CInv (sup ++ cs) ∧ SameParams d' d) ∧
      (cs ≠ [] → Compact d d' ⌊γ * δ⌋₊)) := by
  obtain ⟨hn1, hn2⟩ := cinv_ne_nan h hsup
  obtain ⟨lo, hi, e, n1, n2, u1, u2, u3, u4, u5, u6⟩ := updateLimits_spec d cs (fun c hc => (hcs c hc).1) hn1 hn2
  unfold addCluster
  rw [e, bind_ret]
  -- the predicates preserved under sums: prove them one at a time
  have key : ∀ P : K → Prop, (∀ a b, P a → P b → P (a + b)) → (∀ c ∈ sup ++ cs, P c.weight.toK) →
      Always (addClusterLoop (.fin γ) { d with min := lo, max := hi } (totalWeight { d with min := lo, max := hi }) cs)
        (fun d' => (Mid d' (totalW sup + totalW cs) (totalMass sup + totalMass cs) lo hi P ∧ SameParams d' d) ∧
          (cs ≠ [] → Compact d d' ⌊γ * δ⌋₊)) := by
    intro P hP hPs
    refine (mid_loop hP n1 n2 h0 h1 cs { d with min := lo, max := hi } (totalW sup) (totalMass sup) _
      ⟨h.good, h.weight, h.mass, rfl, rfl, ?_, ?_⟩ hδ ?_).mono ?_
    · intro c hc
      exact ⟨u1.trans (h.min_le c hc), (h.le_max c hc).trans u2⟩
    · exact h.closed P hP (fun c hc => hPs c (List.mem_append_left _ hc))
    · intro c hc
      exact ⟨(hcs c hc).1, u3 c hc, hPs c (List.mem_append_right _ hc)⟩
    · rintro d' ⟨⟨a1, a2⟩, a3, -⟩
      exact ⟨⟨a1, a2⟩, a3⟩
  have hcl : Partially (addClusterLoop (.fin γ) { d with min := lo, max := hi }
      (totalWeight { d with min := lo, max := hi }) cs) (fun d' => ∀ P : K → Prop, (∀ a b, P a → P b → P (a + b)) →
        (∀ c ∈ sup ++ cs, P c.weight.toK) → ∀ c ∈ d'.centroids, P c.weight.toK) := by
    refine (partially_iff _ _).2 (fun d' hd' P hP hPs => ?_)
    exact ((partially_iff _ _).1 (key P hP hPs).partially d' hd').1.1.closed
  refine ((key (fun _ => True) (by simp) (by simp)).and hcl).mono ?_
  rintro d' ⟨⟨⟨m1, p1⟩, c1⟩, cl⟩
  have hgs : ∀ c ∈ sup ++ cs, Good c := by
    intro c hc
    rcases List.mem_append.1 hc with hc | hc
    · exact hsup c hc
    · exact (hcs c hc).1
  have hlim := fun hne => limits_eq h (fun c hc => (hcs c hc).2) u1 u2 u3 u4 u5 hne
  have hw : totalW d'.centroids = totalW (sup ++ cs) := by rw [m1.weight, totalW_append]
  refine ⟨⟨⟨m1.good, hw, ?_, ?_, ?_, ?_, ?_, ?_, ?_, cl⟩, p1⟩, c1⟩
  · rw [m1.mass, totalMass_append]
  · constructor
    · intro hnil
      by_contra hne
      have := totalW_pos hgs hne
      rw [← hw, hnil, totalW_nil] at this
      exact lt_irrefl _ this
    · intro hnil
      by_contra hne
      have := totalW_pos m1.good hne
      rw [hw, hnil, totalW_nil] at this
      exact lt_irrefl _ this
  · intro hnil
    rw [List.append_eq_nil_iff] at hnil
    obtain ⟨a1, a2⟩ := u6 hnil.2
    rw [m1.min, m1.max, a1, a2]
    exact h.minmax_nil hnil.1
  · intro hne; rw [m1.min]; exact (hlim hne).1
  · intro hne; rw [m1.max]; exact (hlim hne).2
  · intro c hc; rw [m1.min]; exact (m1.range c hc).1
  · intro c hc; rw [m1.max]; exact (m1.range c hc).2

theorem addCentroidBuffer_params [FloatFmt.Exact K] (d : TDigest K) (b : List (Centroid K)) :
    Partially (d.addCentroidBuffer b) (fun d' => SameParams d' d) := by
  unfold addCentroidBuffer
  rw [partially_bind]
  refine (partially_true _).mono ?_
  intro l _
  cases l <;> exact ⟨rfl, rfl, rfl⟩

theorem execAOps_inv [FloatFmt.Exact K] (δ : K) : ∀ (ops : List (AOp K)) (d : TDigest K) (sup : List (Centroid K)), d.CInv sup →
    d.compressFactor = .fin δ → GrowthOK δ ops → (∀ c ∈ sup, Good c) → (∀ c ∈ suppliedA ops, Good c ∧ InRange c) →
    Always (d.execAOps ops) (fun d' => d'.CInv (sup ++ suppliedA ops) ∧ SameParams d' d)
  | [], d, sup, h, _, _, _, _ => by
    simp only [execAOps, suppliedA, List.flatMap_nil, List.append_nil, always_ret]
    exact ⟨h, SameParams.refl d⟩
  | o :: os, d, sup, h, hδ, hgr, hs, hg => by
    have hg1 : ∀ c ∈ o.supplied, Good c ∧ InRange c := fun c hc => hg c (by simp [suppliedA]; exact Or.inl hc)
    have hg2 : ∀ c ∈ suppliedA os, Good c ∧ InRange c := fun c hc => hg c (by
      simp only [suppliedA, List.flatMap_cons, List.mem_append] at hc ⊢; exact Or.inr hc)
    have hstep : Always (o.exec d) (fun d' => d'.CInv (sup ++ o.supplied) ∧ SameParams d' d) := by
      cases o with
      | ins o =>
        simp only [AOp.exec, exec_eq, AOp.supplied]
        exact ((addCentroidBuffer_inv h hs (fun c hc => (hg1 c hc).1) (fun c hc => (hg1 c hc).2)).and
          (addCentroidBuffer_params d o.supplied)).mono (fun d' h' => ⟨h'.1.toCInv, h'.2⟩)
      | cluster cs g =>
        obtain ⟨γ, rfl, b0, b1⟩ := hgr.2 cs g (by simp)
        exact (addCluster_spec h hs hg1 hδ b0 b1).mono (fun d' h' => h'.1)
      | clusterTree cs g => exact absurd (by simp) (hgr.1 cs g)
    unfold execAOps
    rw [always_bind]
    refine hstep.mono ?_
    rintro d' ⟨h', p'⟩
    refine (execAOps_inv δ os d' (sup ++ o.supplied) h' (p'.1.trans hδ) ⟨fun cs g hm => hgr.1 cs g (by simp [hm]), fun cs g hm => hgr.2 cs g (by simp [hm])⟩ (by
      intro c hc
      rcases List.mem_append.1 hc with hc | hc
      · exact hs c hc
      · exact (hg1 c hc).1) hg2).mono ?_
    rintro d'' ⟨h'', p''⟩
    refine ⟨?_, p''.trans p'⟩
    simpa [suppliedA, List.flatMap_cons, List.append_assoc] using h''

end
end TDigest
end AQ

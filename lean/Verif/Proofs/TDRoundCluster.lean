/-
TDigest in rounding arithmetic: `add_cluster` and `add_cluster_tree`.
-/
import Verif.Proofs.TDRound
import Verif.Proofs.TDTree

set_option linter.unusedSectionVars false
set_option linter.unusedVariables false

namespace AQ
open Prog Spec
variable {K : Type} [Field K] [LinearOrder K] [IsStrictOrderedRing K] [FloatFmt K]

namespace Spec

theorem Within.good {A B : K} {c : Centroid K} (h : Within A B c) : Good c := by
  obtain ⟨m, w, hm, -, -, hw, h1⟩ := h
  exact ⟨⟨m, hm⟩, w, by exact_mod_cast h1, hw⟩

end Spec

namespace TDigest

/-- State of a digest in the middle of `add_cluster`, in rounding arithmetic. -/
structure RMid (A B : K) (lo hi : Fl K) (d : TDigest K) (w : K) : Prop where
  within : ∀ c ∈ d.centroids, Within A B c
  weight : totalW d.centroids = w
  min : ∃ x, d.min = .fin x ∧ A ≤ x ∧ x ≤ B ∧ d.min ≤ lo
  max : ∃ x, d.max = .fin x ∧ A ≤ x ∧ x ≤ B ∧ hi ≤ d.max

theorem addCentroidBuffer_same (d : TDigest K) (b : List (Centroid K)) :
    Partially (d.addCentroidBuffer b) (fun d' => SameParams d' d) := by
  unfold addCentroidBuffer
  rw [partially_bind]
  refine (partially_true _).mono ?_
  intro l _
  cases l <;> exact ⟨rfl, rfl, rfl⟩

/-- A merging pass in the middle of `add_cluster`. -/
theorem rmid_merge [FloatFmt.Mono K] {A B : K} {N : Nat} (R : Roomy N A B) {d : TDigest K} {w : K} {lo hi : Fl K} (hlh : lo ≤ hi)
    (h : RMid A B lo hi d w) (hN : w ≤ N) : Always (d.addBuffer []) (fun d' => RMid A B lo hi d' w ∧ SameParams d' d) := by
  unfold addBuffer
  simp only [List.map_nil]
  by_cases hne : d.centroids = []
  · rw [addCentroidBuffer_nil d hne]; exact ⟨h, SameParams.refl d⟩
  obtain ⟨W, hW, hlen⟩ := totalW_nat h.within
  have hW1 : 1 ≤ W := by
    have : d.centroids.length ≠ 0 := by simpa using hne
    omega
  obtain ⟨x, hx, x1, x2, x3⟩ := h.min
  obtain ⟨y, hy, y1, y2, y3⟩ := h.max
  have hxy : d.min ≤ d.max := x3.trans (hlh.trans y3)
  -- one centroid with all the weight, between the limits, stands for what was supplied
  have key : ∀ z : K, d.min ≤ .fin z → .fin z ≤ d.max →
      Always (d.addCentroidBuffer []) (fun d' => RInv A B d' [⟨.fin z, .fin (W : K)⟩]) := by
    intro z z1 z2
    rw [hx, Fl.fin_le_fin] at z1
    rw [hy, Fl.fin_le_fin] at z2
    have hz : Within A B ⟨.fin z, .fin (W : K)⟩ := ⟨z, W, rfl, x1.trans z1, z2.trans y2, rfl, hW1⟩
    have hr : RInv A B d [⟨.fin z, .fin (W : K)⟩] := by
      refine ⟨h.within, ?_, iff_of_false hne (by simp), ?_, ⟨x, hx, fun _ => ⟨x1, x2⟩, by simp⟩, ⟨y, hy, fun _ => ⟨y1, y2⟩, by simp⟩⟩
      · rw [hW, totalW_cons, totalW_nil, add_zero]; rfl
      · intro c hc
        rw [List.mem_singleton] at hc
        subst hc
        rw [hx, hy]
        exact ⟨Fl.fin_le_fin.2 z1, Fl.fin_le_fin.2 z2⟩
    have := addCentroidBuffer_rinv R hr (by simpa using hz) [] (by simp) (by
      rw [List.append_nil, totalW_cons, totalW_nil, add_zero]
      show (W : K) ≤ N
      rw [← hW, h.weight]; exact hN)
    simpa using this
  refine (((key x hx.le (by rw [← hx]; exact hxy)).and (key y (by rw [← hy]; exact hxy) hy.ge).partially).and
    (addCentroidBuffer_same d [])).mono ?_
  rintro d' ⟨⟨h1, h2⟩, p⟩
  obtain ⟨⟨a, ha, a1, -⟩, ⟨b, hb, b1, -⟩⟩ := h1.range
  refine ⟨⟨h1.within, ?_, ⟨a, ha, (a1 (by simp)).1, (a1 (by simp)).2, ?_⟩, ⟨b, hb, (b1 (by simp)).1, (b1 (by simp)).2, ?_⟩⟩, p⟩
  · rw [h1.weight, totalW_cons, totalW_nil, add_zero, ← h.weight, hW]; rfl
  · have := (h1.limits ⟨.fin x, .fin (W : K)⟩ (by simp)).1
    simp only at this
    rw [← hx] at this
    exact this.trans x3
  · have := (h2.limits ⟨.fin y, .fin (W : K)⟩ (by simp)).2
    simp only at this
    rw [← hy] at this
    exact y3.trans this

theorem rmid_insert {A B : K} {d : TDigest K} {w : K} {lo hi : Fl K} (h : RMid A B lo hi d w) {x : Centroid K}
    (hx : Within A B x) : Always (d.insertCluster x) (fun d' => RMid A B lo hi d' (w + x.weight.toK) ∧ SameParams d' d) := by
  unfold insertCluster
  rw [always_bind]
  refine (binarySearch_spec _ _ _ (fun c hc => (h.within c hc).mean_ne_nan) hx.mean_ne_nan).mono ?_
  rintro i ⟨hi', -⟩
  have hp : (d.centroids.take i ++ x :: d.centroids.drop i).Perm (x :: d.centroids) := by
    have := List.perm_middle (a := x) (l₁ := d.centroids.take i) (l₂ := d.centroids.drop i)
    rwa [List.take_append_drop] at this
  refine ⟨⟨?_, ?_, h.min, h.max⟩, rfl, rfl, rfl⟩
  · intro c hc
    rcases List.mem_cons.1 (hp.mem_iff.1 hc) with rfl | hc
    · exact hx
    · exact h.within c hc
  · show totalW (d.centroids.take i ++ x :: d.centroids.drop i) = _
    rw [totalW_perm hp, totalW_cons, h.weight, add_comm]

/-- Merging two centroids, in rounding arithmetic. -/
theorem merge_two_roomy [FloatFmt.Mono K] {A B : K} {N : Nat} (R : Roomy N A B) {a x : Centroid K} (ha : Within A B a)
    (hx : Within A B x) (hN : a.weight.toK + x.weight.toK ≤ N) :
    Within A B ⟨(a.mean * a.weight + x.mean * x.weight) / (a.weight + x.weight), a.weight + x.weight⟩ ∧
    a.weight + x.weight = .fin (a.weight.toK + x.weight.toK) := by
  obtain ⟨a1, a2⟩ := a
  obtain ⟨x1, x2⟩ := x
  obtain ⟨ma, wa, e1, la, ua, e2, pa⟩ := ha
  obtain ⟨mx, wx, e3, lx, ux, e4, px⟩ := hx
  simp only at e1 e2 e3 e4
  subst e1 e2 e3 e4
  simp only [Fl.toK] at hN ⊢
  have hN' : wa + wx ≤ N := by exact_mod_cast hN
  have ha0 : (0 : K) ≤ wa := by positivity
  have hx0 : (0 : K) ≤ wx := by positivity
  have hs : (0 : K) < ((wa + wx : ℕ) : K) := by exact_mod_cast (by omega : 0 < wa + wx)
  obtain ⟨p, hp, p1, p2⟩ := rnd_between (x := ma * wa) (R.lo wa (by omega)) (R.hi wa (by omega))
    (mul_le_mul_of_nonneg_right la ha0) (mul_le_mul_of_nonneg_right ua ha0)
  obtain ⟨q, hq, q1, q2⟩ := rnd_between (x := mx * wx) (R.lo wx (by omega)) (R.hi wx (by omega))
    (mul_le_mul_of_nonneg_right lx hx0) (mul_le_mul_of_nonneg_right ux hx0)
  obtain ⟨r, hr, r1, r2⟩ := rnd_between (x := p + q) (R.lo (wa + wx) hN') (R.hi (wa + wx) hN')
    (by push_cast; linarith) (by push_cast; linarith)
  have eA := R.lo 1 (by omega)
  have eB := R.hi 1 (by omega)
  rw [Nat.cast_one, mul_one] at eA eB
  obtain ⟨y, hy, y1, y2⟩ := rnd_between eA eB ((le_div_iff₀ hs).2 r1) ((div_le_iff₀ hs).2 r2)
  have ew : (.fin (wa : K) : Fl K) + .fin (wx : K) = .fin ((wa + wx : ℕ) : K) := by
    rw [Fl.add_fin, ← Nat.cast_add]
    exact R.counts.rnd_nat hN'
  have em : (.fin ma * .fin (wa : K) + .fin mx * .fin (wx : K) : Fl K) / .fin ((wa + wx : ℕ) : K) = .fin y := by
    rw [Fl.mul_fin, Fl.mul_fin, hp, hq, Fl.add_fin, hr, Fl.div_fin_of_ne _ hs.ne', hy]
  rw [ew, em]
  exact ⟨⟨y, wa + wx, rfl, y1, y2, rfl, by omega⟩, by push_cast; rfl⟩

theorem weight_le_totalW {A B : K} {l : List (Centroid K)} (h : ∀ c ∈ l, Within A B c) {a : Centroid K} (ha : a ∈ l) :
    a.weight.toK ≤ totalW l := by
  obtain ⟨s, t, rfl⟩ := List.append_of_mem ha
  obtain ⟨n, hn, -⟩ := totalW_nat (l := s) (fun c hc => h c (by simp [hc]))
  obtain ⟨m, hm, -⟩ := totalW_nat (l := t) (fun c hc => h c (by simp [hc]))
  rw [totalW_append, totalW_cons, hn, hm]
  have h1 : (0 : K) ≤ n := by positivity
  have h2 : (0 : K) ≤ m := by positivity
  linarith

theorem rmid_mergeCluster [FloatFmt.Mono K] {A B : K} {N : Nat} (R : Roomy N A B) {d : TDigest K} {w : K} {lo hi : Fl K}
    (h : RMid A B lo hi d w) {x : Centroid K} (hx : Within A B x) (hN : w + x.weight.toK ≤ N) (i : Nat)
    (hi' : i < d.centroids.length) :
    Always (d.mergeCluster x i) (fun d' => RMid A B lo hi d' (w + x.weight.toK) ∧ SameParams d' d) := by
  unfold mergeCluster
  rw [idx_eq hi', bind_ret]
  have hm := List.getElem_mem hi'
  obtain ⟨g1, g2⟩ := merge_two_roomy R (h.within _ hm) hx
    (le_trans (by have := weight_le_totalW h.within hm; rw [h.weight] at this; linarith) hN)
  refine ⟨⟨?_, ?_, h.min, h.max⟩, rfl, rfl, rfl⟩
  · intro c hc
    rcases List.mem_or_eq_of_mem_set hc with hc | rfl
    · exact h.within c hc
    · exact g1
  · show totalW (d.centroids.set i _) = _
    rw [totalW_set _ _ hi', h.weight]
    simp only [g2, Fl.toK]; ring

theorem rmid_place [FloatFmt.Mono K] {A B : K} {N : Nat} (R : Roomy N A B) {d : TDigest K} {w : K} {lo hi : Fl K}
    (h : RMid A B lo hi d w) {x : Centroid K} (hx : Within A B x) (hN : w + x.weight.toK ≤ N) (total : Fl K) :
    Always (d.placeCluster x total) (fun d' => RMid A B lo hi d' (w + x.weight.toK) ∧ SameParams d' d) := by
  unfold placeCluster
  rw [always_bind]
  refine (findClosest_bounds d x (fun c hc => (h.within c hc).mean_ne_nan) hx.mean_ne_nan).mono ?_
  rintro o ⟨-, ho⟩
  cases o with
  | none => exact rmid_insert h hx
  | some p =>
    obtain ⟨l, r⟩ := p
    obtain ⟨h1, h2⟩ := ho l r rfl
    simp only
    rw [always_bind]
    refine (chooseIndex_mem d x total (List.range' l (r - l)) none (by
      intro i hi
      rw [List.mem_range'_1] at hi
      omega) (by simp)).mono ?_
    intro best hb
    cases best with
    | none => exact rmid_insert h hx
    | some i => exact rmid_mergeCluster R h hx hN i (hb i rfl)

section
variable [FloorRing K]

theorem rmid_limitGrowth [FloatFmt.Mono K] {A B : K} {N : Nat} (R : Roomy N A B) {d : TDigest K} {w : K} {lo hi g : Fl K}
    (hlh : lo ≤ hi) (h : RMid A B lo hi d w) (hN : w ≤ N) {lim : Nat} (hg : Fl.toUsize (g * d.compressFactor) = some lim) :
    Always (d.limitGrowth g) (fun d' => RMid A B lo hi d' w ∧ SameParams d' d) := by
  unfold limitGrowth
  rw [hg, unwrap_some, bind_ret]
  split
  · exact rmid_merge R hlh h hN
  · exact ⟨h, SameParams.refl d⟩

theorem rmid_loop [FloatFmt.Mono K] {A B : K} {N : Nat} (R : Roomy N A B) {lo hi g cf : Fl K} (hlh : lo ≤ hi) {lim : Nat}
    (hg : Fl.toUsize (g * cf) = some lim) :
    ∀ (xs : List (Centroid K)) (d : TDigest K) (w : K) (total : Fl K), RMid A B lo hi d w → d.compressFactor = cf →
    (∀ x ∈ xs, Within A B x) → w + totalW xs ≤ N →
    Always (addClusterLoop g d total xs) (fun d' => RMid A B lo hi d' (w + totalW xs) ∧ SameParams d' d)
  | [], d, w, total, h, _, _, _ => by
    rw [totalW_nil, add_zero]
    exact ⟨h, SameParams.refl d⟩
  | x :: xs, d, w, total, h, hcf, hx, hN => by
    have hxs : ∀ y ∈ xs, Within A B y := fun y hy => hx y (by simp [hy])
    obtain ⟨n, hn, -⟩ := totalW_nat hxs
    have hn0 : (0 : K) ≤ n := by positivity
    rw [totalW_cons, ← add_assoc] at hN ⊢
    have hN1 : w + x.weight.toK ≤ N := by rw [hn] at hN; linarith
    unfold addClusterLoop
    rw [always_bind]
    refine (rmid_place R h (hx x (by simp)) hN1 total).mono ?_
    rintro d1 ⟨m1, p1⟩
    rw [always_bind]
    refine (rmid_limitGrowth R hlh m1 hN1 (by rw [p1.1, hcf]; exact hg)).mono ?_
    rintro d2 ⟨m2, p2⟩
    refine (rmid_loop R hlh hg xs d2 _ _ m2 ((p2.1.trans p1.1).trans hcf) hxs hN).mono ?_
    rintro d3 ⟨m3, p3⟩
    exact ⟨m3, p3.trans (p2.trans p1)⟩

/-- `update_limits` puts a digest into the middle state. -/
theorem updateLimits_roomy [FloatFmt.Mono K] {A B : K} {N : Nat} (R : Roomy N A B) {d : TDigest K} {all : List (Centroid K)}
    (h : RInv A B d all) {cs : List (Centroid K)} (hcs : ∀ c ∈ cs, Within A B c) (hne : cs ≠ []) :
    ∃ lo hi : Fl K, d.updateLimits cs = .ret { d with min := lo, max := hi } ∧ lo ≤ hi ∧
      RMid A B lo hi { d with min := lo, max := hi } (totalW all) ∧ (∀ c ∈ all ++ cs, lo ≤ c.mean ∧ c.mean ≤ hi) := by
  obtain ⟨⟨a, ha, a1, a2⟩, ⟨b, hb, b1, b2⟩⟩ := h.range
  obtain ⟨lo, hi, e, n1, n2, u1, u2, u3, u4, u5, -⟩ := updateLimits_spec d cs (fun c hc => (hcs c hc).good) (by rw [ha]; simp)
    (by rw [hb]; simp)
  obtain ⟨c0, hc0⟩ := List.exists_mem_of_ne_nil _ hne
  obtain ⟨m0, w0, hm0, l0, r0, -⟩ := hcs c0 hc0
  have hlh : lo ≤ hi := (u3 c0 hc0).1.trans (u3 c0 hc0).2
  refine ⟨lo, hi, e, hlh, ⟨h.within, h.weight, ?_, ?_⟩, ?_⟩
  · rcases u4 with u4 | ⟨c, hc, hce⟩
    · refine ⟨a, by simp [u4, ha], ?_, ?_, le_rfl⟩
      · by_cases hall : all = []
        · rw [a2 hall]; exact R.range.2.1.trans R.range.2.2
        · exact (a1 hall).1
      · have := (u3 c0 hc0).1
        rw [u4, ha, hm0, Fl.fin_le_fin] at this
        exact this.trans r0
    · obtain ⟨m, w, hm, l, r, -⟩ := hcs c hc
      exact ⟨m, by rw [← hm, ← hce], l, r, le_rfl⟩
  · rcases u5 with u5 | ⟨c, hc, hce⟩
    · refine ⟨b, by simp [u5, hb], ?_, ?_, le_rfl⟩
      · have := (u3 c0 hc0).2
        rw [u5, hb, hm0, Fl.fin_le_fin] at this
        exact l0.trans this
      · by_cases hall : all = []
        · rw [b2 hall]; exact R.range.1.trans R.range.2.1
        · exact (b1 hall).2
    · obtain ⟨m, w, hm, l, r, -⟩ := hcs c hc
      exact ⟨m, by rw [← hm, ← hce], l, r, le_rfl⟩
  · intro c hc
    rcases List.mem_append.1 hc with hc | hc
    · exact ⟨u1.trans (h.limits c hc).1, (h.limits c hc).2.trans u2⟩
    · exact u3 c hc

/-- Without clusters `update_limits` does nothing. -/
theorem updateLimits_nil {A B : K} {d : TDigest K} {all : List (Centroid K)} (h : RInv A B d all) :
    d.updateLimits [] = .ret d := by
  obtain ⟨⟨a, ha, -⟩, ⟨b, hb, -⟩⟩ := h.range
  obtain ⟨lo, hi, e, -, -, -, -, -, -, -, u⟩ := updateLimits_spec d [] (by simp) (by rw [ha]; simp) (by rw [hb]; simp)
  rw [e, (u rfl).1, (u rfl).2]

/-- From the middle state back to the invariant. -/
theorem rinv_of_rmid {A B : K} {d d' : TDigest K} {all cs : List (Centroid K)} {lo hi : Fl K}
    (hall : ∀ c ∈ all ++ cs, Within A B c) (hne : cs ≠ []) (hl : ∀ c ∈ all ++ cs, lo ≤ c.mean ∧ c.mean ≤ hi)
    (m : RMid A B lo hi d' (totalW all + totalW cs)) : RInv A B d' (all ++ cs) := by
  obtain ⟨x, hx, x1, x2, x3⟩ := m.min
  obtain ⟨y, hy, y1, y2, y3⟩ := m.max
  have hne2 : all ++ cs ≠ [] := by simp [hne]
  have hw : totalW d'.centroids = totalW (all ++ cs) := by rw [m.weight, totalW_append]
  refine ⟨m.within, hw, iff_of_false ?_ hne2, ?_, ⟨x, hx, fun _ => ⟨x1, x2⟩, fun e => absurd e hne2⟩,
    ⟨y, hy, fun _ => ⟨y1, y2⟩, fun e => absurd e hne2⟩⟩
  · intro e
    have := totalW_pos (fun c hc => (hall c hc).good) hne2
    rw [← hw, e, totalW_nil] at this
    exact lt_irrefl _ this
  · intro c hc
    exact ⟨x3.trans (hl c hc).1, (hl c hc).2.trans y3⟩

theorem addCluster_rinv [FloatFmt.Mono K] {A B : K} {N : Nat} (R : Roomy N A B) {d : TDigest K} {all : List (Centroid K)}
    (h : RInv A B d all) {cs : List (Centroid K)} {g : Fl K} (hall : ∀ c ∈ all ++ cs, Within A B c)
    (hN : totalW (all ++ cs) ≤ N) (hg : ∃ lim, Fl.toUsize (g * d.compressFactor) = some lim) :
    Always (d.addCluster cs g) (fun d' => RInv A B d' (all ++ cs) ∧ SameParams d' d) := by
  have hcs : ∀ c ∈ cs, Within A B c := fun c hc => hall c (by simp [hc])
  unfold addCluster
  by_cases hne : cs = []
  · subst hne
    rw [updateLimits_nil h, bind_ret, List.append_nil]
    exact ⟨h, SameParams.refl d⟩
  obtain ⟨lim, hlim⟩ := hg
  obtain ⟨lo, hi, e, hlh, hm, hl⟩ := updateLimits_roomy R h hcs hne
  rw [e, bind_ret]
  rw [totalW_append] at hN
  refine (rmid_loop R hlh hlim cs _ _ _ hm rfl hcs hN).mono ?_
  rintro d' ⟨m, p⟩
  exact ⟨rinv_of_rmid (d := d) hall hne hl m, p⟩

/-! ### `add_cluster_tree` -/

/-- The tree holds the centroids of the digest in the middle of `add_cluster_tree`. -/
def RTMid (A B : K) (lo hi : Fl K) (d : TDigest K) (t : KeyedSumTree K) (w : K) : Prop :=
  ∃ c, t.Holds c ∧ RMid A B lo hi { d with centroids := c } w

theorem RMid.perm {A B : K} {lo hi : Fl K} {d : TDigest K} {w : K} (h : RMid A B lo hi d w) {c : List (Centroid K)}
    (hp : c.Perm d.centroids) : RMid A B lo hi { d with centroids := c } w :=
  ⟨fun x hx => h.within x (hp.mem_iff.1 hx), by rw [← h.weight]; exact totalW_perm hp, h.min, h.max⟩

theorem rebuildTree_roomy {A B : K} {lo hi : Fl K} {d : TDigest K} {w : K} (h : RMid A B lo hi d w) :
    Partially d.rebuildTree (fun t => RTMid A B lo hi d t w) := by
  unfold rebuildTree
  rw [partially_bind]
  refine (shuffle_perm d.centroids).partially.mono ?_
  intro cs hp
  refine (KeyedSumTree.fromAux_partially cs _ [] KeyedSumTree.new_holds
    (fun p hpm => (h.within p (hp.mem_iff.1 hpm)).mean_ne_nan)).mono ?_
  intro t ht
  rw [List.append_nil] at ht
  exact ⟨d.centroids, ht.perm hp, h⟩

theorem rtmid_insert {A B : K} {lo hi : Fl K} {d : TDigest K} {t : KeyedSumTree K} {w : K} (h : RTMid A B lo hi d t w)
    {x : Centroid K} (hx : Within A B x) :
    Partially (t.insert x.mean x.weight) (fun t' => RTMid A B lo hi d t' (w + x.weight.toK)) := by
  obtain ⟨c, hh, hm⟩ := h
  refine (KeyedSumTree.insert_holds_partially hh x.mean x.weight hx.mean_ne_nan).mono ?_
  intro t' ht'
  refine ⟨x :: c, ht', ⟨?_, ?_, hm.min, hm.max⟩⟩
  · intro e he
    rcases List.mem_cons.1 he with rfl | he
    · exact hx
    · exact hm.within e he
  · show totalW (x :: c) = _
    rw [totalW_cons, ← hm.weight, add_comm]

theorem rtmid_merge [FloatFmt.Mono K] {A B : K} {N : Nat} (R : Roomy N A B) {lo hi : Fl K} {d : TDigest K} {t : KeyedSumTree K}
    {w : K} (h : RTMid A B lo hi d t w) {x a : Centroid K} (hx : Within A B x) (hN : w + x.weight.toK ≤ N)
    (ha : a ∈ t.sortedVecKey) :
    Partially (t.delete a.mean >>= fun t1 =>
        t1.insert ((a.mean * a.weight + x.mean * x.weight) / (a.weight + x.weight)) (a.weight + x.weight))
      (fun t' => RTMid A B lo hi d t' (w + x.weight.toK)) := by
  obtain ⟨c, hh, hm⟩ := h
  have hac : a ∈ c := hh.2.1.mem_iff.1 ha
  have hnd : (c.map (·.mean)).Nodup := by
    refine (hh.2.1.map _).nodup_iff.1 ?_
    have := hh.1.1
    rw [← List.pairwise_map] at this
    exact this.imp (fun h => ne_of_lt h)
  have hperm := perm_cons_filter hnd hac
  have hw' := hm.weight
  simp only at hw'
  have hle := weight_le_totalW hm.within hac
  simp only at hle
  rw [hw'] at hle
  obtain ⟨g1, g2⟩ := merge_two_roomy R (hm.within a hac) hx (by linarith)
  rw [partially_bind]
  refine (KeyedSumTree.delete_holds hh a.mean ⟨a, hac, rfl⟩).partially.mono ?_
  intro t1 h1
  refine (KeyedSumTree.insert_holds_partially h1 _ _ g1.mean_ne_nan).mono ?_
  intro t' h'
  have hw := totalW_perm hperm
  rw [totalW_cons] at hw
  refine ⟨_, h', ⟨?_, ?_, hm.min, hm.max⟩⟩
  · intro e he
    rcases List.mem_cons.1 he with rfl | he
    · exact g1
    · exact hm.within e (List.mem_filter.1 he).1
  · show totalW (_ :: _) = _
    rw [totalW_cons]
    change (a.weight + x.weight).toK + _ = _
    rw [g2]
    change a.weight.toK + x.weight.toK + _ = _
    linarith

theorem rtmid_place [FloatFmt.Mono K] {A B : K} {N : Nat} (R : Roomy N A B) {lo hi : Fl K} {d : TDigest K} {t : KeyedSumTree K}
    {w : K} (h : RTMid A B lo hi d t w) {x : Centroid K} (hx : Within A B x) (hN : w + x.weight.toK ≤ N) (total : Fl K) :
    Partially (placeTree d t x total) (fun t' => RTMid A B lo hi d t' (w + x.weight.toK)) := by
  unfold placeTree
  rw [partially_bind]
  refine (KeyedSumTree.closestKeys_partially t x.mean).mono ?_
  intro res hres
  split
  · exact rtmid_insert h hx
  · rw [partially_bind]
    refine (chooseCentroid_mem d t x total (fun c => c ∈ t.sortedVecKey) res none hres (by simp)).mono ?_
    intro best hb
    cases best with
    | none => exact rtmid_insert h hx
    | some a => exact rtmid_merge R h hx hN (hb a rfl)

theorem rtmid_loop [FloatFmt.Mono K] {A B : K} {N : Nat} (R : Roomy N A B) {g lo hi : Fl K} (hlh : lo ≤ hi) :
    ∀ (xs : List (Centroid K)) (d : TDigest K) (t : KeyedSumTree K) (w : K) (total : Fl K), RTMid A B lo hi d t w →
    (∀ x ∈ xs, Within A B x) → w + totalW xs ≤ N →
    Partially (addClusterTreeLoop g d t total xs) (fun r => RTMid A B lo hi r.1 r.2 (w + totalW xs) ∧ SameParams r.1 d)
  | [], d, t, w, total, h, _, _ => by
    rw [totalW_nil, add_zero]
    exact ⟨h, SameParams.refl d⟩
  | x :: xs, d, t, w, total, h, hx, hN => by
    have hxs : ∀ y ∈ xs, Within A B y := fun y hy => hx y (by simp [hy])
    obtain ⟨n, hn, -⟩ := totalW_nat hxs
    have hn0 : (0 : K) ≤ n := by positivity
    rw [totalW_cons, ← add_assoc] at hN ⊢
    have hN1 : w + x.weight.toK ≤ N := by rw [hn] at hN; linarith
    unfold addClusterTreeLoop
    rw [partially_bind]
    refine (rtmid_place R h (hx x (by simp)) hN1 total).mono ?_
    intro t1 h1
    rw [partially_bind]
    refine (partially_true _).mono ?_
    intro lim _
    split
    · rw [partially_bind]
      obtain ⟨c, hh, hm⟩ := h1
      refine (rmid_merge R hlh (hm.perm hh.2.1) hN1).partially.mono ?_
      rintro d1 ⟨m1, p1⟩
      rw [partially_bind]
      refine (rebuildTree_roomy m1).mono ?_
      intro t2 h2
      refine (rtmid_loop R hlh xs d1 t2 _ _ h2 hxs hN).mono ?_
      rintro r ⟨r1, r2⟩
      exact ⟨r1, r2.trans p1⟩
    · exact rtmid_loop R hlh xs d t1 _ _ h1 hxs hN

theorem addClusterTree_rinv [FloatFmt.Mono K] {A B : K} {N : Nat} (R : Roomy N A B) {d : TDigest K} {all : List (Centroid K)}
    (h : RInv A B d all) {cs : List (Centroid K)} {g : Fl K} (hall : ∀ c ∈ all ++ cs, Within A B c)
    (hN : totalW (all ++ cs) ≤ N) :
    Partially (d.addClusterTree cs g) (fun d' => (RInv A B d' (all ++ cs) ∧ SameParams d' d) ∧
      d'.centroids.Pairwise (fun a b => a.mean < b.mean)) := by
  have hcs : ∀ c ∈ cs, Within A B c := fun c hc => hall c (by simp [hc])
  unfold addClusterTree
  by_cases hne : cs = []
  · subst hne
    rw [updateLimits_nil h, bind_ret, partially_bind]
    unfold rebuildTree
    rw [partially_bind]
    refine (shuffle_perm d.centroids).partially.mono ?_
    intro l hp
    refine (KeyedSumTree.fromAux_partially l _ [] KeyedSumTree.new_holds
      (fun p hpm => (h.within p (hp.mem_iff.1 hpm)).mean_ne_nan)).mono ?_
    intro t ht
    rw [List.append_nil] at ht ⊢
    have hp2 : t.sortedVecKey.Perm d.centroids := ht.2.1.trans hp
    refine ⟨⟨⟨fun c hc => h.within c (hp2.mem_iff.1 hc), (totalW_perm hp2).trans h.weight, ?_, h.limits, h.range⟩, rfl, rfl, rfl⟩,
      ht.1.1⟩
    rw [← h.empty]
    exact ⟨fun e => by rw [show t.sortedVecKey = [] from e] at hp2; exact hp2.nil_eq.symm,
      fun e => by rw [e] at hp2; exact hp2.eq_nil⟩
  obtain ⟨lo, hi, e, hlh, hm, hl⟩ := updateLimits_roomy R h hcs hne
  rw [e, bind_ret, partially_bind]
  refine (rebuildTree_roomy hm).mono ?_
  intro t ht
  rw [partially_bind]
  rw [totalW_append] at hN
  refine (rtmid_loop R hlh cs _ t _ _ ht hcs hN).mono ?_
  rintro ⟨d1, t1⟩ ⟨⟨c, hh, hm⟩, p1⟩
  exact ⟨⟨rinv_of_rmid (d := d) hall hne hl (hm.perm hh.2.1), p1⟩, hh.1.1⟩

/-! ### Histories -/

theorem suppliedA_cons (o : AOp K) (os : List (AOp K)) : suppliedA (o :: os) = o.supplied ++ suppliedA os := by
  simp [suppliedA]

theorem totalW_append_le {A B : K} {N : Nat} {a b : List (Centroid K)} (hb : ∀ c ∈ b, Within A B c) (h : totalW (a ++ b) ≤ (N : K)) :
    totalW a ≤ (N : K) := by
  obtain ⟨n, hn, -⟩ := totalW_nat hb
  rw [totalW_append, hn] at h
  have : (0 : K) ≤ n := by positivity
  linarith

theorem execAOps_rinv [FloatFmt.Mono K] {A B : K} {N : Nat} (R : Roomy N A B) (cf : Fl K) : ∀ (ops : List (AOp K)) (d : TDigest K)
    (all : List (Centroid K)), RInv A B d all → d.compressFactor = cf → (∀ cs g, AOp.clusterTree cs g ∉ ops) →
    (∀ cs g, AOp.cluster cs g ∈ ops → ∃ lim, Fl.toUsize (g * cf) = some lim) →
    (∀ c ∈ all ++ suppliedA ops, Within A B c) → totalW (all ++ suppliedA ops) ≤ N →
    Always (d.execAOps ops) (fun d' => RInv A B d' (all ++ suppliedA ops) ∧ SameParams d' d)
  | [], d, all, h, _, _, _, _, _ => by
    simp only [execAOps, suppliedA, List.flatMap_nil, List.append_nil]
    exact ⟨h, SameParams.refl d⟩
  | o :: os, d, all, h, hcf, ht, hg, hs, hN => by
    rw [suppliedA_cons, ← List.append_assoc] at hs hN ⊢
    have h1 : ∀ c ∈ all ++ o.supplied, Within A B c := fun c hc => hs c (List.mem_append_left _ hc)
    have h2 : totalW (all ++ o.supplied) ≤ N := totalW_append_le (fun c hc => hs c (List.mem_append_right _ hc)) hN
    have hstep : Always (o.exec d) (fun d' => RInv A B d' (all ++ o.supplied) ∧ SameParams d' d) := by
      cases o with
      | ins o =>
        show Always (o.exec d) _
        rw [TOp.exec_eq]
        exact (addCentroidBuffer_rinv R h (fun c hc => h1 c (List.mem_append_left _ hc)) _
          (fun c hc => h1 c (List.mem_append_right _ hc)) h2).and (addCentroidBuffer_same d _)
      | cluster cs g => exact addCluster_rinv R h h1 h2 (by rw [hcf]; exact hg cs g (by simp))
      | clusterTree cs g => exact absurd (by simp) (ht cs g)
    unfold execAOps
    rw [always_bind]
    refine hstep.mono ?_
    rintro d' ⟨h', p'⟩
    refine (execAOps_rinv R cf os d' _ h' (p'.1.trans hcf) (fun cs g hm => ht cs g (by simp [hm]))
      (fun cs g hm => hg cs g (by simp [hm])) hs hN).mono ?_
    rintro d'' ⟨h'', p''⟩
    exact ⟨h'', p''.trans p'⟩

theorem execAOps_rinv_partially [FloatFmt.Mono K] {A B : K} {N : Nat} (R : Roomy N A B) : ∀ (ops : List (AOp K)) (d : TDigest K)
    (all : List (Centroid K)), RInv A B d all → (∀ c ∈ all ++ suppliedA ops, Within A B c) → totalW (all ++ suppliedA ops) ≤ N →
    Partially (d.execAOps ops) (fun d' => RInv A B d' (all ++ suppliedA ops) ∧ SameParams d' d)
  | [], d, all, h, _, _ => by
    simp only [execAOps, suppliedA, List.flatMap_nil, List.append_nil]
    exact ⟨h, SameParams.refl d⟩
  | o :: os, d, all, h, hs, hN => by
    rw [suppliedA_cons, ← List.append_assoc] at hs hN ⊢
    have h1 : ∀ c ∈ all ++ o.supplied, Within A B c := fun c hc => hs c (List.mem_append_left _ hc)
    have h2 : totalW (all ++ o.supplied) ≤ N := totalW_append_le (fun c hc => hs c (List.mem_append_right _ hc)) hN
    have hstep : Partially (o.exec d) (fun d' => RInv A B d' (all ++ o.supplied) ∧ SameParams d' d) := by
      cases o with
      | ins o =>
        show Partially (o.exec d) _
        rw [TOp.exec_eq]
        exact ((addCentroidBuffer_rinv R h (fun c hc => h1 c (List.mem_append_left _ hc)) _
          (fun c hc => h1 c (List.mem_append_right _ hc)) h2).and (addCentroidBuffer_same d _)).partially
      | cluster cs g =>
        show Partially (d.addCluster cs g) _
        by_cases hg : ∃ lim, Fl.toUsize (g * d.compressFactor) = some lim
        · exact (addCluster_rinv R h h1 h2 hg).partially
        · -- without a growth limit the first cluster panics
          have hnone : Fl.toUsize (g * d.compressFactor) = none := by
            cases e : Fl.toUsize (g * d.compressFactor) with
            | none => rfl
            | some l => exact absurd ⟨l, e⟩ hg
          by_cases hne : cs = []
          · subst hne
            unfold addCluster
            rw [updateLimits_nil h, bind_ret]
            simp only [AOp.supplied, List.append_nil]
            exact ⟨h, SameParams.refl d⟩
          · obtain ⟨x, xs, rfl⟩ := List.exists_cons_of_ne_nil hne
            obtain ⟨lo, hi, e, hlh, hm, hl⟩ := updateLimits_roomy R h (cs := x :: xs) (fun c hc => h1 c (List.mem_append_right _ hc)) hne
            unfold addCluster
            rw [e, bind_ret]
            unfold addClusterLoop
            rw [partially_bind]
            refine (rmid_place R hm (h1 x (by simp [AOp.supplied])) ?_ _).partially.mono ?_
            · have hxs : ∀ c ∈ xs, Within A B c := fun c hc => h1 c (by simp [AOp.supplied, hc])
              obtain ⟨n, hn, -⟩ := totalW_nat hxs
              have hn0 : (0 : K) ≤ n := by positivity
              rw [totalW_append] at h2
              simp only [AOp.supplied] at h2
              rw [totalW_cons, hn] at h2
              linarith
            · rintro d1 ⟨-, p1⟩
              unfold limitGrowth
              rw [p1.1, hnone]
              trivial
      | clusterTree cs g => exact (addClusterTree_rinv R h h1 h2).mono (fun d' h' => h'.1)
    unfold execAOps
    rw [partially_bind]
    refine hstep.mono ?_
    rintro d' ⟨h', p'⟩
    refine (execAOps_rinv_partially R os d' _ h' hs hN).mono ?_
    rintro d'' ⟨h'', p''⟩
    exact ⟨h'', p''.trans p'⟩

end
end TDigest
end AQ

/-
Runs bounded by a function of the whole weight: invariants for trees of insertions and merges.
-/
import Verif.Proofs.TDFrac
import Verif.Spec.TDCost
import Verif.Props.TDShards

set_option linter.unusedSectionVars false
set_option linter.unusedVariables false

namespace AQ
open Prog Spec
variable {K : Type} [Field K] [LinearOrder K] [IsStrictOrderedRing K] [FloatFmt K]

namespace TDigest

/-- A run of two or more centroids takes at most `G n` when the whole weight is `n`. -/
def LimitStep (G : K → K) (N : K) (s i : ScaleFn K) (cf : Fl K) : Prop :=
  ∀ n a w b : K, n ≤ N → 0 ≤ a → 2 ≤ w → 0 ≤ b → a + w + b = n → Fl.le (.fin w) (sizeLimit s i cf n a) = true → w ≤ G n

theorem totalW_ge_length {l : List (Centroid K)} (h : ∀ e ∈ l, 1 ≤ e.weight.toK) : (l.length : K) ≤ totalW l := by
  induction l with
  | nil => simp
  | cons e l ih =>
    have := ih (fun e he => h e (by simp [he]))
    have := h e (by simp)
    rw [totalW_cons, List.length_cons, Nat.cast_add, Nat.cast_one]
    linarith

theorem totalW_zero_or {l : List (Centroid K)} (h : ∀ e ∈ l, 1 ≤ e.weight.toK) : totalW l = 0 ∨ 1 ≤ totalW l := by
  rcases l with _ | ⟨e, l⟩
  · left; simp
  · right
    have := totalW_ge_length h
    rw [List.length_cons, Nat.cast_add, Nat.cast_one] at this
    have h2 : (0 : K) ≤ (l.length : K) := Nat.cast_nonneg _
    linarith

theorem Merged.step [FloatFmt.Exact K] {G : K → K} {N : K} {d d' : TDigest K} {batch : List (Centroid K)} {runs : List (List (Centroid K))}
    (hl : LimitStep G N d.scaleFunc d.inverseScaleFunc d.compressFactor) (h : Merged d batch d' runs)
    (h1 : ∀ e ∈ batch ++ d.centroids, 1 ≤ e.weight.toK) (hN : totalW (batch ++ d.centroids) ≤ N) :
    ∀ r ∈ runs, 2 ≤ r.length → totalW r ≤ G (totalW (batch ++ d.centroids)) := by
  intro r hr h2
  obtain ⟨pre, post, he⟩ := List.append_of_mem hr
  have hlim := h.limit pre r post he h2
  have htot : totalW (batch ++ d.centroids) = totalW runs.flatten := ((h.perm.map _).sum_eq).symm
  have gf : ∀ d ∈ runs.flatten, Good d := by
    intro d hd
    obtain ⟨q, hq, hd⟩ := List.mem_flatten.1 hd
    exact h.good q hq d hd
  have hr2 : 2 ≤ totalW r := by
    refine le_trans ?_ (totalW_ge_length (l := r) ?_)
    · exact_mod_cast h2
    · intro e' he'
      refine h1 e' (h.perm.mem_iff.1 ?_)
      exact List.mem_flatten.2 ⟨_, hr, he'⟩
  refine hl _ _ _ (totalW post.flatten) hN (totalW_nonneg ?_) hr2 (totalW_nonneg ?_) ?_ hlim
  · intro e hm
    apply gf
    rw [he]
    simp only [List.flatten_append, List.mem_append]
    exact Or.inl hm
  · intro e hm
    apply gf
    rw [he]
    simp only [List.flatten_append, List.flatten_cons, List.mem_append]
    exact Or.inr (Or.inr hm)
  · rw [htot, he]
    simp only [List.flatten_append, List.flatten_cons, totalW_append]
    ring

end TDigest

namespace TTree
open TDigest

/-- What a digest in such a tree knows about what was supplied. -/
structure SInv (G : K → K) (H N : K) (d : TDigest K) (sup : List (Centroid K)) (E : K) : Prop where
  lim : LimitStep G N d.scaleFunc d.inverseScaleFunc d.compressFactor
  one : ∀ e ∈ d.centroids, 1 ≤ e.weight.toK
  wt : ∀ e ∈ d.centroids, e.weight.toK ≤ H
  near : ∀ x, Near x d.centroids sup E

theorem step_sinv [FloatFmt.Exact K] {G : K → K} {H N E F : K} {d : TDigest K} {sup b sb : List (Centroid K)}
    (hd : ∀ e ∈ d.centroids, Good e) (hb : ∀ e ∈ b, Good e) (hb1 : ∀ e ∈ b, 1 ≤ e.weight.toK)
    (hW : totalW d.centroids = totalW sup) (hWb : totalW b = totalW sb) (hN : totalW (sup ++ sb) ≤ N)
    (hG : 0 ≤ G (totalW (sup ++ sb))) (hH : G (totalW (sup ++ sb)) ≤ H) (h : SInv G H N d sup E)
    (hw : ∀ e ∈ b, e.weight.toK ≤ H) (hn : ∀ x, Near x b sb F) :
    Partially (d.addCentroidBuffer b) (fun d' => SInv G H N d' (sup ++ sb) (E + F + G (totalW (sup ++ sb)))) := by
  refine (merged d b hd hb).partially.mono ?_
  rintro d' ⟨runs, hm⟩
  have htot : totalW (b ++ d.centroids) = totalW (sup ++ sb) := by rw [totalW_append, totalW_append, hW, hWb, add_comm]
  have h1 : ∀ e ∈ b ++ d.centroids, 1 ≤ e.weight.toK := by
    intro e he
    rcases List.mem_append.1 he with he | he
    · exact hb1 e he
    · exact h.one e he
  have hrun := hm.step h.lim h1 (htot ▸ hN)
  rw [htot] at hrun
  refine ⟨by rw [hm.sf, hm.isf, hm.cf]; exact h.lim, ?_, ?_, ?_⟩
  · intro e he
    rw [hm.cs] at he
    obtain ⟨r, hr, rfl⟩ := List.mem_map.1 he
    show 1 ≤ totalW r
    obtain ⟨e, r', rfl⟩ := List.exists_cons_of_ne_nil (hm.ne r hr)
    rw [totalW_cons]
    have h2 : 1 ≤ e.weight.toK := by
      refine h1 e (hm.perm.mem_iff.1 ?_)
      exact List.mem_flatten.2 ⟨_, hr, by simp⟩
    have := totalW_nonneg (l := r') (fun e' he' => hm.good (e :: r') hr e' (by simp [he']))
    linarith
  · refine hm.weight_le hrun hH ?_
    intro e he
    rcases List.mem_append.1 he with he | he
    · exact hw e he
    · exact h.wt e he
  · intro x
    have hq := hm.drift (D := G (totalW (sup ++ sb))) hG hrun x
    rw [lw_append, uw_append] at hq
    obtain ⟨n1, n2⟩ := hq
    obtain ⟨n3, n4⟩ := h.near x
    obtain ⟨n5, n6⟩ := hn x
    unfold Near
    rw [lw_append, uw_append]
    constructor <;> linarith

theorem run_sinv [FloatFmt.Exact K] {G : K → K} {P M N : K} (hG : ∀ n, n ≤ N → n = 0 ∨ 1 ≤ n → 0 ≤ G n) : ∀ t : TTree K,
    t.Made (LimitStep G N) → t.Peak G P → (∀ e ∈ t.supplied, Good e ∧ InRange e) →
    (∀ e ∈ t.supplied, 1 ≤ e.weight.toK) → (∀ e ∈ t.supplied, e.weight.toK ≤ M) → totalW t.supplied ≤ N →
    Partially t.run (fun d => SInv G (Max.max M P) N d t.supplied (t.cost G))
  | new s i cf, hk, _, _, _, _, _ => ⟨hk, by simp [TDigest.new], by simp [TDigest.new], fun x => by simp [Near, TDigest.new, supplied, cost]⟩
  | ins t o, hk, hP, h, h1, hM, hN => by
    have ht : ∀ e ∈ t.supplied, Good e ∧ InRange e := fun e he => h e (by simp [supplied, he])
    have ho : ∀ e ∈ o.supplied, Good e ∧ InRange e := fun e he => h e (by simp [supplied, he])
    have hsum : totalW (ins t o).supplied = totalW t.supplied + totalW o.supplied := totalW_append _ _
    have := totalW_nonneg (fun e he => (ho e he).1)
    unfold run
    rw [partially_bind]
    refine ((run_inv t ht).partially.and (run_sinv hG t hk hP.1 ht (fun e he => h1 e (by simp [supplied, he]))
      (fun e he => hM e (by simp [supplied, he])) (by linarith))).mono ?_
    rintro d ⟨⟨got, hi, hs⟩, hd⟩
    rw [exec_eq]
    refine (step_sinv (F := 0) hi.good (fun e he => (ho e he).1) (fun e he => h1 e (by simp [supplied, he]))
      (hi.weight.trans hs.weight) rfl hN (hG _ hN (totalW_zero_or h1)) (hP.2.trans (le_max_right _ _)) hd
      (fun e he => le_max_of_le_left (hM e (by simp [supplied, he]))) (fun x => ⟨by simp, by simp⟩)).mono ?_
    intro d' h'
    rw [add_zero] at h'
    exact h'
  | merge a b, hk, hP, h, h1, hM, hN => by
    have ha : ∀ e ∈ a.supplied, Good e ∧ InRange e := fun e he => h e (by simp [supplied, he])
    have hb : ∀ e ∈ b.supplied, Good e ∧ InRange e := fun e he => h e (by simp [supplied, he])
    have hsum : totalW (merge a b).supplied = totalW a.supplied + totalW b.supplied := totalW_append _ _
    have := totalW_nonneg (fun e he => (ha e he).1)
    have := totalW_nonneg (fun e he => (hb e he).1)
    unfold run
    rw [partially_bind]
    refine ((run_inv a ha).partially.and (run_sinv hG a hk.1 hP.1 ha (fun e he => h1 e (by simp [supplied, he]))
      (fun e he => hM e (by simp [supplied, he])) (by linarith))).mono ?_
    rintro d ⟨⟨got, hi, hs⟩, hd⟩
    rw [partially_bind]
    refine ((run_inv b hb).partially.and (run_sinv hG b hk.2 hP.2.1 hb (fun e he => h1 e (by simp [supplied, he]))
      (fun e he => hM e (by simp [supplied, he])) (by linarith))).mono ?_
    rintro e ⟨⟨got', hi', hs'⟩, he⟩
    exact step_sinv hi.good hi'.good he.one (hi.weight.trans hs.weight) (hi'.weight.trans hs'.weight) hN
      (hG _ hN (totalW_zero_or h1)) (hP.2.2.trans (le_max_right _ _)) hd he.wt he.near

/-- A sequence of calls, call by call. -/
theorem ofOps_cost (G : K → K) (s i : ScaleFn K) (cf : Fl K) (ops : List (TOp K)) :
    (ops.foldl .ins (.new s i cf) : TTree K).cost G = ((List.range ops.length).map (fun j => G (totalW (TDigest.supplied (ops.take (j + 1)))))).sum := by
  induction ops using List.reverseRecOn with
  | nil => simp [cost]
  | append_singleton ops o ih =>
    rw [List.foldl_append, List.foldl_cons, List.foldl_nil, cost, ih, List.length_append, List.length_singleton, List.range_succ, List.map_append,
      List.sum_append, List.map_singleton, List.sum_singleton]
    congr 1
    · congr 1
      refine List.map_congr_left fun j hj => ?_
      rw [List.take_append_of_le_length (by have := List.mem_range.1 hj; omega)]
    · rw [List.take_of_length_le (by simp)]
      have := ofOps_supplied (ops ++ [o]) (.new s i cf)
      rw [List.foldl_append, List.foldl_cons, List.foldl_nil] at this
      simp only [supplied, List.nil_append] at this
      rw [← this]

theorem ofOps_peak (G : K → K) (P : K) (s i : ScaleFn K) (cf : Fl K) (ops : List (TOp K))
    (h : ∀ j < ops.length, G (totalW (TDigest.supplied (ops.take (j + 1)))) ≤ P) : (ops.foldl .ins (.new s i cf) : TTree K).Peak G P := by
  induction ops using List.reverseRecOn with
  | nil => exact trivial
  | append_singleton ops o ih =>
    rw [List.foldl_append, List.foldl_cons, List.foldl_nil]
    refine ⟨ih fun j hj => ?_, ?_⟩
    · have := h j (by rw [List.length_append]; omega)
      rwa [List.take_append_of_le_length (by omega)] at this
    · have h1 := h ops.length (by simp)
      rw [List.take_of_length_le (by simp)] at h1
      have := ofOps_supplied (ops ++ [o]) (.new s i cf)
      rw [List.foldl_append, List.foldl_cons, List.foldl_nil] at this
      simp only [supplied, List.nil_append] at this
      rw [this]
      exact h1

theorem half_step {M P w : K} (hM : 1 ≤ M) (h : w ≤ Max.max M P) : w / 2 ≤ Max.max M (P / 2) := by
  rcases le_max_iff.1 h with h | h
  · exact le_max_of_le_left (by linarith)
  · exact le_max_of_le_right (by linarith)

end TTree
end AQ

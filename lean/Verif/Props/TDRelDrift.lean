/-
C137: digests with `k2` or `k3` stay accurate towards both ends through any number of batches and merges (over the real numbers).
-/
import Verif.Proofs.TDRelDrift
import Verif.Proofs.TDBeside
import Verif.Props.TDRelative
import Verif.Proofs.TDShardsRound

set_option linter.unusedSectionVars false
set_option linter.unusedVariables false

namespace AQ
open Prog Spec
section
variable {K : Type} [Field K] [LinearOrder K] [IsStrictOrderedRing K] [FloatFmt K]

namespace Spec

/-- Weight of the clusters at or above `x`. -/
def weightFrom (l : List (Centroid K)) (x : Fl K) : K := ((l.filter (fun c => x ≤ c.mean)).map (fun c => c.weight.toK)).sum

/-- Weight of the clusters above `x`. -/
def weightAbove (l : List (Centroid K)) (x : Fl K) : K := ((l.filter (fun c => x < c.mean)).map (fun c => c.weight.toK)).sum

/-- `c` is a centroid next to `x`: there is no mean strictly between. -/
def Beside (cs : List (Centroid K)) (x : Fl K) (c : Centroid K) : Prop :=
  c ∈ cs ∧ ∀ e ∈ cs, ¬ (c.mean < e.mean ∧ e.mean < x) ∧ ¬ (x < e.mean ∧ e.mean < c.mean)

/-- `r` is the weight below `x`, up to the factor `F` and the summand `H`, counted from either end. -/
structure WeightFactor (l : List (Centroid K)) (r x F H : K) : Prop where
  below : weightBelow l (.fin x) ≤ F * (r + H)
  upTo : r ≤ F * weightUpTo l (.fin x) + H
  from_ : totalW l - r ≤ F * weightFrom l (.fin x) + H
  above : weightAbove l (.fin x) ≤ F * (totalW l - r + H)

end Spec

namespace TDigest

theorem weightFrom_eq (x : K) : ∀ {l : List (Centroid K)}, (∀ c ∈ l, Good c) → weightFrom l (.fin x) = totalW l - lw x l
  | [], _ => by simp [weightFrom]
  | c :: l, h => by
    have ih := weightFrom_eq x (l := l) (fun d hd => h d (by simp [hd]))
    obtain ⟨⟨m, hm⟩, -⟩ := h c (by simp)
    unfold weightFrom at *
    rw [lw_cons, totalW_cons, List.filter_cons, hm, show (Fl.fin m : Fl K).toK = m from rfl]
    by_cases hx : m < x
    · have : ¬ x ≤ m := not_le.2 hx
      simp only [Fl.fin_le_fin, this, decide_false, if_false, ih, hx, if_true, Bool.false_eq_true]
      ring
    · have : x ≤ m := not_lt.1 hx
      simp only [Fl.fin_le_fin, this, decide_true, if_true, List.map_cons, List.sum_cons, ih, hx, if_false]
      ring

theorem weightAbove_eq (x : K) : ∀ {l : List (Centroid K)}, (∀ c ∈ l, Good c) → weightAbove l (.fin x) = totalW l - uw x l
  | [], _ => by simp [weightAbove]
  | c :: l, h => by
    have ih := weightAbove_eq x (l := l) (fun d hd => h d (by simp [hd]))
    obtain ⟨⟨m, hm⟩, -⟩ := h c (by simp)
    unfold weightAbove at *
    rw [uw_cons, totalW_cons, List.filter_cons, hm, show (Fl.fin m : Fl K).toK = m from rfl]
    by_cases hx : m ≤ x
    · have : ¬ x < m := not_lt.2 hx
      simp only [Fl.fin_lt_fin, this, decide_false, if_false, ih, hx, if_true, Bool.false_eq_true]
      ring
    · have : x < m := not_le.1 hx
      simp only [Fl.fin_lt_fin, this, decide_true, if_true, List.map_cons, List.sum_cons, ih, hx, if_false]
      ring

theorem RelNear.factor {x F H r : K} {cs sup : List (Centroid K)} (h : RelNear x cs sup F) (hF : 0 ≤ F) (hs : ∀ c ∈ sup, Good c)
    (hW : totalW cs = totalW sup) (h1 : lw x cs ≤ r + H) (h2 : r ≤ uw x cs + H) : WeightFactor sup r x F H := by
  constructor
  · rw [weightBelow_eq_lw x hs]
    exact h.below.trans (mul_le_mul_of_nonneg_left h1 hF)
  · rw [weightUpTo_eq_uw x hs]
    linarith [h.upTo]
  · rw [weightFrom_eq x hs]
    have := h.from_
    rw [hW] at this
    linarith
  · rw [weightAbove_eq x hs]
    refine h.above.trans (mul_le_mul_of_nonneg_left ?_ hF)
    rw [hW]
    linarith

theorem beside_of_bes {d : TDigest K} {l : List (K × K)} {a b x : K} (hv : View d l a b) {p : K × K} (hp : p ∈ l) (h : Bes l x p) :
    Beside d.centroids (.fin x) (toC p) := by
  rw [hv.cs]
  refine ⟨List.mem_map_of_mem hp, ?_⟩
  intro e he
  obtain ⟨q, hq, rfl⟩ := List.mem_map.1 he
  have := h q hq
  simpa [toC] using this

end TDigest

namespace TTree
open TDigest

theorem TInv.weight_eq [FloatFmt.Exact K] {d : TDigest K} {sup : List (Centroid K)} (hi : TInv d sup) (hne : sup ≠ []) : totalW d.centroids = totalW sup := by
  obtain ⟨l, a, b, hv, hwt, hcl, -⟩ := hi.view hne
  rw [hv.cs, totalW_toC, hwt]

/-- What queries answer, in terms of the centroids next to the point. -/
theorem _root_.AQ.TDigest.View.queries [FloorRing K] [FloatFmt.Exact K] {d : TDigest K} {l : List (K × K)} {a b W : K} (hv : View d l a b) (hwt : wt l = W)
    (hw1 : ∀ p ∈ l, 1 ≤ p.2) (h64 : W < 2 ^ 64) :
    (∀ x : K, ∃ e : K, d.estQuantileAtValue (.fin x) = .ret (.fin e) ∧
      ∀ H : K, 1 ≤ H → (∀ a, Beside d.centroids (.fin x) a → a.weight ≤ .fin (2 * H)) →
        lw x d.centroids ≤ W * e + H ∧ W * e ≤ uw x d.centroids + H) ∧
    ∀ (last : Centroid K) (q : K), d.centroids.getLast? = some last → 0 ≤ q → q ≤ 1 → ¬ InLastTail W last.weight.toK q →
      ∃ v : K, d.estValueAtQuantile (.fin q) = .ret (.fin v) ∧
        ∀ H : K, 1 ≤ H → (∀ a, Beside d.centroids (.fin v) a → a.weight ≤ .fin (2 * H)) →
          lw v d.centroids ≤ W * q + H ∧ W * q ≤ uw v d.centroids + H := by
  have half : ∀ (x H : K), (∀ a, Beside d.centroids (.fin x) a → a.weight ≤ .fin (2 * H)) → ∀ p ∈ l, Bes l x p → p.2 / 2 ≤ H := by
    intro x H h p hp hb
    have := h _ (beside_of_bes hv hp hb)
    have h1 : p.2 ≤ 2 * H := by simpa [toC] using this
    linarith
  refine ⟨fun x => ?_, fun last q hlast h0 h1 ht => ?_⟩
  · obtain ⟨e, h1, -⟩ := view_quantile hv (H := Max.max 1 (wt l)) (le_max_left _ _) (fun p hp => by
      have : p.2 ≤ wt l := by
        have hp0 := hv.pos
        clear hv hw1 half hwt
        induction l with
        | nil => simp at hp
        | cons q l ih =>
          rw [wt_cons]
          have hl0 : 0 ≤ wt l := by
            by_cases hl : l = []
            · subst hl; simp
            · exact (wt_pos (fun p hp => hp0 p (by simp [hp])) hl).le
          rcases List.mem_cons.1 hp with rfl | hp
          · linarith
          · have := ih hp (fun p hp => hp0 p (by simp [hp]))
            have := hp0 q (by simp)
            linarith
      have := hv.pos p hp
      exact le_max_of_le_right (by linarith)) x
    refine ⟨e, h1, fun H hH hb => ?_⟩
    obtain ⟨e', h2, h3, h4⟩ := view_quantile_beside hv hH (half x H hb)
    rw [h1] at h2
    simp only [Prog.ret.injEq, Fl.fin.injEq] at h2
    subst h2
    rw [hwt] at h3 h4
    exact ⟨h3, h4⟩
  · have hlst : d.centroids.getLast? = some (toC (l.getLast hv.ne)) := by
      rw [hv.cs, List.getLast?_map, List.getLast?_eq_some_getLast hv.ne]; rfl
    rw [hlst, Option.some.injEq] at hlast
    subst hlast
    have hW0 := wt_pos hv.pos hv.ne
    rw [← hwt] at ht h64
    obtain ⟨v, h2, h3⟩ := estV_beside (a := a) (b := b) (t := wt l * q) hv.ne hv.sorted hw1 hv.lo hv.hi (mul_nonneg hW0.le h0)
      (mul_le_of_le_one_right hW0.le h1) ht
    refine ⟨v, by rw [estValue_eq hv hw1 h64, h2], fun H hH hb => ?_⟩
    obtain ⟨h4, h5⟩ := h3 H hH (half v H hb)
    rw [← hv.cs, hwt] at h4 h5
    exact ⟨h4, h5⟩

theorem TInv.queries [FloorRing K] [FloatFmt.Exact K] {d : TDigest K} {sup : List (Centroid K)} (hi : TInv d sup) (hne : sup ≠ [])
    (hw : ∀ e ∈ sup, 1 ≤ e.weight.toK) (h64 : totalW sup < 2 ^ 64) :
    (∀ x : K, ∃ e : K, d.estQuantileAtValue (.fin x) = .ret (.fin e) ∧
      ∀ H : K, 1 ≤ H → (∀ a, Beside d.centroids (.fin x) a → a.weight ≤ .fin (2 * H)) →
        lw x d.centroids ≤ totalW sup * e + H ∧ totalW sup * e ≤ uw x d.centroids + H) ∧
    ∀ (last : Centroid K) (q : K), d.centroids.getLast? = some last → 0 ≤ q → q ≤ 1 → ¬ InLastTail (totalW sup) last.weight.toK q →
      ∃ v : K, d.estValueAtQuantile (.fin q) = .ret (.fin v) ∧
        ∀ H : K, 1 ≤ H → (∀ a, Beside d.centroids (.fin v) a → a.weight ≤ .fin (2 * H)) →
          lw v d.centroids ≤ totalW sup * q + H ∧ totalW sup * q ≤ uw v d.centroids + H := by
  obtain ⟨l, a, b, hv, hwt, hcl, -⟩ := hi.view hne
  exact hv.queries hwt (hcl _ one_le_closed hw) h64

theorem rel_queries [FloorRing K] [FloatFmt.Exact K] {s i : ScaleFn K} {cf : Fl K} {c M : K} (hc : 0 ≤ c) (t : TTree K)
    (hl : LimitRel s i cf c (totalW t.supplied)) (hk : t.Uniform s i cf) (hne : t.supplied ≠ []) (hg : ∀ e ∈ t.supplied, Good e ∧ InRange e)
    (hw : ∀ e ∈ t.supplied, 1 ≤ e.weight.toK) (h64 : totalW t.supplied < 2 ^ 64) (hM : ∀ e ∈ t.supplied, e.weight.toK ≤ M) :
    Always t.run (fun d =>
      (∀ x : K, ∃ e : K, d.estQuantileAtValue (.fin x) = .ret (.fin e) ∧
        ∀ H : K, 1 ≤ H → (∀ a, Beside d.centroids (.fin x) a → a.weight ≤ .fin (2 * H)) →
          WeightFactor t.supplied (totalW t.supplied * e) x ((1 + c) ^ t.depth) H) ∧
      (∀ (last : Centroid K) (q : K), d.centroids.getLast? = some last → 0 ≤ q → q ≤ 1 → ¬ InLastTail (totalW t.supplied) last.weight.toK q →
        ∃ v : K, d.estValueAtQuantile (.fin q) = .ret (.fin v) ∧
          ∀ H : K, 1 ≤ H → (∀ a, Beside d.centroids (.fin v) a → a.weight ≤ .fin (2 * H)) →
            WeightFactor t.supplied (totalW t.supplied * q) v ((1 + c) ^ t.depth) H) ∧
      ∀ a ∈ d.centroids, a.weight ≤ .fin (Max.max M (totalW t.supplied * (c / (2 + c))))) := by
  have hF : (0 : K) ≤ (1 + c) ^ t.depth := by positivity
  have hgs : ∀ e ∈ t.supplied, Good e := fun e he => (hg e he).1
  refine (((run_inv t hg).and (run_rel hc hl t hk hg hw le_rfl)).and (run_rel_weight hc hl t hk hg hw le_rfl hM)).mono ?_
  rintro d ⟨⟨hi, hd⟩, hdw⟩
  obtain ⟨hq, hv⟩ := hi.queries hne hw h64
  have hgood := hi.good
  have hW := hi.weight_eq hne
  refine ⟨fun x => ?_, fun last q hlast h0 h1 ht => ?_, fun e he => ?_⟩
  · obtain ⟨e, h1, h2⟩ := hq x
    refine ⟨e, h1, fun H hH hb => ?_⟩
    obtain ⟨h3, h4⟩ := h2 H hH hb
    exact (hd x).factor hF hgs hW h3 h4
  · obtain ⟨v, h2, h3⟩ := hv last q hlast h0 h1 ht
    refine ⟨v, h2, fun H hH hb => ?_⟩
    obtain ⟨h4, h5⟩ := h3 H hH hb
    exact (hd v).factor hF hgs hW h4 h5
  · have := hdw e he
    obtain ⟨-, w, hw', he'⟩ := hgood e he
    rw [he'] at this ⊢
    exact Fl.fin_le_fin.2 this

end TTree
end

section
variable [FloatFmt ℝ] [FloatFmt.Exact ℝ]

theorem TDigest.k2_limitRel {δ N : ℝ} (h0 : 0 < δ) (h5 : δ ≤ 10 ^ 5) (hN : 1 ≤ N) :
    TDigest.LimitRel k2 invK2 (.fin δ) ((10 : ℝ) ^ ((4 * Real.logb 10 (N / δ) + 24) / δ) - 1) N := by
  intro n a w b hn ha hw hb hs h
  have hn1 : 1 ≤ n := by linarith
  have h1 : 0 < ScaleR.norm δ n 24 := norm_pos_of 5 h0 hn1 (by norm_num) h5
  obtain ⟨h2, h3⟩ := TDigest.k2_run h0 h1 ha hw hb hs h
  have h4 : ScaleR.norm δ n 24 ≤ ScaleR.norm δ N 24 := by
    rw [norm_split 24 h0 (by linarith), norm_split 24 h0 (by linarith)]
    have := Real.logb_le_logb_of_le (b := 10) (by norm_num) (by linarith) hn
    linarith
  have h5 : (10 : ℝ) ^ (ScaleR.norm δ n 24 / δ) - 1 ≤ (10 : ℝ) ^ ((4 * Real.logb 10 (N / δ) + 24) / δ) - 1 := by
    have : (10 : ℝ) ^ (ScaleR.norm δ n 24 / δ) ≤ (10 : ℝ) ^ (ScaleR.norm δ N 24 / δ) :=
      Real.rpow_le_rpow_of_exponent_le (by norm_num) ((div_le_div_iff_of_pos_right h0).2 h4)
    exact sub_le_sub_right this 1
  exact ⟨h2.trans (mul_le_mul_of_nonneg_right h5 ha), h3.trans (mul_le_mul_of_nonneg_right h5 hb)⟩

theorem TDigest.k3_limitRel {δ N : ℝ} (h0 : 0 < δ) (h5 : δ ≤ 10 ^ 5) (hN : 1 ≤ N) :
    TDigest.LimitRel k3 invK3 (.fin δ) ((10 : ℝ) ^ ((4 * Real.logb 10 (N / δ) + 21) / δ) - 1) N := by
  intro n a w b hn ha hw hb hs h
  have hn1 : 1 ≤ n := by linarith
  have h1 : 0 < ScaleR.norm δ n 21 := norm_pos_of 5 h0 hn1 (by norm_num) h5
  obtain ⟨h2, h3⟩ := TDigest.k3_run h0 h1 ha hw hb hs h
  have h4 : ScaleR.norm δ n 21 ≤ ScaleR.norm δ N 21 := by
    rw [norm_split 21 h0 (by linarith), norm_split 21 h0 (by linarith)]
    have := Real.logb_le_logb_of_le (b := 10) (by norm_num) (by linarith) hn
    linarith
  have h5 : (10 : ℝ) ^ (ScaleR.norm δ n 21 / δ) - 1 ≤ (10 : ℝ) ^ ((4 * Real.logb 10 (N / δ) + 21) / δ) - 1 := by
    have : (10 : ℝ) ^ (ScaleR.norm δ n 21 / δ) ≤ (10 : ℝ) ^ (ScaleR.norm δ N 21 / δ) :=
      Real.rpow_le_rpow_of_exponent_le (by norm_num) ((div_le_div_iff_of_pos_right h0).2 h4)
    exact sub_le_sub_right this 1
  exact ⟨h2.trans (mul_le_mul_of_nonneg_right h5 ha), h3.trans (mul_le_mul_of_nonneg_right h5 hb)⟩

/-- What C137 says about a digest `d` given the clusters `sup` in passes of depth `m`, with the factor `r` per pass. -/
def Spec.RelAccurate (sup : List (Centroid ℝ)) (r M : ℝ) (m : Nat) (d : TDigest ℝ) : Prop :=
  (∀ x : ℝ, ∃ e : ℝ, d.estQuantileAtValue (.fin x) = .ret (.fin e) ∧
    ∀ H : ℝ, 1 ≤ H → (∀ a, Beside d.centroids (.fin x) a → a.weight ≤ .fin (2 * H)) → WeightFactor sup (totalW sup * e) x (r ^ m) H) ∧
  (∀ (last : Centroid ℝ) (q : ℝ), d.centroids.getLast? = some last → 0 ≤ q → q ≤ 1 → ¬ InLastTail (totalW sup) last.weight.toK q →
    ∃ v : ℝ, d.estValueAtQuantile (.fin q) = .ret (.fin v) ∧
      ∀ H : ℝ, 1 ≤ H → (∀ a, Beside d.centroids (.fin v) a → a.weight ≤ .fin (2 * H)) → WeightFactor sup (totalW sup * q) v (r ^ m) H) ∧
  ∀ a ∈ d.centroids, a.weight ≤ .fin (Max.max M (totalW sup * ((r - 1) / (r + 1))))

theorem TTree.one_le_totalW {t : TTree ℝ} (hne : t.supplied ≠ []) (hg : ∀ e ∈ t.supplied, Good e) (hw : ∀ e ∈ t.supplied, 1 ≤ e.weight.toK) :
    1 ≤ totalW t.supplied := by
  obtain ⟨e, l, he⟩ := List.exists_cons_of_ne_nil hne
  rw [he] at hg hw ⊢
  rw [totalW_cons]
  have := hw e (by simp)
  have := totalW_nonneg (l := l) (fun e' he' => hg e' (by simp [he']))
  linarith

/-- C137 with `k2`: however digests with `k2` and the compression factor `δ` were filled and merged, with `W` the whole weight and
`r = 10^((4·log10(W/δ)+24)/δ)` the rank of `x` that a quantile query answers, as a weight, is that of the data up to the factor `r^depth`, counted from either
end, and half the weight of the centroids next to `x`; the same for the value found for a quantile. No centroid is heavier than
`W·(r-1)/(r+1)` (or a supplied cluster). -/
theorem C137_k2 (δ : ℝ) (h0 : 0 < δ) (h5 : δ ≤ 10 ^ 5) (t : TTree ℝ) (hk : t.Uniform k2 invK2 (.fin δ)) (hne : t.supplied ≠ [])
    (hg : ∀ e ∈ t.supplied, Good e ∧ InRange e) (hw : ∀ e ∈ t.supplied, 1 ≤ e.weight.toK) (h64 : totalW t.supplied < 2 ^ 64)
    (M : ℝ) (hM : ∀ e ∈ t.supplied, e.weight.toK ≤ M) (r : ℝ) (hr : r = (10 : ℝ) ^ ((4 * Real.logb 10 (totalW t.supplied / δ) + 24) / δ)) :
    Always t.run (RelAccurate t.supplied r M t.depth) := by
  have hW := TTree.one_le_totalW hne (fun e he => (hg e he).1) hw
  have h1 : 1 ≤ r := by
    rw [hr]
    refine Real.one_le_rpow (by norm_num) (div_nonneg ?_ h0.le)
    exact (norm_pos_of (c := 24) 5 h0 hW (by norm_num) h5).le
  have hl := TDigest.k2_limitRel h0 h5 hW
  rw [← hr] at hl
  have := TTree.rel_queries (c := r - 1) (by linarith) t hl hk hne hg hw h64 hM
  rw [show 1 + (r - 1) = r by ring, show 2 + (r - 1) = r + 1 by ring] at this
  exact this

/-- C137 with `k3` (the constant 24 becomes 21). -/
theorem C137_k3 (δ : ℝ) (h0 : 0 < δ) (h5 : δ ≤ 10 ^ 5) (t : TTree ℝ) (hk : t.Uniform k3 invK3 (.fin δ)) (hne : t.supplied ≠ [])
    (hg : ∀ e ∈ t.supplied, Good e ∧ InRange e) (hw : ∀ e ∈ t.supplied, 1 ≤ e.weight.toK) (h64 : totalW t.supplied < 2 ^ 64)
    (M : ℝ) (hM : ∀ e ∈ t.supplied, e.weight.toK ≤ M) (r : ℝ) (hr : r = (10 : ℝ) ^ ((4 * Real.logb 10 (totalW t.supplied / δ) + 21) / δ)) :
    Always t.run (RelAccurate t.supplied r M t.depth) := by
  have hW := TTree.one_le_totalW hne (fun e he => (hg e he).1) hw
  have h1 : 1 ≤ r := by
    rw [hr]
    refine Real.one_le_rpow (by norm_num) (div_nonneg ?_ h0.le)
    exact (norm_pos_of (c := 21) 5 h0 hW (by norm_num) h5).le
  have hl := TDigest.k3_limitRel h0 h5 hW
  rw [← hr] at hl
  have := TTree.rel_queries (c := r - 1) (by linarith) t hl hk hne hg hw h64 hM
  rw [show 1 + (r - 1) = r by ring, show 2 + (r - 1) = r + 1 by ring] at this
  exact this

/-- C137 for a history of `B` insertion calls on one digest: the factor is `r^B`. -/
theorem C137_history_k2 (δ : ℝ) (h0 : 0 < δ) (h5 : δ ≤ 10 ^ 5) (ops : List (TDigest.TOp ℝ)) (hne : TDigest.supplied ops ≠ [])
    (hg : ∀ e ∈ TDigest.supplied ops, Good e ∧ InRange e) (hw : ∀ e ∈ TDigest.supplied ops, 1 ≤ e.weight.toK)
    (h64 : totalW (TDigest.supplied ops) < 2 ^ 64) (M : ℝ) (hM : ∀ e ∈ TDigest.supplied ops, e.weight.toK ≤ M) (r : ℝ)
    (hr : r = (10 : ℝ) ^ ((4 * Real.logb 10 (totalW (TDigest.supplied ops) / δ) + 24) / δ)) :
    Always ((TDigest.new k2 invK2 (.fin δ)).execOps ops) (RelAccurate (TDigest.supplied ops) r M ops.length) := by
  have e1 := TTree.ofOps_supplied ops (.new k2 invK2 (.fin δ))
  have e2 := TTree.ofOps_depth ops (.new k2 invK2 (.fin δ))
  have e3 := TTree.run_ofOps ops (.new k2 invK2 (.fin δ))
  have e4 : (TTree.new k2 invK2 (.fin δ) : TTree ℝ).supplied = [] := rfl
  have e5 : (TTree.new k2 invK2 (.fin δ) : TTree ℝ).depth = 0 := rfl
  rw [e4, List.nil_append] at e1
  rw [e5, zero_add] at e2
  have := C137_k2 δ h0 h5 (ops.foldl .ins (.new k2 invK2 (.fin δ))) (TTree.ofOps_uniform ops _ ⟨rfl, rfl, rfl⟩) (by rw [e1]; exact hne)
    (by rw [e1]; exact hg) (by rw [e1]; exact hw) (by rw [e1]; exact h64) M (by rw [e1]; exact hM) r (by rw [e1]; exact hr)
  rw [e1, e2, e3] at this
  exact this

/-- The same with `k3`. -/
theorem C137_history_k3 (δ : ℝ) (h0 : 0 < δ) (h5 : δ ≤ 10 ^ 5) (ops : List (TDigest.TOp ℝ)) (hne : TDigest.supplied ops ≠ [])
    (hg : ∀ e ∈ TDigest.supplied ops, Good e ∧ InRange e) (hw : ∀ e ∈ TDigest.supplied ops, 1 ≤ e.weight.toK)
    (h64 : totalW (TDigest.supplied ops) < 2 ^ 64) (M : ℝ) (hM : ∀ e ∈ TDigest.supplied ops, e.weight.toK ≤ M) (r : ℝ)
    (hr : r = (10 : ℝ) ^ ((4 * Real.logb 10 (totalW (TDigest.supplied ops) / δ) + 21) / δ)) :
    Always ((TDigest.new k3 invK3 (.fin δ)).execOps ops) (RelAccurate (TDigest.supplied ops) r M ops.length) := by
  have e1 := TTree.ofOps_supplied ops (.new k3 invK3 (.fin δ))
  have e2 := TTree.ofOps_depth ops (.new k3 invK3 (.fin δ))
  have e3 := TTree.run_ofOps ops (.new k3 invK3 (.fin δ))
  have e4 : (TTree.new k3 invK3 (.fin δ) : TTree ℝ).supplied = [] := rfl
  have e5 : (TTree.new k3 invK3 (.fin δ) : TTree ℝ).depth = 0 := rfl
  rw [e4, List.nil_append] at e1
  rw [e5, zero_add] at e2
  have := C137_k3 δ h0 h5 (ops.foldl .ins (.new k3 invK3 (.fin δ))) (TTree.ofOps_uniform ops _ ⟨rfl, rfl, rfl⟩) (by rw [e1]; exact hne)
    (by rw [e1]; exact hg) (by rw [e1]; exact hw) (by rw [e1]; exact h64) M (by rw [e1]; exact hM) r (by rw [e1]; exact hr)
  rw [e1, e2, e3] at this
  exact this

/-- Items `0, …, 499` for either of two shards. -/
noncomputable def relShard (j : Nat) : List (Fl ℝ) := (List.range 500).map (fun k => .fin ((500 * j + k : ℕ) : ℝ))

end

/-- Non-vacuity: two shards of 500 items each, merged, with `δ = 1000`; the factor per pass is at most 6/5, no centroid is heavier than 91 items. -/
theorem C137_example : let _ := realExact; let _ := realExact_exact;
    Always (TTree.shards k2 invK2 (.fin (1000 : ℝ)) 1 relShard).run (fun d => ∃ r ≤ (6 / 5 : ℝ),
      RelAccurate (TTree.shards k2 invK2 (.fin (1000 : ℝ)) 1 relShard).supplied r 1 2 d) := by
  intro i1 i2
  have hsup := TTree.shards_supplied (k2 : ScaleFn ℝ) invK2 (.fin (1000 : ℝ)) 1 relShard
  have hdep := TTree.shards_depth (k2 : ScaleFn ℝ) invK2 (.fin (1000 : ℝ)) 1 relShard
  have hu := TTree.shards_uniform (k2 : ScaleFn ℝ) invK2 (.fin (1000 : ℝ)) 1 relShard
  generalize TTree.shards k2 invK2 (.fin (1000 : ℝ)) 1 relShard = t at hsup hdep hu ⊢
  have hlen : ((List.range (2 ^ 1)).flatMap relShard).length = 1000 := by
    have h : ∀ j, (relShard j).length = 500 := fun j => by rw [relShard, List.length_map, List.length_range]
    rw [show List.range (2 ^ 1) = [0, 1] from rfl, List.flatMap_cons, List.flatMap_cons, List.flatMap_nil, List.length_append, List.length_append, h, h]
    rfl
  have hW : totalW t.supplied = 1000 := by
    rw [hsup, TDigest.totalW_items, hlen]; norm_num
  have hit : ∀ x ∈ (List.range (2 ^ 1)).flatMap relShard, Item x := by
    intro x hx
    obtain ⟨j, hj, hx⟩ := List.mem_flatMap.1 hx
    obtain ⟨k, hk, rfl⟩ := List.mem_map.1 hx
    have hj' : j < 2 := by simpa using List.mem_range.1 hj
    have hk' := List.mem_range.1 hk
    have h1 : ((500 * j + k : ℕ) : ℝ) ≤ 1000 := by exact_mod_cast (by omega : 500 * j + k ≤ 1000)
    have h2 : (1000 : ℝ) ≤ 10 ^ 300 := by
      calc (1000 : ℝ) = 10 ^ 3 := by norm_num
        _ ≤ 10 ^ 300 := pow_le_pow_right₀ (by norm_num) (by norm_num)
    have h3 : (0 : ℝ) ≤ ((500 * j + k : ℕ) : ℝ) := Nat.cast_nonneg _
    refine ⟨⟨_, rfl⟩, ?_, h1.trans h2⟩
    show -((10 : ℝ) ^ 300) ≤ _
    have : (0 : ℝ) ≤ 10 ^ 300 := by positivity
    exact (neg_nonpos.2 this).trans h3
  have hall : ∀ e ∈ t.supplied, ∃ x, Item x ∧ e = ⟨x, .fin 1⟩ := by
    intro e he
    rw [hsup] at he
    obtain ⟨x, hx, rfl⟩ := List.mem_map.1 he
    exact ⟨x, hit x hx, rfl⟩
  have h := C137_k2 1000 (by norm_num) (by norm_num) t hu (by
      intro h
      rw [h] at hW
      simp at hW) (by
      intro e he
      obtain ⟨x, hx, rfl⟩ := hall e he
      exact ⟨⟨hx.1, 1, zero_lt_one, rfl⟩, hx.2⟩) (by
      intro e he
      obtain ⟨x, hx, rfl⟩ := hall e he
      exact le_of_eq rfl) (by rw [hW]; norm_num) 1 (by
      intro e he
      obtain ⟨x, hx, rfl⟩ := hall e he
      exact le_of_eq rfl) _ rfl
  rw [hdep, show (1 : ℕ) + 1 = 2 from rfl] at h
  have hr : (10 : ℝ) ^ ((4 * Real.logb 10 (totalW t.supplied / 1000) + 24) / 1000) ≤ 6 / 5 := ?_
  · generalize (10 : ℝ) ^ ((4 * Real.logb 10 (totalW t.supplied / 1000) + 24) / 1000) = r at h hr
    exact Always.mono h (fun d hd => ⟨r, hr, hd⟩)
  rw [hW, div_self (by norm_num), Real.logb_one, mul_zero, zero_add]
  have h : ((10 : ℝ) ^ ((24 : ℝ) / 1000)) ^ (1000 / 24 : ℝ) ≤ (6 / 5 : ℝ) ^ (1000 / 24 : ℝ) := by
    rw [← Real.rpow_mul (by norm_num)]
    norm_num
    calc (10 : ℝ) ≤ (6 / 5 : ℝ) ^ (40 : ℕ) := by norm_num
      _ = (6 / 5 : ℝ) ^ (40 : ℝ) := by norm_num
      _ ≤ _ := Real.rpow_le_rpow_of_exponent_le (by norm_num) (by norm_num)
  exact (Real.rpow_le_rpow_iff (by positivity) (by norm_num) (by norm_num)).1 h

end AQ

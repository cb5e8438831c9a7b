/-
Passes whose runs are light compared with both sides change the ranks of the represented data by a factor only, at both ends.
-/
import Verif.Proofs.TDShards
import Verif.Proofs.TDRelative

set_option linter.unusedSectionVars false
set_option linter.unusedVariables false

namespace AQ
open Prog Spec
variable {K : Type} [Field K] [LinearOrder K] [IsStrictOrderedRing K] [FloatFmt K]
namespace TDigest

/-- Merging neighbours: the weight below `x` does not drop, or one run of several members is in the way. -/
theorem lw_split {x : K} : ∀ (runs : List (List (Centroid K))), (∀ r ∈ runs, r ≠ []) → (∀ r ∈ runs, ∀ c ∈ r, Good c) →
    runs.flatten.Pairwise (fun a b => a.mean.toK ≤ b.mean.toK) →
    lw x runs.flatten ≤ lw x (runs.map weightedMean) ∨ ∃ pre r post, runs = pre ++ r :: post ∧ 2 ≤ r.length ∧
      totalW pre.flatten ≤ lw x (runs.map weightedMean) ∧ lw x runs.flatten ≤ totalW pre.flatten + totalW r
  | [], _, _, _ => by left; simp
  | r :: rs, hne, hg, hs => by
    have hrg := hg r (by simp)
    have hrn := hne r (by simp)
    rw [List.flatten_cons, List.pairwise_append] at hs
    obtain ⟨s1, s2, s3⟩ := hs
    rw [List.flatten_cons, lw_append, List.map_cons, lw_cons]
    have h2 := (lw_range (x := x) (l := rs.map weightedMean) (by
      intro d hd
      obtain ⟨q, hq, rfl⟩ := List.mem_map.1 hd
      exact weightedMean_good (hg q (by simp [hq])) (hne q (by simp [hq])))).1
    have h3 : 0 ≤ (if (weightedMean r).mean.toK < x then (weightedMean r).weight.toK else 0) := by
      split
      · exact (weightedMean_good hrg hrn).weight_pos.le
      · exact le_refl _
    by_cases hall : ∀ c ∈ r, c.mean.toK < x
    · have hm : (weightedMean r).mean.toK < x := by
        by_contra hc
        obtain ⟨c, hc1, hc2⟩ := exists_ge_of_mean hrg hrn hc
        exact absurd (hall c hc1) (not_lt.2 hc2)
      rw [lw_full hall, if_pos hm]
      have e : (weightedMean r).weight.toK = totalW r := rfl
      rw [e]
      rcases lw_split (x := x) rs (fun q hq => hne q (by simp [hq])) (fun q hq => hg q (by simp [hq])) s2 with h | ⟨pre, q, post, he, hl, h4, h5⟩
      · left; linarith
      · refine Or.inr ⟨r :: pre, q, post, by rw [he]; rfl, hl, ?_, ?_⟩
        · rw [List.flatten_cons, totalW_append]; linarith
        · rw [List.flatten_cons, totalW_append]; linarith
    · push Not at hall
      obtain ⟨c, hc1, hc2⟩ := hall
      rw [lw_zero (l := rs.flatten) (fun d hd => hc2.trans (s3 c hc1 d hd)), add_zero]
      by_cases h4 : 2 ≤ r.length
      · refine Or.inr ⟨[], r, rs, rfl, h4, ?_, ?_⟩
        · simp only [List.flatten_nil, totalW_nil]; linarith
        · simp only [List.flatten_nil, totalW_nil, zero_add]; exact (lw_range hrg).2
      · left
        obtain ⟨e, rfl⟩ : ∃ e, r = [e] := by
          match r, hrn, h4 with
          | [e], _, _ => exact ⟨e, rfl⟩
          | _ :: _ :: _, _, h => simp at h
        rw [List.mem_singleton] at hc1
        subst hc1
        rw [lw_zero (by simpa using hc2)]
        linarith

/-- The same for the weight up to `x`. -/
theorem uw_split {x : K} : ∀ (runs : List (List (Centroid K))), (∀ r ∈ runs, r ≠ []) → (∀ r ∈ runs, ∀ c ∈ r, Good c) →
    runs.flatten.Pairwise (fun a b => a.mean.toK ≤ b.mean.toK) →
    uw x (runs.map weightedMean) ≤ uw x runs.flatten ∨ ∃ pre r post, runs = pre ++ r :: post ∧ 2 ≤ r.length ∧
      totalW pre.flatten ≤ uw x runs.flatten ∧ uw x (runs.map weightedMean) ≤ totalW pre.flatten + totalW r
  | [], _, _, _ => by left; simp
  | r :: rs, hne, hg, hs => by
    have hrg := hg r (by simp)
    have hrn := hne r (by simp)
    rw [List.flatten_cons, List.pairwise_append] at hs
    obtain ⟨s1, s2, s3⟩ := hs
    rw [List.flatten_cons, uw_append, List.map_cons, uw_cons]
    have h2 := (uw_range (x := x) hrg).1
    have h3 := (uw_range (x := x) (l := rs.flatten) (by
      intro d hd
      obtain ⟨q, hq, hd⟩ := List.mem_flatten.1 hd
      exact hg q (by simp [hq]) d hd)).1
    have e : (weightedMean r).weight.toK = totalW r := rfl
    by_cases hall : ∀ c ∈ r, c.mean.toK ≤ x
    · have hm : (weightedMean r).mean.toK ≤ x := weightedMean_le hrg hrn hall
      rw [uw_full hall, if_pos hm, e]
      rcases uw_split (x := x) rs (fun q hq => hne q (by simp [hq])) (fun q hq => hg q (by simp [hq])) s2 with h | ⟨pre, q, post, he, hl, h4, h5⟩
      · left; linarith
      · refine Or.inr ⟨r :: pre, q, post, by rw [he]; rfl, hl, ?_, ?_⟩
        · rw [List.flatten_cons, totalW_append]; linarith
        · rw [List.flatten_cons, totalW_append]; linarith
    · push Not at hall
      obtain ⟨c, hc1, hc2⟩ := hall
      have hz : uw x (rs.map weightedMean) = 0 := by
        apply uw_zero
        intro d hd
        obtain ⟨q, hq, rfl⟩ := List.mem_map.1 hd
        exact hc2.trans_le (le_weightedMean (hg q (by simp [hq])) (hne q (by simp [hq]))
          (fun e he => s3 c hc1 e (List.mem_flatten.2 ⟨q, hq, he⟩)))
      rw [hz, add_zero]
      by_cases h4 : 2 ≤ r.length
      · refine Or.inr ⟨[], r, rs, rfl, h4, ?_, ?_⟩
        · simp only [List.flatten_nil, totalW_nil]; linarith
        · simp only [List.flatten_nil, totalW_nil, zero_add]
          split
          · exact le_of_eq e
          · exact totalW_nonneg hrg
      · left
        obtain ⟨e, rfl⟩ : ∃ e, r = [e] := by
          match r, hrn, h4 with
          | [e], _, _ => exact ⟨e, rfl⟩
          | _ :: _ :: _, _, h => simp at h
        rw [List.mem_singleton] at hc1
        subst hc1
        rw [if_neg]
        · linarith
        · exact not_le.2 (hc2.trans_le (le_weightedMean hrg hrn (by simp)))

/-- Every run of several members weighs at most `c` times what is left of it and at most `c` times what is right of it. -/
def RelRuns (c : K) (runs : List (List (Centroid K))) : Prop :=
  ∀ pre r post, runs = pre ++ r :: post → 2 ≤ r.length → totalW r ≤ c * totalW pre.flatten ∧ totalW r ≤ c * totalW post.flatten

/-- The centroids represent what was supplied up to the factor `F`, counted from either end. -/
structure RelNear (x : K) (cs sup : List (Centroid K)) (F : K) : Prop where
  below : lw x sup ≤ F * lw x cs
  upTo : uw x cs ≤ F * uw x sup
  from_ : totalW cs - lw x cs ≤ F * (totalW sup - lw x sup)
  above : totalW sup - uw x sup ≤ F * (totalW cs - uw x cs)

theorem RelNear.mono {x F F' : K} {cs sup : List (Centroid K)} (h : RelNear x cs sup F) (hF : F ≤ F') (hc : ∀ c ∈ cs, Good c) (hs : ∀ c ∈ sup, Good c) :
    RelNear x cs sup F' := by
  obtain ⟨a1, a2⟩ := lw_range (x := x) hc
  obtain ⟨b1, b2⟩ := uw_range (x := x) hc
  obtain ⟨a3, a4⟩ := lw_range (x := x) hs
  obtain ⟨b3, b4⟩ := uw_range (x := x) hs
  exact ⟨h.below.trans (mul_le_mul_of_nonneg_right hF a1), h.upTo.trans (mul_le_mul_of_nonneg_right hF b3),
    h.from_.trans (mul_le_mul_of_nonneg_right hF (by linarith)), h.above.trans (mul_le_mul_of_nonneg_right hF (by linarith))⟩

theorem RelNear.append {x F : K} {a b sa sb : List (Centroid K)} (h : RelNear x a sa F) (h' : RelNear x b sb F) :
    RelNear x (a ++ b) (sa ++ sb) F := by
  obtain ⟨h1, h2, h3, h4⟩ := h
  obtain ⟨k1, k2, k3, k4⟩ := h'
  constructor <;> simp only [lw_append, uw_append, totalW_append, mul_add, mul_sub] at * <;> linarith

theorem RelNear.trans {x F G : K} {a b c : List (Centroid K)} (hG : 0 ≤ G) (hF : 0 ≤ F) (h : RelNear x a b F) (h' : RelNear x b c G) :
    RelNear x a c (G * F) := by
  constructor
  · calc _ ≤ G * lw x b := h'.below
      _ ≤ G * (F * lw x a) := mul_le_mul_of_nonneg_left h.below hG
      _ = _ := by ring
  · calc _ ≤ F * uw x b := h.upTo
      _ ≤ F * (G * uw x c) := mul_le_mul_of_nonneg_left h'.upTo hF
      _ = _ := by ring
  · calc _ ≤ F * (totalW b - lw x b) := h.from_
      _ ≤ F * (G * (totalW c - lw x c)) := mul_le_mul_of_nonneg_left h'.from_ hF
      _ = _ := by ring
  · calc _ ≤ G * (totalW b - uw x b) := h'.above
      _ ≤ G * (F * (totalW a - uw x a)) := mul_le_mul_of_nonneg_left h.above hG
      _ = _ := by ring

theorem RelNear.refl (x : K) (l : List (Centroid K)) : RelNear x l l 1 :=
  ⟨by rw [one_mul], by rw [one_mul], by rw [one_mul], by rw [one_mul]⟩

theorem RelNear.perm {x F : K} {a b b' : List (Centroid K)} (h : RelNear x a b F) (hp : b.Perm b') : RelNear x a b' F := by
  have e : totalW b = totalW b' := (hp.map _).sum_eq
  exact ⟨by rw [← lw_perm x hp]; exact h.below, by rw [← uw_perm x hp]; exact h.upTo, by rw [← lw_perm x hp, ← e]; exact h.from_,
    by rw [← uw_perm x hp, ← e]; exact h.above⟩

/-- One pass. -/
theorem RelRuns.near {c : K} (hc : 0 ≤ c) {runs : List (List (Centroid K))} (hne : ∀ r ∈ runs, r ≠ []) (hg : ∀ r ∈ runs, ∀ c ∈ r, Good c)
    (hs : runs.flatten.Pairwise (fun a b => a.mean.toK ≤ b.mean.toK)) (h : RelRuns c runs) (x : K) :
    RelNear x (runs.map weightedMean) runs.flatten (1 + c) := by
  have hW : totalW (runs.map weightedMean) = totalW runs.flatten := by
    clear h hs
    induction runs with
    | nil => rfl
    | cons r rs ih =>
      rw [List.map_cons, totalW_cons, List.flatten_cons, totalW_append, ih (fun q hq => hne q (by simp [hq])) (fun q hq => hg q (by simp [hq]))]
      rfl
  have gm : ∀ d ∈ runs.map weightedMean, Good d := by
    intro d hd
    obtain ⟨q, hq, rfl⟩ := List.mem_map.1 hd
    exact weightedMean_good (hg q hq) (hne q hq)
  have gf : ∀ d ∈ runs.flatten, Good d := by
    intro d hd
    obtain ⟨q, hq, hd⟩ := List.mem_flatten.1 hd
    exact hg q hq d hd
  obtain ⟨a1, a2⟩ := lw_range (x := x) gm
  obtain ⟨b1, b2⟩ := uw_range (x := x) gm
  obtain ⟨a3, a4⟩ := lw_range (x := x) gf
  obtain ⟨b3, b4⟩ := uw_range (x := x) gf
  have m1 := mul_nonneg hc a1
  have m3 := mul_nonneg hc b3
  have m5 := mul_nonneg hc (sub_nonneg.2 a4)
  have m6 := mul_nonneg hc (sub_nonneg.2 b2)
  have tot : ∀ pre r post, runs = pre ++ r :: post → totalW runs.flatten = totalW pre.flatten + totalW r + totalW post.flatten := by
    intro pre r post he
    rw [he]
    simp only [List.flatten_append, List.flatten_cons, totalW_append]
    ring
  rw [mul_sub] at m5 m6
  have L : lw x runs.flatten ≤ (1 + c) * lw x (runs.map weightedMean) ∧
      totalW (runs.map weightedMean) - lw x (runs.map weightedMean) ≤ (1 + c) * (totalW runs.flatten - lw x runs.flatten) := by
    rcases lw_split (x := x) runs hne hg hs with h1 | ⟨pre, r, post, he, h2, h3, h4⟩
    · constructor <;> simp only [add_mul, one_mul, mul_sub] <;> linarith
    · obtain ⟨h5, h6⟩ := h pre r post he h2
      have ht := tot pre r post he
      have h7 := mul_le_mul_of_nonneg_left h3 hc
      have h8 := mul_le_mul_of_nonneg_left (show totalW post.flatten ≤ totalW runs.flatten - lw x runs.flatten by linarith) hc
      constructor
      · simp only [add_mul, one_mul]; linarith
      · rw [hW, add_mul, one_mul]; linarith
  have U : uw x (runs.map weightedMean) ≤ (1 + c) * uw x runs.flatten ∧
      totalW runs.flatten - uw x runs.flatten ≤ (1 + c) * (totalW (runs.map weightedMean) - uw x (runs.map weightedMean)) := by
    rcases uw_split (x := x) runs hne hg hs with h1 | ⟨pre, r, post, he, h2, h3, h4⟩
    · constructor <;> simp only [add_mul, one_mul, mul_sub] <;> linarith
    · obtain ⟨h5, h6⟩ := h pre r post he h2
      have ht := tot pre r post he
      have h7 := mul_le_mul_of_nonneg_left h3 hc
      have h8 := mul_le_mul_of_nonneg_left (show totalW post.flatten ≤ totalW (runs.map weightedMean) - uw x (runs.map weightedMean) by
        rw [hW]; linarith) hc
      constructor
      · simp only [add_mul, one_mul]; linarith
      · rw [add_mul, one_mul, hW] at *; linarith
  exact ⟨L.1, U.1, L.2, U.2⟩

/-- What the size limits of `k2` and `k3` say: a run of weight `w` with `a` on its left and `b` on its right is at most `c` times either of them. -/
def LimitRel (s i : ScaleFn K) (cf : Fl K) (c N : K) : Prop :=
  ∀ n a w b : K, n ≤ N → 0 ≤ a → 1 ≤ w → 0 ≤ b → a + w + b = n → Fl.le (.fin w) (sizeLimit s i cf n a) = true → w ≤ c * a ∧ w ≤ c * b

theorem Merged.rel [FloatFmt.Exact K] {s i : ScaleFn K} {cf : Fl K} {c N : K} (hl : LimitRel s i cf c N) {d d' : TDigest K} {batch : List (Centroid K)}
    {runs : List (List (Centroid K))} (h : Merged d batch d' runs) (hs : d.scaleFunc = s) (hi : d.inverseScaleFunc = i) (hf : d.compressFactor = cf)
    (h1 : ∀ e ∈ batch ++ d.centroids, 1 ≤ e.weight.toK) (hN : totalW (batch ++ d.centroids) ≤ N) : RelRuns c runs := by
  intro pre r post he h2
  have hlim := h.limit pre r post he h2
  rw [hs, hi, hf] at hlim
  have htot : totalW (batch ++ d.centroids) = totalW runs.flatten := ((h.perm.map _).sum_eq).symm
  have gf : ∀ d ∈ runs.flatten, Good d := by
    intro d hd
    obtain ⟨q, hq, hd⟩ := List.mem_flatten.1 hd
    exact h.good q hq d hd
  have hrn := h.ne r (by rw [he]; simp)
  have hr1 : 1 ≤ totalW r := by
    obtain ⟨e, r', rfl⟩ := List.exists_cons_of_ne_nil hrn
    have hmem : ∀ e' ∈ e :: r', 1 ≤ e'.weight.toK := by
      intro e' he'
      refine h1 e' (h.perm.mem_iff.1 ?_)
      rw [he]
      simp only [List.flatten_append, List.flatten_cons, List.mem_append]
      exact Or.inr (Or.inl he')
    rw [totalW_cons]
    have := hmem e (by simp)
    have := totalW_nonneg (l := r') (fun e' he' => h.good (e :: r') (by rw [he]; simp) e' (by simp [he']))
    linarith
  refine hl _ _ _ _ hN (totalW_nonneg ?_) hr1 (totalW_nonneg ?_) ?_ hlim
  · intro e hm
    apply gf
    rw [he]
    simp only [List.flatten_append, List.mem_append]
    exact Or.inl hm
  · intro e hm
    apply gf
    rw [he]
    simp only [List.flatten_append, List.flatten_cons, List.mem_append]
    exact Or.inr (Or.inr hm)
  · rw [htot, he]
    simp only [List.flatten_append, List.flatten_cons, totalW_append]
    ring

end TDigest

namespace TTree
open TDigest

theorem uniform_root {s i : ScaleFn K} {cf : Fl K} : ∀ t : TTree K, t.Uniform s i cf → t.root = (s, i, cf)
  | new s' i' cf', ⟨h1, h2, h3⟩ => by rw [root, h1, h2, h3]
  | ins t _, h => uniform_root t h
  | merge a _, h => uniform_root a h.1

theorem run_rel [FloatFmt.Exact K] {s i : ScaleFn K} {cf : Fl K} {c N : K} (hc : 0 ≤ c) (hl : LimitRel s i cf c N) : ∀ t : TTree K, t.Uniform s i cf →
    (∀ e ∈ t.supplied, Good e ∧ InRange e) → (∀ e ∈ t.supplied, 1 ≤ e.weight.toK) → totalW t.supplied ≤ N →
    Partially t.run (fun d => ∀ x, RelNear x d.centroids t.supplied ((1 + c) ^ t.depth)) := by
  have h1c : (1 : K) ≤ 1 + c := by linarith
  have step : ∀ (d : TDigest K) (b sup sb : List (Centroid K)) (m : Nat), Stands d.centroids sup → Stands b sb → d.scaleFunc = s → d.inverseScaleFunc = i →
      d.compressFactor = cf → (∀ e ∈ sup ++ sb, 1 ≤ e.weight.toK) → totalW (sup ++ sb) ≤ N → (∀ e ∈ sup ++ sb, Good e) →
      (∀ x, RelNear x d.centroids sup ((1 + c) ^ m)) → (∀ x, RelNear x b sb ((1 + c) ^ m)) →
      Partially (d.addCentroidBuffer b) (fun d' => ∀ x, RelNear x d'.centroids (sup ++ sb) ((1 + c) ^ (m + 1))) := by
    intro d b sup sb m hd hb hs hi hf hw hN hg hn hn'
    have hd1 : ∀ e ∈ d.centroids, 1 ≤ e.weight.toK := hd.closed (fun w => 1 ≤ w) (fun a b ha hb => by linarith) (fun e he => hw e (by simp [he]))
    have hb1 : ∀ e ∈ b, 1 ≤ e.weight.toK := hb.closed (fun w => 1 ≤ w) (fun a b ha hb => by linarith) (fun e he => hw e (by simp [he]))
    refine (merged d b (fun e he => (hd.good e he).1) (fun e he => (hb.good e he).1)).partially.mono ?_
    rintro d' ⟨runs, hm⟩ x
    have hr := hm.rel hl hs hi hf (by
      intro e he
      rcases List.mem_append.1 he with he | he
      · exact hb1 e he
      · exact hd1 e he) (by rw [totalW_append, hb.weight, hd.weight, add_comm, ← totalW_append]; exact hN)
    have h1 := ((hr.near hc hm.ne hm.good hm.sorted x).perm hm.perm).perm (List.perm_append_comm)
    rw [← hm.cs] at h1
    have h2 := (hn x).append (hn' x)
    have h3 := RelNear.trans (by positivity) (by linarith) h1 h2
    rw [← pow_succ] at h3
    exact h3
  intro t
  induction t with
  | new s' i' cf' =>
    intro _ _ _ _ x
    have := RelNear.refl x ([] : List (Centroid K))
    simpa [depth, supplied, TDigest.new] using this
  | ins t o ih =>
    intro hk h hw hN
    have ht : ∀ c ∈ t.supplied, Good c ∧ InRange c := fun c hc => h c (by simp [supplied, hc])
    have ho : ∀ c ∈ o.supplied, Good c ∧ InRange c := fun c hc => h c (by simp [supplied, hc])
    have e : totalW (ins t o).supplied = totalW t.supplied + totalW o.supplied := totalW_append _ _
    have n2 := totalW_nonneg (fun c hc => (ho c hc).1)
    unfold run
    rw [partially_bind]
    refine (((run_inv t ht).partially.and (run_params t)).and (ih hk ht (fun c hc => hw c (by simp [supplied, hc])) (by linarith))).mono ?_
    rintro d ⟨⟨⟨got, hi, hs⟩, hp⟩, hd⟩
    have hroot := uniform_root t hk
    rw [hroot] at hp
    simp only [Prod.mk.injEq] at hp
    rw [exec_eq]
    exact step d o.supplied t.supplied o.supplied t.depth (Stands.centroids hi hs) (Stands.refl ho) hp.1 hp.2.1 hp.2.2 hw hN (fun c hc => (h c hc).1) hd
      (fun x => (RelNear.refl x _).mono (one_le_pow₀ h1c) (fun c hc => (ho c hc).1) (fun c hc => (ho c hc).1))
  | merge a b iha ihb =>
    intro hk h hw hN
    have ha : ∀ c ∈ a.supplied, Good c ∧ InRange c := fun c hc => h c (by simp [supplied, hc])
    have hb : ∀ c ∈ b.supplied, Good c ∧ InRange c := fun c hc => h c (by simp [supplied, hc])
    have e : totalW (merge a b).supplied = totalW a.supplied + totalW b.supplied := totalW_append _ _
    have n1 := totalW_nonneg (fun c hc => (ha c hc).1)
    have n2 := totalW_nonneg (fun c hc => (hb c hc).1)
    unfold run
    rw [partially_bind]
    refine (((run_inv a ha).partially.and (run_params a)).and (iha hk.1 ha (fun c hc => hw c (by simp [supplied, hc])) (by linarith))).mono ?_
    rintro d ⟨⟨⟨got, hi, hs⟩, hp⟩, hd⟩
    rw [partially_bind]
    refine ((run_inv b hb).partially.and (ihb hk.2 hb (fun c hc => hw c (by simp [supplied, hc])) (by linarith))).mono ?_
    rintro f ⟨⟨got', hi', hs'⟩, hf⟩
    have hroot := uniform_root a hk.1
    rw [hroot] at hp
    simp only [Prod.mk.injEq] at hp
    exact step d f.centroids a.supplied b.supplied (Max.max a.depth b.depth) (Stands.centroids hi hs) (Stands.centroids hi' hs') hp.1 hp.2.1 hp.2.2 hw hN
      (fun c hc => (h c hc).1)
      (fun x => (hd x).mono (pow_le_pow_right₀ h1c (le_max_left _ _)) hi.good (fun c hc => (ha c hc).1))
      (fun x => (hf x).mono (pow_le_pow_right₀ h1c (le_max_right _ _)) hi'.good (fun c hc => (hb c hc).1))

theorem relRuns_weight {c N : K} (hc : 0 ≤ c) {runs : List (List (Centroid K))} (hN : totalW runs.flatten ≤ N) (h : RelRuns c runs) :
    ∀ r ∈ runs, 2 ≤ r.length → totalW r ≤ N * (c / (2 + c)) := by
  intro r hr h2
  obtain ⟨pre, post, he⟩ := List.append_of_mem hr
  obtain ⟨h3, h4⟩ := h pre r post he h2
  have e : totalW runs.flatten = totalW pre.flatten + totalW r + totalW post.flatten := by
    rw [he]
    simp only [List.flatten_append, List.flatten_cons, totalW_append]
    ring
  have h5 : totalW r * (2 + c) ≤ N * c := by
    have : c * totalW runs.flatten ≤ c * N := mul_le_mul_of_nonneg_left hN hc
    rw [e] at this
    nlinarith
  rw [← mul_div_assoc, le_div_iff₀ (by linarith)]
  exact h5

/-- The weight of a centroid. -/
theorem run_rel_weight [FloatFmt.Exact K] {s i : ScaleFn K} {cf : Fl K} {c N M : K} (hc : 0 ≤ c) (hl : LimitRel s i cf c N) : ∀ t : TTree K, t.Uniform s i cf →
    (∀ e ∈ t.supplied, Good e ∧ InRange e) → (∀ e ∈ t.supplied, 1 ≤ e.weight.toK) → totalW t.supplied ≤ N → (∀ e ∈ t.supplied, e.weight.toK ≤ M) →
    Partially t.run (fun d => ∀ e ∈ d.centroids, e.weight.toK ≤ Max.max M (N * (c / (2 + c)))) := by
  have step : ∀ (d : TDigest K) (b sup sb : List (Centroid K)), Stands d.centroids sup → Stands b sb → d.scaleFunc = s → d.inverseScaleFunc = i →
      d.compressFactor = cf → (∀ e ∈ sup ++ sb, 1 ≤ e.weight.toK) → totalW (sup ++ sb) ≤ N →
      (∀ e ∈ d.centroids, e.weight.toK ≤ Max.max M (N * (c / (2 + c)))) → (∀ e ∈ b, e.weight.toK ≤ Max.max M (N * (c / (2 + c)))) →
      Partially (d.addCentroidBuffer b) (fun d' => ∀ e ∈ d'.centroids, e.weight.toK ≤ Max.max M (N * (c / (2 + c)))) := by
    intro d b sup sb hd hb hs hi hf hw hN hn hn'
    have hd1 : ∀ e ∈ d.centroids, 1 ≤ e.weight.toK := hd.closed (fun w => 1 ≤ w) (fun a b ha hb => by linarith) (fun e he => hw e (by simp [he]))
    have hb1 : ∀ e ∈ b, 1 ≤ e.weight.toK := hb.closed (fun w => 1 ≤ w) (fun a b ha hb => by linarith) (fun e he => hw e (by simp [he]))
    have htot : totalW (b ++ d.centroids) ≤ N := by rw [totalW_append, hb.weight, hd.weight, add_comm, ← totalW_append]; exact hN
    refine (merged d b (fun e he => (hd.good e he).1) (fun e he => (hb.good e he).1)).partially.mono ?_
    rintro d' ⟨runs, hm⟩
    have hr := hm.rel hl hs hi hf (by
      intro e he
      rcases List.mem_append.1 he with he | he
      · exact hb1 e he
      · exact hd1 e he) htot
    refine hm.weight_le (relRuns_weight hc (by rw [show totalW runs.flatten = totalW (b ++ d.centroids) from (hm.perm.map _).sum_eq]; exact htot) hr)
      (le_max_right _ _) ?_
    intro e he
    rcases List.mem_append.1 he with he | he
    · exact hn' e he
    · exact hn e he
  intro t
  induction t with
  | new s' i' cf' =>
    intro _ _ _ _ _ e he
    simp [TDigest.new] at he
  | ins t o ih =>
    intro hk h hw hN hM
    have ht : ∀ c ∈ t.supplied, Good c ∧ InRange c := fun c hc => h c (by simp [supplied, hc])
    have ho : ∀ c ∈ o.supplied, Good c ∧ InRange c := fun c hc => h c (by simp [supplied, hc])
    have e : totalW (ins t o).supplied = totalW t.supplied + totalW o.supplied := totalW_append _ _
    have n2 := totalW_nonneg (fun c hc => (ho c hc).1)
    unfold run
    rw [partially_bind]
    refine (((run_inv t ht).partially.and (run_params t)).and (ih hk ht (fun c hc => hw c (by simp [supplied, hc])) (by linarith)
      (fun c hc => hM c (by simp [supplied, hc])))).mono ?_
    rintro d ⟨⟨⟨got, hi, hs⟩, hp⟩, hd⟩
    have hroot := uniform_root t hk
    rw [hroot] at hp
    simp only [Prod.mk.injEq] at hp
    rw [exec_eq]
    exact step d o.supplied t.supplied o.supplied (Stands.centroids hi hs) (Stands.refl ho) hp.1 hp.2.1 hp.2.2 hw hN hd
      (fun c hc => le_max_of_le_left (hM c (by simp [supplied, hc])))
  | merge a b iha ihb =>
    intro hk h hw hN hM
    have ha : ∀ c ∈ a.supplied, Good c ∧ InRange c := fun c hc => h c (by simp [supplied, hc])
    have hb : ∀ c ∈ b.supplied, Good c ∧ InRange c := fun c hc => h c (by simp [supplied, hc])
    have e : totalW (merge a b).supplied = totalW a.supplied + totalW b.supplied := totalW_append _ _
    have n1 := totalW_nonneg (fun c hc => (ha c hc).1)
    have n2 := totalW_nonneg (fun c hc => (hb c hc).1)
    unfold run
    rw [partially_bind]
    refine (((run_inv a ha).partially.and (run_params a)).and (iha hk.1 ha (fun c hc => hw c (by simp [supplied, hc])) (by linarith)
      (fun c hc => hM c (by simp [supplied, hc])))).mono ?_
    rintro d ⟨⟨⟨got, hi, hs⟩, hp⟩, hd⟩
    rw [partially_bind]
    refine ((run_inv b hb).partially.and (ihb hk.2 hb (fun c hc => hw c (by simp [supplied, hc])) (by linarith)
      (fun c hc => hM c (by simp [supplied, hc])))).mono ?_
    rintro f ⟨⟨got', hi', hs'⟩, hf⟩
    have hroot := uniform_root a hk.1
    rw [hroot] at hp
    simp only [Prod.mk.injEq] at hp
    exact step d f.centroids a.supplied b.supplied (Stands.centroids hi hs) (Stands.centroids hi' hs') hp.1 hp.2.1 hp.2.2 hw hN hd hf

/-- A history is a tree. -/
theorem run_ofOps (ops : List (TOp K)) : ∀ t : TTree K, (ops.foldl ins t).run = (t.run >>= fun d => d.execOps ops) := by
  induction ops with
  | nil =>
    intro t
    show t.run = _
    exact (bind_ret_right _).symm
  | cons o os ih =>
    intro t
    rw [List.foldl_cons, ih]
    show ((t.run >>= fun d => o.exec d) >>= _) = _
    rw [bind_assoc']
    rfl

theorem ofOps_supplied (ops : List (TOp K)) : ∀ t : TTree K, (ops.foldl ins t).supplied = t.supplied ++ TDigest.supplied ops := by
  induction ops with
  | nil => intro t; simp [TDigest.supplied]
  | cons o os ih =>
    intro t
    rw [List.foldl_cons, ih]
    simp [supplied, TDigest.supplied]

theorem ofOps_depth (ops : List (TOp K)) : ∀ t : TTree K, (ops.foldl ins t).depth = t.depth + ops.length := by
  induction ops with
  | nil => intro t; rfl
  | cons o os ih =>
    intro t
    rw [List.foldl_cons, ih, List.length_cons]
    show t.depth + 1 + _ = _
    omega

theorem ofOps_uniform {s i : ScaleFn K} {cf : Fl K} (ops : List (TOp K)) : ∀ t : TTree K, t.Uniform s i cf → (ops.foldl ins t).Uniform s i cf := by
  induction ops with
  | nil => intro t h; exact h
  | cons o os ih => intro t h; exact ih _ h

end TTree
end AQ

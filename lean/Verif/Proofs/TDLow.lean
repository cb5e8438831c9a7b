/-
Passes whose runs are light compared with what is left of them: ranks counted from the lower end are kept up to a factor. The size limit of `k2_asym` has this
form. Also: what one pass preserves carries over to trees of insertions and merges.
-/
import Verif.Proofs.ParTScale
import Verif.Props.ScaleSize

set_option linter.unusedSectionVars false
set_option linter.unusedVariables false

namespace AQ
open Prog Spec
section
variable {K : Type} [Field K] [LinearOrder K] [IsStrictOrderedRing K] [FloatFmt K]
namespace TDigest

/-- Every run of several members weighs at most `c` times what is left of it. -/
def LowRuns (c : K) (runs : List (List (Centroid K))) : Prop :=
  ∀ pre r post, runs = pre ++ r :: post → 2 ≤ r.length → totalW r ≤ c * totalW pre.flatten

/-- The centroids represent what was supplied up to the factor `F`, counted from the lower end. -/
structure LowNear (x : K) (cs sup : List (Centroid K)) (F : K) : Prop where
  below : lw x sup ≤ F * lw x cs
  upTo : uw x cs ≤ F * uw x sup

theorem LowNear.mono {x F F' : K} {cs sup : List (Centroid K)} (h : LowNear x cs sup F) (hF : F ≤ F') (hc : ∀ c ∈ cs, Good c) (hs : ∀ c ∈ sup, Good c) :
    LowNear x cs sup F' :=
  ⟨h.below.trans (mul_le_mul_of_nonneg_right hF (lw_range hc).1), h.upTo.trans (mul_le_mul_of_nonneg_right hF (uw_range hs).1)⟩

theorem LowNear.append {x F : K} {a b sa sb : List (Centroid K)} (h : LowNear x a sa F) (h' : LowNear x b sb F) :
    LowNear x (a ++ b) (sa ++ sb) F := by
  obtain ⟨h1, h2⟩ := h
  obtain ⟨k1, k2⟩ := h'
  constructor <;> simp only [lw_append, uw_append, mul_add] at * <;> linarith

theorem LowNear.trans {x F G : K} {a b c : List (Centroid K)} (hG : 0 ≤ G) (hF : 0 ≤ F) (h : LowNear x a b F) (h' : LowNear x b c G) :
    LowNear x a c (G * F) := by
  constructor
  · calc _ ≤ G * lw x b := h'.below
      _ ≤ G * (F * lw x a) := mul_le_mul_of_nonneg_left h.below hG
      _ = _ := by ring
  · calc _ ≤ F * uw x b := h.upTo
      _ ≤ F * (G * uw x c) := mul_le_mul_of_nonneg_left h'.upTo hF
      _ = _ := by ring

theorem LowNear.refl (x : K) (l : List (Centroid K)) : LowNear x l l 1 := ⟨by rw [one_mul], by rw [one_mul]⟩

theorem LowNear.perm {x F : K} {a b b' : List (Centroid K)} (h : LowNear x a b F) (hp : b.Perm b') : LowNear x a b' F :=
  ⟨by rw [← lw_perm x hp]; exact h.below, by rw [← uw_perm x hp]; exact h.upTo⟩

/-- One pass. -/
theorem LowRuns.near {c : K} (hc : 0 ≤ c) {runs : List (List (Centroid K))} (hne : ∀ r ∈ runs, r ≠ []) (hg : ∀ r ∈ runs, ∀ c ∈ r, Good c)
    (hs : runs.flatten.Pairwise (fun a b => a.mean.toK ≤ b.mean.toK)) (h : LowRuns c runs) (x : K) :
    LowNear x (runs.map weightedMean) runs.flatten (1 + c) := by
  have gm : ∀ d ∈ runs.map weightedMean, Good d := by
    intro d hd
    obtain ⟨q, hq, rfl⟩ := List.mem_map.1 hd
    exact weightedMean_good (hg q hq) (hne q hq)
  have gf : ∀ d ∈ runs.flatten, Good d := by
    intro d hd
    obtain ⟨q, hq, hd⟩ := List.mem_flatten.1 hd
    exact hg q hq d hd
  have m1 := mul_nonneg hc (lw_range (x := x) gm).1
  have m3 := mul_nonneg hc (uw_range (x := x) gf).1
  constructor
  · rw [add_mul, one_mul]
    rcases lw_split (x := x) runs hne hg hs with h1 | ⟨pre, r, post, he, h2, h3, h4⟩
    · linarith
    · have h5 := h pre r post he h2
      have h7 := mul_le_mul_of_nonneg_left h3 hc
      linarith
  · rw [add_mul, one_mul]
    rcases uw_split (x := x) runs hne hg hs with h1 | ⟨pre, r, post, he, h2, h3, h4⟩
    · linarith
    · have h5 := h pre r post he h2
      have h7 := mul_le_mul_of_nonneg_left h3 hc
      linarith

/-- What the size limit of `k2_asym` says: a run of weight `w` with `a` on its left is at most `c` times `a`. -/
def LimitLow (s i : ScaleFn K) (cf : Fl K) (c N : K) : Prop :=
  ∀ n a w b : K, n ≤ N → 0 ≤ a → 1 ≤ w → 0 ≤ b → a + w + b = n → Fl.le (.fin w) (sizeLimit s i cf n a) = true → w ≤ c * a

theorem Merged.low [FloatFmt.Exact K] {s i : ScaleFn K} {cf : Fl K} {c N : K} (hl : LimitLow s i cf c N) {d d' : TDigest K} {batch : List (Centroid K)}
    {runs : List (List (Centroid K))} (h : Merged d batch d' runs) (hs : d.scaleFunc = s) (hi : d.inverseScaleFunc = i) (hf : d.compressFactor = cf)
    (h1 : ∀ e ∈ batch ++ d.centroids, 1 ≤ e.weight.toK) (hN : totalW (batch ++ d.centroids) ≤ N) : LowRuns c runs := by
  intro pre r post he h2
  have hlim := h.limit pre r post he h2
  rw [hs, hi, hf] at hlim
  have htot : totalW (batch ++ d.centroids) = totalW runs.flatten := ((h.perm.map _).sum_eq).symm
  have gf : ∀ d ∈ runs.flatten, Good d := by
    intro d hd
    obtain ⟨q, hq, hd⟩ := List.mem_flatten.1 hd
    exact h.good q hq d hd
  have hrn := h.ne r (by rw [he]; simp)
  have hr1 : 1 ≤ totalW r := by
    obtain ⟨e, r', rfl⟩ := List.exists_cons_of_ne_nil hrn
    have hmem : ∀ e' ∈ e :: r', 1 ≤ e'.weight.toK := by
      intro e' he'
      refine h1 e' (h.perm.mem_iff.1 ?_)
      rw [he]
      simp only [List.flatten_append, List.flatten_cons, List.mem_append]
      exact Or.inr (Or.inl he')
    rw [totalW_cons]
    have := hmem e (by simp)
    have := totalW_nonneg (l := r') (fun e' he' => h.good (e :: r') (by rw [he]; simp) e' (by simp [he']))
    linarith
  refine hl _ _ _ (totalW post.flatten) hN (totalW_nonneg ?_) hr1 (totalW_nonneg ?_) ?_ hlim
  · intro e hm
    apply gf
    rw [he]
    simp only [List.flatten_append, List.mem_append]
    exact Or.inl hm
  · intro e hm
    apply gf
    rw [he]
    simp only [List.flatten_append, List.flatten_cons, List.mem_append]
    exact Or.inr (Or.inr hm)
  · rw [htot, he]
    simp only [List.flatten_append, List.flatten_cons, totalW_append]
    ring

end TDigest

namespace ParTDigest
open TDigest

/-- No centroid is heavier than `M` or `c` times the whole. -/
theorem layered_heavy [FloatFmt.Exact K] {s i : ScaleFn K} {cf : Fl K} {c N M : K} (hM : 1 ≤ M) (hc : 0 ≤ c) (hl : LimitFrac c N s i cf) :
    Layered s i cf N (fun _ a sa => ∀ e ∈ a, e.weight.toK ≤ Max.max M (c * totalW sa)) where
  refl xs h e he := by
    obtain ⟨y, hy, rfl⟩ := List.mem_map.1 he
    exact le_max_of_le_left (by simpa [unit, Fl.toK] using hM)
  mono _ _ _ h := h
  append := by
    intro m a b sa sb _ _ h1 h2 h3 h4 e he
    have n1 := totalW_nonneg h1.good
    have n2 := totalW_nonneg h2.good
    rw [totalW_append]
    rcases List.mem_append.1 he with he | he
    · exact (h3 e he).trans (max_le_max le_rfl (mul_le_mul_of_nonneg_left (by linarith) hc))
    · exact (h4 e he).trans (max_le_max le_rfl (mul_le_mul_of_nonneg_left (by linarith) hc))
  perm := by
    intro m a sa sa' h h1
    rw [← totalW_perm h]
    exact h1
  step := by
    intro m d d' b runs sup hm hs hi hf ho hos hW hN h
    rw [← hs, ← hi, ← hf] at hl
    have hr := hm.frac hl (fun e he => (ho e he).2) (by rw [hW]; exact hN)
    rw [hW] at hr
    exact hm.weight_le hr (le_max_right _ _) h

/-- Every pass multiplies ranks by at most `1 + c`, counted from the lower end. -/
theorem layered_low [FloatFmt.Exact K] {s i : ScaleFn K} {cf : Fl K} {c N : K} (hc : 0 ≤ c) (hl : LimitLow s i cf c N) :
    Layered s i cf N (fun m a sa => ∀ x, LowNear x a sa ((1 + c) ^ m)) where
  refl xs h x := by rw [pow_zero]; exact LowNear.refl _ _
  mono := by
    intro m m' a sa h h1 h2 h3 x
    exact (h3 x).mono (pow_le_pow_right₀ (by linarith) h) h1.good h2.good
  append := by
    intro m a b sa sb _ _ _ _ h3 h4 x
    exact (h3 x).append (h4 x)
  perm := by
    intro m a sa sa' h h1 x
    exact (h1 x).perm h
  step := by
    intro m d d' b runs sup hm hs hi hf ho hos hW hN h x
    have hr := hm.low hl hs hi hf (fun e he => (ho e he).2) (by rw [hW]; exact hN)
    have h1 := (hr.near hc hm.ne hm.good hm.sorted x).perm hm.perm
    rw [← hm.cs] at h1
    have h3 := LowNear.trans (by positivity) (by linarith) h1 (h x)
    rw [← pow_succ] at h3
    exact h3

end ParTDigest

namespace TTree
open TDigest ParTDigest

/-- What one pass preserves holds for trees of insertions and merges, with the depth of the tree as number of passes. -/
theorem run_layer [FloatFmt.Exact K] {s i : ScaleFn K} {cf : Fl K} {N : K} {J : Nat → List (Centroid K) → List (Centroid K) → Prop}
    (L : Layered s i cf N J) (M : K) (hJ : ∀ l, Ones l → (∀ e ∈ l, e.weight.toK ≤ M) → J 0 l l) : ∀ t : TTree K, t.Uniform s i cf →
    (∀ e ∈ t.supplied, Good e ∧ InRange e) → (∀ e ∈ t.supplied, 1 ≤ e.weight.toK ∧ e.weight.toK ≤ M) → totalW t.supplied ≤ N →
    Partially t.run (fun d => J t.depth d.centroids t.supplied) := by
  have step : ∀ (d : TDigest K) (b sup sb : List (Centroid K)) (m : Nat), Stands d.centroids sup → Stands b sb → d.scaleFunc = s → d.inverseScaleFunc = i →
      d.compressFactor = cf → (∀ e ∈ sup ++ sb, 1 ≤ e.weight.toK ∧ e.weight.toK ≤ M) → totalW (sup ++ sb) ≤ N → (∀ e ∈ sup ++ sb, Good e) →
      J m d.centroids sup → J m b sb → Partially (d.addCentroidBuffer b) (fun d' => J (m + 1) d'.centroids (sup ++ sb)) := by
    intro d b sup sb m hd hb hs hi hf hw hN hg hn hn'
    have hd1 : Ones d.centroids := fun e he => ⟨(hd.good e he).1, hd.closed (fun w => 1 ≤ w) (fun a b ha hb => by linarith)
      (fun e he => (hw e (by simp [he])).1) e he⟩
    have hb1 : Ones b := fun e he => ⟨(hb.good e he).1, hb.closed (fun w => 1 ≤ w) (fun a b ha hb => by linarith)
      (fun e he => (hw e (by simp [he])).1) e he⟩
    have hs1 : Ones sup := fun e he => ⟨hg e (by simp [he]), (hw e (by simp [he])).1⟩
    have hs2 : Ones sb := fun e he => ⟨hg e (by simp [he]), (hw e (by simp [he])).1⟩
    refine (merged d b (fun e he => (hd.good e he).1) (fun e he => (hb.good e he).1)).partially.mono ?_
    rintro d' ⟨runs, hm⟩
    refine L.step hm hs hi hf (hb1.append hd1) (hs1.append hs2) ?_ hN ?_
    · rw [totalW_append, hb.weight, hd.weight, add_comm, ← totalW_append]
    · exact L.perm List.perm_append_comm (L.append hb1 hd1 hs2 hs1 hn' hn)
  intro t
  induction t with
  | new s' i' cf' =>
    intro _ _ _ _
    exact hJ [] (by simp [Ones]) (by simp)
  | ins t o ih =>
    intro hk h hw hN
    have ht : ∀ c ∈ t.supplied, Good c ∧ InRange c := fun c hc => h c (by simp [supplied, hc])
    have ho : ∀ c ∈ o.supplied, Good c ∧ InRange c := fun c hc => h c (by simp [supplied, hc])
    have e : totalW (ins t o).supplied = totalW t.supplied + totalW o.supplied := totalW_append _ _
    have n2 := totalW_nonneg (fun c hc => (ho c hc).1)
    unfold run
    rw [partially_bind]
    refine (((run_inv t ht).partially.and (run_params t)).and (ih hk ht (fun c hc => hw c (by simp [supplied, hc])) (by linarith))).mono ?_
    rintro d ⟨⟨⟨got, hi, hs⟩, hp⟩, hd⟩
    have hroot := uniform_root t hk
    rw [hroot] at hp
    simp only [Prod.mk.injEq] at hp
    rw [exec_eq]
    have hos : Ones o.supplied := fun e he => ⟨(ho e he).1, (hw e (by simp [supplied, he])).1⟩
    exact step d o.supplied t.supplied o.supplied t.depth (Stands.centroids hi hs) (Stands.refl ho) hp.1 hp.2.1 hp.2.2 hw hN (fun c hc => (h c hc).1) hd
      (L.mono (Nat.zero_le _) hos hos (hJ _ hos (fun e he => (hw e (by simp [supplied, he])).2)))
  | merge a b iha ihb =>
    intro hk h hw hN
    have ha : ∀ c ∈ a.supplied, Good c ∧ InRange c := fun c hc => h c (by simp [supplied, hc])
    have hb : ∀ c ∈ b.supplied, Good c ∧ InRange c := fun c hc => h c (by simp [supplied, hc])
    have wa : ∀ c ∈ a.supplied, 1 ≤ c.weight.toK ∧ c.weight.toK ≤ M := fun c hc => hw c (by simp [supplied, hc])
    have wb : ∀ c ∈ b.supplied, 1 ≤ c.weight.toK ∧ c.weight.toK ≤ M := fun c hc => hw c (by simp [supplied, hc])
    have e : totalW (merge a b).supplied = totalW a.supplied + totalW b.supplied := totalW_append _ _
    have n1 := totalW_nonneg (fun c hc => (ha c hc).1)
    have n2 := totalW_nonneg (fun c hc => (hb c hc).1)
    unfold run
    rw [partially_bind]
    refine (((run_inv a ha).partially.and (run_params a)).and (iha hk.1 ha wa (by linarith))).mono ?_
    rintro d ⟨⟨⟨got, hi, hs⟩, hp⟩, hd⟩
    rw [partially_bind]
    refine ((run_inv b hb).partially.and (ihb hk.2 hb wb (by linarith))).mono ?_
    rintro f ⟨⟨got', hi', hs'⟩, hf⟩
    have hroot := uniform_root a hk.1
    rw [hroot] at hp
    simp only [Prod.mk.injEq] at hp
    have sd := Stands.centroids hi hs
    have sf := Stands.centroids hi' hs'
    have od : Ones d.centroids := fun e he => ⟨(sd.good e he).1, sd.closed (fun w => 1 ≤ w) (fun a b ha hb => by linarith) (fun e he => (wa e he).1) e he⟩
    have of : Ones f.centroids := fun e he => ⟨(sf.good e he).1, sf.closed (fun w => 1 ≤ w) (fun a b ha hb => by linarith) (fun e he => (wb e he).1) e he⟩
    exact step d f.centroids a.supplied b.supplied (Max.max a.depth b.depth) sd sf hp.1 hp.2.1 hp.2.2 hw hN
      (fun c hc => (h c hc).1)
      (L.mono (le_max_left _ _) od (fun e he => ⟨(ha e he).1, (wa e he).1⟩) hd)
      (L.mono (le_max_right _ _) of (fun e he => ⟨(hb e he).1, (wb e he).1⟩) hf)

end TTree
end

section
variable [FloatFmt ℝ] [FloatFmt.Exact ℝ]
open ScaleR
namespace TDigest

/-- `k2_asym`: weight of a run. -/
theorem k2Asym_run {δ n a w b : ℝ} (hδ : 0 < δ) (hN : 0 < norm (δ * 2) n 24) (ha : 0 ≤ a) (hw : 1 ≤ w) (hb : 0 ≤ b)
    (hn : a + w + b = n) (h : Fl.le (.fin w) (sizeLimit k2Asym invK2Asym (.fin δ) n a) = true) :
    1 ≤ (10 : ℝ) ^ (norm (δ * 2) n 24 / (δ * 2)) ∧ w * (2 * n) ≤ ((10 : ℝ) ^ (norm (δ * 2) n 24 / (δ * 2)) - 1) * (a * (2 * n - a)) := by
  have hn0 : 0 < n := by linarith
  have hδ2 : 0 < δ * 2 := by linarith
  have h1R : 1 ≤ (10 : ℝ) ^ (norm (δ * 2) n 24 / (δ * 2)) := Real.one_le_rpow (by norm_num) (by positivity)
  refine ⟨h1R, ?_⟩
  rcases ha.eq_or_lt with rfl | ha
  · exfalso
    have hdiv : Fl.fin (0 : ℝ) / .fin 1 = .fin 0 := by rw [Fl.div_exact _ one_ne_zero, zero_div]
    have e : invK2Asym .ninf (.fin δ) (.fin n) = .fin 0 := by
      unfold invK2Asym invK2
      simp only [Fl.lit_exact, Fl.mul_exact]
      rw [normaliser_fin _ hδ2 hn0]
      have h1 : (Fl.ninf * .fin (norm (δ * 2) n 24) : Fl ℝ) = .ninf := by
        show Fl.mul _ _ = _
        simp [Fl.mul, Fl.signInf, hN, hN.not_gt]
      have h2 : (Fl.ninf / .fin (δ * 2) : Fl ℝ) = .ninf := by
        show Fl.div _ _ = _
        simp [Fl.div, hδ2.not_gt, hδ.not_gt]
      rw [h1, h2]
      simp only [Fl.pow10, Fl.lit_exact]
      rw [Fl.add_exact, add_zero, hdiv, Fl.mul_exact, zero_mul]
    have e0 : k2Asym (.fin 0) (.fin δ) (.fin n) = .ninf := by
      unfold k2Asym
      simp only [Fl.lit_exact, Fl.mul_exact]
      rw [zero_mul, k2_zero hδ2 hn0 hN]
    unfold sizeLimit at h
    rw [zero_div, e0] at h
    have h3 : (Fl.ninf + .fin 1 : Fl ℝ) = .ninf := rfl
    rw [h3, e, Fl.mul_exact, Fl.sub_exact, Fl.le_fin] at h
    have := of_decide_eq_true h
    linarith
  · have h1 : 0 < a / n := by positivity
    have h2 : a / n < 1 := by rw [div_lt_one hn0]; linarith
    have e1 : k2Asym (.fin (a / n)) (.fin δ) (.fin n) = .fin (δ * 2 / norm (δ * 2) n 24 * odds (a / n * (1 / 2))) := by
      unfold k2Asym
      simp only [Fl.lit_exact, Fl.mul_exact]
      rw [k2_fin (by linarith) (by linarith) hδ2 hn0 hN.ne']
    have e2 : ∀ s : ℝ, invK2Asym (.fin s) (.fin δ) (.fin n) = .fin (unodds (s * norm (δ * 2) n 24 / (δ * 2)) * 2) := by
      intro s
      unfold invK2Asym
      simp only [Fl.lit_exact, Fl.mul_exact]
      rw [invK2_fin hδ2 hn0, Fl.mul_exact]
    rw [sizeLimit_fin e1 (e2 _), Fl.le_fin] at h
    have h := of_decide_eq_true h
    have e3 : (δ * 2 / norm (δ * 2) n 24 * odds (a / n * (1 / 2)) + 1) * norm (δ * 2) n 24 / (δ * 2) =
        odds (a / n * (1 / 2)) + norm (δ * 2) n 24 / (δ * 2) := by
      field_simp
    rw [e3] at h
    set R := (10 : ℝ) ^ (norm (δ * 2) n 24 / (δ * 2)) with hR
    have hR0 : 0 < R := pow10_pos _
    have e4 : unodds (odds (a / n * (1 / 2)) + norm (δ * 2) n 24 / (δ * 2)) = (a * R) / ((2 * n - a) + a * R) := by
      unfold unodds odds
      have hna : 0 < 2 * n - a := by linarith
      rw [Real.rpow_add (by norm_num), Real.rpow_logb (by norm_num) (by norm_num) (by
        apply div_pos (by linarith); linarith), ← hR]
      have : a / n * (1 / 2) / (1 - a / n * (1 / 2)) = a / (2 * n - a) := by field_simp
      rw [this]
      field_simp
    rw [e4] at h
    have haR := mul_pos ha hR0
    have hden : 0 < (2 * n - a) + a * R := by linarith
    have h4 : (a + w) * ((2 * n - a) + a * R) ≤ a * R * (2 * n) := by
      have : w + a ≤ a * R / ((2 * n - a) + a * R) * (2 * n) := by linarith
      have h5 := mul_le_mul_of_nonneg_right this hden.le
      rw [show a * R / ((2 * n - a) + a * R) * (2 * n) * ((2 * n - a) + a * R) = a * R * (2 * n) by field_simp] at h5
      linarith
    have h5 : 0 ≤ w * (a * (R - 1)) := mul_nonneg (by linarith) (mul_nonneg ha.le (by linarith))
    nlinarith

theorem k2Asym_limitLow {δ N : ℝ} (h0 : 0 < δ) (h5 : 2 * δ ≤ 10 ^ 5) (hN : 1 ≤ N) :
    1 ≤ (10 : ℝ) ^ ((4 * Real.logb 10 (N / (2 * δ)) + 24) / (2 * δ)) ∧
    LimitLow k2Asym invK2Asym (.fin δ) ((10 : ℝ) ^ ((4 * Real.logb 10 (N / (2 * δ)) + 24) / (2 * δ)) - 1) N ∧
    LimitFrac (((10 : ℝ) ^ ((4 * Real.logb 10 (N / (2 * δ)) + 24) / (2 * δ)) - 1) / 2) N k2Asym invK2Asym (.fin δ) := by
  have hδ2 : 0 < δ * 2 := by linarith
  have mono : ∀ n, 1 ≤ n → n ≤ N → (10 : ℝ) ^ (norm (δ * 2) n 24 / (δ * 2)) ≤ (10 : ℝ) ^ ((4 * Real.logb 10 (N / (2 * δ)) + 24) / (2 * δ)) := by
    intro n hn1 hn
    refine Real.rpow_le_rpow_of_exponent_le (by norm_num) ?_
    rw [mul_comm 2 δ]
    refine (div_le_div_iff_of_pos_right hδ2).2 ?_
    show _ ≤ norm (δ * 2) N 24
    rw [norm_split 24 hδ2 (by linarith), norm_split 24 hδ2 (by linarith)]
    have := Real.logb_le_logb_of_le (b := 10) (by norm_num) (by linarith) hn
    linarith
  have h1 : ∀ n, 1 ≤ n → 0 < norm (δ * 2) n 24 := fun n hn => norm_pos_of 5 hδ2 hn (by norm_num) (by linarith)
  have key : ∀ n a w b : ℝ, n ≤ N → 0 ≤ a → 1 ≤ w → 0 ≤ b → a + w + b = n → Fl.le (.fin w) (sizeLimit k2Asym invK2Asym (.fin δ) n a) = true →
      w * (2 * n) ≤ ((10 : ℝ) ^ ((4 * Real.logb 10 (N / (2 * δ)) + 24) / (2 * δ)) - 1) * (a * (2 * n - a)) := by
    intro n a w b hn ha hw hb hs h
    have hn1 : 1 ≤ n := by linarith
    refine (k2Asym_run h0 (h1 n hn1) ha hw hb hs h).2.trans (mul_le_mul_of_nonneg_right ?_ (mul_nonneg ha (by linarith)))
    linarith [mono n hn1 hn]
  have hr : 1 ≤ (10 : ℝ) ^ ((4 * Real.logb 10 (N / (2 * δ)) + 24) / (2 * δ)) := by
    refine le_trans ?_ (mono N hN le_rfl)
    exact Real.one_le_rpow (by norm_num) (div_nonneg (h1 N hN).le hδ2.le)
  generalize (10 : ℝ) ^ ((4 * Real.logb 10 (N / (2 * δ)) + 24) / (2 * δ)) = r at key hr
  refine ⟨hr, ?_, ?_⟩
  · intro n a w b hn ha hw hb hs h
    have h2 := key n a w b hn ha hw hb hs h
    have h3 : (r - 1) * (a * (2 * n - a)) ≤ (r - 1) * a * (2 * n) := by
      have := mul_nonneg (by linarith : 0 ≤ r - 1) (mul_nonneg ha ha)
      nlinarith
    exact le_of_mul_le_mul_right (h2.trans h3) (by linarith)
  · intro n a w b hn ha hw hb hs h
    have h2 := key n a w b hn ha hw hb hs h
    have h3 : (r - 1) * (a * (2 * n - a)) ≤ (r - 1) * (n * n) := by
      refine mul_le_mul_of_nonneg_left ?_ (by linarith)
      nlinarith [mul_self_nonneg (n - a)]
    have hn0 : 0 < 2 * n := by linarith
    refine le_of_mul_le_mul_right (a := 2 * n) ?_ hn0
    calc _ ≤ (r - 1) * (n * n) := h2.trans h3
      _ = _ := by ring

end TDigest
end
end AQ

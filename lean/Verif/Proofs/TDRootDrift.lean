/-
`k1` through batches and merges: every pass moves the square root of the weight on either side of a point by at most `τ`.
-/
import Verif.Proofs.TDRoot
import Verif.Proofs.TDFrac
import Verif.Props.TDRelDrift

set_option linter.unusedSectionVars false
set_option linter.unusedVariables false

namespace AQ
open Prog Spec

section
variable [FloatFmt ℝ]

namespace TDigest

/-- Every run of several members weighs at most `2τ√a + τ²`, with `a` what is left of it or what is right of it. -/
def RootRuns (τ : ℝ) (runs : List (List (Centroid ℝ))) : Prop :=
  ∀ pre r post, runs = pre ++ r :: post → 2 ≤ r.length →
    totalW r ≤ 2 * τ * √(totalW pre.flatten) + τ ^ 2 ∧ totalW r ≤ 2 * τ * √(totalW post.flatten) + τ ^ 2

/-- `A` is at most `B`, up to `F` in the square root. -/
def RootLe (A B F : ℝ) : Prop := √A ≤ √B + F

theorem RootLe.refl (A : ℝ) : RootLe A A 0 := by simp [RootLe]

theorem RootLe.of_le {A B : ℝ} (h : A ≤ B) {F : ℝ} (hF : 0 ≤ F) : RootLe A B F := by
  have := Real.sqrt_le_sqrt h
  unfold RootLe
  linarith

theorem RootLe.mono {A B F F' : ℝ} (h : RootLe A B F) (hF : F ≤ F') : RootLe A B F' := by
  unfold RootLe at *
  linarith

theorem RootLe.trans {A B C F G : ℝ} (h : RootLe A B F) (h' : RootLe B C G) : RootLe A C (G + F) := by
  unfold RootLe at *
  linarith

/-- `a + w ≤ (√a + τ)²`. -/
theorem RootLe.run {A B a w τ : ℝ} (hτ : 0 ≤ τ) (ha : 0 ≤ a) (hw : w ≤ 2 * τ * √a + τ ^ 2) (hA : A ≤ a + w) (hB : a ≤ B) : RootLe A B τ := by
  have h1 : √A ≤ √a + τ := by
    refine Real.sqrt_le_iff.2 ⟨by positivity, ?_⟩
    have := Real.sq_sqrt ha
    nlinarith
  have h2 := Real.sqrt_le_sqrt hB
  unfold RootLe
  linarith

/-- Minkowski's inequality. -/
theorem RootLe.add {A B A' B' F G : ℝ} (hA : 0 ≤ A) (hB : 0 ≤ B) (hA' : 0 ≤ A') (hB' : 0 ≤ B') (hF : 0 ≤ F) (hG : 0 ≤ G)
    (h : RootLe A A' F) (h' : RootLe B B' G) : RootLe (A + B) (A' + B') (√(F ^ 2 + G ^ 2)) := by
  unfold RootLe at *
  have e1 := Real.sq_sqrt hA
  have e2 := Real.sq_sqrt hB
  have e3 := Real.sq_sqrt hA'
  have e4 := Real.sq_sqrt hB'
  have p1 := Real.sqrt_nonneg A
  have p2 := Real.sqrt_nonneg B
  have p3 := Real.sqrt_nonneg A'
  have p4 := Real.sqrt_nonneg B'
  have hS := Real.sqrt_nonneg (A' + B')
  have hT := Real.sqrt_nonneg (F ^ 2 + G ^ 2)
  have eS := Real.sq_sqrt (show 0 ≤ A' + B' by linarith)
  have eT := Real.sq_sqrt (show 0 ≤ F ^ 2 + G ^ 2 by positivity)
  refine Real.sqrt_le_iff.2 ⟨by linarith, ?_⟩
  -- Cauchy-Schwarz
  have cs : √A' * F + √B' * G ≤ √(A' + B') * √(F ^ 2 + G ^ 2) := by
    refine le_of_sq_le_sq ?_ (mul_nonneg hS hT)
    rw [mul_pow, eS, eT]
    nlinarith [sq_nonneg (√A' * G - √B' * F)]
  have hA2 : A ≤ (√A' + F) ^ 2 := by rw [← e1]; exact pow_le_pow_left₀ p1 h 2
  have hB2 : B ≤ (√B' + G) ^ 2 := by rw [← e2]; exact pow_le_pow_left₀ p2 h' 2
  nlinarith

/-- The centroids represent what was supplied up to `F` in the square root, counted from either end. -/
structure RootNear (x : ℝ) (cs sup : List (Centroid ℝ)) (F : ℝ) : Prop where
  below : RootLe (lw x sup) (lw x cs) F
  upTo : RootLe (uw x cs) (uw x sup) F
  from_ : RootLe (totalW cs - lw x cs) (totalW sup - lw x sup) F
  above : RootLe (totalW sup - uw x sup) (totalW cs - uw x cs) F

theorem RootNear.mono {x F F' : ℝ} {cs sup : List (Centroid ℝ)} (h : RootNear x cs sup F) (hF : F ≤ F') : RootNear x cs sup F' :=
  ⟨h.below.mono hF, h.upTo.mono hF, h.from_.mono hF, h.above.mono hF⟩

theorem RootNear.refl (x : ℝ) (l : List (Centroid ℝ)) : RootNear x l l 0 := ⟨.refl _, .refl _, .refl _, .refl _⟩

theorem RootNear.trans {x F G : ℝ} {a b c : List (Centroid ℝ)} (h : RootNear x a b F) (h' : RootNear x b c G) : RootNear x a c (G + F) :=
  ⟨(h'.below.trans h.below).mono (by linarith), h.upTo.trans h'.upTo, h.from_.trans h'.from_, (h'.above.trans h.above).mono (by linarith)⟩

theorem RootNear.append {x F G : ℝ} {a b sa sb : List (Centroid ℝ)} (ga : ∀ c ∈ a, Good c) (gb : ∀ c ∈ b, Good c) (gsa : ∀ c ∈ sa, Good c)
    (gsb : ∀ c ∈ sb, Good c) (hF : 0 ≤ F) (hG : 0 ≤ G) (h : RootNear x a sa F) (h' : RootNear x b sb G) :
    RootNear x (a ++ b) (sa ++ sb) (√(F ^ 2 + G ^ 2)) := by
  obtain ⟨a1, a2⟩ := lw_range (x := x) ga
  obtain ⟨a3, a4⟩ := uw_range (x := x) ga
  obtain ⟨b1, b2⟩ := lw_range (x := x) gb
  obtain ⟨b3, b4⟩ := uw_range (x := x) gb
  obtain ⟨c1, c2⟩ := lw_range (x := x) gsa
  obtain ⟨c3, c4⟩ := uw_range (x := x) gsa
  obtain ⟨d1, d2⟩ := lw_range (x := x) gsb
  obtain ⟨d3, d4⟩ := uw_range (x := x) gsb
  constructor <;> simp only [lw_append, uw_append, totalW_append, add_sub_add_comm]
  · exact RootLe.add c1 d1 a1 b1 hF hG h.below h'.below
  · exact RootLe.add a3 b3 c3 d3 hF hG h.upTo h'.upTo
  · exact RootLe.add (by linarith) (by linarith) (by linarith) (by linarith) hF hG h.from_ h'.from_
  · exact RootLe.add (by linarith) (by linarith) (by linarith) (by linarith) hF hG h.above h'.above

theorem RootNear.perm {x F : ℝ} {a b b' : List (Centroid ℝ)} (h : RootNear x a b F) (hp : b.Perm b') : RootNear x a b' F := by
  have e : totalW b = totalW b' := (hp.map _).sum_eq
  exact ⟨by rw [← lw_perm x hp]; exact h.below, by rw [← uw_perm x hp]; exact h.upTo, by rw [← lw_perm x hp, ← e]; exact h.from_,
    by rw [← uw_perm x hp, ← e]; exact h.above⟩

/-- One pass. -/
theorem RootRuns.near {τ : ℝ} (hτ : 0 ≤ τ) {runs : List (List (Centroid ℝ))} (hne : ∀ r ∈ runs, r ≠ []) (hg : ∀ r ∈ runs, ∀ c ∈ r, Good c)
    (hs : runs.flatten.Pairwise (fun a b => a.mean.toK ≤ b.mean.toK)) (h : RootRuns τ runs) (x : ℝ) :
    RootNear x (runs.map weightedMean) runs.flatten τ := by
  have hW : totalW (runs.map weightedMean) = totalW runs.flatten := by
    clear h hs
    induction runs with
    | nil => rfl
    | cons r rs ih =>
      rw [List.map_cons, totalW_cons, List.flatten_cons, totalW_append, ih (fun q hq => hne q (by simp [hq])) (fun q hq => hg q (by simp [hq]))]
      rfl
  have gf : ∀ d ∈ runs.flatten, Good d := by
    intro d hd
    obtain ⟨q, hq, hd⟩ := List.mem_flatten.1 hd
    exact hg q hq d hd
  have tot : ∀ pre r post, runs = pre ++ r :: post → totalW runs.flatten = totalW pre.flatten + totalW r + totalW post.flatten ∧
      0 ≤ totalW pre.flatten ∧ 0 ≤ totalW post.flatten := by
    intro pre r post he
    rw [he] at gf ⊢
    simp only [List.flatten_append, List.flatten_cons, totalW_append] at gf ⊢
    refine ⟨by ring, totalW_nonneg (fun c hc => gf c (by simp [hc])), totalW_nonneg (fun c hc => gf c ?_)⟩
    simp only [List.mem_append]
    exact Or.inr (Or.inr hc)
  have L : RootLe (lw x runs.flatten) (lw x (runs.map weightedMean)) τ ∧
      RootLe (totalW (runs.map weightedMean) - lw x (runs.map weightedMean)) (totalW runs.flatten - lw x runs.flatten) τ := by
    rcases lw_split (x := x) runs hne hg hs with h1 | ⟨pre, r, post, he, h2, h3, h4⟩
    · exact ⟨.of_le h1 hτ, .of_le (by linarith) hτ⟩
    · obtain ⟨h5, h6⟩ := h pre r post he h2
      obtain ⟨ht, t1, t2⟩ := tot pre r post he
      exact ⟨.run hτ t1 h5 h4 h3, .run hτ t2 h6 (by linarith) (by linarith)⟩
  have U : RootLe (uw x (runs.map weightedMean)) (uw x runs.flatten) τ ∧
      RootLe (totalW runs.flatten - uw x runs.flatten) (totalW (runs.map weightedMean) - uw x (runs.map weightedMean)) τ := by
    rcases uw_split (x := x) runs hne hg hs with h1 | ⟨pre, r, post, he, h2, h3, h4⟩
    · exact ⟨.of_le h1 hτ, .of_le (by linarith) hτ⟩
    · obtain ⟨h5, h6⟩ := h pre r post he h2
      obtain ⟨ht, t1, t2⟩ := tot pre r post he
      exact ⟨.run hτ t1 h5 h4 h3, .run hτ t2 h6 (by linarith) (by linarith)⟩
  exact ⟨L.1, U.1, L.2, U.2⟩

end TDigest

section
variable [FloatFmt.Exact ℝ]
namespace TDigest

theorem Merged.root {δ : ℝ} (hδ : 0 < δ) {d d' : TDigest ℝ} {batch : List (Centroid ℝ)} {runs : List (List (Centroid ℝ))}
    (hk : K1AtLeast δ d.scaleFunc d.inverseScaleFunc d.compressFactor) (h : Merged d batch d' runs)
    (h1 : ∀ e ∈ batch ++ d.centroids, 1 ≤ e.weight.toK) : RootRuns (Real.pi / δ * √(totalW (batch ++ d.centroids))) runs := by
  intro pre r post he h2
  have hlim := h.limit pre r post he h2
  obtain ⟨hs, hi, δ', hf, hδ'⟩ := hk
  rw [hs, hi, hf] at hlim
  have htot : totalW (batch ++ d.centroids) = totalW runs.flatten := ((h.perm.map _).sum_eq).symm
  have gf : ∀ d ∈ runs.flatten, Good d := by
    intro d hd
    obtain ⟨q, hq, hd⟩ := List.mem_flatten.1 hd
    exact h.good q hq d hd
  have hrn := h.ne r (by rw [he]; simp)
  have hr1 : 1 ≤ totalW r := by
    obtain ⟨e, r', rfl⟩ := List.exists_cons_of_ne_nil hrn
    have hmem : ∀ e' ∈ e :: r', 1 ≤ e'.weight.toK := by
      intro e' he'
      refine h1 e' (h.perm.mem_iff.1 ?_)
      rw [he]
      simp only [List.flatten_append, List.flatten_cons, List.mem_append]
      exact Or.inr (Or.inl he')
    rw [totalW_cons]
    have := hmem e (by simp)
    have := totalW_nonneg (l := r') (fun e' he' => h.good (e :: r') (by rw [he]; simp) e' (by simp [he']))
    linarith
  have ha : 0 ≤ totalW pre.flatten := by
    refine totalW_nonneg (fun e hm => gf e ?_)
    rw [he]
    simp only [List.flatten_append, List.mem_append]
    exact Or.inl hm
  have hb : 0 ≤ totalW post.flatten := by
    refine totalW_nonneg (fun e hm => gf e ?_)
    rw [he]
    simp only [List.flatten_append, List.flatten_cons, List.mem_append]
    exact Or.inr (Or.inr hm)
  obtain ⟨r1, r2⟩ := k1_run (lt_of_lt_of_le hδ hδ') ha hr1 hb (by
    rw [htot, he]
    simp only [List.flatten_append, List.flatten_cons, totalW_append]
    ring) hlim
  have hτ : Real.pi / δ' * √(totalW (batch ++ d.centroids)) ≤ Real.pi / δ * √(totalW (batch ++ d.centroids)) :=
    mul_le_mul_of_nonneg_right (div_le_div_of_nonneg_left Real.pi_pos.le hδ hδ') (Real.sqrt_nonneg _)
  have hτ0 : 0 ≤ Real.pi / δ' * √(totalW (batch ++ d.centroids)) :=
    mul_nonneg (div_nonneg Real.pi_pos.le (by linarith)) (Real.sqrt_nonneg _)
  generalize Real.pi / δ' * √(totalW (batch ++ d.centroids)) = τ' at *
  generalize Real.pi / δ * √(totalW (batch ++ d.centroids)) = τ at *
  have q1 := Real.sqrt_nonneg (totalW pre.flatten)
  have q2 := Real.sqrt_nonneg (totalW post.flatten)
  have sq : τ' ^ 2 ≤ τ ^ 2 := pow_le_pow_left₀ hτ0 hτ 2
  have m1 := mul_le_mul_of_nonneg_right hτ q1
  have m2 := mul_le_mul_of_nonneg_right hτ q2
  constructor <;> linarith

end TDigest

namespace TTree
open TDigest

theorem run_root {δ : ℝ} (hδ : 0 < δ) : ∀ t : TTree ℝ, t.Made (K1AtLeast δ) →
    (∀ e ∈ t.supplied, Good e ∧ InRange e) → (∀ e ∈ t.supplied, 1 ≤ e.weight.toK) →
    Partially t.run (fun d => ∀ x, RootNear x d.centroids t.supplied (t.depth * (Real.pi / δ * √(totalW t.supplied)))) := by
  have hβ : 0 ≤ Real.pi / δ := div_nonneg Real.pi_pos.le hδ.le
  have step : ∀ (d : TDigest ℝ) (b sup sb : List (Centroid ℝ)) (m : Nat), Stands d.centroids sup → Stands b sb →
      K1AtLeast δ d.scaleFunc d.inverseScaleFunc d.compressFactor → (∀ e ∈ sup ++ sb, 1 ≤ e.weight.toK) → (∀ e ∈ sup ++ sb, Good e) →
      (∀ x, RootNear x d.centroids sup (m * (Real.pi / δ * √(totalW sup)))) → (∀ x, RootNear x b sb (m * (Real.pi / δ * √(totalW sb)))) →
      Partially (d.addCentroidBuffer b) (fun d' => ∀ x, RootNear x d'.centroids (sup ++ sb) (((m + 1 : ℕ) : ℝ) * (Real.pi / δ * √(totalW (sup ++ sb))))) := by
    intro d b sup sb m hd hb hk hw hg hn hn'
    have hd1 : ∀ e ∈ d.centroids, 1 ≤ e.weight.toK := hd.closed (fun w => 1 ≤ w) (fun a b ha hb => by linarith) (fun e he => hw e (by simp [he]))
    have hb1 : ∀ e ∈ b, 1 ≤ e.weight.toK := hb.closed (fun w => 1 ≤ w) (fun a b ha hb => by linarith) (fun e he => hw e (by simp [he]))
    have hd0 : ∀ e ∈ d.centroids, Good e := fun e he => (hd.good e he).1
    have hb0 : ∀ e ∈ b, Good e := fun e he => (hb.good e he).1
    have n1 : 0 ≤ totalW sup := totalW_nonneg (fun e he => hg e (by simp [he]))
    have n2 : 0 ≤ totalW sb := totalW_nonneg (fun e he => hg e (by simp [he]))
    refine (merged d b hd0 hb0).partially.mono ?_
    rintro d' ⟨runs, hm⟩ x
    have hr := hm.root hδ hk (by
      intro e he
      rcases List.mem_append.1 he with he | he
      · exact hb1 e he
      · exact hd1 e he)
    have htot : totalW (b ++ d.centroids) = totalW (sup ++ sb) := by rw [totalW_append, hb.weight, hd.weight, add_comm, ← totalW_append]
    rw [htot] at hr
    have h1 := ((hr.near (mul_nonneg hβ (Real.sqrt_nonneg _)) hm.ne hm.good hm.sorted x).perm hm.perm).perm (List.perm_append_comm)
    rw [← hm.cs] at h1
    have h2 := RootNear.append hd0 hb0 (fun e he => hg e (by simp [he])) (fun e he => hg e (by simp [he]))
      (mul_nonneg (Nat.cast_nonneg _) (mul_nonneg hβ (Real.sqrt_nonneg _))) (mul_nonneg (Nat.cast_nonneg _) (mul_nonneg hβ (Real.sqrt_nonneg _)))
      (hn x) (hn' x)
    have e : √((m * (Real.pi / δ * √(totalW sup))) ^ 2 + (m * (Real.pi / δ * √(totalW sb))) ^ 2) = m * (Real.pi / δ * √(totalW (sup ++ sb))) := by
      rw [mul_pow, mul_pow, mul_pow, mul_pow, Real.sq_sqrt n1, Real.sq_sqrt n2, totalW_append,
        show (m : ℝ) ^ 2 * ((Real.pi / δ) ^ 2 * totalW sup) + (m : ℝ) ^ 2 * ((Real.pi / δ) ^ 2 * totalW sb) =
          (m * (Real.pi / δ)) ^ 2 * (totalW sup + totalW sb) by ring,
        Real.sqrt_mul (sq_nonneg _), Real.sqrt_sq (mul_nonneg (Nat.cast_nonneg _) hβ), mul_assoc]
    rw [e] at h2
    refine (h1.trans h2).mono (le_of_eq ?_)
    push_cast
    ring
  intro t
  induction t with
  | new s' i' cf' =>
    intro _ _ _ x
    have := RootNear.refl x ([] : List (Centroid ℝ))
    simpa [depth, supplied, TDigest.new] using this
  | ins t o ih =>
    intro hk h hw
    have ht : ∀ c ∈ t.supplied, Good c ∧ InRange c := fun c hc => h c (by simp [supplied, hc])
    have ho : ∀ c ∈ o.supplied, Good c ∧ InRange c := fun c hc => h c (by simp [supplied, hc])
    unfold run
    rw [partially_bind]
    refine (((run_inv t ht).partially.and (run_params t)).and (ih hk ht (fun c hc => hw c (by simp [supplied, hc])))).mono ?_
    rintro d ⟨⟨⟨got, hi, hs⟩, hp⟩, hd⟩
    have hroot := made_root t hk
    rw [← hp] at hroot
    rw [exec_eq]
    exact step d o.supplied t.supplied o.supplied t.depth (Stands.centroids hi hs) (Stands.refl ho) hroot hw (fun c hc => (h c hc).1) hd
      (fun x => (RootNear.refl x _).mono (mul_nonneg (Nat.cast_nonneg _) (mul_nonneg hβ (Real.sqrt_nonneg _))))
  | merge a b iha ihb =>
    intro hk h hw
    have ha : ∀ c ∈ a.supplied, Good c ∧ InRange c := fun c hc => h c (by simp [supplied, hc])
    have hb : ∀ c ∈ b.supplied, Good c ∧ InRange c := fun c hc => h c (by simp [supplied, hc])
    unfold run
    rw [partially_bind]
    refine (((run_inv a ha).partially.and (run_params a)).and (iha hk.1 ha (fun c hc => hw c (by simp [supplied, hc])))).mono ?_
    rintro d ⟨⟨⟨got, hi, hs⟩, hp⟩, hd⟩
    rw [partially_bind]
    refine ((run_inv b hb).partially.and (ihb hk.2 hb (fun c hc => hw c (by simp [supplied, hc])))).mono ?_
    rintro f ⟨⟨got', hi', hs'⟩, hf⟩
    have hroot := made_root a hk.1
    rw [← hp] at hroot
    exact step d f.centroids a.supplied b.supplied (Max.max a.depth b.depth) (Stands.centroids hi hs) (Stands.centroids hi' hs') hroot hw
      (fun c hc => (h c hc).1)
      (fun x => (hd x).mono (mul_le_mul_of_nonneg_right (Nat.cast_le.2 (le_max_left _ _)) (mul_nonneg hβ (Real.sqrt_nonneg _))))
      (fun x => (hf x).mono (mul_le_mul_of_nonneg_right (Nat.cast_le.2 (le_max_right _ _)) (mul_nonneg hβ (Real.sqrt_nonneg _))))

end TTree
end
end
end AQ

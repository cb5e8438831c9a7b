/-
TDigests merged in any shape, in rounding arithmetic: what is kept about ranks.
-/
import Verif.Proofs.TDShards
import Verif.Props.ParTRoundRank

set_option linter.unusedSectionVars false
set_option linter.unusedVariables false

namespace AQ
open Prog Spec
variable {K : Type} [Field K] [LinearOrder K] [IsStrictOrderedRing K] [FloatFmt K]

namespace TTree
open TDigest

/-- What a digest with `k0` in a tree knows about what was supplied, in rounding arithmetic. -/
structure RK (u η X δ M : K) (d : TDigest K) (sup : List (Centroid K)) (s E : K) : Prop where
  size : K0Size u δ 1 d (totalW sup)
  near : CloseTo s E d.centroids sup
  last : d.centroids ≠ [] → ∃ S s' E', Runs (u * X + η) S d.centroids ∧ (∀ c ∈ S, Good c) ∧ (∀ c ∈ S, d.min ≤ c.mean ∧ c.mean ≤ d.max) ∧
    CloseTo s' E' S sup ∧ s' + (u * X + η) * (M + 1) ≤ s ∧ E' ≤ E ∧ 0 ≤ E'

theorem RK.mono {u η X δ M : K} {d : TDigest K} {sup : List (Centroid K)} {s E s' E' : K} (h : RK u η X δ M d sup s E) (hs : s ≤ s') (hE : E ≤ E')
    (hg : ∀ c ∈ sup, Good c) : RK u η X δ M d sup s' E' := by
  refine ⟨h.size, h.near.mono hs hE hg, fun hne => ?_⟩
  obtain ⟨S, t, F, h1, h2, h3, h4, h5, h6, h7⟩ := h.last hne
  exact ⟨S, t, F, h1, h2, h3, h4, h5.trans hs, h6.trans hE, h7⟩

theorem new_rk {u η X δ M : K} (hu0 : 0 ≤ u) (hu : u ≤ 1 / 2 ^ 10) (hδ : 1 ≤ δ) : RK u η X δ M (TDigest.new k0 invK0 (.fin δ)) [] 0 0 :=
  ⟨by simpa using new_k0Size hu0 hu hδ, by simpa [TDigest.new] using CloseTo.nil 0, by simp [TDigest.new]⟩

theorem step_rk [FloatFmt.Mono K] {N : Nat} {A B u η Rm X δ M : K} (H : K0Room N A B u η Rm X δ) (hM1 : 1 ≤ M) {d : TDigest K}
    {sup b sb : List (Centroid K)} {s E F : K} (hd : RTInv A B d sup) (h : RK u η X δ M d sup s E) (hs0 : 0 ≤ s) (hE0 : 0 ≤ E) (hF0 : 0 ≤ F)
    (hb : ∀ c ∈ b, Within A B c) (hsup : ∀ c ∈ sup, Within A B c) (hsb : ∀ c ∈ sb, Within A B c) (hWb : totalW b = totalW sb)
    (hbM : ∀ c ∈ b, c.weight.toK ≤ Max.max 1 (totalW sb * (2 / δ + 40 * u))) (hn : CloseTo s F b sb)
    (hN : totalW (sup ++ sb) ≤ N) (hM : totalW (sup ++ sb) * (2 / δ + 40 * u) ≤ M) :
    Always (d.addCentroidBuffer b) (fun d' => RK u η X δ M d' (sup ++ sb) (s + (u * X + η) * (M + 1))
      (E + F + totalW (sup ++ sb) * (2 / δ + 40 * u))) := by
  have hρ := H.rate_nonneg
  have hκ := H.shift_nonneg
  have hκM : 0 ≤ (u * X + η) * (M + 1) := mul_nonneg hκ (by linarith)
  obtain ⟨got, hi, hgot, hW, hE⟩ := hd
  have hWd : totalW d.centroids = totalW sup := hi.weight.trans hW
  have hsum : totalW (sup ++ sb) = totalW sup + totalW sb := totalW_append _ _
  have n1 := totalW_within hsup
  have n2 := totalW_within hsb
  have m0 : 0 ≤ totalW sup * (2 / δ + 40 * u) := mul_nonneg n1 hρ
  have m1 : 0 ≤ totalW sb * (2 / δ + 40 * u) := mul_nonneg n2 hρ
  have m2 : 0 ≤ totalW (sup ++ sb) * (2 / δ + 40 * u) := by rw [hsum, add_mul]; linarith
  have hgs : ∀ c ∈ sup ++ sb, Good c := by
    intro c hc
    rcases List.mem_append.1 hc with hc | hc
    · exact (hsup c hc).good
    · exact (hsb c hc).good
  by_cases hne : b ++ d.centroids = []
  · obtain ⟨rfl, h2⟩ := List.append_eq_nil_iff.1 hne
    rw [addCentroidBuffer_nil d h2]
    have hsb0 : totalW sb = 0 := by rw [← hWb]; simp
    refine ⟨?_, ?_, fun h => absurd h2 h⟩
    · have := h.size
      rw [hsum, hsb0, add_zero]
      exact this
    · have := (h.near.append hn).mono (s' := s + (u * X + η) * (M + 1)) (E' := E + F + totalW (sup ++ sb) * (2 / δ + 40 * u))
        (by linarith) (by linarith) hgs
      rwa [List.append_nil] at this
  have htot : totalW (b ++ d.centroids) = totalW (sup ++ sb) := by rw [totalW_append, hWb, hWd, hsum, add_comm]
  have htot' : totalW (d.centroids ++ b) = totalW (sup ++ sb) := by rw [totalW_append, hWb, hWd, hsum]
  have hM' := hM
  rw [hsum, add_mul] at hM'
  have g1 := addCentroidBuffer_runs H.roomy H.err H.lo H.hi H.XR d b hi.within hb (by rw [htot]; exact hN) hne
  have hz : K0Size u δ (Max.max 1 (totalW (sup ++ sb) * (2 / δ + 40 * u))) d (totalW d.centroids) := by
    refine ⟨h.size.scale, h.size.inv, h.size.factor, h.size.size, fun c hc => ?_⟩
    obtain ⟨w, hw, hle⟩ := h.size.weights c hc
    refine ⟨w, hw, hle.trans (max_le ((le_max_left _ _).trans (le_max_left _ _)) (le_max_of_le_left (le_max_of_le_right ?_)))⟩
    rw [hsum, add_mul]
    linarith
  have hbM' : ∀ c ∈ b, c.weight ≤ .fin (Max.max 1 (totalW (sup ++ sb) * (2 / δ + 40 * u))) := by
    intro c hc
    obtain ⟨w, hw, -⟩ := (hb c hc).nat
    have := hbM c hc
    rw [hw] at this ⊢
    rw [hsum, add_mul]
    exact Fl.fin_le_fin.2 (this.trans (max_le_max le_rfl (by linarith)))
  have g2 := addCentroidBuffer_k0Size' H.roomy H.err H.eta H.small H.factor H.R1 H.R2 (d := d) hi.within hz b hb hbM' (by rw [htot']; exact hN)
  have g3 := addCentroidBuffer_rinv H.roomy hi hgot b hb (by rw [totalW_append, hW, hWb, ← hsum]; exact hN)
  refine ((g1.and g2.partially).and g3.partially).mono ?_
  rintro d' ⟨⟨⟨S, hS, k1, k2⟩, k3⟩, k4⟩
  simp only [htot'] at k3
  have hsz : K0Size u δ 1 d' (totalW (sup ++ sb)) := by
    refine ⟨k3.scale, k3.inv, k3.factor, k3.size, fun c hc => ?_⟩
    obtain ⟨w, hw, hle⟩ := k3.weights c hc
    exact ⟨w, hw, hle.trans (max_le le_rfl (le_max_right _ _))⟩
  have hSw : ∀ x ∈ S, Within A B x := by
    intro x hx
    rcases List.mem_append.1 (hS.mem_iff.1 hx) with hx | hx
    · exact hb x hx
    · exact hi.within x hx
  have hSC : CloseTo s (E + F) S (sup ++ sb) := (h.near.append hn).perm_left (hS.trans List.perm_append_comm)
  have hpass := k1.closeTo hκ m2 (fun x hx => (hSw x hx).good) (fun x hx => within_ge_one (hSw x hx)) (hsz.le hM1 hM) (hsz.one_or k4.within)
  obtain ⟨⟨x, hx, -⟩, ⟨y, hy, -⟩⟩ := hi.range
  refine ⟨hsz, ?_, fun _ => ⟨S, _, _, k1, fun x hx => (hSw x hx).good, k2 x y hx hy, hSC, ?_, ?_, ?_⟩⟩
  · exact (hpass.trans hSC).mono (by linarith) (by linarith) hgs
  · linarith
  · linarith
  · linarith

theorem passes_nonneg {A B : K} : ∀ t : TTree K, (∀ c ∈ t.supplied, Within A B c) → 0 ≤ t.passes
  | new _ _ _, _ => le_rfl
  | ins t o, h => add_nonneg (passes_nonneg t (fun c hc => h c (by simp [supplied, hc]))) (totalW_within h)
  | merge a b, h => add_nonneg (add_nonneg (passes_nonneg a (fun c hc => h c (by simp [supplied, hc])))
      (passes_nonneg b (fun c hc => h c (by simp [supplied, hc])))) (totalW_within h)

theorem CloseTo.rfl' (s : K) (hs : 0 ≤ s) {l : List (Centroid K)} (hg : ∀ c ∈ l, Good c) : CloseTo s 0 l l := by
  have : CloseTo (0 : K) 0 l l := fun x => by simp
  exact this.mono hs le_rfl hg

theorem run_rk [FloatFmt.Mono K] {N : Nat} {A B u η Rm X δ M : K} (H : K0Room N A B u η Rm X δ) (hM1 : 1 ≤ M) : ∀ t : TTree K,
    t.Uniform k0 invK0 (.fin δ) → (∀ c ∈ t.supplied, Within A B c) → (∀ c ∈ t.supplied, c.weight = .fin 1) → totalW t.supplied ≤ N →
    totalW t.supplied * (2 / δ + 40 * u) ≤ M →
    Always t.run (fun d => RK u η X δ M d t.supplied (t.depth * ((u * X + η) * (M + 1))) (t.passes * (2 / δ + 40 * u)))
  | new s i cf, ⟨e1, e2, e3⟩, _, _, _, _ => by
    subst e1 e2 e3
    have := new_rk (η := η) (X := X) (M := M) H.err.u_nonneg H.small H.factor
    simpa [run, supplied, depth, passes] using this
  | ins t o, hk, h, h1, hN, hM => by
    have hρ := H.rate_nonneg
    have hκM : 0 ≤ (u * X + η) * (M + 1) := mul_nonneg H.shift_nonneg (by linarith)
    have ht : ∀ c ∈ t.supplied, Within A B c := fun c hc => h c (by simp [supplied, hc])
    have ho : ∀ c ∈ o.supplied, Within A B c := fun c hc => h c (by simp [supplied, hc])
    have e : totalW (ins t o).supplied = totalW t.supplied + totalW o.supplied := totalW_append _ _
    have n1 := totalW_within ho
    have m1 := mul_nonneg n1 hρ
    have hM' := hM
    rw [e, add_mul] at hM'
    unfold run
    rw [always_bind]
    refine ((run_rinv H.roomy t ht (by linarith)).and (run_rk H hM1 t hk ht (fun c hc => h1 c (by simp [supplied, hc])) (by linarith)
      (by linarith)).partially).mono ?_
    rintro d ⟨hd, hr⟩
    rw [TOp.exec_eq]
    have hs0 : 0 ≤ (t.depth : K) * ((u * X + η) * (M + 1)) := mul_nonneg (Nat.cast_nonneg _) hκM
    refine (step_rk (F := 0) H hM1 hd hr hs0 (mul_nonneg (passes_nonneg t ht) hρ) le_rfl ho ht ho rfl ?_
      (CloseTo.rfl' _ hs0 (fun c hc => (ho c hc).good)) hN hM).mono ?_
    · intro c hc
      refine le_max_of_le_left (le_of_eq ?_)
      rw [h1 c (by simp [supplied, hc])]
      rfl
    · intro d' h'
      have e1 : (((ins t o).depth : Nat) : K) * ((u * X + η) * (M + 1)) = (t.depth : K) * ((u * X + η) * (M + 1)) + (u * X + η) * (M + 1) := by
        rw [show (ins t o).depth = t.depth + 1 from rfl]; push_cast; ring
      have e2 : (ins t o).passes * (2 / δ + 40 * u) = t.passes * (2 / δ + 40 * u) + 0 + totalW (t.supplied ++ o.supplied) * (2 / δ + 40 * u) := by
        rw [show (ins t o).passes = t.passes + totalW (t.supplied ++ o.supplied) from rfl]; ring
      rw [e1, e2]
      exact h'
  | merge a b, hk, h, h1, hN, hM => by
    have hρ := H.rate_nonneg
    have hκM : 0 ≤ (u * X + η) * (M + 1) := mul_nonneg H.shift_nonneg (by linarith)
    have ha : ∀ c ∈ a.supplied, Within A B c := fun c hc => h c (by simp [supplied, hc])
    have hb : ∀ c ∈ b.supplied, Within A B c := fun c hc => h c (by simp [supplied, hc])
    have e : totalW (merge a b).supplied = totalW a.supplied + totalW b.supplied := totalW_append _ _
    have n1 := totalW_within ha
    have n2 := totalW_within hb
    have m1 := mul_nonneg n1 hρ
    have m2 := mul_nonneg n2 hρ
    have hM' := hM
    rw [e, add_mul] at hM'
    unfold run
    rw [always_bind]
    refine ((run_rinv H.roomy a ha (by linarith)).and (run_rk H hM1 a hk.1 ha (fun c hc => h1 c (by simp [supplied, hc])) (by linarith)
      (by linarith)).partially).mono ?_
    rintro d ⟨hd, hr⟩
    rw [always_bind]
    refine ((run_rinv H.roomy b hb (by linarith)).and (run_rk H hM1 b hk.2 hb (fun c hc => h1 c (by simp [supplied, hc])) (by linarith)
      (by linarith)).partially).mono ?_
    rintro f ⟨⟨got, hi, hgot, hW, hE⟩, hr'⟩
    have hs0 : 0 ≤ ((Max.max a.depth b.depth : Nat) : K) * ((u * X + η) * (M + 1)) := mul_nonneg (Nat.cast_nonneg _) hκM
    have hga : ∀ c ∈ a.supplied, Good c := fun c hc => (ha c hc).good
    have hgb : ∀ c ∈ b.supplied, Good c := fun c hc => (hb c hc).good
    have q1 := hr.mono (s' := ((Max.max a.depth b.depth : Nat) : K) * ((u * X + η) * (M + 1))) (mul_le_mul_of_nonneg_right
      (by exact_mod_cast le_max_left _ _) hκM) le_rfl hga
    have q2 := hr'.near.mono (s' := ((Max.max a.depth b.depth : Nat) : K) * ((u * X + η) * (M + 1))) (mul_le_mul_of_nonneg_right
      (by exact_mod_cast le_max_right _ _) hκM) le_rfl hgb
    refine (step_rk H hM1 hd q1 hs0 (mul_nonneg (passes_nonneg a ha) hρ) (mul_nonneg (passes_nonneg b hb) hρ) hi.within ha hb (hi.weight.trans hW) ?_
      q2 hN hM).mono ?_
    · intro c hc
      obtain ⟨w, hw, hle⟩ := hr'.size.weights c hc
      rw [hw]
      exact hle
    · intro d' h'
      have e1 : (((merge a b).depth : Nat) : K) * ((u * X + η) * (M + 1)) = ((Max.max a.depth b.depth : Nat) : K) * ((u * X + η) * (M + 1)) +
          (u * X + η) * (M + 1) := by
        rw [show (merge a b).depth = Max.max a.depth b.depth + 1 from rfl, Nat.cast_succ]; ring
      have e2 : (merge a b).passes * (2 / δ + 40 * u) = a.passes * (2 / δ + 40 * u) + b.passes * (2 / δ + 40 * u) +
          totalW (a.supplied ++ b.supplied) * (2 / δ + 40 * u) := by
        rw [show (merge a b).passes = a.passes + b.passes + totalW (a.supplied ++ b.supplied) from rfl]; ring
      rw [e1, e2]
      exact h'

theorem shards_uniform (s i : ScaleFn K) (cf : Fl K) : ∀ (h : Nat) (f : Nat → List (Fl K)), (shards s i cf h f).Uniform s i cf
  | 0, f => ⟨rfl, rfl, rfl⟩
  | h + 1, f => ⟨shards_uniform s i cf h f, shards_uniform s i cf h _⟩

theorem shards_depth (s i : ScaleFn K) (cf : Fl K) : ∀ (h : Nat) (f : Nat → List (Fl K)), (shards s i cf h f).depth = h + 1
  | 0, f => rfl
  | h + 1, f => by
    rw [shards, depth, shards_depth s i cf h f, shards_depth s i cf h, Nat.max_self]

end TTree
end AQ

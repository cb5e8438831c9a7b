/-
Runs that are at most a fraction of the whole weight: invariants for trees of insertions and merges, scale functions mixed as one likes.
-/
import Verif.Proofs.TDRelDrift
import Verif.Spec.TDFrac

set_option linter.unusedSectionVars false
set_option linter.unusedVariables false

namespace AQ
open Prog Spec
variable {K : Type} [Field K] [LinearOrder K] [IsStrictOrderedRing K] [FloatFmt K]

namespace TDigest

/-- What the size limits of `k0` and `k1` say: a run takes at most the fraction `c` of the whole weight. -/
def LimitFrac (c N : K) (s i : ScaleFn K) (cf : Fl K) : Prop :=
  ∀ n a w b : K, n ≤ N → 0 ≤ a → 1 ≤ w → 0 ≤ b → a + w + b = n → Fl.le (.fin w) (sizeLimit s i cf n a) = true → w ≤ c * n

theorem LimitRel.frac {s i : ScaleFn K} {cf : Fl K} {c N : K} (hc : 0 ≤ c) (h : LimitRel s i cf c N) : LimitFrac (c / (2 + c)) N s i cf := by
  intro n a w b hn ha hw hb hs hl
  obtain ⟨h1, h2⟩ := h n a w b hn ha hw hb hs hl
  have h3 : 0 < 2 + c := by linarith
  rw [div_mul_eq_mul_div, le_div_iff₀ h3]
  subst hs
  nlinarith

theorem LimitFrac.mono {s i : ScaleFn K} {cf : Fl K} {c c' N : K} (hc : c ≤ c') (h : LimitFrac c N s i cf) : LimitFrac c' N s i cf := by
  intro n a w b hn ha hw hb hs hl
  refine (h n a w b hn ha hw hb hs hl).trans (mul_le_mul_of_nonneg_right hc (by linarith))

theorem Merged.frac [FloatFmt.Exact K] {c N : K} {d d' : TDigest K} {batch : List (Centroid K)} {runs : List (List (Centroid K))}
    (hl : LimitFrac c N d.scaleFunc d.inverseScaleFunc d.compressFactor) (h : Merged d batch d' runs)
    (h1 : ∀ e ∈ batch ++ d.centroids, 1 ≤ e.weight.toK) (hN : totalW (batch ++ d.centroids) ≤ N) :
    ∀ r ∈ runs, 2 ≤ r.length → totalW r ≤ c * totalW (batch ++ d.centroids) := by
  intro r hr h2
  obtain ⟨pre, post, he⟩ := List.append_of_mem hr
  have hlim := h.limit pre r post he h2
  have htot : totalW (batch ++ d.centroids) = totalW runs.flatten := ((h.perm.map _).sum_eq).symm
  have gf : ∀ d ∈ runs.flatten, Good d := by
    intro d hd
    obtain ⟨q, hq, hd⟩ := List.mem_flatten.1 hd
    exact h.good q hq d hd
  have hrn := h.ne r hr
  have hr1 : 1 ≤ totalW r := by
    obtain ⟨e, r', rfl⟩ := List.exists_cons_of_ne_nil hrn
    have hmem : ∀ e' ∈ e :: r', 1 ≤ e'.weight.toK := by
      intro e' he'
      refine h1 e' (h.perm.mem_iff.1 ?_)
      rw [he]
      simp only [List.flatten_append, List.flatten_cons, List.mem_append]
      exact Or.inr (Or.inl he')
    rw [totalW_cons]
    have := hmem e (by simp)
    have := totalW_nonneg (l := r') (fun e' he' => h.good (e :: r') hr e' (by simp [he']))
    linarith
  refine hl _ _ _ (totalW post.flatten) hN (totalW_nonneg ?_) hr1 (totalW_nonneg ?_) ?_ hlim
  · intro e hm
    apply gf
    rw [he]
    simp only [List.flatten_append, List.mem_append]
    exact Or.inl hm
  · intro e hm
    apply gf
    rw [he]
    simp only [List.flatten_append, List.flatten_cons, List.mem_append]
    exact Or.inr (Or.inr hm)
  · rw [htot, he]
    simp only [List.flatten_append, List.flatten_cons, totalW_append]
    ring

end TDigest

namespace TTree
open TDigest

theorem Made.mono {P Q : ScaleFn K → ScaleFn K → Fl K → Prop} (h : ∀ s i cf, P s i cf → Q s i cf) : ∀ t : TTree K, t.Made P → t.Made Q
  | new s i cf, hp => h s i cf hp
  | ins t _, hp => Made.mono h t hp
  | merge a b, hp => ⟨Made.mono h a hp.1, Made.mono h b hp.2⟩

theorem made_root {P : ScaleFn K → ScaleFn K → Fl K → Prop} : ∀ t : TTree K, t.Made P → P t.root.1 t.root.2.1 t.root.2.2
  | new s i cf, hp => hp
  | ins t _, hp => made_root t hp
  | merge a b, hp => made_root a hp.1

theorem shards_made {P : ScaleFn K → ScaleFn K → Fl K → Prop} {s i : ScaleFn K} {cf : Fl K} (h : P s i cf) :
    ∀ (m : Nat) (f : Nat → List (Fl K)), (shards s i cf m f).Made P
  | 0, f => h
  | m + 1, f => ⟨shards_made h m _, shards_made h m _⟩

theorem ofOps_made {P : ScaleFn K → ScaleFn K → Fl K → Prop} : ∀ (ops : List (TOp K)) (t : TTree K), t.Made P → (ops.foldl .ins t).Made P
  | [], _, h => h
  | o :: ops, t, h => ofOps_made ops (.ins t o) h

/-- What a digest in such a tree knows about what was supplied. -/
structure FInv (c M N : K) (d : TDigest K) (sup : List (Centroid K)) (E : K) : Prop where
  lim : LimitFrac c N d.scaleFunc d.inverseScaleFunc d.compressFactor
  one : ∀ e ∈ d.centroids, 1 ≤ e.weight.toK
  wt : ∀ e ∈ d.centroids, e.weight.toK ≤ Max.max M (c * totalW sup)
  near : ∀ x, Near x d.centroids sup E

theorem step_finv [FloatFmt.Exact K] {c M N E F : K} (hc : 0 ≤ c) {d : TDigest K} {sup b sb : List (Centroid K)} (hd : ∀ e ∈ d.centroids, Good e)
    (hb : ∀ e ∈ b, Good e) (hb1 : ∀ e ∈ b, 1 ≤ e.weight.toK) (hW : totalW d.centroids = totalW sup) (hWb : totalW b = totalW sb)
    (hN : totalW (sup ++ sb) ≤ N) (h : FInv c M N d sup E)
    (hw : ∀ e ∈ b, e.weight.toK ≤ Max.max M (c * totalW sb)) (hn : ∀ x, Near x b sb F) :
    Partially (d.addCentroidBuffer b) (fun d' => FInv c M N d' (sup ++ sb) (E + F + c * totalW (sup ++ sb))) := by
  refine (merged d b hd hb).partially.mono ?_
  rintro d' ⟨runs, hm⟩
  have n1 : 0 ≤ totalW sup := hW ▸ totalW_nonneg hd
  have n2 : 0 ≤ totalW sb := hWb ▸ totalW_nonneg hb
  have htot : totalW (b ++ d.centroids) = totalW (sup ++ sb) := by rw [totalW_append, totalW_append, hW, hWb, add_comm]
  have hsum : totalW (sup ++ sb) = totalW sup + totalW sb := totalW_append _ _
  have h1 : ∀ e ∈ b ++ d.centroids, 1 ≤ e.weight.toK := by
    intro e he
    rcases List.mem_append.1 he with he | he
    · exact hb1 e he
    · exact h.one e he
  have hrun := hm.frac h.lim h1 (htot ▸ hN)
  rw [htot] at hrun
  have hn0 : 0 ≤ totalW (sup ++ sb) := by rw [hsum]; linarith
  refine ⟨by rw [hm.sf, hm.isf, hm.cf]; exact h.lim, ?_, ?_, ?_⟩
  · intro e he
    rw [hm.cs] at he
    obtain ⟨r, hr, rfl⟩ := List.mem_map.1 he
    show 1 ≤ totalW r
    obtain ⟨e, r', rfl⟩ := List.exists_cons_of_ne_nil (hm.ne r hr)
    rw [totalW_cons]
    have h2 : 1 ≤ e.weight.toK := by
      refine h1 e (hm.perm.mem_iff.1 ?_)
      exact List.mem_flatten.2 ⟨_, hr, by simp⟩
    have := totalW_nonneg (l := r') (fun e' he' => hm.good (e :: r') hr e' (by simp [he']))
    linarith
  · refine hm.weight_le hrun (le_max_right _ _) ?_
    intro e he
    rcases List.mem_append.1 he with he | he
    · exact (hw e he).trans (max_le_max le_rfl (mul_le_mul_of_nonneg_left (by linarith) hc))
    · exact (h.wt e he).trans (max_le_max le_rfl (mul_le_mul_of_nonneg_left (by linarith) hc))
  · intro x
    have hq := hm.drift (D := c * totalW (sup ++ sb)) (mul_nonneg hc hn0) hrun x
    rw [lw_append, uw_append] at hq
    obtain ⟨n1, n2⟩ := hq
    obtain ⟨n3, n4⟩ := h.near x
    obtain ⟨n5, n6⟩ := hn x
    unfold Near
    rw [lw_append, uw_append]
    constructor <;> linarith

theorem run_finv [FloatFmt.Exact K] {c M N : K} (hc : 0 ≤ c) : ∀ t : TTree K, t.Made (LimitFrac c N) → (∀ e ∈ t.supplied, Good e ∧ InRange e) →
    (∀ e ∈ t.supplied, 1 ≤ e.weight.toK) → (∀ e ∈ t.supplied, e.weight.toK ≤ M) → totalW t.supplied ≤ N →
    Partially t.run (fun d => FInv c M N d t.supplied (c * t.passes))
  | new s i cf, hk, _, _, _, _ => ⟨hk, by simp [TDigest.new], by simp [TDigest.new], fun x => by simp [Near, TDigest.new, supplied, passes]⟩
  | ins t o, hk, h, h1, hM, hN => by
    have ht : ∀ e ∈ t.supplied, Good e ∧ InRange e := fun e he => h e (by simp [supplied, he])
    have ho : ∀ e ∈ o.supplied, Good e ∧ InRange e := fun e he => h e (by simp [supplied, he])
    have hsum : totalW (ins t o).supplied = totalW t.supplied + totalW o.supplied := totalW_append _ _
    have := totalW_nonneg (fun e he => (ho e he).1)
    unfold run
    rw [partially_bind]
    refine ((run_inv t ht).partially.and (run_finv hc t hk ht (fun e he => h1 e (by simp [supplied, he]))
      (fun e he => hM e (by simp [supplied, he])) (by linarith))).mono ?_
    rintro d ⟨⟨got, hi, hs⟩, hd⟩
    rw [exec_eq]
    refine (step_finv (F := 0) hc hi.good (fun e he => (ho e he).1) (fun e he => h1 e (by simp [supplied, he]))
      (hi.weight.trans hs.weight) rfl hN hd
      (fun e he => le_max_of_le_left (hM e (by simp [supplied, he]))) (fun x => ⟨by simp, by simp⟩)).mono ?_
    intro d' h'
    rw [add_zero] at h'
    simp only [supplied, passes, mul_add]
    exact h'
  | merge a b, hk, h, h1, hM, hN => by
    have ha : ∀ e ∈ a.supplied, Good e ∧ InRange e := fun e he => h e (by simp [supplied, he])
    have hb : ∀ e ∈ b.supplied, Good e ∧ InRange e := fun e he => h e (by simp [supplied, he])
    have hsum : totalW (merge a b).supplied = totalW a.supplied + totalW b.supplied := totalW_append _ _
    have := totalW_nonneg (fun e he => (ha e he).1)
    have := totalW_nonneg (fun e he => (hb e he).1)
    unfold run
    rw [partially_bind]
    refine ((run_inv a ha).partially.and (run_finv hc a hk.1 ha (fun e he => h1 e (by simp [supplied, he]))
      (fun e he => hM e (by simp [supplied, he])) (by linarith))).mono ?_
    rintro d ⟨⟨got, hi, hs⟩, hd⟩
    rw [partially_bind]
    refine ((run_inv b hb).partially.and (run_finv hc b hk.2 hb (fun e he => h1 e (by simp [supplied, he]))
      (fun e he => hM e (by simp [supplied, he])) (by linarith))).mono ?_
    rintro e ⟨⟨got', hi', hs'⟩, he⟩
    refine (step_finv hc hi.good hi'.good he.one (hi.weight.trans hs.weight) (hi'.weight.trans hs'.weight) hN hd he.wt he.near).mono ?_
    intro d' h'
    simp only [supplied, passes, mul_add]
    exact h'

theorem half_frac {M W c w : K} (hM : 1 ≤ M) (h : w ≤ Max.max M (c * W)) : w / 2 ≤ Max.max M (c * W / 2) := by
  rcases le_max_iff.1 h with h | h
  · exact le_max_of_le_left (by linarith)
  · exact le_max_of_le_right (by linarith)

end TTree
end AQ

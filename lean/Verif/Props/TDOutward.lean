/-
Property C85, the part that holds: accuracy of a `k0` digest after histories which only extend the data outwards.
-/
import Mathlib.Tactic.Linarith
import Mathlib.Tactic.FieldSimp
import Verif.Proofs.TDOutward

set_option linter.unusedSectionVars false
set_option linter.unusedVariables false

namespace AQ
open Prog Spec
variable {K : Type} [Field K] [LinearOrder K] [IsStrictOrderedRing K] [FloatFmt K]
namespace TDigest

/-- What holds after some batches with the items `ys`. -/
structure OutInv (δ : K) (d : TDigest K) (ys : List K) (runs : List (List K)) : Prop where
  blocks : Blocks d runs
  perm : runs.flatten.Perm ys
  weight : ∀ r ∈ runs, len r ≤ Max.max 1 (2 * len ys / δ)
  cf : d.compressFactor = .fin δ
  scale : d.scaleFunc = k0
  inv : d.inverseScaleFunc = invK0

theorem OutInv.step [FloatFmt.Exact K] {δ : K} (hδ : 0 < δ) {d : TDigest K} {ys : List K} {runs : List (List K)}
    (h : OutInv δ d ys runs) (bs : List K) (hout : ∀ y ∈ bs, (∀ x ∈ ys, x ≤ y) ∨ (∀ x ∈ ys, y ≤ x)) :
    Always (d.addBuffer (bs.map Fl.fin)) (fun d' => ∃ runs', OutInv δ d' (ys ++ bs) runs') := by
  refine (blocks_step h.blocks bs ?_).mono ?_
  · intro y hy
    rcases hout y hy with h1 | h1
    · exact Or.inl fun x hx => h1 x (h.perm.mem_iff.1 hx)
    · exact Or.inr fun x hx => h1 x (h.perm.mem_iff.1 hx)
  rintro d' ⟨runs', hb, hp, hlim, h1, h2, h3⟩
  have hp' : runs'.flatten.Perm (ys ++ bs) := hp.trans ((List.Perm.append_left _ h.perm).trans List.perm_append_comm)
  have hlen : len runs'.flatten = len (ys ++ bs) := by unfold len; rw [hp'.length_eq]
  refine ⟨runs', hb, hp', ?_, h1.trans h.cf, h2.trans h.scale, h3.trans h.inv⟩
  intro r hr
  obtain ⟨pre, post, he⟩ := List.append_of_mem hr
  rcases hlim pre r post he with h4 | h4 | h4
  · refine (h.weight r h4).trans (max_le_max le_rfl ?_)
    gcongr
    rw [len_append]
    have := len_nonneg bs
    linarith
  · refine le_max_of_le_left ?_
    unfold len; rw [h4]; simp
  · refine le_max_of_le_right ?_
    have hn : len runs'.flatten ≠ 0 := by
      have h5 := one_le_len (hb.ne r hr)
      have h6 : len r ≤ len runs'.flatten := by
        rw [he]
        simp only [List.flatten_append, List.flatten_cons, len_append]
        have := len_nonneg pre.flatten
        have := len_nonneg post.flatten
        linarith
      linarith
    rw [h.cf, h.scale, h.inv, sizeLimit_k0 hδ.ne' hn, Fl.le_fin] at h4
    rw [← hlen]
    exact of_decide_eq_true h4

theorem outward_run [FloatFmt.Exact K] {δ : K} (hδ : 0 < δ) : ∀ (rest : List (List K)) (done : List (List K)) (d : TDigest K)
    (runs : List (List K)), OutInv δ d done.flatten runs →
    (∀ pre b post, done ++ rest = pre ++ b :: post → ∀ y ∈ b, (∀ x ∈ pre.flatten, x ≤ y) ∨ (∀ x ∈ pre.flatten, y ≤ x)) →
    Always (d.execOps (rest.map (fun b => .addBuffer (b.map Fl.fin))))
      (fun d' => ∃ runs', OutInv δ d' (done ++ rest).flatten runs')
  | [], done, d, runs, h, _ => ⟨runs, by simpa using h⟩
  | b :: rest, done, d, runs, h, ho => by
    rw [List.map_cons, TDigest.execOps, always_bind]
    refine (h.step hδ b (ho done b rest rfl)).mono ?_
    rintro d' ⟨runs', h'⟩
    have := outward_run hδ rest (done ++ [b]) d' runs' (by simpa using h') (by simpa using ho)
    simpa using this

theorem supplied_batches (bs : List (List (Fl K))) :
    supplied (bs.map TOp.addBuffer) = bs.flatten.map (fun x => (⟨x, .fin 1⟩ : Centroid K)) := by
  unfold supplied
  induction bs with
  | nil => rfl
  | cons b bs ih => simp only [List.map_cons, List.flatMap_cons, ih, List.flatten_cons, List.map_append]; rfl

end TDigest

/-- C85, partial: the accuracy of `C83_quantile_error_k0` holds after any number of batches of any size, provided no item of a
batch falls strictly between two items of earlier batches.  Without this restriction the statement is false:
`C85_adds_no_accuracy`. -/
theorem C85_outward_accuracy_partial [FloatFmt.Exact K] (δ : K) (hδ : 0 < δ) (batches : List (List (Fl K)))
    (hne : batches.flatten ≠ []) (hg : ∀ x ∈ batches.flatten, Item x) (ho : Outward batches) :
    Always ((TDigest.new k0 invK0 (.fin δ)).execOps (batches.map TDigest.TOp.addBuffer)) (fun d => ∀ x : K,
      ∃ e : K, d.estQuantileAtValue (.fin x) = .ret (.fin e) ∧
        RankWithin batches.flatten (batches.flatten.length * e) x (Max.max (3 / 2) (3 / δ * batches.flatten.length))) := by
  have hfin : ∀ b ∈ batches, (b.map Fl.toK).map Fl.fin = b := by
    intro b hb
    rw [List.map_map]
    conv_rhs => rw [← List.map_id b]
    apply List.map_congr_left
    intro x hx
    obtain ⟨y, rfl⟩ := (hg x (List.mem_flatten.2 ⟨b, hb, hx⟩)).1
    rfl
  set B : List (List K) := batches.map (fun b => b.map Fl.toK) with hB
  have hBb : B.map (fun b => b.map Fl.fin) = batches := by
    rw [hB, List.map_map]
    conv_rhs => rw [← List.map_id batches]
    exact List.map_congr_left hfin
  have hops : batches.map TDigest.TOp.addBuffer = B.map (fun b => .addBuffer (b.map Fl.fin)) := by
    conv_lhs => rw [← hBb]
    rw [List.map_map]; rfl
  have hBf : B.flatten = batches.flatten.map Fl.toK := by rw [hB, List.map_flatten]
  have h0 : TDigest.OutInv δ (TDigest.new k0 invK0 (.fin δ)) ([] : List (List K)).flatten [] :=
    ⟨⟨rfl, by simp, by simp⟩, by simp, by simp, rfl, rfl, rfl⟩
  have h1 := TDigest.outward_run hδ B [] _ [] h0 (by
    intro pre b post he y hy
    rw [List.nil_append] at he
    have he' : batches = pre.map (fun b => b.map Fl.fin) ++ b.map Fl.fin :: post.map (fun b => b.map Fl.fin) := by
      rw [← hBb, he]; simp
    have hf : (pre.map (fun b => b.map Fl.fin)).flatten = pre.flatten.map Fl.fin := by rw [List.map_flatten]
    rcases ho _ _ _ he' (.fin y) (List.mem_map.2 ⟨y, hy, rfl⟩) with h | h <;> rw [hf] at h
    · exact Or.inl fun x hx => by simpa using h (.fin x) (List.mem_map.2 ⟨x, hx, rfl⟩)
    · exact Or.inr fun x hx => by simpa using h (.fin x) (List.mem_map.2 ⟨x, hx, rfl⟩))
  rw [← hops, List.nil_append] at h1
  have hsup := TDigest.supplied_batches batches
  have hsn : TDigest.supplied (batches.map TDigest.TOp.addBuffer) ≠ [] := by rw [hsup]; simpa using hne
  have h2 := TDigest.reach_view (k0 : ScaleFn K) invK0 (.fin δ) (batches.map TDigest.TOp.addBuffer) hsn (by
    intro c hc
    rw [hsup] at hc
    obtain ⟨x, hx, rfl⟩ := List.mem_map.1 hc
    exact ⟨⟨(hg x hx).1, 1, zero_lt_one, rfl⟩, (hg x hx).2⟩)
  refine (h2.and h1.partially).mono ?_
  rintro d ⟨⟨hi, l, a, b, hv, hwt, -⟩, runs, h3⟩ x
  have hl : l = runs.map TDigest.mw := by
    have h4 := hv.cs
    have h4' : (runs.map TDigest.mw).map TDigest.toC = l.map TDigest.toC := by
      rw [← h4, h3.blocks.cs, List.map_map]; rfl
    exact (List.map_injective_iff.2 TDigest.toC_inj h4').symm
  subst hl
  have hperm : runs.flatten.Perm (batches.flatten.map Fl.toK) := by rw [← hBf]; exact h3.perm
  have hmem : ∀ y : K, y ∈ runs.flatten ↔ (⟨.fin y, .fin 1⟩ : Centroid K) ∈ TDigest.supplied (batches.map TDigest.TOp.addBuffer) := by
    intro y
    rw [hperm.mem_iff, hsup, List.mem_map, List.mem_map]
    constructor
    · rintro ⟨z, hz, rfl⟩
      obtain ⟨w, rfl⟩ := (hg z hz).1
      exact ⟨_, hz, rfl⟩
    · rintro ⟨z, hz, he⟩
      exact ⟨z, hz, by simp at he; rw [he]; rfl⟩
  have hmin := hi.min_eq hsn
  have hmax := hi.max_eq hsn
  rw [hv.mn] at hmin
  rw [hv.mx] at hmax
  have hcm : ∀ c ∈ TDigest.supplied (batches.map TDigest.TOp.addBuffer), ∃ y, c = ⟨.fin y, .fin 1⟩ := by
    intro c hc
    rw [hsup] at hc
    obtain ⟨z, hz, rfl⟩ := List.mem_map.1 hc
    obtain ⟨w, rfl⟩ := (hg z hz).1
    exact ⟨w, rfl⟩
  have ha : a ∈ runs.flatten := by
    obtain ⟨c, hc, hca⟩ := hmin.1
    obtain ⟨y, rfl⟩ := hcm c hc
    rw [hmem]
    have : y = a := by simpa using hca
    rw [← this]; exact hc
  have hb : b ∈ runs.flatten := by
    obtain ⟨c, hc, hca⟩ := hmax.1
    obtain ⟨y, rfl⟩ := hcm c hc
    rw [hmem]
    have : y = b := by simpa using hca
    rw [← this]; exact hc
  have ham : ∀ y ∈ runs.flatten, a ≤ y := fun y hy => by simpa using hmin.2 _ ((hmem y).1 hy)
  have hbm : ∀ y ∈ runs.flatten, y ≤ b := fun y hy => by simpa using hmax.2 _ ((hmem y).1 hy)
  obtain ⟨e, h5, h6⟩ := TDigest.batch_quantile hv h3.blocks.ne h3.blocks.sorted ha hb ham hbm x
  obtain ⟨h7, h8⟩ := TDigest.Close.within h6 h3.weight (le_max_of_le_left zero_le_one)
  have e1 : (3 / 2 : K) * Max.max 1 (2 * TDigest.len B.flatten / δ) =
      Max.max (3 / 2) (3 / δ * batches.flatten.length) := by
    rw [← TDigest.len_perm hperm, mul_max_of_nonneg _ _ (by norm_num)]
    have : TDigest.len B.flatten = TDigest.len runs.flatten := by unfold TDigest.len; rw [h3.perm.length_eq]
    rw [this]
    congr 1
    · ring
    · ring
  rw [e1, TDigest.len_perm hperm] at h7 h8
  exact ⟨e, h5, TDigest.rankWithin_of hg hperm h7 h8⟩

attribute [local instance] ratExact ratExact_exact

/-- Thirty items in increasing and decreasing batches of three. -/
def outwardData : List (List (Fl ℚ)) :=
  (List.range 10).map (fun i : ℕ => if i % 2 = 0 then [.fin (i : ℚ), .fin (i + 1), .fin (i + 2)]
    else [.fin (-(i : ℚ)), .fin (-i - 1), .fin (-i - 2)])

/-- Non-vacuity: the batches meet the hypotheses of `C85_outward_accuracy_partial` and centroids are merged repeatedly. -/
example : outwardData.flatten ≠ [] ∧ (∀ x ∈ outwardData.flatten, Item x) ∧ Outward outwardData ∧
    Always ((TDigest.new k0 invK0 (.fin 8) : TDigest ℚ).execOps (outwardData.map TDigest.TOp.addBuffer))
      (fun d => d.centroids.length < 10) := by
  refine ⟨by decide +kernel, ?_, ?_, by decide +kernel⟩
  · have h : ∀ x ∈ outwardData.flatten, x = .fin x.toK ∧ Fl.minValue ≤ x ∧ x ≤ Fl.maxValue := by decide +kernel
    exact fun x hx => ⟨⟨_, (h x hx).1⟩, (h x hx).2⟩
  · have h : ∀ i ∈ List.range 10, ∀ y ∈ outwardData.getD i [], (∀ x ∈ (outwardData.take i).flatten, Fl.le x y = true) ∨
        (∀ x ∈ (outwardData.take i).flatten, Fl.le y x = true) := by decide +kernel
    intro pre b post he y hy
    have hlen : outwardData.length = 10 := by decide +kernel
    have h1 : pre.length < 10 := by rw [← hlen, he]; simp
    have h2 := h pre.length (List.mem_range.2 h1) y
    rw [he] at h2
    simpa [hy] using h2

end AQ

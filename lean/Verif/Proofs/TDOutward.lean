/-
Histories whose batches never fall between earlier items: the centroids stay blocks of the sorted data.
-/
import Mathlib.Tactic.Linarith
import Mathlib.Tactic.FieldSimp
import Verif.Props.TDAccuracy

set_option linter.unusedSectionVars false
set_option linter.unusedVariables false

namespace AQ
open Prog Spec
variable {K : Type} [Field K] [LinearOrder K] [IsStrictOrderedRing K] [FloatFmt K]
namespace TDigest

theorem perm_lift {α β : Type} (f : α → β) {l k : List β} (h : l.Perm k) : ∀ M : List α, k = M.map f →
    ∃ M' : List α, M'.Perm M ∧ l = M'.map f := by
  induction h with
  | nil => intro M hM; exact ⟨M, List.Perm.refl _, hM⟩
  | cons x _ ih =>
    intro M hM
    match M, hM with
    | a :: M, hM =>
      simp only [List.map_cons, List.cons.injEq] at hM
      obtain ⟨M', h1, h2⟩ := ih M hM.2
      exact ⟨a :: M', h1.cons a, by simp [hM.1, h2]⟩
  | swap x y l =>
    intro M hM
    match M, hM with
    | a :: b :: M, hM =>
      simp only [List.map_cons, List.cons.injEq] at hM
      exact ⟨b :: a :: M, List.Perm.swap _ _ _, by simp [hM.1, hM.2.1, hM.2.2]⟩
  | trans _ _ ih1 ih2 =>
    intro M hM
    obtain ⟨M', h1, h2⟩ := ih2 M hM
    obtain ⟨M'', h3, h4⟩ := ih1 M' h2
    exact ⟨M'', h3.trans h1, h4⟩

theorem partition_lift {α β : Type} (f : α → β) : ∀ (runs : List (List β)) (M : List α), runs.flatten = M.map f →
    ∃ R : List (List α), R.map (List.map f) = runs ∧ R.flatten = M
  | [], M, h => ⟨[], rfl, by simpa using h.symm⟩
  | r :: rs, M, h => by
    rw [List.flatten_cons] at h
    obtain ⟨A, B, h1, h2, h3⟩ := List.map_eq_append_iff.1 h.symm
    obtain ⟨R, h4, h5⟩ := partition_lift f rs B h3.symm
    exact ⟨A :: R, by simp [h2, h4], by simp [h5, h1]⟩

/-- Every element of the first block is at most every element of the second. -/
def Before (r s : List K) : Prop := ∀ a ∈ r, ∀ b ∈ s, a ≤ b

theorem before_of_mean {r s : List K} (hr : r ≠ []) (hs : s ≠ []) (hm : (mw r).1 ≤ (mw s).1) (h : Before r s ∨ Before s r) :
    Before r s := by
  rcases h with h | h
  · exact h
  · obtain ⟨b1, hb1, hb2⟩ := exists_mean_le hs
    obtain ⟨a1, ha1, ha2⟩ := exists_le_mean hr
    -- all elements of `s` are `≤ a1 ≤ mean r ≤ mean s`, and all elements of `r` are `≥ b1 ≥ mean s ≥ mean r`
    have hs1 : ∀ b ∈ s, b ≤ (mw s).1 := fun b hb => (h b hb a1 ha1).trans (ha2.trans hm)
    have hr1 : ∀ a ∈ r, (mw r).1 ≤ a := fun a ha => hm.trans (hb2.trans (h b1 hb1 a ha))
    have hs2 := all_mean_le hs hs1
    have hr2 := all_le_mean hr hr1
    intro a ha b hb
    exact (hr2 a ha).trans (hm.trans (hs2 b hb))

theorem flatten_pairwise {L : List (List K)} (h1 : ∀ r ∈ L, r.Pairwise (· ≤ ·)) (h2 : L.Pairwise Before) :
    L.flatten.Pairwise (· ≤ ·) := by
  rw [List.pairwise_flatten]
  exact ⟨h1, h2⟩

theorem totalW_blocks : ∀ (g : List (List K)), totalW (g.map (fun r => toC (mw r))) = len g.flatten
  | [] => by simp [len]
  | r :: g => by
    rw [List.map_cons, totalW_cons, totalW_blocks g, List.flatten_cons, len_append]; rfl

theorem totalMass_blocks : ∀ (g : List (List K)), (∀ r ∈ g, r ≠ []) → totalMass (g.map (fun r => toC (mw r))) = g.flatten.sum
  | [], _ => by simp
  | r :: g, h => by
    rw [List.map_cons, totalMass_cons, totalMass_blocks g (fun s hs => h s (by simp [hs])), List.flatten_cons, List.sum_append]
    congr 1
    show (mw r).1 * (mw r).2 = r.sum
    rw [mul_comm]
    exact len_mul_mean (h r (by simp))

theorem weightedMean_blocks {g : List (List K)} (h : ∀ r ∈ g, r ≠ []) :
    weightedMean (g.map (fun r => toC (mw r))) = toC (mw g.flatten) := by
  unfold weightedMean
  rw [totalW_blocks, totalMass_blocks g h]
  rfl

/-- The centroids of the digest are the blocks `runs` of the sorted data. -/
structure Blocks (d : TDigest K) (runs : List (List K)) : Prop where
  cs : d.centroids = runs.map (fun r => toC (mw r))
  ne : ∀ r ∈ runs, r ≠ []
  sorted : runs.flatten.Pairwise (· ≤ ·)

theorem Blocks.good {d : TDigest K} {runs : List (List K)} (h : Blocks d runs) : ∀ c ∈ d.centroids, Good c := by
  rw [h.cs]
  intro c hc
  obtain ⟨r, hr, rfl⟩ := List.mem_map.1 hc
  exact ⟨⟨_, rfl⟩, _, lt_of_lt_of_le zero_lt_one (one_le_len (h.ne r hr)), rfl⟩

theorem blocks_step [FloatFmt.Exact K] {d : TDigest K} {runs : List (List K)} (h : Blocks d runs) (ys : List K)
    (hout : ∀ y ∈ ys, (∀ x ∈ runs.flatten, x ≤ y) ∨ (∀ x ∈ runs.flatten, y ≤ x)) :
    Always (d.addBuffer (ys.map Fl.fin)) (fun d' => ∃ runs', Blocks d' runs' ∧ runs'.flatten.Perm (ys ++ runs.flatten) ∧
      (∀ pre r post, runs' = pre ++ r :: post → r ∈ runs ∨ r.length = 1 ∨
        Fl.le (.fin (len r)) (sizeLimit d.scaleFunc d.inverseScaleFunc d.compressFactor (len runs'.flatten) (len pre.flatten))
          = true) ∧
      d'.compressFactor = d.compressFactor ∧ d'.scaleFunc = d.scaleFunc ∧ d'.inverseScaleFunc = d.inverseScaleFunc) := by
  by_cases hnil : ys = [] ∧ runs = []
  · obtain ⟨rfl, rfl⟩ := hnil
    have := addCentroidBuffer_nil d (by rw [h.cs]; rfl)
    show Always (d.addCentroidBuffer []) _
    rw [this]
    exact ⟨[], h, by simp, by simp, rfl, rfl, rfl⟩
  have hunit : (ys.map Fl.fin).map unit = (ys.map (fun y => [y])).map (fun r => toC (mw r)) := by
    rw [List.map_map, List.map_map]
    apply List.map_congr_left
    intro y hy
    simp [unit, toC, mw, len]
  have hall : (ys.map Fl.fin).map unit ++ d.centroids = (ys.map (fun y => [y]) ++ runs).map (fun r => toC (mw r)) := by
    rw [List.map_append, hunit, h.cs]
  have hneL : ∀ r ∈ ys.map (fun y => [y]) ++ runs, r ≠ [] := by
    intro r hr
    rcases List.mem_append.1 hr with hr | hr
    · obtain ⟨y, -, rfl⟩ := List.mem_map.1 hr; simp
    · exact h.ne r hr
  refine (d.addCentroidBuffer_spec ((ys.map Fl.fin).map unit) h.good (by
    intro c hc
    rw [hunit] at hc
    obtain ⟨r, hr, rfl⟩ := List.mem_map.1 hc
    obtain ⟨y, -, rfl⟩ := List.mem_map.1 hr
    exact ⟨⟨_, rfl⟩, 1, zero_lt_one, by simp [toC, mw, len]⟩) (by
    intro hcon
    rw [hall] at hcon
    simp only [List.map_eq_nil_iff, List.append_eq_nil_iff] at hcon
    exact hnil hcon)).mono ?_
  rintro d' ⟨l, runsC, hl, p1, p2, p3, p4, p5, -, -, p8, p9, p10⟩
  obtain ⟨L, hL1, hL2⟩ := perm_lift (fun r => toC (mw r)) p1 _ hall
  have hLne : ∀ r ∈ L, r ≠ [] := fun r hr => hneL r (hL1.mem_iff.1 hr)
  obtain ⟨R, hR1, hR2⟩ := partition_lift (fun r => toC (mw r)) runsC L (by rw [p3.1, hL2])
  have hRne : ∀ g ∈ R, g ≠ [] := by
    intro g hg h0
    apply p3.2 (g.map (fun r => toC (mw r))) (by rw [← hR1]; exact List.mem_map.2 ⟨g, hg, rfl⟩)
    rw [h0]; rfl
  have hRmem : ∀ g ∈ R, ∀ r ∈ g, r ∈ L := fun g hg r hr => by rw [← hR2]; exact List.mem_flatten.2 ⟨g, hg, hr⟩
  -- all blocks are separated
  have hsep0 : (ys.map (fun y => [y]) ++ runs).Pairwise (fun r s => Before r s ∨ Before s r) := by
    rw [List.pairwise_append]
    refine ⟨?_, ?_, ?_⟩
    · rw [List.pairwise_map]
      refine List.Pairwise.imp (fun {a b} _ => ?_) (List.pairwise_of_forall (R := fun _ _ => True) (fun _ _ => trivial))
      rcases le_total a b with hab | hab
      · left; intro x hx y hy; simp at hx hy; rw [hx, hy]; exact hab
      · right; intro x hx y hy; simp at hx hy; rw [hx, hy]; exact hab
    · exact (List.pairwise_flatten.1 h.sorted).2.imp (fun h => Or.inl h)
    · intro r hr s hs
      obtain ⟨y, hy, rfl⟩ := List.mem_map.1 hr
      rcases hout y hy with h1 | h1
      · right
        intro b hb z hz
        simp at hz
        rw [hz]; exact h1 b (List.mem_flatten.2 ⟨s, hs, hb⟩)
      · left
        intro z hz b hb
        simp at hz
        rw [hz]; exact h1 b (List.mem_flatten.2 ⟨s, hs, hb⟩)
  have hsep : L.Pairwise (fun r s => Before r s ∨ Before s r) :=
    (hL1.pairwise_iff (fun {a b} hab => hab.symm)).2 hsep0
  have hmean : L.Pairwise (fun r s => (mw r).1 ≤ (mw s).1) := by
    rw [hL2, List.pairwise_map] at p2
    exact p2.imp (fun {a b} hab => by simpa [toC] using hab)
  have hbef : L.Pairwise Before := by
    refine (hsep.and hmean).imp_of_mem ?_
    intro r s hr hs hrs
    exact before_of_mean (hLne r hr) (hLne s hs) hrs.2 hrs.1
  have hLs : ∀ r ∈ L, r.Pairwise (· ≤ ·) := by
    intro r hr
    rcases List.mem_append.1 (hL1.mem_iff.1 hr) with hr | hr
    · obtain ⟨y, -, rfl⟩ := List.mem_map.1 hr; simp
    · exact (List.pairwise_flatten.1 h.sorted).1 r hr
  have hflat : (R.map List.flatten).flatten = L.flatten := by rw [← hR2, List.flatten_flatten]
  have hsing : ∀ ys : List K, (ys.map (fun y => [y])).flatten = ys := by
    intro ys
    induction ys with
    | nil => rfl
    | cons y ys ih => rw [List.map_cons, List.flatten_cons, ih]; rfl
  have hperm : (R.map List.flatten).flatten.Perm (ys ++ runs.flatten) := by
    rw [hflat]
    have := hL1.flatten
    rw [List.flatten_append, hsing] at this
    exact this
  have hWl : totalW ((ys.map Fl.fin).map unit ++ d.centroids) = len (R.map List.flatten).flatten := by
    rw [← totalW_perm p1, hL2, totalW_blocks, hflat]
  refine ⟨R.map List.flatten, ⟨?_, ?_, ?_⟩, hperm, ?_, p8, p9, p10⟩
  · rw [p4, ← hR1, List.map_map, List.map_map]
    apply List.map_congr_left
    intro g hg
    exact weightedMean_blocks (fun r hr => hLne r (hRmem g hg r hr))
  · intro r hr
    obtain ⟨g, hg, rfl⟩ := List.mem_map.1 hr
    intro h0
    match g, hRne g hg, h0, hg with
    | r0 :: g', _, h0, hg =>
      rw [List.flatten_cons, List.append_eq_nil_iff] at h0
      exact hLne r0 (hRmem _ hg r0 (by simp)) h0.1
  · rw [hflat]; exact flatten_pairwise hLs hbef
  · intro pre r post he
    obtain ⟨pre', rest', hq1, hq2, hq3⟩ := List.map_eq_append_iff.1 he
    obtain ⟨g, post', hq4, hq5, hq6⟩ := List.map_eq_cons_iff.1 hq3
    subst hq2 hq5 hq6 hq4
    by_cases h2 : 2 ≤ g.length
    · right; right
      have h5 := (p5 (pre'.map (List.map (fun r => toC (mw r)))) (g.map (fun r => toC (mw r)))
        (post'.map (List.map (fun r => toC (mw r)))) (by rw [← hR1, hq1]; simp)).1 (by simpa using h2)
      have hpos : totalW ((ys.map Fl.fin).map unit ++ d.centroids) ≠ 0 := by
        rw [hWl]
        have h6 : g.flatten ≠ [] := by
          intro h0
          match g, h2, h0 with
          | r0 :: g', _, h0 =>
            rw [List.flatten_cons, List.append_eq_nil_iff] at h0
            exact hLne r0 (hRmem (r0 :: g') (by rw [hq1]; simp) r0 (by simp)) h0.1
        have h7 := one_le_len h6
        have h8 : len g.flatten ≤ len (R.map List.flatten).flatten := by
          rw [he]
          simp only [List.flatten_append, List.flatten_cons, len_append]
          have := len_nonneg (pre'.map List.flatten).flatten
          have := len_nonneg (post'.map List.flatten).flatten
          linarith
        linarith
      rw [List.nil_append, runLimit_eq _ _ hpos, hWl, totalW_blocks] at h5
      have e : totalW (pre'.map (List.map (fun r => toC (mw r)))).flatten = len (pre'.map List.flatten).flatten := by
        rw [← List.map_flatten, totalW_blocks, List.flatten_flatten]
      rw [e] at h5
      exact h5
    · match g, h2 with
      | [], _ => exact absurd rfl (hRne [] (by rw [hq1]; simp))
      | [r0], _ =>
        have hm : r0 ∈ L := hRmem [r0] (by rw [hq1]; simp) r0 (by simp)
        have e : [r0].flatten = r0 := by simp
        rw [e]
        rcases List.mem_append.1 (hL1.mem_iff.1 hm) with hm | hm
        · obtain ⟨y, -, rfl⟩ := List.mem_map.1 hm
          right; left; rfl
        · exact Or.inl hm
      | _ :: _ :: _, h2 => simp at h2

end TDigest
end AQ

/-
Uncompressed digests, single batches, and the size bound for the uniform scale function.
-/
import Verif.Proofs.TDValue2
import Verif.Proofs.Linear

set_option linter.unusedSectionVars false
set_option linter.unusedVariables false

namespace AQ
open Prog Spec
variable {K : Type} [Field K] [LinearOrder K] [IsStrictOrderedRing K] [FloatFmt K]

namespace TDigest

theorem runs_length_le {α : Type} : ∀ (runs : List (List α)), (∀ r ∈ runs, r ≠ []) → runs.length ≤ runs.flatten.length ∧
    (runs.length = runs.flatten.length → ∀ r ∈ runs, ∃ c, r = [c])
  | [], _ => by simp
  | r :: runs, h => by
    obtain ⟨h1, h2⟩ := runs_length_le runs (fun r hr => h r (by simp [hr]))
    have hr : 1 ≤ r.length := List.length_pos_iff.2 (h r (by simp))
    rw [List.flatten_cons, List.length_append, List.length_cons]
    refine ⟨by omega, ?_⟩
    intro he q hq
    rcases List.mem_cons.1 hq with rfl | hq
    · exact List.length_eq_one_iff.1 (by omega)
    · exact h2 (by omega) q hq

theorem weightedMean_singleton {c : Centroid K} (h : Good c) : weightedMean [c] = c := by
  obtain ⟨⟨x, hx⟩, w, hw, hcw⟩ := h
  cases c with
  | mk m v =>
    simp only at hx hcw
    subst hx hcw
    simp [weightedMean, totalMass, totalW, Fl.toK, hw.ne']

theorem map_singletons : ∀ (runs : List (List (Centroid K))), (∀ r ∈ runs, ∃ c, r = [c]) → (∀ c ∈ runs.flatten, Good c) →
    runs.map weightedMean = runs.flatten
  | [], _, _ => rfl
  | r :: runs, h, hg => by
    obtain ⟨c, rfl⟩ := h r (by simp)
    rw [List.map_cons, List.flatten_cons, map_singletons runs (fun r hr => h r (by simp [hr]))
      (fun c hc => hg c (by rw [List.flatten_cons]; exact List.mem_append_right _ hc)),
      weightedMean_singleton (hg c (by simp))]
    rfl

/-- As long as nothing was merged, the centroids are what was supplied. -/
def Unmerged (d : TDigest K) (sup : List (Centroid K)) : Prop :=
  d.centroids.length ≤ sup.length ∧ (d.centroids.length = sup.length → d.centroids.Perm sup)

theorem addCentroidBuffer_unmerged [FloatFmt.Exact K] {d : TDigest K} {sup batch : List (Centroid K)} (h : d.Unmerged sup)
    (hd : ∀ c ∈ d.centroids, Good c) (hb : ∀ c ∈ batch, Good c) :
    Always (d.addCentroidBuffer batch) (fun d' => d'.Unmerged (sup ++ batch)) := by
  by_cases hne : batch ++ d.centroids = []
  · rw [List.append_eq_nil_iff] at hne
    obtain ⟨rfl, h2⟩ := hne
    rw [addCentroidBuffer_nil d h2, List.append_nil]
    exact h
  refine (d.addCentroidBuffer_spec batch hd hb hne).mono ?_
  rintro d' ⟨l, runs, hl, h1, h2, h3, h4, -⟩
  have hlg : ∀ c ∈ l, Good c := by
    intro c hc
    rcases List.mem_append.1 (h1.mem_iff.1 hc) with hc | hc
    · exact hb c hc
    · exact hd c hc
  obtain ⟨r1, r2⟩ := runs_length_le runs h3.2
  rw [h3.1] at r1 r2
  have hll : l.length = batch.length + d.centroids.length := by rw [h1.length_eq, List.length_append]
  have hc : d'.centroids.length = runs.length := by rw [h4, List.length_map]
  refine ⟨by rw [hc, List.length_append]; have := h.1; omega, ?_⟩
  intro he
  rw [hc, List.length_append] at he
  have := h.1
  rw [h4, map_singletons runs (r2 (by omega)) (by rw [h3.1]; exact hlg), h3.1]
  refine h1.trans (List.perm_append_comm.trans ?_)
  exact (h.2 (by omega)).append_right _

theorem execOps_unmerged [FloatFmt.Exact K] : ∀ (ops : List (TOp K)) (d : TDigest K) (sup : List (Centroid K)), d.Inv sup →
    d.Unmerged sup → (∀ c ∈ sup, Good c) → (∀ c ∈ supplied ops, Good c ∧ InRange c) →
    Always (d.execOps ops) (fun d' => d'.Unmerged (sup ++ supplied ops))
  | [], d, sup, _, h, _, _ => by simpa [execOps, supplied] using h
  | o :: os, d, sup, hi, h, hs, hg => by
    have hg1 : ∀ c ∈ o.supplied, Good c ∧ InRange c := fun c hc => hg c (by simp [supplied]; exact Or.inl hc)
    have hg2 : ∀ c ∈ supplied os, Good c ∧ InRange c := fun c hc => hg c (by
      simp only [supplied, List.flatMap_cons, List.mem_append] at hc ⊢; exact Or.inr hc)
    unfold execOps
    rw [always_bind, exec_eq]
    refine ((addCentroidBuffer_inv hi.toCInv hs (fun c hc => (hg1 c hc).1) (fun c hc => (hg1 c hc).2)).and
      (addCentroidBuffer_unmerged h hi.good (fun c hc => (hg1 c hc).1)).partially).mono ?_
    rintro d' ⟨hi', h'⟩
    have := execOps_unmerged os d' (sup ++ o.supplied) hi' h' (by
      intro c hc
      rcases List.mem_append.1 hc with hc | hc
      · exact hs c hc
      · exact (hg1 c hc).1) hg2
    simpa [supplied, List.flatMap_cons, List.append_assoc] using this

/-! ### unit weights -/

/-- Mid-rank over the field. -/
def midK (xs : List K) (x : K) : K :=
  (xs.countP (fun y => y < x) : K) + if 2 ≤ xs.countP (fun y => y = x) then (xs.countP (fun y => y = x) : K) / 2 else 0

theorem equalW_unit (x : K) : ∀ (l : List (K × K)), l.Pairwise (fun p q => p.1 ≤ q.1) → (∀ p ∈ l, p.2 = 1) →
    (∀ p ∈ l, x ≤ p.1) → equalW x l = ((l.map (·.1)).countP (fun y => y = x) : K)
  | [], _, _, _ => by simp [equalW]
  | c :: l, hs, hw, hx => by
    unfold equalW
    have ih := equalW_unit x l (List.pairwise_cons.1 hs).2 (fun p hp => hw p (by simp [hp])) (fun p hp => hx p (by simp [hp]))
    by_cases h : c.1 = x
    · rw [if_pos h, ih, hw c (by simp)]
      rw [List.map_cons, List.countP_cons_of_pos (by simpa using h)]
      push_cast; ring
    · rw [if_neg h]
      have : (c :: l).map (·.1) |>.countP (fun y => y = x) |> (· = 0) := by
        show ((c :: l).map (·.1)).countP (fun y => y = x) = 0
        rw [List.countP_eq_zero]
        intro y hy
        obtain ⟨p, hp, rfl⟩ := List.mem_map.1 hy
        have hcx : x < c.1 := lt_of_le_of_ne (hx c (by simp)) (Ne.symm h)
        have : x < p.1 := by
          rcases List.mem_cons.1 hp with rfl | hp
          · exact hcx
          · exact hcx.trans_le ((List.pairwise_cons.1 hs).1 p hp)
        simpa using this.ne'
      rw [this]; simp

theorem wbelow_unit (x : K) : ∀ (l : List (K × K)) (s : K) (hne : l ≠ []), l.Pairwise (fun p q => p.1 ≤ q.1) →
    (∀ p ∈ l, p.2 = 1) → (l.head hne).1 ≤ x → x ≤ (l.getLast hne).1 → wbelow x s l = s + midK (l.map (·.1)) x
  | [], _, hne, _, _, _, _ => absurd rfl hne
  | [c], s, _, _, hw, h1, h2 => by
    simp only [List.head_cons, List.getLast_singleton] at h1 h2
    have hx : c.1 = x := le_antisymm h1 h2
    unfold wbelow midK
    rw [if_pos (hw c (by simp))]
    simp [hx]
  | c :: n :: rest, s, hne, hs, hw, h1, h2 => by
    simp only [List.head_cons] at h1
    have hs' := (List.pairwise_cons.1 hs).2
    have hw' : ∀ p ∈ n :: rest, p.2 = 1 := fun p hp => hw p (List.mem_cons_of_mem _ hp)
    have hc1 := hw c (by simp)
    have hn1 := hw n (by simp)
    by_cases hc : c.1 = x
    · have hge : ∀ p ∈ c :: n :: rest, x ≤ p.1 := by
        intro p hp
        rcases List.mem_cons.1 hp with rfl | hp
        · exact hc.ge
        · rw [← hc]; exact (List.pairwise_cons.1 hs).1 p hp
      have he := equalW_unit x (c :: n :: rest) hs hw hge
      have hz : ((c :: n :: rest).map (·.1)).countP (fun y => y < x) = 0 := by
        rw [List.countP_eq_zero]
        intro y hy
        obtain ⟨p, hp, rfl⟩ := List.mem_map.1 hy
        simpa using hge p hp
      unfold wbelow midK
      rw [if_pos hc, he, hz, hc1]
      have hpos : 1 ≤ ((c :: n :: rest).map (·.1)).countP (fun y => y = x) := by
        rw [List.map_cons, List.countP_cons_of_pos (by simpa using hc)]; omega
      generalize ((c :: n :: rest).map (·.1)).countP (fun y => y = x) = m at hpos
      by_cases hm : m = 1
      · subst hm; simp
      · rw [if_neg (by rintro ⟨-, h⟩; exact hm (by exact_mod_cast h)), if_pos (by omega)]
        simp
    · have hcx : c.1 < x := lt_of_le_of_ne h1 hc
      have hcount : ∀ zs : List K, midK (c.1 :: zs) x = 1 + midK zs x := by
        intro zs
        unfold midK
        rw [List.countP_cons_of_pos (by simpa using hcx), List.countP_cons_of_neg (by simpa using hc)]
        push_cast; ring
      unfold wbelow
      rw [if_neg hc, List.map_cons, hcount]
      by_cases hx : x < n.1
      · rw [if_pos ⟨h1, hx⟩]
        have hgt : ∀ p ∈ n :: rest, x < p.1 := by
          intro p hp
          rcases List.mem_cons.1 hp with rfl | hp
          · exact hx
          · exact hx.trans_le ((List.pairwise_cons.1 hs').1 p hp)
        have hz : midK ((n :: rest).map (·.1)) x = 0 := by
          unfold midK
          have e1 : ((n :: rest).map (·.1)).countP (fun y => y < x) = 0 := by
            rw [List.countP_eq_zero]
            intro y hy
            obtain ⟨p, hp, rfl⟩ := List.mem_map.1 hy
            simpa using (hgt p hp).le
          have e2 : ((n :: rest).map (·.1)).countP (fun y => y = x) = 0 := by
            rw [List.countP_eq_zero]
            intro y hy
            obtain ⟨p, hp, rfl⟩ := List.mem_map.1 hy
            simpa using (hgt p hp).ne'
          rw [e1, e2]; simp
        rw [hz]
        unfold btw
        rw [if_pos ⟨hc1, hn1⟩]; ring
      · rw [if_neg (fun h => hx h.2), hc1,
          wbelow_unit x (n :: rest) (s + 1) (by simp) hs' hw' (not_lt.1 hx) (by simpa using h2)]
        ring

/-- A digest holding only unit weights answers with the mid-rank. -/
theorem estQ_unit {l : List (K × K)} (hne : l ≠ []) {a b : K} (hs : l.Pairwise (fun p q => p.1 ≤ q.1))
    (hw : ∀ p ∈ l, p.2 = 1) (ha : (l.head hne).1 = a) (hb : (l.getLast hne).1 = b) (x : K) :
    estQ l hne a b x = midK (l.map (·.1)) x / l.length := by
  have hwt : wt l = l.length := by
    clear ha hb hs hne
    induction l with
    | nil => simp
    | cons c l ih =>
      rw [wt_cons, ih (fun p hp => hw p (by simp [hp])), hw c (by simp), List.length_cons]
      push_cast; ring
  have hlen : (l.length : K) ≠ 0 := by
    have : 0 < l.length := List.length_pos_iff.2 hne
    exact_mod_cast this.ne'
  have hlo : ∀ p ∈ l, a ≤ p.1 := by
    intro p hp
    rw [← ha]
    match l, hne, hs, hp with
    | c :: r, _, hs, hp =>
      rcases List.mem_cons.1 hp with rfl | hp
      · exact le_refl _
      · exact (List.pairwise_cons.1 hs).1 p hp
  have hhi : ∀ p ∈ l, p.1 ≤ b := by rw [← hb]; exact getLast_mono hs hne
  unfold estQ
  rw [hwt]
  split
  · rename_i h
    have : midK (l.map (·.1)) x = 0 := by
      unfold midK
      have e1 : (l.map (·.1)).countP (fun y => y < x) = 0 := by
        rw [List.countP_eq_zero]
        intro y hy
        obtain ⟨p, hp, rfl⟩ := List.mem_map.1 hy
        simpa using (h.trans_le (hlo p hp)).le
      have e2 : (l.map (·.1)).countP (fun y => y = x) = 0 := by
        rw [List.countP_eq_zero]
        intro y hy
        obtain ⟨p, hp, rfl⟩ := List.mem_map.1 hy
        simpa using (h.trans_le (hlo p hp)).ne'
      rw [e1, e2]; simp
    rw [this, zero_div]
  split
  · rename_i h1 h
    have : midK (l.map (·.1)) x = l.length := by
      unfold midK
      have e1 : (l.map (·.1)).countP (fun y => y < x) = l.length := by
        rw [← List.length_map (f := (·.1)), List.countP_eq_length]
        intro y hy
        obtain ⟨p, hp, rfl⟩ := List.mem_map.1 hy
        simpa using (hhi p hp).trans_lt h
      have e2 : (l.map (·.1)).countP (fun y => y = x) = 0 := by
        rw [List.countP_eq_zero]
        intro y hy
        obtain ⟨p, hp, rfl⟩ := List.mem_map.1 hy
        simpa using ((hhi p hp).trans_lt h).ne
      rw [e1, e2]; simp
    rw [this, div_self hlen]
  rename_i h1 h2
  rw [if_neg (by rw [ha]; exact h1), if_neg (by rw [hb]; exact h2),
    wbelow_unit x l 0 hne hs hw (by rw [ha]; exact not_lt.1 h1) (by rw [hb]; exact not_lt.1 h2), zero_add]

/-! ### size bound for k0 -/

theorem sizeLimit_k0 [FloatFmt.Exact K] {δ n : K} (hδ : δ ≠ 0) (hn : n ≠ 0) (w0 : K) :
    sizeLimit (k0 : ScaleFn K) invK0 (.fin δ) n w0 = .fin (2 * n / δ) := by
  unfold sizeLimit k0 invK0
  simp only [Fl.lit_exact, Fl.mul_exact, Fl.div_exact _ (two_ne_zero (α := K)), Fl.add_exact, Fl.div_exact _ hδ, Fl.sub_exact]
  congr 1
  field_simp
  ring

/-- If neighbouring weights always add up to more than `B`, there are few of them. -/
theorem pairs_bound (B : K) : ∀ (ws : List K), (∀ w ∈ ws, 0 ≤ w) → (∀ pre a b post, ws = pre ++ a :: b :: post → B < a + b) →
    ((ws.length / 2 : ℕ) : K) * B ≤ ws.sum ∧ (2 ≤ ws.length → ((ws.length / 2 : ℕ) : K) * B < ws.sum)
  | [], _, _ => by simp
  | [a], h, _ => by simpa using h a (by simp)
  | a :: b :: ws, h, hp => by
    have h1 := hp [] a b ws rfl
    have ih := (pairs_bound B ws (fun w hw => h w (by simp [hw])) (by
      intro pre c d post he
      exact hp (a :: b :: pre) c d post (by rw [he]; rfl))).1
    have e : (a :: b :: ws).length / 2 = ws.length / 2 + 1 := by simp only [List.length_cons]; omega
    rw [e]
    simp only [List.sum_cons]
    push_cast
    have : ((ws.length / 2 : ℕ) : K) * B + B < a + (b + ws.sum) := by linarith
    constructor
    · linarith
    · intro _; linarith

end TDigest
end AQ

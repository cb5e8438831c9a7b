/-
C148, C149: rank accuracy of a ParallelDigest from that of its sub-digests, and for TDigests as sub-digests.
-/
import Verif.Props.ParallelRC
import Verif.Props.ParallelDigest
import Verif.Props.SymTD

set_option linter.unusedSectionVars false
set_option linter.unusedVariables false

namespace AQ
open Prog Spec

namespace ParallelDigest
section
variable {K : Type} [Field K] [LinearOrder K] [IsStrictOrderedRing K] [FloatFmt K] {D : Type} [Digest D (Fl K)]

/-- The sum of the ranks: member `i` contributes its answer times its count, `y i`. -/
theorem rankLoop_sum [FloatFmt.Exact K] (x : K) : ∀ (ds : List D) (n : Nat → Nat) (J : Nat → D → Prop) (Q : Nat → K → Prop) (a : K),
    (∀ i (h : i < ds.length), Always (Digest.estQuantileAtValue ds[i] (.fin x : Fl K)) (fun r =>
      (∃ e : K, r.1 = .fin e ∧ Q i (n i * e)) ∧ Digest.count r.2 = .ret (n i) ∧ J i r.2)) →
    Always (rankLoop (.fin x) ds (.fin a)) (fun s => ∃ y : Nat → K, (∀ i < ds.length, Q i (y i)) ∧
      s.1 = .fin (a + ∑ i ∈ Finset.range ds.length, y i) ∧ sumCounts s.2 = .ret (∑ i ∈ Finset.range ds.length, n i) ∧
      s.2.length = ds.length ∧ ∀ i (h : i < s.2.length), J i s.2[i])
  | [], n, J, Q, a, _ => ⟨fun _ => 0, by simp, by simp, by simp [sumCounts], rfl, by simp⟩
  | d :: ds, n, J, Q, a, h => by
    unfold rankLoop
    rw [always_bind]
    have h0 := h 0 (by simp)
    simp only [List.getElem_cons_zero] at h0
    refine h0.mono ?_
    rintro r ⟨⟨e, he, hq⟩, hn, hj⟩
    rw [hn, bind_ret, he, Fl.ofNat_exact, Fl.mul_exact, Fl.add_exact, always_bind]
    refine (rankLoop_sum x ds (fun i => n (i + 1)) (fun i => J (i + 1)) (fun i => Q (i + 1)) _ (fun i hi => h (i + 1) (by simpa using hi))).mono ?_
    rintro s ⟨y, h1, h2, h3, h4, h5⟩
    refine ⟨fun i => match i with | 0 => n 0 * e | i + 1 => y i, ?_, ?_, ?_, by simp [h4], ?_⟩
    · intro i hi
      cases i with
      | zero => exact hq
      | succ i => exact h1 i (by simpa using hi)
    · show s.1 = _
      rw [h2, List.length_cons, Finset.sum_range_succ']
      congr 1
      ring
    · show sumCounts (r.2 :: s.2) = _
      unfold sumCounts
      rw [hn, bind_ret, h3, bind_ret, List.length_cons, Finset.sum_range_succ', Nat.add_comm]
      rfl
    · intro i hi
      cases i with
      | zero => exact hj
      | succ i => exact h5 i (by simpa using hi)

/-- The answer times the number of items is the sum of the members' ranks. -/
theorem estQuantile_sum [FloatFmt.Exact K] (p : ParallelDigest D K) (x : K) (n : Nat → Nat) (N : Nat) (hN : N ≠ 0)
    (hn : ∑ i ∈ Finset.range p.digests.length, n i = N) (J : Nat → D → Prop) (Q : Nat → K → Prop)
    (h : ∀ i (h : i < p.digests.length), Always (Digest.estQuantileAtValue p.digests[i] (.fin x : Fl K)) (fun r =>
      (∃ e : K, r.1 = .fin e ∧ Q i (n i * e)) ∧ Digest.count r.2 = .ret (n i) ∧ J i r.2)) :
    Always (p.estQuantileAtValue (.fin x)) (fun r => (∃ (y : Nat → K) (e : K), (∀ i < p.digests.length, Q i (y i)) ∧ r.1 = .fin e ∧
      N * e = ∑ i ∈ Finset.range p.digests.length, y i) ∧ r.2.digests.length = p.digests.length ∧ ∀ i (h : i < r.2.digests.length), J i r.2.digests[i]) := by
  unfold estQuantileAtValue
  rw [Fl.lit_exact, always_bind]
  refine (rankLoop_sum x p.digests n J Q 0 h).mono ?_
  rintro s ⟨y, h1, h2, h3, h4, h5⟩
  have hN0 : (N : K) ≠ 0 := Nat.cast_ne_zero.2 hN
  have e : ({ p with digests := s.2 } : ParallelDigest D K).count = .ret N := by
    show sumCounts s.2 = _
    rw [h3, hn]
  simp only [e, bind_ret]
  refine ⟨⟨y, (∑ i ∈ Finset.range p.digests.length, y i) / N, h1, ?_, by field_simp⟩, h4, h5⟩
  show s.1 / Fl.ofNat N = _
  rw [h2, zero_add, Fl.ofNat_exact, Fl.div_exact _ hN0]

/-- Counts over all shares. -/
theorem count_share (m : Nat) (hm : m ≠ 0) (ops : List (Op (Fl K))) (f : Fl K → Bool) :
    ∑ i ∈ Finset.range m, (((itemsOf (share m i ops)).countP f : Nat) : K) = ((itemsOf ops).countP f : Nat) := by
  rw [← sum_share (fun l => l.countP f) (by simp) (by simp) m hm ops, Nat.cast_sum]

theorem length_share (m : Nat) (hm : m ≠ 0) (ops : List (Op (Fl K))) :
    ∑ i ∈ Finset.range m, (itemsOf (share m i ops)).length = (itemsOf ops).length :=
  sum_share List.length rfl (by simp) m hm ops

theorem rankWithin_sum (m : Nat) (hm : m ≠ 0) (ops : List (Op (Fl K))) (y E : Nat → K) (x r : K)
    (h : ∀ i < m, RankWithin (itemsOf (share m i ops)) (y i) x (E i)) (hr : r = ∑ i ∈ Finset.range m, y i) :
    RankWithin (itemsOf ops) r x (∑ i ∈ Finset.range m, E i) := by
  unfold RankWithin
  rw [hr, ← count_share m hm, ← count_share m hm, ← Finset.sum_add_distrib, ← Finset.sum_add_distrib]
  exact ⟨Finset.sum_le_sum (fun i hi => (h i (Finset.mem_range.1 hi)).1), Finset.sum_le_sum (fun i hi => (h i (Finset.mem_range.1 hi)).2)⟩

end
end ParallelDigest

section
variable {K : Type} [Field K] [LinearOrder K] [IsStrictOrderedRing K] [FloatFmt K] {D : Type} [Digest D (Fl K)]

/-- The value `v` answers the quantile `q` of `xs` with the rank error `E`, up to a millionth of `|smallest| + |largest|` in the value. -/
def Spec.FoundWithin (xs : List (Fl K)) (q v E : K) : Prop := ∃ lo hi s e : K, .fin lo ∈ xs ∧ .fin hi ∈ xs ∧ (∀ x ∈ xs, .fin lo ≤ x ∧ x ≤ .fin hi) ∧
  s ≤ v ∧ v ≤ e ∧ e - s ≤ 1 / 1000000 * (|lo| + |hi|) ∧
  (xs.countP (fun y => Fl.lt y (.fin s)) : K) ≤ xs.length * q + E ∧ xs.length * q ≤ (xs.countP (fun y => Fl.le y (.fin e)) : K) + E

/-- C148. The rank errors of the sub-digests add up. If sub-digest `i`, fed its share of the history, then counts the items of its share and answers every
quantile query with a number off by at most `E i` of them, the whole answers quantile queries off by at most the sum of the `E i`, and value queries with a value
that a millionth of `|smallest| + |largest|` separates from one off by at most that sum. `J` is whatever is known of a sub-digest and kept by its queries. -/
theorem C148_ranks_add [FloatFmt.Exact K] (ds : List D) (hne : ds ≠ []) (ops : List (Op (Fl K))) (hops : PlainIns ops) (hit : ∀ x ∈ itemsOf ops, Item x)
    (hit0 : itemsOf ops ≠ []) (E : Nat → K) (hE : ∀ i < ds.length, 0 ≤ E i) (J : Nat → D → Prop)
    (hrun : ∀ i (h : i < ds.length), Always (execAll ds[i] (share ds.length i ops)) (J i))
    (hJ : ∀ i < ds.length, ∀ d, J i d → ∀ x : K, Always (Digest.estQuantileAtValue d (.fin x : Fl K)) (fun r =>
      (∃ e : K, r.1 = .fin e ∧ RankWithin (itemsOf (share ds.length i ops)) ((itemsOf (share ds.length i ops)).length * e) x (E i)) ∧
      Digest.count r.2 = .ret (itemsOf (share ds.length i ops)).length ∧ J i r.2)) :
    Always (execAll (ParallelDigest.new ds : ParallelDigest D K) ops) (fun p =>
      (∀ x : K, Always (p.estQuantileAtValue (.fin x)) (fun r => ∃ e : K, r.1 = .fin e ∧
        RankWithin (itemsOf ops) ((itemsOf ops).length * e) x (∑ i ∈ Finset.range ds.length, E i))) ∧
      ∀ q : K, 0 ≤ q → q ≤ 1 → Always (p.estValueAtQuantile (.fin q)) (fun r => ∃ v : K, r.1 = .fin v ∧
        FoundWithin (itemsOf ops) q v (∑ i ∈ Finset.range ds.length, E i))) := by
  have hm : ds.length ≠ 0 := (List.length_pos_of_ne_nil hne).ne'
  have hlen := ParallelDigest.length_share ds.length hm ops
  have hN : (itemsOf ops).length ≠ 0 := (List.length_pos_of_ne_nil hit0).ne'
  have hlim := C49_limits ds ops hit0 (fun x hx => by
    obtain ⟨⟨y, rfl⟩, h2, h3⟩ := hit x hx
    exact ⟨by simp, h2, h3⟩)
  have hS : 0 ≤ ∑ i ∈ Finset.range ds.length, E i := Finset.sum_nonneg (fun i hi => hE i (Finset.mem_range.1 hi))
  refine (Always.and (ParallelDigest.execAll_all J ops hops (ParallelDigest.new ds : ParallelDigest D K) hne hrun) hlim).mono ?_
  rintro ⟨es, mn, mx⟩ ⟨⟨h1, h2⟩, ⟨h3, h4⟩, h5, h6⟩
  obtain ⟨⟨lo, e1⟩, -⟩ := hit _ h3
  obtain ⟨⟨hi, e2⟩, -⟩ := hit _ h5
  simp only at h1 h2 h3 h4 h5 h6 e1 e2
  subst e1 e2
  change es.length = ds.length at h1
  have hq : ∀ fs : List D, fs.length = ds.length ∧ (∀ i (h : i < fs.length), J i fs[i]) → ∀ x : K,
      Always ((⟨fs, .fin lo, .fin hi⟩ : ParallelDigest D K).estQuantileAtValue (.fin x)) (fun r =>
        (∃ e : K, r.1 = .fin e ∧ RankWithin (itemsOf ops) ((itemsOf ops).length * e) x (∑ i ∈ Finset.range ds.length, E i)) ∧
        r.2.digests.length = ds.length ∧ ∀ i (h : i < r.2.digests.length), J i r.2.digests[i]) := by
    rintro fs ⟨g1, g2⟩ x
    refine (ParallelDigest.estQuantile_sum ⟨fs, .fin lo, .fin hi⟩ x (fun i => (itemsOf (share ds.length i ops)).length) _ hN
      (by show ∑ i ∈ Finset.range fs.length, _ = _; rw [g1, hlen]) J
      (fun i y => RankWithin (itemsOf (share ds.length i ops)) y x (E i)) (fun i h => hJ i (by rw [← g1]; exact h) _ (g2 i h) x)).mono ?_
    rintro r ⟨⟨y, e, a1, a2, a3⟩, a4, a5⟩
    change ∀ i < fs.length, _ at a1
    change _ = ∑ i ∈ Finset.range fs.length, _ at a3
    change _ = fs.length at a4
    rw [g1] at a1 a3 a4
    exact ⟨⟨e, a2, ParallelDigest.rankWithin_sum _ hm ops y E x _ a1 a3⟩, a4, a5⟩
  refine ⟨fun x => (hq es ⟨h1, h2⟩ x).mono (fun r h => h.1), fun q hq0 hq1 => ?_⟩
  refine (C51_value_search (fun fs => fs.length = ds.length ∧ ∀ i (h : i < fs.length), J i fs[i])
    (fun x e => RankWithin (itemsOf ops) ((itemsOf ops).length * e) x (∑ i ∈ Finset.range ds.length, E i)) lo hi q
    (Fl.fin_le_fin.1 (h6 _ h3)) (fun fs hfs x _ _ => hq fs hfs x) es ⟨h1, h2⟩).mono ?_
  rintro r ⟨-, v, s, e, a1, a2, a3, a4, a5, a6, a7, a8, -⟩
  have hn0 : (0 : K) ≤ (itemsOf ops).length := Nat.cast_nonneg _
  refine ⟨v, a1, lo, hi, s, e, h3, h5, fun x hx => ⟨h4 x hx, h6 x hx⟩, a3, a4, a6, ?_, ?_⟩
  · rcases a7 with rfl | ⟨y, b1, b2⟩
    · have : (itemsOf ops).countP (fun y => Fl.lt y (.fin s)) = 0 := by
        rw [List.countP_eq_zero]
        intro y hy
        obtain ⟨⟨z, rfl⟩, -⟩ := hit y hy
        have := Fl.fin_le_fin.1 (h4 _ hy)
        simpa [Fl.lt_fin] using this
      rw [this, Nat.cast_zero]
      have := mul_nonneg hn0 hq0
      linarith
    · have := mul_le_mul_of_nonneg_left b2 hn0
      linarith [b1.1]
  · rcases a8 with rfl | ⟨y, b1, b2⟩
    · have : (itemsOf ops).countP (fun y => Fl.le y (.fin e)) = (itemsOf ops).length := by
        rw [List.countP_eq_length]
        intro y hy
        obtain ⟨⟨z, rfl⟩, -⟩ := hit y hy
        have := Fl.fin_le_fin.1 (h6 _ hy)
        simpa [Fl.le_fin] using this
      rw [this]
      have := mul_le_mul_of_nonneg_left hq1 hn0
      linarith
    · have := mul_le_mul_of_nonneg_left b2.le hn0
      linarith [b1.2]

end

section
variable {K : Type} [Field K] [LinearOrder K] [IsStrictOrderedRing K] [FloatFmt K]

theorem weightFrom_items {xs : List (Fl K)} (hg : ∀ x ∈ xs, Item x) (x : K) :
    weightFrom (xs.map (fun x => (⟨x, .fin 1⟩ : Centroid K))) (.fin x) = (xs.countP (fun y => Fl.le (.fin x) y) : K) := by
  unfold weightFrom
  induction xs with
  | nil => simp
  | cons y xs ih =>
    obtain ⟨z, rfl⟩ := (hg y (by simp)).1
    have ih := ih (fun w hw => hg w (by simp [hw]))
    rw [List.map_cons, List.filter_cons, List.countP_cons]
    by_cases h : x ≤ z
    · simp only [Fl.fin_le_fin, h, decide_true, if_true, List.map_cons, List.sum_cons, ih, Fl.le_fin]
      push_cast
      rw [show (Fl.fin (1 : K)).toK = 1 from rfl, add_comm]
    · simp only [Fl.fin_le_fin, h, decide_false, Bool.false_eq_true, if_false, ih, Fl.le_fin, add_zero]

theorem weightAbove_items {xs : List (Fl K)} (hg : ∀ x ∈ xs, Item x) (x : K) :
    weightAbove (xs.map (fun x => (⟨x, .fin 1⟩ : Centroid K))) (.fin x) = (xs.countP (fun y => Fl.lt (.fin x) y) : K) := by
  unfold weightAbove
  induction xs with
  | nil => simp
  | cons y xs ih =>
    obtain ⟨z, rfl⟩ := (hg y (by simp)).1
    have ih := ih (fun w hw => hg w (by simp [hw]))
    rw [List.map_cons, List.filter_cons, List.countP_cons]
    by_cases h : x < z
    · simp only [Fl.fin_lt_fin, h, decide_true, if_true, List.map_cons, List.sum_cons, ih, Fl.lt_fin]
      push_cast
      rw [show (Fl.fin (1 : K)).toK = 1 from rfl, add_comm]
    · simp only [Fl.fin_lt_fin, h, decide_false, Bool.false_eq_true, if_false, ih, Fl.lt_fin, add_zero]

theorem weightFactor_sum [FloatFmt.Exact K] (m : Nat) (hm : m ≠ 0) (ops : List (Op (Fl K))) (hit : ∀ x ∈ itemsOf ops, Item x) (y H : Nat → K) (x r F : K)
    (h : ∀ i < m, WeightFactor ((itemsOf (share m i ops)).map (fun x => ⟨x, .fin 1⟩)) (y i) x F (H i)) (hr : r = ∑ i ∈ Finset.range m, y i) :
    WeightFactor ((itemsOf ops).map (fun x => ⟨x, .fin 1⟩)) r x F (∑ i ∈ Finset.range m, H i) := by
  have hi : ∀ i, ∀ x ∈ itemsOf (share m i ops), Item x := fun i x hx => hit x ((share_ins m i ops).2 hx)
  have hl : ((itemsOf ops).length : K) = ∑ i ∈ Finset.range m, ((itemsOf (share m i ops)).length : K) := by
    rw [← ParallelDigest.length_share m hm ops, Nat.cast_sum]
  rw [hr]
  refine ⟨?_, ?_, ?_, ?_⟩
  · rw [TDigest.weightBelow_items hit, ← ParallelDigest.count_share m hm, ← Finset.sum_add_distrib, Finset.mul_sum]
    refine Finset.sum_le_sum (fun i hi' => ?_)
    have := (h i (Finset.mem_range.1 hi')).below
    rwa [TDigest.weightBelow_items (hi i)] at this
  · rw [TDigest.weightUpTo_items hit, ← ParallelDigest.count_share m hm, Finset.mul_sum, ← Finset.sum_add_distrib]
    refine Finset.sum_le_sum (fun i hi' => ?_)
    have := (h i (Finset.mem_range.1 hi')).upTo
    rwa [TDigest.weightUpTo_items (hi i)] at this
  · rw [weightFrom_items hit, ← ParallelDigest.count_share m hm, TDigest.totalW_items, hl, Finset.mul_sum, ← Finset.sum_add_distrib, ← Finset.sum_sub_distrib]
    refine Finset.sum_le_sum (fun i hi' => ?_)
    have := (h i (Finset.mem_range.1 hi')).from_
    rwa [weightFrom_items (hi i), TDigest.totalW_items] at this
  · rw [weightAbove_items hit, ← ParallelDigest.count_share m hm, TDigest.totalW_items, hl, ← Finset.sum_sub_distrib, ← Finset.sum_add_distrib, Finset.mul_sum]
    refine Finset.sum_le_sum (fun i hi' => ?_)
    have := (h i (Finset.mem_range.1 hi')).above
    rwa [weightAbove_items (hi i), TDigest.totalW_items] at this

/-- One `TDigest` fed through the trait. -/
theorem td_member [FloorRing K] [FloatFmt.Exact K] {s i : ScaleFn K} {cf : Fl K} {N : K} {J : Nat → List (Centroid K) → List (Centroid K) → Prop}
    (L : ParTDigest.Layered s i cf N J) (hJ : ∀ l, ParTDigest.Ones l → (∀ e ∈ l, e.weight.toK ≤ 1) → J 0 l l) (ops : List (Op (Fl K)))
    (hins : ∀ o ∈ ops, (∃ x, o = .add x) ∨ ∃ xs, o = .addBuffer xs) (hit : ∀ x ∈ itemsOf ops, Item x) (hne : itemsOf ops ≠ [])
    (h64 : ((itemsOf ops).length : K) < 2 ^ 64) (hN : ((itemsOf ops).length : K) ≤ N) :
    Always (execAll (TDigest.new s i cf : TDigest K) ops) (fun d => (∃ l a b, TDigest.View d l a b ∧ TDigest.wt l = (itemsOf ops).length ∧ ∀ p ∈ l, 1 ≤ p.2) ∧
      (∀ c ∈ d.centroids, Good c) ∧ totalW d.centroids = (itemsOf ops).length ∧ d.count = .ret (itemsOf ops).length ∧
      J ops.length d.centroids ((itemsOf ops).map (fun x => ⟨x, .fin 1⟩))) := by
  obtain ⟨tops, h1, h2, h3⟩ := td_trait_calls ops hins
  have hg : ∀ e ∈ TDigest.supplied tops, Good e ∧ InRange e := by
    rw [h2]
    intro c hc
    obtain ⟨x, hx, rfl⟩ := List.mem_map.1 hc
    exact ⟨⟨(hit x hx).1, 1, zero_lt_one, rfl⟩, (hit x hx).2⟩
  have hw : ∀ e ∈ TDigest.supplied tops, 1 ≤ e.weight.toK ∧ e.weight.toK ≤ 1 := by
    rw [h2]
    intro c hc
    obtain ⟨x, hx, rfl⟩ := List.mem_map.1 hc
    exact ⟨le_of_eq rfl, le_of_eq rfl⟩
  have hW : totalW (TDigest.supplied tops) = (itemsOf ops).length := by rw [h2, TDigest.totalW_items]
  have hne' : TDigest.supplied tops ≠ [] := by rw [h2]; simpa using hne
  have e1 := TTree.ofOps_supplied tops (.new s i cf)
  have e2 := TTree.ofOps_depth tops (.new s i cf)
  have e3 := TTree.run_ofOps tops (.new s i cf)
  rw [show (TTree.new s i cf : TTree K).supplied = [] from rfl, List.nil_append] at e1
  rw [show (TTree.new s i cf : TTree K).depth = 0 from rfl, zero_add] at e2
  have g1 := TTree.run_inv (tops.foldl .ins (.new s i cf)) (by rw [e1]; exact hg)
  have g2 := TTree.run_layer L 1 hJ (tops.foldl .ins (.new s i cf)) (TTree.ofOps_uniform tops _ ⟨rfl, rfl, rfl⟩) (by rw [e1]; exact hg)
    (by rw [e1]; exact hw) (by rw [e1, hW]; exact hN)
  rw [e1, e3] at g1
  rw [e1, e2, e3] at g2
  rw [h1]
  refine (Always.and (show Always ((TDigest.new s i cf : TDigest K).execOps tops) _ from g1) g2).mono ?_
  rintro d ⟨hi, hj⟩
  obtain ⟨l, a, b, hv, hwt, hcl, -⟩ := hi.view hne'
  rw [hW] at hwt
  refine ⟨⟨l, a, b, hv, hwt, hcl _ TDigest.one_le_closed (fun e he => (hw e he).1)⟩, hi.good, by rw [hi.weight_eq hne', hW], ?_, by rw [h2, h3] at hj; exact hj⟩
  unfold TDigest.count
  rw [hv.total, hwt, TDigest.toUsize_nat (by exact_mod_cast (show ((itemsOf ops).length : K) < ((2 ^ 64 : ℕ) : K) by push_cast; norm_num at h64 ⊢; exact h64))]
  rfl

theorem share_length (m i : Nat) : ∀ ops : List (Op (Fl K)), (share m i ops).length ≤ ops.length
  | [] => le_rfl
  | o :: os => by
    have := share_length m i os
    rw [share_cons]
    split <;> simp <;> omega

theorem share_items_le (m i : Nat) (hi : i < m) (ops : List (Op (Fl K))) : ((itemsOf (share m i ops)).length : K) ≤ (itemsOf ops).length := by
  rw [← ParallelDigest.length_share m (by omega) ops, Nat.cast_sum]
  exact Finset.single_le_sum (f := fun i => ((itemsOf (share m i ops)).length : K)) (fun i _ => Nat.cast_nonneg _) (Finset.mem_range.2 hi)

end

section
variable [FloatFmt ℝ] [FloatFmt.Exact ℝ]

theorem PlainIns.shape {ops : List (Op (Fl ℝ))} (h : PlainIns ops) : ∀ o ∈ ops, (∃ x, o = .add x) ∨ ∃ xs, o = .addBuffer xs :=
  fun o ho => (h o ho).1.imp id (fun ⟨xs, h, _⟩ => ⟨xs, h⟩)

/-- C148 for TDigests: `m` equal TDigests with `k0`, `k1`, `k2` or `k3` such that no more than the fraction `c` of `N` items may go into one centroid, after `B`
insertion calls with `N` items of which every sub-digest got at least one. Quantile queries are off by at most `m + (B + 1/2) c N` ranks; value queries as well, up to a
millionth of `|smallest| + |largest|` in the value. -/
theorem C148_tdigests (c : ℝ) (s i : ScaleFn ℝ) (cf : Fl ℝ) (m : Nat) (hm : m ≠ 0) (ops : List (Op (Fl ℝ))) (hops : PlainIns ops)
    (hit : ∀ x ∈ itemsOf ops, Item x) (hfed : ∀ j < m, itemsOf (share m j ops) ≠ []) (h64 : ((itemsOf ops).length : ℝ) < 2 ^ 64)
    (hk : FracScale c (itemsOf ops).length s i cf) (N E : ℝ) (hN : N = (itemsOf ops).length) (hE : E = m + (ops.length + 1 / 2) * (c * N)) :
    Always (execAll (ParallelDigest.new (List.replicate m (TDigest.new s i cf)) : ParallelDigest (TDigest ℝ) ℝ) ops) (fun p =>
      (∀ x : ℝ, Always (p.estQuantileAtValue (.fin x)) (fun r => ∃ e : ℝ, r.1 = .fin e ∧ RankWithin (itemsOf ops) (N * e) x E)) ∧
      ∀ q : ℝ, 0 ≤ q → q ≤ 1 → Always (p.estValueAtQuantile (.fin q)) (fun r => ∃ v : ℝ, r.1 = .fin v ∧ FoundWithin (itemsOf ops) q v E)) := by
  have hne : itemsOf ops ≠ [] := fun h => hfed 0 (Nat.pos_of_ne_zero hm) (by
    have := (share_ins m 0 ops).2
    rw [h] at this
    exact List.subset_nil.1 this)
  have h1 := one_le_length hne
  have hl := TDigest.fracScale_limit h1 hk
  have hc := TDigest.fracScale_nonneg h1 hk
  have hln : (List.replicate m (TDigest.new s i cf)).length = m := List.length_replicate
  have hsub : ∀ j, ∀ x ∈ itemsOf (share m j ops), Item x := fun j x hx => hit x ((share_ins m j ops).2 hx)
  have hsum : ∑ j ∈ Finset.range m, (1 + (ops.length + 1 / 2) * (c * ((itemsOf (share m j ops)).length : ℝ))) = E := by
    rw [Finset.sum_add_distrib, ← Finset.mul_sum, ← Finset.mul_sum, ← Nat.cast_sum, ParallelDigest.length_share m hm, hE, hN]
    simp
  have h := C148_ranks_add (List.replicate m (TDigest.new s i cf)) (by simpa using hm) ops hops hit hne
    (fun j => 1 + (ops.length + 1 / 2) * (c * ((itemsOf (share m j ops)).length : ℝ))) (fun j _ => by positivity)
    (fun j d => d.count = .ret (itemsOf (share m j ops)).length ∧ ∀ x : ℝ, ∃ e : ℝ, d.estQuantileAtValue (.fin x) = .ret (.fin e) ∧
      RankWithin (itemsOf (share m j ops)) ((itemsOf (share m j ops)).length * e) x (1 + (ops.length + 1 / 2) * (c * ((itemsOf (share m j ops)).length : ℝ))))
    (fun j hj => by
      rw [hln] at hj ⊢
      rw [List.getElem_replicate]
      have hj' := share_items_le (K := ℝ) m j hj ops
      refine (td_member ((ParTDigest.layered_weight hc hl).and (ParTDigest.layered_near hc hl)) (fun l _ hl1 =>
        ⟨fun e he => le_max_of_le_left (hl1 e he), fun x => by simp [TDigest.Near]⟩) (share m j ops) (share_ins m j ops).1 (hsub j) (hfed j hj)
        (lt_of_le_of_lt hj' h64) hj').mono ?_
      rintro d ⟨⟨l, a, b, hv, hwt, -⟩, -, -, hcnt, hw, hn⟩
      refine ⟨hcnt, fun x => ?_⟩
      rw [TDigest.totalW_items] at hw hn
      obtain ⟨e, h4, h5⟩ := TDigest.Near.query hn (fun c hc => by
          obtain ⟨x, hx, rfl⟩ := List.mem_map.1 hc
          exact ⟨(hsub j x hx).1, 1, zero_lt_one, rfl⟩) hv (by rw [hwt, TDigest.totalW_items]) (le_max_left _ _)
        (fun e he => TTree.half_frac le_rfl (hw e he)) x
      rw [TDigest.totalW_items, TDigest.weightWithin_items (hsub j)] at h5
      have hn0 : 0 ≤ c * ((itemsOf (share m j ops)).length : ℝ) := by positivity
      have hmax : Max.max 1 (c * ((itemsOf (share m j ops)).length : ℝ) / 2) ≤ 1 + c * ((itemsOf (share m j ops)).length : ℝ) / 2 := max_le (by linarith) (by linarith)
      have hB : ((share m j ops).length : ℝ) ≤ ops.length := by exact_mod_cast share_length m j ops
      have hB' := mul_le_mul_of_nonneg_right hB hn0
      exact ⟨e, h4, by linarith [h5.1], by linarith [h5.2]⟩)
    (fun j hj d hd x => by
      rw [hln]
      obtain ⟨e, h4, h5⟩ := hd.2 x
      show Always (d.estQuantileAtValue (.fin x) >>= fun r => .ret (r, d)) _
      rw [h4, bind_ret]
      exact ⟨⟨e, rfl, h5⟩, hd.1, hd⟩)
  rw [hln, hsum, ← hN] at h
  exact h

/-- C149. `m` equal TDigests with `k2` or `k3` and the compression factor `δ` in a ParallelDigest, after `B` insertion calls with `N` items of which every
sub-digest got at least one: the rank of `x` that a quantile query answers is that of the data up to the factor `r^B`, counted from either end, and the sum of the `H j`,
where `H j` (at least 1) bounds half the weight of the centroids of sub-digest `j` next to `x`. -/
theorem C149_relative (r δ : ℝ) (s i : ScaleFn ℝ) (h0 : 0 < δ) (h5 : δ ≤ 10 ^ 5) (m : Nat) (hm : m ≠ 0) (ops : List (Op (Fl ℝ))) (hops : PlainIns ops)
    (hit : ∀ x ∈ itemsOf ops, Item x) (hfed : ∀ j < m, itemsOf (share m j ops) ≠ []) (h64 : ((itemsOf ops).length : ℝ) < 2 ^ 64)
    (hk : OddsScale r δ (itemsOf ops).length s i) :
    Always (execAll (ParallelDigest.new (List.replicate m (TDigest.new s i (.fin δ))) : ParallelDigest (TDigest ℝ) ℝ) ops) (fun p =>
      ∀ (x : ℝ), Always (p.estQuantileAtValue (.fin x)) (fun res => ∃ e : ℝ, res.1 = .fin e ∧ ∀ H : Nat → ℝ,
        (∀ j (h : j < p.digests.length), 1 ≤ H j ∧ ∀ a, Beside p.digests[j].centroids (.fin x) a → a.weight ≤ .fin (2 * H j)) →
        WeightFactor ((itemsOf ops).map (fun x => ⟨x, .fin 1⟩)) ((itemsOf ops).length * e) x (r ^ ops.length) (∑ j ∈ Finset.range m, H j))) := by
  have hne : itemsOf ops ≠ [] := fun h => hfed 0 (Nat.pos_of_ne_zero hm) (by
    have := (share_ins m 0 ops).2
    rw [h] at this
    exact List.subset_nil.1 this)
  have h1 := one_le_length hne
  obtain ⟨hr, hl⟩ := oddsScale_limit hk h0 h5 h1
  have hln : (List.replicate m (TDigest.new s i (.fin δ))).length = m := List.length_replicate
  have hsub : ∀ j, ∀ x ∈ itemsOf (share m j ops), Item x := fun j x hx => hit x ((share_ins m j ops).2 hx)
  refine (ParallelDigest.execAll_all (fun j d => d.count = .ret (itemsOf (share m j ops)).length ∧ ∀ x : ℝ, ∃ e : ℝ, d.estQuantileAtValue (.fin x) = .ret (.fin e) ∧
      ∀ H : ℝ, 1 ≤ H → (∀ a, Beside d.centroids (.fin x) a → a.weight ≤ .fin (2 * H)) →
        WeightFactor ((itemsOf (share m j ops)).map (fun x => ⟨x, .fin 1⟩)) ((itemsOf (share m j ops)).length * e) x (r ^ ops.length) H) ops hops
      (ParallelDigest.new (List.replicate m (TDigest.new s i (.fin δ)))) (by simpa [ParallelDigest.new] using hm) (fun j hj => ?_)).mono ?_
  · change j < (List.replicate m _).length at hj
    show Always (execAll (List.replicate m (TDigest.new s i (.fin δ)))[j] (share (List.replicate m (TDigest.new s i (.fin δ))).length j ops)) _
    rw [hln, List.getElem_replicate]
    rw [hln] at hj
    have hj' := share_items_le (K := ℝ) m j hj ops
    refine (td_member (ParTDigest.layered_rel (by linarith) hl) (fun l _ _ x => by rw [pow_zero]; exact TDigest.RelNear.refl _ _)
      (share m j ops) (share_ins m j ops).1 (hsub j) (hfed j hj) (lt_of_le_of_lt hj' h64) hj').mono ?_
    rintro d ⟨⟨l, a, b, hv, hwt, hw1⟩, hg, hW, hcnt, hn⟩
    refine ⟨hcnt, fun x => ?_⟩
    obtain ⟨e, h2, h3⟩ := (hv.queries hwt hw1 (lt_of_le_of_lt hj' h64)).1 x
    refine ⟨e, h2, fun H hH hb => ?_⟩
    obtain ⟨h4, h6⟩ := h3 H hH hb
    have hs : ∀ c ∈ (itemsOf (share m j ops)).map (fun x => (⟨x, .fin 1⟩ : Centroid ℝ)), Good c := by
      intro c hc
      obtain ⟨x, hx, rfl⟩ := List.mem_map.1 hc
      exact ⟨(hsub j x hx).1, 1, zero_lt_one, rfl⟩
    have h7 := hn x
    rw [show 1 + (r - 1) = r by ring] at h7
    exact (h7.mono (pow_le_pow_right₀ hr (share_length m j ops)) hg hs).factor (by positivity) hs (by rw [hW, TDigest.totalW_items]) h4 h6
  · rintro p ⟨g1, g2⟩ x
    change p.digests.length = (List.replicate m _).length at g1
    rw [hln] at g1
    refine (ParallelDigest.estQuantile_sum p x (fun j => (itemsOf (share m j ops)).length) (itemsOf ops).length (by simpa using hne)
      (by rw [g1]; exact ParallelDigest.length_share m hm ops) (fun _ _ => True) (fun j y => ∀ (h : j < p.digests.length) (H : ℝ), 1 ≤ H →
        (∀ a, Beside p.digests[j].centroids (.fin x) a → a.weight ≤ .fin (2 * H)) →
        WeightFactor ((itemsOf (share m j ops)).map (fun x => ⟨x, .fin 1⟩)) y x (r ^ ops.length) H) (fun j hj => ?_)).mono ?_
    · obtain ⟨g3, g4⟩ := g2 j hj
      obtain ⟨e, g5, g6⟩ := g4 x
      show Always (p.digests[j].estQuantileAtValue (.fin x) >>= fun r => .ret (r, p.digests[j])) _
      rw [g5, bind_ret]
      exact ⟨⟨e, rfl, fun _ H hH hb => g6 H hH hb⟩, g3, trivial⟩
    · rintro res ⟨⟨y, e, g3, g4, g5⟩, -⟩
      refine ⟨e, g4, fun H hH => ?_⟩
      rw [g1] at g5
      refine weightFactor_sum m hm ops hit y H x _ _ (fun j hj => ?_) g5
      have hj' : j < p.digests.length := by rw [g1]; exact hj
      exact g3 j hj' hj' (H j) (hH j hj').1 (hH j hj').2

end

/-- Two sub-digests both get part of one slice of 1000 items. -/
theorem halves_fed [FloatFmt ℝ] (xs : List (Fl ℝ)) (h : xs.length = 1000) : ∀ j < 2, itemsOf (share 2 j [Op.addBuffer xs]) ≠ [] := by
  intro j hj e
  have e' : (piece 2 j xs).length = 500 := by
    unfold piece
    rw [List.length_take, List.length_drop, h]
    interval_cases j <;> rfl
  have hp : piece 2 j (Op.addBuffer xs).items ≠ [] := by
    show piece 2 j xs ≠ []
    intro h0
    rw [h0] at e'
    simp at e'
  rw [share_cons, if_neg hp] at e
  simp only [itemsOf, share, List.flatMap_cons, List.flatMap_nil, List.append_nil] at e
  exact hp e

/-- Non-vacuity: 1000 items in one slice over two TDigests with `k1` and `δ = 1000`: ranks are off by at most 7. -/
theorem C148_example : let _ := realExact; let _ := realExact_exact;
    Always (execAll (ParallelDigest.new (List.replicate 2 (TDigest.new k1 invK1 (.fin (1000 : ℝ)))) : ParallelDigest (TDigest ℝ) ℝ)
      [.addBuffer (relShard 0 ++ relShard 1)]) (fun p =>
      (∀ x : ℝ, Always (p.estQuantileAtValue (.fin x)) (fun r => ∃ e : ℝ, r.1 = .fin e ∧ RankWithin (relShard 0 ++ relShard 1) (1000 * e) x 7)) ∧
      ∀ q : ℝ, 0 ≤ q → q ≤ 1 → Always (p.estValueAtQuantile (.fin q)) (fun r => ∃ v : ℝ, r.1 = .fin v ∧ FoundWithin (relShard 0 ++ relShard 1) q v 7)) := by
  intro i1 i2
  have hit := relShard_item
  have hlen := relShard_length
  generalize relShard 0 ++ relShard 1 = xs at hit hlen ⊢
  have e : itemsOf [Op.addBuffer xs] = xs := by simp [itemsOf, Op.items]
  have hW : ((itemsOf [Op.addBuffer xs]).length : ℝ) = 1000 := by rw [e, hlen]; norm_num
  have hne : xs ≠ [] := by intro h; rw [h] at hlen; simp at hlen
  have hpi := Real.pi_lt_d2
  have h := C148_tdigests (315 / 100000) k1 invK1 (.fin 1000) 2 (by norm_num) [.addBuffer xs]
    (by
      intro o ho
      rw [List.mem_singleton] at ho
      subst ho
      refine ⟨Or.inr ⟨xs, rfl, hne⟩, fun y hy => ?_⟩
      obtain ⟨⟨z, rfl⟩, -⟩ := hit y hy
      simp) (by rw [e]; exact hit) (halves_fed xs hlen) (by rw [hW]; norm_num)
    ⟨1000, rfl, by norm_num, Or.inr (Or.inl ⟨rfl, rfl, by linarith⟩)⟩ 1000 _ hW.symm rfl
  rw [e] at h
  have hE : ((2 : ℕ) : ℝ) + (([Op.addBuffer xs].length : ℕ) + 1 / 2 : ℝ) * (315 / 100000 * 1000) ≤ 7 := by
    rw [show [Op.addBuffer xs].length = 1 from rfl]; norm_num
  refine Always.mono h ?_
  rintro p ⟨h1, h2⟩
  refine ⟨fun x => Always.mono (h1 x) ?_, fun q q0 q1 => Always.mono (h2 q q0 q1) ?_⟩
  · rintro r ⟨e, g1, g2, g3⟩
    exact ⟨e, g1, by linarith, by linarith⟩
  · rintro r ⟨v, g1, lo, hi, s, t, g2, g3, g4, g5, g6, g7, g8, g9⟩
    exact ⟨v, g1, lo, hi, s, t, g2, g3, g4, g5, g6, g7, by linarith, by linarith⟩

/-- Non-vacuity: the same with `k2` and `δ = 1000`: the factor is at most 53/50. -/
theorem C149_example : let _ := realExact; let _ := realExact_exact;
    Always (execAll (ParallelDigest.new (List.replicate 2 (TDigest.new k2 invK2 (.fin (1000 : ℝ)))) : ParallelDigest (TDigest ℝ) ℝ)
      [.addBuffer (relShard 0 ++ relShard 1)]) (fun p =>
      ∀ x : ℝ, Always (p.estQuantileAtValue (.fin x)) (fun res => ∃ e : ℝ, res.1 = .fin e ∧ ∃ F ≤ (53 / 50 : ℝ), ∀ H : Nat → ℝ,
        (∀ j (h : j < p.digests.length), 1 ≤ H j ∧ ∀ a, Beside p.digests[j].centroids (.fin x) a → a.weight ≤ .fin (2 * H j)) →
        WeightFactor ((relShard 0 ++ relShard 1).map (fun x => ⟨x, .fin 1⟩)) (1000 * e) x F (H 0 + H 1))) := by
  intro i1 i2
  have hit := relShard_item
  have hlen := relShard_length
  generalize relShard 0 ++ relShard 1 = xs at hit hlen ⊢
  have e : itemsOf [Op.addBuffer xs] = xs := by simp [itemsOf, Op.items]
  have hW : ((itemsOf [Op.addBuffer xs]).length : ℝ) = 1000 := by rw [e, hlen]; norm_num
  have hne : xs ≠ [] := by intro h; rw [h] at hlen; simp at hlen
  have h := C149_relative _ 1000 k2 invK2 (by norm_num) (by norm_num) 2 (by norm_num) [.addBuffer xs]
    (by
      intro o ho
      rw [List.mem_singleton] at ho
      subst ho
      refine ⟨Or.inr ⟨xs, rfl, hne⟩, fun y hy => ?_⟩
      obtain ⟨⟨z, rfl⟩, -⟩ := hit y hy
      simp) (by rw [e]; exact hit) (halves_fed xs hlen) (by rw [hW]; norm_num) (Or.inl ⟨rfl, rfl, rfl⟩)
  rw [hW, e, show [Op.addBuffer xs].length = 1 from rfl, pow_one] at h
  have hr : (10 : ℝ) ^ ((4 * Real.logb 10 ((1000 : ℝ) / 1000) + 24) / 1000) ≤ 53 / 50 := by
    rw [div_self (by norm_num), Real.logb_one, mul_zero, zero_add]
    have h : ((10 : ℝ) ^ ((24 : ℝ) / 1000)) ^ (1000 / 24 : ℝ) ≤ (53 / 50 : ℝ) ^ (1000 / 24 : ℝ) := by
      rw [← Real.rpow_mul (by norm_num)]
      norm_num
      calc (10 : ℝ) ≤ (53 / 50 : ℝ) ^ (40 : ℕ) := by norm_num
        _ = (53 / 50 : ℝ) ^ (40 : ℝ) := by norm_num
        _ ≤ _ := Real.rpow_le_rpow_of_exponent_le (by norm_num) (by norm_num)
    exact (Real.rpow_le_rpow_iff (by positivity) (by norm_num) (by norm_num)).1 h
  refine Always.mono h (fun p hp x => Always.mono (hp x) ?_)
  rintro res ⟨c, h1, h2⟩
  refine ⟨c, h1, _, hr, fun H hH => ?_⟩
  have := h2 H hH
  rwa [Finset.sum_range_succ, Finset.sum_range_one] at this

end AQ

/-
ParallelDigest: the sub-digests are independent; each runs on its share of the history.
-/
import Verif.Proofs.MultiDigest
import Verif.Proofs.ParallelDigest
import Verif.Proofs.KeyedSumTree
import Verif.Spec.Share
import Mathlib.Algebra.BigOperators.Group.Finset.Basic

set_option linter.unusedSectionVars false
set_option linter.unusedVariables false

namespace AQ
open Prog Spec
variable {K : Type} [Field K] [LinearOrder K] [IsStrictOrderedRing K] [FloatFmt K]

/-! ### Pieces -/

theorem chunksAux_get {α : Type} (c : Nat) (hc : c ≠ 0) : ∀ (n : Nat) (l : List α) (i : Nat), l.length ≤ n →
    (chunksAux c n l)[i]? = if l.drop (i * c) = [] then none else some ((l.drop (i * c)).take c)
  | 0, l, i, h => by
    have : l = [] := List.length_eq_zero_iff.1 (Nat.le_zero.1 h)
    subst this
    simp [chunksAux]
  | n + 1, [], i, _ => by simp [chunksAux]
  | n + 1, a :: l, 0, h => by simp [chunksAux]
  | n + 1, a :: l, i + 1, h => by
    have hl : ((a :: l).drop c).length ≤ n := by
      rw [List.length_drop]
      simp only [List.length_cons] at h ⊢
      omega
    unfold chunksAux
    rw [List.getElem?_cons_succ, chunksAux_get c hc n _ i hl, List.drop_drop]
    have e : c + i * c = (i + 1) * c := by ring
    rw [e]

namespace ParallelDigest
variable {D : Type} [Digest D (Fl K)]

/-- The pieces of one slice. -/
def cut (m : Nat) (b : List (Fl K)) : List (List (Fl K)) := chunksAux (chunkLen b.length m) b.length b

theorem cut_get (m : Nat) (hm : m ≠ 0) (b : List (Fl K)) (i : Nat) :
    (cut m b)[i]? = if piece m i b = [] then none else some (piece m i b) := by
  unfold cut
  have hc := chunkLen_ne_zero b.length m
  have e : chunkLen b.length m = Max.max ((b.length + m - 1) / m) 1 := by
    unfold chunkLen
    rw [if_neg hm]
  rw [chunksAux_get _ hc _ _ _ le_rfl]
  unfold piece
  rw [← e]
  by_cases h : b.drop (i * chunkLen b.length m) = []
  · simp [h]
  · rw [if_neg h, if_neg]
    intro h0
    rcases List.take_eq_nil_iff.1 h0 with h1 | h1
    · exact hc h1
    · exact h h1

theorem cut_length (m : Nat) (hm : m ≠ 0) (b : List (Fl K)) : (cut m b).length ≤ m := by
  unfold cut
  rw [chunksAux_length _ (chunkLen_ne_zero _ _) _ _ le_rfl]
  exact chunks_le_digests hm

/-- Several rounds of feeding. -/
def feedAll : List (List (List (Fl K))) → List D → Prog (List D)
  | [], ds => .ret ds
  | cs :: css, ds => feed cs ds >>= feedAll css

/-- What the `i`-th digest gets in these rounds. -/
def column (i : Nat) : List (List (List (Fl K))) → List (Op (Fl K))
  | [] => []
  | cs :: css => match cs[i]? with
    | none => column i css
    | some c => .addBuffer c :: column i css

theorem column_tail (i : Nat) : ∀ css : List (List (List (Fl K))), column i (css.map List.tail) = column (i + 1) css
  | [] => rfl
  | cs :: css => by
    have ih := column_tail i css
    rw [List.map_cons]
    unfold column
    rw [List.getElem?_tail, ih]

theorem column_share (m : Nat) (hm : m ≠ 0) (i : Nat) : ∀ ops : List (Op (Fl K)),
    column i (ops.map (fun o => cut m o.items)) = share m i ops
  | [] => rfl
  | o :: os => by
    have ih := column_share m hm i os
    rw [List.map_cons]
    unfold column share
    rw [cut_get m hm, ih]
    by_cases h : piece m i o.items = []
    · simp [h]
    · simp [h]

theorem feed_exp_nil (ds : List D) (G : List D → ℚ) : exp (feed ([] : List (List (Fl K))) ds) G = G ds := by
  cases ds <;> rfl

theorem feed_exp (c : List (Fl K)) (cs : List (List (Fl K))) (d : D) (ds : List D) (G : List D → ℚ) :
    exp (feed (c :: cs) (d :: ds)) G = exp (Digest.addBuffer d c) (fun d' => exp (feed cs ds) (fun ds' => G (d' :: ds'))) := by
  simp only [feed, exp_bind, pure_eq, exp_ret]

/-- The first digest is independent of the others. -/
theorem feedAll_exp : ∀ (css : List (List (List (Fl K)))) (d : D) (ds : List D) (G : List D → ℚ),
    exp (feedAll css (d :: ds)) G =
      exp (execAll d (column 0 css)) (fun d' => exp (feedAll (css.map List.tail) ds) (fun ds' => G (d' :: ds')))
  | [], d, ds, G => rfl
  | [] :: css, d, ds, G => by
    have ih := feedAll_exp css d ds G
    have e1 : feedAll ([] :: css) (d :: ds) = feedAll css (d :: ds) := rfl
    have e2 : feedAll (([] :: css).map List.tail) ds = feedAll (css.map List.tail) ds := by
      cases ds <;> rfl
    rw [e1, e2, ih]
    rfl
  | (c :: cs) :: css, d, ds, G => by
    have e3 : column 0 ((c :: cs) :: css) = .addBuffer c :: column 0 css := rfl
    rw [e3]
    show exp (feed (c :: cs) (d :: ds) >>= feedAll css) G =
      exp (Digest.addBuffer d c >>= fun d1 => execAll d1 (column 0 css)) (fun d' =>
        exp (feed cs ds >>= feedAll (css.map List.tail)) (fun ds' => G (d' :: ds')))
    rw [exp_bind, feed_exp, exp_bind]
    refine congrArg _ (funext fun d1 => ?_)
    have ih := feedAll_exp css d1
    simp only [ih, exp_bind]
    rw [exp_swap]

/-- What surely holds after the rounds. -/
theorem feed_all (Q : Nat → D → Prop) : ∀ (cs : List (List (Fl K))) (ds : List D), cs.length ≤ ds.length →
    (∀ i (h : i < ds.length), match cs[i]? with
      | some c => Always (Digest.addBuffer ds[i] c) (Q i)
      | none => Q i ds[i]) →
    Always (feed cs ds) (fun ds' => ds'.length = ds.length ∧ ∀ i (h : i < ds'.length), Q i ds'[i])
  | [], ds, _, h => by
    have : feed ([] : List (List (Fl K))) ds = .ret ds := by cases ds <;> rfl
    rw [this]
    exact ⟨rfl, fun i hi => by simpa using h i hi⟩
  | c :: cs, [], hl, _ => by simp at hl
  | c :: cs, d :: ds, hl, h => by
    unfold feed
    rw [always_bind]
    have h0 := h 0 (by simp)
    simp only [List.getElem?_cons_zero, List.getElem_cons_zero] at h0
    refine h0.mono ?_
    intro d' hd'
    rw [always_bind]
    refine (feed_all (fun i => Q (i + 1)) cs ds (by simpa using hl) (fun i hi => ?_)).mono ?_
    · have := h (i + 1) (by simpa using hi)
      simpa using this
    · rintro ds' ⟨h1, h2⟩
      refine ⟨by simp [h1], ?_⟩
      intro i hi
      cases i with
      | zero => exact hd'
      | succ i => exact h2 i (by simpa using hi)

theorem feedAll_all (P : Nat → D → Prop) : ∀ (css : List (List (List (Fl K)))) (ds : List D),
    (∀ cs ∈ css, cs.length ≤ ds.length) → (∀ i (h : i < ds.length), Always (execAll ds[i] (column i css)) (P i)) →
    Always (feedAll css ds) (fun ds' => ds'.length = ds.length ∧ ∀ i (h : i < ds'.length), P i ds'[i])
  | [], ds, _, h => ⟨rfl, h⟩
  | cs :: css, ds, hl, h => by
    show Always (feed cs ds >>= feedAll css) _
    rw [always_bind]
    refine (feed_all (fun i d => Always (execAll d (column i css)) (P i)) cs ds (hl cs (by simp)) (fun i hi => ?_)).mono ?_
    · have := h i hi
      unfold column at this
      cases hcs : cs[i]? with
      | none => rw [hcs] at this; exact this
      | some c =>
        rw [hcs] at this
        replace this : Always (Digest.addBuffer ds[i] c >>= fun d1 => execAll d1 (column i css)) (P i) := this
        rwa [always_bind] at this
    · rintro ds' ⟨h1, h2⟩
      refine (feedAll_all P css ds' (fun c hc => by rw [h1]; exact hl c (by simp [hc])) h2).mono ?_
      rintro ds'' ⟨h3, h4⟩
      exact ⟨h3.trans h1, h4⟩

/-! ### Histories -/

theorem addBuffer_feed (p : ParallelDigest D K) (b : List (Fl K)) (hne : b ≠ []) (hnan : ∀ x ∈ b, x ≠ .nan) :
    ∃ mn mx : Fl K, p.addBuffer b = (feed (cut p.digests.length b) p.digests >>= fun ds => .ret ⟨ds, mn, mx⟩) := by
  have h0 := chunkLen_ne_zero b.length p.digests.length
  obtain ⟨M, hM, -⟩ := maxBy_spec id b hne hnan
  obtain ⟨m, hm, -⟩ := minBy_spec id b hne hnan
  refine ⟨Fl.fmin p.min m, Fl.fmax p.max M, ?_⟩
  unfold addBuffer chunks
  rw [if_neg h0, bind_ret, hM, hm]
  simp only [bind_ret, unwrap_some]
  rfl

theorem exec_feed (p : ParallelDigest D K) (o : Op (Fl K)) (h1 : (∃ x, o = .add x) ∨ ∃ xs, o = .addBuffer xs ∧ xs ≠ [])
    (h2 : ∀ y ∈ o.items, y ≠ .nan) :
    ∃ mn mx : Fl K, o.exec p = (feed (cut p.digests.length o.items) p.digests >>= fun ds => .ret ⟨ds, mn, mx⟩) := by
  rcases h1 with ⟨x, rfl⟩ | ⟨xs, rfl, hne⟩
  · exact addBuffer_feed p [x] (by simp) h2
  · exact addBuffer_feed p xs hne h2

theorem feed_length (cs : List (List (Fl K))) (ds : List D) (h : cs.length ≤ ds.length) :
    Partially (feed cs ds) (fun ds' => ds'.length = ds.length) := (feed_partially cs ds h).mono (fun _ h => h.1)

theorem execAll_feedAll (G : List D → ℚ) : ∀ (ops : List (Op (Fl K))), PlainIns ops → ∀ p : ParallelDigest D K, p.digests ≠ [] →
    exp (execAll p ops) (fun p' => G p'.digests) = exp (feedAll (ops.map (fun o => cut p.digests.length o.items)) p.digests) G
  | [], _, p, _ => rfl
  | o :: os, h, p, hne => by
    obtain ⟨mn, mx, e⟩ := exec_feed p o (h o (by simp)).1 (h o (by simp)).2
    have hm : p.digests.length ≠ 0 := (List.length_pos_of_ne_nil hne).ne'
    show exp (o.exec p >>= fun p' => execAll p' os) _ = exp (feed _ _ >>= feedAll _) G
    rw [e, bind_assoc', exp_bind, exp_bind]
    refine exp_congr ((feed_length _ _ (cut_length _ hm _)).mono ?_)
    intro ds hds
    rw [bind_ret, execAll_feedAll G os (fun o' ho' => h o' (by simp [ho'])) ⟨ds, mn, mx⟩ (by
      intro h0
      have h0 : ds = [] := h0
      rw [h0] at hds
      exact hm hds.symm)]
    show exp (feedAll (os.map (fun o => cut ds.length o.items)) ds) G = _
    rw [hds]

theorem execAll_all (P : Nat → D → Prop) : ∀ (ops : List (Op (Fl K))), PlainIns ops → ∀ p : ParallelDigest D K, p.digests ≠ [] →
    (∀ i (h : i < p.digests.length), Always (execAll p.digests[i] (share p.digests.length i ops)) (P i)) →
    Always (execAll p ops) (fun p' => p'.digests.length = p.digests.length ∧ ∀ i (h : i < p'.digests.length), P i p'.digests[i])
  | [], _, p, _, hP => ⟨rfl, hP⟩
  | o :: os, h, p, hne, hP => by
    obtain ⟨mn, mx, e⟩ := exec_feed p o (h o (by simp)).1 (h o (by simp)).2
    have hm : p.digests.length ≠ 0 := (List.length_pos_of_ne_nil hne).ne'
    show Always (o.exec p >>= fun p' => execAll p' os) _
    rw [e, bind_assoc', always_bind]
    refine (feed_all (fun i d => Always (execAll d (share p.digests.length i os)) (P i)) _ _ (cut_length _ hm _)
      (fun i hi => ?_)).mono ?_
    · have := hP i hi
      unfold share at this
      rw [cut_get _ hm]
      by_cases hp : piece p.digests.length i o.items = []
      · rw [if_pos hp] at this ⊢
        exact this
      · rw [if_neg hp] at this ⊢
        replace this : Always (Digest.addBuffer p.digests[i] _ >>= fun d1 => execAll d1 _) (P i) := this
        rwa [always_bind] at this
    · rintro ds ⟨h1, h2⟩
      rw [bind_ret]
      refine (execAll_all P os (fun o' ho' => h o' (by simp [ho'])) ⟨ds, mn, mx⟩ (by
        intro h0
        have h0 : ds = [] := h0
        rw [h0] at h1
        exact hm h1.symm) (fun i hi => ?_)).mono ?_
      · have := h2 i hi
        rw [← h1] at this
        exact this
      · rintro p' ⟨h3, h4⟩
        exact ⟨h3.trans h1, h4⟩

/-! ### Mean and variance of the combined answer -/

theorem rankLoop_exp (x : Fl K) (d : D) (ds : List D) (acc : Fl K) (G : Fl K × List D → ℚ) :
    exp (rankLoop x (d :: ds) acc) G = exp (Digest.estQuantileAtValue d x) (fun r => exp (Digest.count r.2) (fun n =>
      exp (rankLoop x ds (acc + r.1 * Fl.ofNat n)) (fun s => G (s.1, r.2 :: s.2)))) := by
  simp only [rankLoop, exp_bind, pure_eq, exp_ret]

section
variable {D : Type} [FloatFmt ℚ] [FloatFmt.Exact ℚ] [Digest D (Fl ℚ)]

theorem feedAll_variance (x : Fl ℚ) : ∀ (ds : List D) (css : List (List (List (Fl ℚ)))) (n : Nat → Nat) (μ v : Nat → ℚ),
    (∀ i (h : i < ds.length), Estimates x (column i css) (n i) (μ i) (v i) ds[i]) → (∀ cs ∈ css, cs.length ≤ ds.length) → ∀ a : ℚ,
    exp (feedAll css ds) (fun ds' => exp (rankLoop x ds' (.fin a)) (fun s => s.1.toK)) =
      a + ∑ i ∈ Finset.range ds.length, n i * μ i ∧
    ∀ c : ℚ, exp (feedAll css ds) (fun ds' => exp (rankLoop x ds' (.fin a))
      (fun s => (s.1.toK - (a + ∑ i ∈ Finset.range ds.length, n i * μ i) + c) ^ 2)) ≤
        ∑ i ∈ Finset.range ds.length, (n i : ℚ) ^ 2 * v i + c ^ 2
  | [], css, n, μ, v, h, hl, a => by
    have e : ∀ css : List (List (List (Fl ℚ))), (∀ cs ∈ css, cs.length ≤ ([] : List D).length) →
        feedAll css ([] : List D) = .ret [] := by
      intro css
      induction css with
      | nil => intro _; rfl
      | cons cs css ih =>
        intro hl
        have : cs = [] := List.length_eq_zero_iff.1 (Nat.le_zero.1 (hl cs (by simp)))
        subst this
        exact ih (fun c hc => hl c (by simp [hc]))
    rw [e css hl]
    simp [rankLoop, Fl.toK]
  | d :: ds, css, n, μ, v, h, hl, a => by
    obtain ⟨hfin, hmean, hvar⟩ := h 0 (by simp)
    simp only [List.getElem_cons_zero] at hfin hmean hvar
    have hal : Always (execAll d (column 0 css) >>= fun d' => Digest.estQuantileAtValue d' x) (fun _ => True) :=
      hfin.mono (fun _ _ => trivial)
    have key : ∀ g : ℚ → ℚ, exp (feedAll css (d :: ds)) (fun ds' => exp (rankLoop x ds' (.fin a)) (fun s => g s.1.toK)) =
        exp (execAll d (column 0 css) >>= fun d' => Digest.estQuantileAtValue d' x) (fun r => exp (feedAll (css.map List.tail) ds)
          (fun ds' => exp (rankLoop x ds' (.fin (a + n 0 * r.1.toK))) (fun s => g s.1.toK))) := by
      intro g
      rw [feedAll_exp css d ds, exp_bind]
      have h2 : Partially (execAll d (column 0 css)) (fun d' => Partially (Digest.estQuantileAtValue d' x)
          (fun r => r.1.IsFin ∧ Digest.count r.2 = .ret (n 0))) := by
        have := hfin.partially
        rwa [partially_bind] at this
      refine exp_congr (h2.mono ?_)
      intro d' hd'
      rw [exp_swap (Digest.estQuantileAtValue d' x)]
      refine congrArg _ (funext fun m => ?_)
      rw [rankLoop_exp]
      refine exp_congr (hd'.mono ?_)
      rintro r ⟨⟨y, hy⟩, hn⟩
      rw [hn, exp_ret, hy, Fl.ofNat_exact, Fl.mul_exact, Fl.add_exact]
      show exp (rankLoop x m (.fin (a + y * (n 0 : ℚ)))) _ = exp (rankLoop x m (.fin (a + (n 0 : ℚ) * y))) _
      rw [mul_comm y]
    have ih := feedAll_variance x ds (css.map List.tail) (fun i => n (i + 1)) (fun i => μ (i + 1)) (fun i => v (i + 1))
      (fun i hi => by
        rw [column_tail]
        exact h (i + 1) (by simpa using hi)) (by
        intro cs hcs
        obtain ⟨c, hc, rfl⟩ := List.mem_map.1 hcs
        have := hl c hc
        rw [List.length_tail]
        simp only [List.length_cons] at this
        omega)
    simp only [List.length_cons, Finset.sum_range_succ']
    generalize (∑ i ∈ Finset.range ds.length, (n (i + 1) : ℚ) * μ (i + 1)) = S at ih ⊢
    generalize (∑ i ∈ Finset.range ds.length, (n (i + 1) : ℚ) ^ 2 * v (i + 1)) = V at ih ⊢
    constructor
    · rw [key (fun x => x)]
      have : (fun r : Fl ℚ × D => exp (feedAll (css.map List.tail) ds)
          (fun ds' => exp (rankLoop x ds' (.fin (a + n 0 * r.1.toK))) (fun s => s.1.toK))) =
          fun r => n 0 * r.1.toK + (a + S) := by
        funext r
        rw [(ih (a + n 0 * r.1.toK)).1]; ring
      rw [this, exp_const_mul_add hal, exp_mul_left, hmean]
      ring
    · intro c
      rw [key (fun x => (x - (a + (S + n 0 * μ 0)) + c) ^ 2)]
      have h3 : ∀ r : Fl ℚ × D, exp (feedAll (css.map List.tail) ds)
          (fun ds' => exp (rankLoop x ds' (.fin (a + n 0 * r.1.toK)))
            (fun s => (s.1.toK - (a + (S + n 0 * μ 0)) + c) ^ 2)) ≤
          (n 0 : ℚ) ^ 2 * (r.1.toK - μ 0) ^ 2 + (2 * c * n 0 * r.1.toK + (V - 2 * c * n 0 * μ 0 + c ^ 2)) := by
        intro r
        have := (ih (a + n 0 * r.1.toK)).2 (n 0 * (r.1.toK - μ 0) + c)
        have e : (fun ds' : List D => exp (rankLoop x ds' (.fin (a + n 0 * r.1.toK)))
            (fun s => (s.1.toK - (a + n 0 * r.1.toK + S) + (n 0 * (r.1.toK - μ 0) + c)) ^ 2)) =
            (fun ds' => exp (rankLoop x ds' (.fin (a + n 0 * r.1.toK)))
            (fun s => (s.1.toK - (a + (S + n 0 * μ 0)) + c) ^ 2)) := by
          funext m
          refine congrArg _ (funext fun s => ?_)
          ring
        rw [e] at this
        refine this.trans (le_of_eq ?_)
        ring
      refine (exp_mono ((partially_true _).mono (fun r _ => h3 r))).trans ?_
      rw [exp_add, exp_const_mul_add hal, exp_mul_left, exp_mul_left, hmean]
      have := mul_le_mul_of_nonneg_left hvar (sq_nonneg (n 0 : ℚ))
      linarith

theorem rankLoop_counts (x : Fl ℚ) : ∀ (ds : List D) (n : Nat → Nat) (a : ℚ),
    (∀ i (h : i < ds.length), Always (Digest.estQuantileAtValue ds[i] x) (fun r => r.1.IsFin ∧ Digest.count r.2 = .ret (n i))) →
    Always (rankLoop x ds (.fin a)) (fun s => s.1.IsFin ∧ sumCounts s.2 = .ret (∑ i ∈ Finset.range ds.length, n i))
  | [], n, a, _ => ⟨⟨a, rfl⟩, by simp [sumCounts]⟩
  | d :: ds, n, a, h => by
    unfold rankLoop
    rw [always_bind]
    have h0 := h 0 (by simp)
    simp only [List.getElem_cons_zero] at h0
    refine h0.mono ?_
    rintro r ⟨⟨y, hy⟩, hn⟩
    rw [hn, bind_ret, hy, Fl.ofNat_exact, Fl.mul_exact, Fl.add_exact, always_bind]
    refine (rankLoop_counts x ds (fun i => n (i + 1)) _ (fun i hi => h (i + 1) (by simpa using hi))).mono ?_
    rintro s ⟨h1, h2⟩
    refine ⟨h1, ?_⟩
    show sumCounts (r.2 :: s.2) = _
    unfold sumCounts
    rw [hn, bind_ret, h2, bind_ret, List.length_cons, Finset.sum_range_succ', Nat.add_comm]
    rfl

/-- The combined answer: a number, unbiased for the weighted mean, with the weighted variances. -/
theorem combine (ds : List D) (hne : ds ≠ []) (ops : List (Op (Fl ℚ))) (hops : PlainIns ops) (x : Fl ℚ)
    (n : Nat → Nat) (μ v : Nat → ℚ) (hN : 0 < ∑ i ∈ Finset.range ds.length, n i)
    (h : ∀ i (h : i < ds.length), Estimates x (share ds.length i ops) (n i) (μ i) (v i) ds[i]) :
    Estimates x ops (∑ i ∈ Finset.range ds.length, n i)
      ((∑ i ∈ Finset.range ds.length, n i * μ i) / (∑ i ∈ Finset.range ds.length, n i : ℕ))
      ((∑ i ∈ Finset.range ds.length, (n i : ℚ) ^ 2 * v i) / (∑ i ∈ Finset.range ds.length, n i : ℕ) ^ 2)
      (ParallelDigest.new ds : ParallelDigest D ℚ) := by
  have hm : ds.length ≠ 0 := (List.length_pos_of_ne_nil hne).ne'
  have hsure : Always (execAll (ParallelDigest.new ds : ParallelDigest D ℚ) ops) (fun p =>
      Always (rankLoop x p.digests (.fin 0)) (fun s => s.1.IsFin ∧ sumCounts s.2 = .ret (∑ i ∈ Finset.range ds.length, n i))) := by
    refine (execAll_all (fun i d => Always (Digest.estQuantileAtValue d x) (fun r => r.1.IsFin ∧ Digest.count r.2 = .ret (n i)))
      ops hops (ParallelDigest.new ds) hne (fun i hi => ?_)).mono ?_
    · have := (h i hi).sure
      rwa [always_bind] at this
    · rintro p ⟨h1, h2⟩
      have := rankLoop_counts x p.digests n 0 h2
      rw [h1] at this
      exact this
  have hNq : (0 : ℚ) < (∑ i ∈ Finset.range ds.length, n i : ℕ) := by exact_mod_cast hN
  generalize hNe : (∑ i ∈ Finset.range ds.length, n i) = N at hsure hNq ⊢
  have hl0 : (Fl.lit 0 : Fl ℚ) = .fin 0 := Fl.lit_exact _
  have hest : ∀ p : ParallelDigest D ℚ, Digest.estQuantileAtValue p x = rankLoop x p.digests (.fin 0) >>= fun r =>
      sumCounts r.2 >>= fun m => .ret (r.1 / Fl.ofNat m, { p with digests := r.2 }) := by
    intro p
    rw [← hl0]
    rfl
  have hexp : ∀ g : ℚ → ℚ, exp (execAll (ParallelDigest.new ds : ParallelDigest D ℚ) ops >>= fun d' =>
      Digest.estQuantileAtValue d' x) (fun r => g r.1.toK) =
      exp (feedAll (ops.map (fun o => cut ds.length o.items)) ds) (fun ds' => exp (rankLoop x ds' (.fin 0))
        (fun s => g (s.1.toK / N))) := by
    intro g
    have e0 := execAll_feedAll (fun ds' => exp (rankLoop x ds' (.fin 0)) (fun s => g (s.1.toK / N))) ops hops
      (ParallelDigest.new ds) hne
    refine Eq.trans ?_ e0
    rw [exp_bind]
    refine exp_congr (hsure.partially.mono ?_)
    intro p hp
    rw [hest p, exp_bind]
    refine exp_congr (hp.partially.mono ?_)
    rintro s ⟨⟨y, hy⟩, hs⟩
    rw [hs, bind_ret, exp_ret, hy, Fl.ofNat_exact, Fl.div_exact _ hNq.ne']
    rfl
  have hcol : ∀ i (h : i < ds.length), Estimates x (column i (ops.map (fun o => cut ds.length o.items))) (n i) (μ i) (v i) ds[i] := by
    intro i hi
    rw [column_share _ hm]
    exact h i hi
  have hv := feedAll_variance x ds (ops.map (fun o => cut ds.length o.items)) n μ v hcol (by
    intro cs hcs
    obtain ⟨o, -, rfl⟩ := List.mem_map.1 hcs
    exact cut_length _ hm _) 0
  refine ⟨?_, ?_, ?_⟩
  · rw [always_bind]
    refine hsure.mono ?_
    intro p hp
    rw [hest p, always_bind]
    refine hp.mono ?_
    rintro s ⟨⟨y, hy⟩, hs⟩
    rw [hs, bind_ret, hy, Fl.ofNat_exact, Fl.div_exact _ hNq.ne']
    refine ⟨⟨_, rfl⟩, ?_⟩
    show sumCounts s.2 = _
    rw [hs]
  · rw [hexp (fun z => z)]
    have e : (fun ds' : List D => exp (rankLoop x ds' (.fin 0)) (fun s => s.1.toK / (N : ℚ))) =
        fun ds' => (1 / (N : ℚ)) * exp (rankLoop x ds' (.fin 0)) (fun s => s.1.toK) := by
      funext ds'
      rw [← exp_mul_left]
      exact congrArg _ (funext fun s => by ring)
    rw [e, exp_mul_left, hv.1]
    ring
  · rw [hexp (fun z => (z - _) ^ 2)]
    have e : (fun ds' : List D => exp (rankLoop x ds' (.fin 0)) (fun s => (s.1.toK / (N : ℚ) -
        (∑ i ∈ Finset.range ds.length, (n i : ℚ) * μ i) / N) ^ 2)) =
        fun ds' => (1 / (N : ℚ) ^ 2) * exp (rankLoop x ds' (.fin 0)) (fun s =>
          (s.1.toK - (0 + ∑ i ∈ Finset.range ds.length, (n i : ℚ) * μ i) + 0) ^ 2) := by
      funext ds'
      rw [← exp_mul_left]
      refine congrArg _ (funext fun s => ?_)
      field_simp
      ring
    rw [e, exp_mul_left]
    refine (mul_le_mul_of_nonneg_left (hv.2 0) (by positivity)).trans (le_of_eq ?_)
    ring

end
end ParallelDigest
end AQ

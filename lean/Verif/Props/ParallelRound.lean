/-
C89, C90: `ParallelDigest` in floating point, whatever way the parallel sum is cut into pieces.
-/
import Verif.Proofs.ParallelRound
import Verif.Proofs.F64Error
import Verif.Props.ParallelDigest

set_option linter.unusedSectionVars false
set_option linter.unusedVariables false

namespace AQ
open Prog Spec
variable {K : Type} [Field K] [LinearOrder K] [IsStrictOrderedRing K] [FloatFmt K]

section
variable {D : Type} [Digest D (Fl K)]

/-- C89. The sequential model is one of the schedules: the one that does not cut. -/
theorem C89_sequential (p : ParallelDigest D K) (v : Fl K) :
    p.estQuantileSplit .leaf v = p.estQuantileAtValue v ∧ p.estValueSplit (fun _ => .leaf) v = p.estValueAtQuantile v :=
  ⟨p.estQuantileSplit_leaf v, ParallelDigest.estValueSplit_congr (fun _ => ParallelDigest.estQuantileSplit_leaf) p v⟩

/-- C89. In exact arithmetic queries do the same for every schedule. -/
theorem C89_schedule_unobservable [FloatFmt.Exact K] (p : ParallelDigest D K) (v : Fl K) :
    (∀ c : ParallelDigest.Split, p.estQuantileSplit c v = p.estQuantileAtValue v) ∧
    ∀ c : Nat → ParallelDigest.Split, p.estValueSplit c v = p.estValueAtQuantile v := by
  have key : ∀ (c : ParallelDigest.Split) (p : ParallelDigest D K) v, p.estQuantileSplit c v = p.estQuantileAtValue v := by
    intro c p v
    rw [← ParallelDigest.estQuantileSplit_leaf]
    unfold ParallelDigest.estQuantileSplit
    simp only [ParallelDigest.reduce_exact]
  exact ⟨fun c => key c p v, fun c => ParallelDigest.estValueSplit_congr (fun n => key (c n)) p v⟩

/-- Members that have counted `n` items and surely answer quantile queries with a number in `[0, 1]`; `J d n` is kept by
queries. -/
def Answering (J : D → Nat → Prop) : Prop :=
  ∀ d n, J d n → Digest.count d = .ret n ∧
    ∀ x : K, Always (Digest.estQuantileAtValue d (.fin x)) (fun r => J r.2 n ∧ ∃ y : K, r.1 = .fin y ∧ 0 ≤ y ∧ y ≤ 1)

theorem always_self {α : Type} {p : Prog α} {Q : α → Prop} (h : Always p Q) : Always p (fun a => CanReturn p a ∧ Q a) := by
  rw [always_iff] at h ⊢
  exact ⟨fun a ha => ⟨ha, h.1 a ha⟩, h.2⟩

theorem ParallelDigest.ranks_always {J : D → Nat → Prop} (hJ : Answering (K := K) J) (x : K) {ds : List D} {ns : List Nat}
    (h : List.Forall₂ J ds ns) : Always (ranks (.fin x : Fl K) ds) (fun r => List.Forall₂ J r.2 ns ∧
      ∃ as : List K, List.Forall₂ (fun d a => (∃ d', CanReturn (Digest.estQuantileAtValue d (.fin x)) ((.fin a : Fl K), d')) ∧
        0 ≤ a ∧ a ≤ 1) ds as ∧ r.1 = List.zipWith (fun a (n : Nat) => Fl.fin a * Fl.ofNat n) as ns) := by
  induction h with
  | nil => exact ⟨.nil, [], .nil, rfl⟩
  | @cons d n ds ns h1 h2 ih =>
    unfold ranks
    rw [always_bind]
    refine (always_self ((hJ d n h1).2 x)).mono ?_
    rintro ⟨y, d'⟩ ⟨hret, hj, a, rfl, a0, a1⟩
    rw [(hJ d' n hj).1, bind_ret, always_bind]
    refine ih.mono ?_
    rintro r ⟨h3, as, h4, h5⟩
    exact ⟨.cons hj h3, a :: as, .cons ⟨⟨d', hret⟩, a0, a1⟩ h4, by rw [List.zipWith_cons_cons, ← h5]⟩

theorem ParallelDigest.terms_of [hm : FloatFmt.Mono K] {N : Nat} (hc : ExactCounts K N) {α : Type} {P : α → K → Prop} :
    ∀ {ds : List α} {as : List K} {ns : List Nat}, List.Forall₂ (fun d a => P d a ∧ 0 ≤ a ∧ a ≤ 1) ds as → ds.length = ns.length →
      ns.sum ≤ N → List.Forall₂ Term (List.zipWith (fun a (n : Nat) => (Fl.fin a * Fl.ofNat n : Fl K)) as ns) ns := by
  intro ds as ns h
  induction h generalizing ns with
  | nil =>
    intro hl _
    cases ns with
    | nil => exact .nil
    | cons => simp at hl
  | @cons d a ds as h1 h2 ih =>
    intro hl hN
    cases ns with
    | nil => simp at hl
    | cons n ns =>
      rw [List.sum_cons] at hN
      rw [List.zipWith_cons_cons]
      refine .cons ?_ (ih (by simpa using hl) (by omega))
      have e : (Fl.ofNat n : Fl K) = .fin (n : K) := ExactCounts.rnd_nat hc (by omega)
      have hn : (0 : K) ≤ n := Nat.cast_nonneg n
      rw [e, Fl.mul_fin]
      exact rnd_count hc (by omega) (mul_nonneg h1.2.1 hn) (by nlinarith [h1.2.2])

/-- C89. In floating point: if the members surely answer within `[0, 1]` and the counts are exact, then for every schedule the
query surely answers within `[0, 1]`. -/
theorem C89_any_schedule_in_range [hm : FloatFmt.Mono K] {N : Nat} (hc : ExactCounts K N) (J : D → Nat → Prop)
    (hJ : Answering (K := K) J) (p : ParallelDigest D K) (ns : List Nat) (h : List.Forall₂ J p.digests ns) (h0 : ns.sum ≠ 0)
    (hN : ns.sum ≤ N) (c : ParallelDigest.Split) (x : K) :
    Always (p.estQuantileSplit c (.fin x)) (fun r => (∃ y : K, r.1 = .fin y ∧ 0 ≤ y ∧ y ≤ 1) ∧ List.Forall₂ J r.2.digests ns) := by
  unfold ParallelDigest.estQuantileSplit
  rw [always_bind]
  refine (ParallelDigest.ranks_always hJ x h).mono ?_
  rintro r ⟨h1, as, h2, h3⟩
  have hcount : sumCounts r.2 = .ret ns.sum := ParallelDigest.sumCounts_eq _ _ (h1.imp (fun d n hd => (hJ d n hd).1))
  show Always (sumCounts r.2 >>= _) _
  rw [hcount, bind_ret]
  refine ⟨?_, h1⟩
  obtain ⟨s, hs, s0, s1⟩ := ParallelDigest.reduce_range hc c (ParallelDigest.terms_of hc h2 h.length_eq hN) hN
  have hpos : (0 : K) < (ns.sum : Nat) := Nat.cast_pos.2 (Nat.pos_of_ne_zero h0)
  have e : (Fl.ofNat ns.sum : Fl K) = .fin ((ns.sum : Nat) : K) := ExactCounts.rnd_nat hc hN
  show ∃ y : K, c.reduce r.1 / Fl.ofNat ns.sum = .fin y ∧ _
  rw [h3, hs, e, Fl.div_fin_of_ne _ hpos.ne']
  have := ParallelDigest.rnd_count (n := 1) hc (by omega) (x := s / (ns.sum : Nat)) (by positivity)
    (by rw [div_le_iff₀ hpos]; push_cast at s1 ⊢; linarith)
  simpa using this

/-- C89. In floating point with relative error `u` (absolute error `η` near 0), `m` members: for every schedule without empty
pieces the answer is within `(3 m + 2) (u + η)` of the mean of the members' answers weighted by their counts. -/
theorem C89_any_schedule_near [hm : FloatFmt.Mono K] {N : Nat} (hc : ExactCounts K N) {u η R : K} (hr : RelErr u η R)
    (hR : (N : K) ≤ R) (J : D → Nat → Prop) (hJ : Answering (K := K) J) (p : ParallelDigest D K) (ns : List Nat)
    (h : List.Forall₂ J p.digests ns) (h0 : ns.sum ≠ 0) (hN : ns.sum ≤ N) (c : ParallelDigest.Split)
    (hcut : c.Proper p.digests.length) (x : K) :
    Always (p.estQuantileSplit c (.fin x)) (fun r => ∃ (y : K) (as : List K), r.1 = .fin y ∧
      List.Forall₂ (fun d a => ∃ d', CanReturn (Digest.estQuantileAtValue d (.fin x)) ((.fin a : Fl K), d')) p.digests as ∧
      |y - (List.zipWith (fun a (n : Nat) => a * (n : K)) as ns).sum / (ns.sum : Nat)| ≤
        (3 * p.digests.length + 2) * (u + η)) := by
  have hu := hr.u_nonneg
  have hη := hr.eta_nonneg
  unfold ParallelDigest.estQuantileSplit
  rw [always_bind]
  refine (ParallelDigest.ranks_always hJ x h).mono ?_
  rintro r ⟨h1, as, h2, h3⟩
  have hcount : sumCounts r.2 = .ret ns.sum := ParallelDigest.sumCounts_eq _ _ (h1.imp (fun d n hd => (hJ d n hd).1))
  show Always (sumCounts r.2 >>= _) _
  rw [hcount, bind_ret]
  show ∃ (y : K) (as : List K), c.reduce r.1 / Fl.ofNat ns.sum = .fin y ∧ _
  have hc1 : ExactCounts K ns.sum := fun m hm' => hc m (by omega)
  have hNR : ((ns.sum : Nat) : K) ≤ R := le_trans (by exact_mod_cast hN) hR
  have hterms := ParallelDigest.terms_of hc1 h2 h.length_eq le_rfl
  obtain ⟨s, hs, s0, s1⟩ := ParallelDigest.reduce_range hc1 c hterms le_rfl
  have hnear := ParallelDigest.reduce_near hc1 hr hNR c hterms le_rfl
  have hpos : (0 : K) < (ns.sum : Nat) := Nat.cast_pos.2 (Nat.pos_of_ne_zero h0)
  have hone : (1 : K) ≤ (ns.sum : Nat) := by exact_mod_cast Nat.one_le_iff_ne_zero.2 h0
  have e : (Fl.ofNat ns.sum : Fl K) = .fin ((ns.sum : Nat) : K) := ExactCounts.rnd_nat hc1 le_rfl
  have hq0 : 0 ≤ s / (ns.sum : Nat) := by positivity
  have hq1 : s / (ns.sum : Nat) ≤ 1 := by rw [div_le_iff₀ hpos, one_mul]; exact s1
  obtain ⟨y, hy, hy2⟩ := hr.near (s / (ns.sum : Nat)) (by rw [abs_of_nonneg hq0]; linarith)
  rw [h3, hs, e, Fl.div_fin_of_ne _ hpos.ne']
  refine ⟨y, as, hy, h2.imp (fun _ _ hd => hd.1), ?_⟩
  -- the rounded products
  have hprod : ∀ {ds : List D} {as : List K} {ns : List Nat} {P : D → K → Prop},
      List.Forall₂ (fun d a => P d a ∧ 0 ≤ a ∧ a ≤ 1) ds as → ds.length = ns.length → ns.sum ≤ N →
      |((List.zipWith (fun a (n : Nat) => (Fl.fin a * Fl.ofNat n : Fl K)) as ns).map Fl.toK).sum -
        (List.zipWith (fun a (n : Nat) => a * (n : K)) as ns).sum| ≤ u * (ns.sum : Nat) + ds.length * η ∧
      (List.zipWith (fun a (n : Nat) => (Fl.fin a * Fl.ofNat n : Fl K)) as ns).length = ds.length := by
    intro ds as ns P hf
    induction hf generalizing ns with
    | nil =>
      intro hl _
      cases ns with
      | nil => simp
      | cons => simp at hl
    | @cons d a ds as g1 g2 ih =>
      intro hl hn
      cases ns with
      | nil => simp at hl
      | cons n ns =>
        rw [List.sum_cons] at hn
        obtain ⟨i1, i2⟩ := ih (ns := ns) (by simpa using hl) (by omega)
        have hn0 : (0 : K) ≤ n := Nat.cast_nonneg n
        have hnN : (n : K) ≤ N := by exact_mod_cast (by omega : n ≤ N)
        have e : (Fl.ofNat n : Fl K) = .fin (n : K) := ExactCounts.rnd_nat hc (by omega)
        have han : 0 ≤ a * n := mul_nonneg g1.2.1 hn0
        have han1 : a * n ≤ n := by nlinarith [g1.2.2]
        obtain ⟨z, hz, hz2⟩ := hr.near (a * n) (by rw [abs_of_nonneg han]; linarith)
        rw [abs_of_nonneg han] at hz2
        have hz3 : u * (a * n) ≤ u * n := mul_le_mul_of_nonneg_left han1 hu
        rw [List.zipWith_cons_cons, List.zipWith_cons_cons, e, Fl.mul_fin, hz, List.map_cons, List.sum_cons, List.sum_cons,
          List.sum_cons, List.length_cons, List.length_cons, i2]
        refine ⟨?_, rfl⟩
        rw [Nat.cast_add, Nat.cast_add, Nat.cast_one]
        show |z + _ - _| ≤ _
        rw [abs_le] at i1 hz2 ⊢
        constructor <;> linarith [i1.1, i1.2, hz2.1, hz2.2]
  obtain ⟨i1, i2⟩ := hprod h2 h.length_eq hN
  have hops := ParallelDigest.ops_le c _ hcut
  rw [hs] at hnear
  rw [i2] at hnear
  simp only [Fl.toK] at hnear
  rw [abs_of_nonneg hq0] at hy2
  set S : K := (List.zipWith (fun a (n : Nat) => a * (n : K)) as ns).sum with hS
  set T : K := ((List.zipWith (fun a (n : Nat) => (Fl.fin a * Fl.ofNat n : Fl K)) as ns).map Fl.toK).sum with hT
  set W : K := ((ns.sum : Nat) : K) with hW
  set m : K := (p.digests.length : K) with hmm
  have hm0 : (0 : K) ≤ m := Nat.cast_nonneg _
  have hopsK : (ParallelDigest.ops c p.digests.length : K) ≤ 2 * m := by
    have : ParallelDigest.ops c p.digests.length ≤ 2 * p.digests.length := by omega
    calc (ParallelDigest.ops c p.digests.length : K) ≤ ((2 * p.digests.length : ℕ) : K) := by exact_mod_cast this
      _ = 2 * m := by push_cast; rfl
  have k1 : |s - S| ≤ 2 * m * (u * W + η) + (u * W + m * η) := by
    have e1 : s - S = (s - T) + (T - S) := by ring
    rw [e1]
    refine (abs_add_le _ _).trans (add_le_add (hnear.trans ?_) i1)
    exact mul_le_mul_of_nonneg_right hopsK (by positivity)
  have k2 : |s / W - S / W| ≤ (2 * m + 1) * u + 3 * m * η := by
    rw [← sub_div, abs_div, abs_of_pos hpos, div_le_iff₀ hpos]
    have : 3 * m * η ≤ 3 * m * η * W := by
      have : 0 ≤ 3 * m * η := by positivity
      nlinarith
    calc |s - S| ≤ 2 * m * (u * W + η) + (u * W + m * η) := k1
      _ = (2 * m + 1) * u * W + 3 * m * η := by ring
      _ ≤ (2 * m + 1) * u * W + 3 * m * η * W := by linarith
      _ = _ := by ring
  have k3 : u * (s / W) ≤ u := by nlinarith
  have k4 : |y - S / W| ≤ |y - s / W| + |s / W - S / W| := by
    have e1 : y - S / W = (y - s / W) + (s / W - S / W) := by ring
    rw [e1]
    exact abs_add_le _ _
  have k5 : 0 ≤ m * u := by positivity
  nlinarith

/-- C90. The value query in floating point. Let the queries inside `[min, max]` surely be answered with numbers, for every
schedule. If no sum of two items overflows and the range is not tiny (`SearchRoom`), then for every schedule the query returns, in
particular the search ends, with a value between the limits, in a bracket of relative width at most `1.01 · 10⁻⁶` where the
answers cross the target. -/
theorem C90_value_search_rounded [hB : FloatFmt.Binary K] {u η R lo hi : K} (h : SearchRoom u η R lo hi)
    (c : Nat → ParallelDigest.Split) (I : List D → Prop) (A : K → K → Prop) (t : K)
    (hI : ∀ ds, I ds → ∀ x, lo ≤ x → x ≤ hi → ∀ n,
      Always ((⟨ds, .fin lo, .fin hi⟩ : ParallelDigest D K).estQuantileSplit (c n) (.fin x)) (fun r =>
        (∃ y, r.1 = .fin y ∧ A x y) ∧ I r.2.digests))
    (ds : List D) (hds : I ds) :
    Always ((⟨ds, .fin lo, .fin hi⟩ : ParallelDigest D K).estValueSplit c (.fin t)) (fun r =>
      I r.2.digests ∧ ∃ v s e : K, r.1 = .fin v ∧ lo ≤ s ∧ s ≤ v ∧ v ≤ e ∧ e ≤ hi ∧
        e - s ≤ 101 / 10 ^ 8 * (|lo| + |hi|) ∧ (s = lo ∨ ∃ y, A s y ∧ y ≤ t) ∧ (e = hi ∨ ∃ y, A e y ∧ t < y) ∧
        (v = e ∨ ∃ y, A v y ∧ t ≤ y)) := by
  unfold ParallelDigest.estValueSplit
  rw [always_bind]
  have hpos := h.pos
  have hw : hi - lo ≤ |lo| + |hi| := by
    have := le_abs_self hi
    have := neg_abs_le lo
    linarith
  obtain ⟨m0, hm0, -, hm1, hm2, -⟩ := h.mid le_rfl h.le le_rfl h.lo2 h.hi2
  simp only [hm0]
  refine (ParallelDigest.searchLoopSplit_always h c I A t hI 21 1000 ds lo hi m0 hds (by omega) le_rfl h.le le_rfl
    hm1 hm2 h.lo2 h.hi2 (by norm_num; linarith) (Or.inl rfl) (Or.inl rfl)).mono ?_
  rintro r ⟨s, e, m, ds', rfl, h1, h2, h3, h4, h5, h6, h7, h8⟩
  rw [always_bind]
  refine ((hI ds' h1 s h2 (by linarith) 1000).and (ParallelDigest.estQuantileSplit_limits _ _ _)).mono ?_
  rintro ⟨r, ⟨ds'', mn, mx⟩⟩ ⟨⟨⟨y, hy, hA⟩, h9⟩, hmn, hmx⟩
  obtain rfl : r = .fin y := hy
  obtain rfl : mn = .fin lo := hmn
  obtain rfl : mx = .fin hi := hmx
  dsimp only
  rw [Fl.le_fin]
  split
  · rename_i hty
    exact ⟨h9, s, s, e, rfl, h2, le_rfl, h3.trans h4, h5, h6, h7, h8, Or.inr ⟨y, hA, by simpa using hty⟩⟩
  · rw [always_bind]
    refine (hI ds'' h9 m (by linarith) (by linarith) 1001).mono ?_
    rintro ⟨r, p⟩ ⟨⟨y', hy', hA'⟩, h10⟩
    obtain rfl : r = .fin y' := hy'
    dsimp only
    rw [Fl.le_fin]
    split
    · rename_i hty
      exact ⟨h10, m, s, e, rfl, h2, h3, h4, h5, h6, h7, h8, Or.inr ⟨y', hA', by simpa using hty⟩⟩
    · exact ⟨h10, e, s, e, rfl, h2, h3.trans h4, le_rfl, h5, h6, h7, h8, Or.inl rfl⟩

/-- C90. The search makes at most 21 rounds in floating point. -/
theorem C90_at_most_21_rounds [hB : FloatFmt.Binary K] {u η R lo hi : K} (h : SearchRoom u η R lo hi)
    (c : Nat → ParallelDigest.Split) (I : List D → Prop) (t : K)
    (hI : ∀ ds, I ds → ∀ x, lo ≤ x → x ≤ hi → ∀ n,
      Always ((⟨ds, .fin lo, .fin hi⟩ : ParallelDigest D K).estQuantileSplit (c n) (.fin x)) (fun r =>
        (∃ y : K, r.1 = .fin y) ∧ I r.2.digests))
    (ds : List D) (hds : I ds) (m : K) (hm : lo ≤ m ∧ m ≤ hi) :
    Always (ParallelDigest.searchLoopSplit c (.fin t) 22 ⟨ds, .fin lo, .fin hi⟩ (.fin lo) (.fin hi) (.fin m)) (fun _ => True) := by
  have hpos := h.pos
  have hw : hi - lo ≤ |lo| + |hi| := by
    have := le_abs_self hi
    have := neg_abs_le lo
    linarith
  refine (ParallelDigest.searchLoopSplit_always h c I (fun _ _ => True) t (fun ds h x h1 h2 n =>
    (hI ds h x h1 h2 n).mono (fun r hr => ⟨hr.1.imp fun y hy => ⟨hy, trivial⟩, hr.2⟩)) 21 22 ds lo hi m hds le_rfl le_rfl h.le
    le_rfl hm.1 hm.2 h.lo2 h.hi2 (by norm_num; linarith) (Or.inl rfl) (Or.inl rfl)).mono (fun _ _ => trivial)

/-- C90. When all items are equal the value query returns that item, in floating point too. -/
theorem C90_equal_items [hB : FloatFmt.Binary K] (x : K) (hx : (Fl.fin x).CanDouble) (c : Nat → ParallelDigest.Split) (t : Fl K)
    (I : List D → Prop)
    (hI : ∀ ds, I ds → ∀ n, Always ((⟨ds, .fin x, .fin x⟩ : ParallelDigest D K).estQuantileSplit (c n) (.fin x)) (fun r =>
      I r.2.digests))
    (ds : List D) (hds : I ds) :
    Always ((⟨ds, .fin x, .fin x⟩ : ParallelDigest D K).estValueSplit c t) (fun r => r.1 = .fin x) := by
  obtain ⟨a, ha, h1, h2⟩ := hx
  obtain rfl : x = a := by simpa using ha
  have hlit : (Fl.lit 2 : Fl K) = .fin 2 := hB.rnd_two
  have hmid : ((.fin x : Fl K) + .fin x) / Fl.lit 2 = .fin x := by
    rw [Fl.add_fin, ← two_mul, h2, hlit, Fl.div_fin_of_ne _ two_ne_zero, mul_div_cancel_left₀ _ two_ne_zero, h1]
  have hno : ParallelDigest.wide (.fin x) (.fin x) (.fin x) (.fin x : Fl K) = false := by
    unfold ParallelDigest.wide
    rw [Fl.sub_fin, sub_self, hB.rnd_zero, Fl.fabs_fin, abs_zero, Fl.fabs_fin, Fl.add_fin]
    have h0 : Fl.fin (0 : K) ≤ Fl.lit (1 / 1000000) := by
      show _ ≤ FloatFmt.rnd (1 / 1000000 : K)
      rw [← hB.rnd_zero]; exact hB.rnd_mono _ _ (by positivity)
    have hn : (Fl.lit (1 / 1000000) : Fl K) ≠ .nan := hB.rnd_ne_nan _
    cases hr : (FloatFmt.rnd (|x| + |x|) : Fl K) with
    | nan => simp
    | ninf => exact (Fl.lt_eq hn (by show (Fl.fin 0 : Fl K) ≠ _; simp)).trans (decide_eq_false (not_lt.2 h0))
    | pinf => exact (Fl.lt_eq hn (by show (Fl.fin 0 : Fl K) ≠ _; simp)).trans (decide_eq_false (not_lt.2 h0))
    | fin b =>
      rw [Fl.div_fin]
      split
      · simp [Fl.signInf]
      · rw [zero_div, hB.rnd_zero, Fl.lt_eq hn (by simp)]
        exact decide_eq_false (not_lt.2 h0)
  have hloop : ParallelDigest.searchLoopSplit c t 1000 (⟨ds, .fin x, .fin x⟩ : ParallelDigest D K) (.fin x) (.fin x) (.fin x) =
      .ret (.fin x, .fin x, .fin x, ⟨ds, .fin x, .fin x⟩) := by
    rw [ParallelDigest.searchLoopSplit_succ c t 999, hno]
    rfl
  unfold ParallelDigest.estValueSplit
  simp only [hmid]
  rw [hloop, bind_ret, always_bind]
  refine ((hI ds hds 1000).and (ParallelDigest.estQuantileSplit_limits _ _ _)).mono ?_
  rintro ⟨r, ⟨ds'', mn, mx⟩⟩ ⟨h9, hmn, hmx⟩
  obtain rfl : mn = .fin x := hmn
  obtain rfl : mx = .fin x := hmx
  dsimp only
  split
  · rfl
  · rw [always_bind]
    refine (hI ds'' h9 1001).mono ?_
    intro r _
    split <;> rfl

end

/-- A `LinearDigest` with `n` items, at least one. -/
def HoldsItems [FloorRing K] (d : LinearDigest K) (n : Nat) : Prop := d.values.length = n ∧ n ≠ 0

theorem linear_answering [FloorRing K] [hm : FloatFmt.Mono K] {N : Nat} (hc : ExactCounts K N) :
    Answering (K := K) (fun (d : LinearDigest K) n => HoldsItems d n ∧ n ≤ N) := by
  rintro d n ⟨⟨h1, h0⟩, hN⟩
  refine ⟨congrArg Prog.ret h1, fun x => ⟨⟨⟨h1, h0⟩, hN⟩, ?_⟩⟩
  show ∃ y : K, d.estQuantileAtValue (.fin x) = .fin y ∧ _
  have hne : d.values ≠ [] := by
    intro h
    rw [h] at h1
    exact h0 h1.symm
  have hpos : (0 : K) < d.values.length := by
    rw [h1]
    exact Nat.cast_pos.2 (Nat.pos_of_ne_zero h0)
  rw [LinearDigest.estQuantile_eq d _ hne (fun m hm' => hc m (by omega)) hm.rnd_one hm.rnd_two]
  have := ParallelDigest.rnd_count (n := 1) hc (by omega) (x := midRank d.values (.fin x) / d.values.length)
    (div_nonneg (midRank_nonneg _ _) hpos.le) (by rw [div_le_iff₀ hpos, Nat.cast_one, one_mul]; exact midRank_le _ _)
  simpa using this

section
attribute [local instance] f64Fmt f64_binary f64_mono

theorem f64_canDouble {x : ℚ} (h : Ieee.double.rnd x = .fin x) (hx : |x| ≤ 2 ^ 1021) : (Fl.fin x).CanDouble := by
  refine ⟨x, rfl, h, ?_⟩
  obtain ⟨h1, h2⟩ := abs_le.1 hx
  have hm : (2 : ℚ) ^ 1022 ≤ Ieee.double.max := by decide +kernel
  obtain ⟨⟨m, e, hm1, he, rfl⟩, -, -⟩ := Ieee.double.rnd_fin h
  have e1 : (2 : ℚ) ^ 1022 = 2 * 2 ^ 1021 := by rw [← pow_succ']
  rw [e1] at hm
  refine Ieee.double.rnd_eq_fin (by decide) ⟨m, e + 1, hm1, by omega, by rw [zpow_add_one₀ (by norm_num)]; ring⟩ ?_ ?_
  · generalize (2 : ℚ) ^ 1021 = B at *
    linarith
  · generalize (2 : ℚ) ^ 1021 = B at *
    linarith

theorem f64_searchRoom {lo hi : ℚ} (hl : Ieee.double.rnd lo = .fin lo) (hh : Ieee.double.rnd hi = .fin hi) (hl1 : |lo| ≤ 2 ^ 1021)
    (hh1 : |hi| ≤ 2 ^ 1021) (hle : lo ≤ hi) (hbig : 2 ^ (-1045 : ℤ) ≤ |lo| + |hi|) :
    SearchRoom (2 ^ (-53 : ℤ)) (2 ^ (-1075 : ℤ)) Ieee.double.max lo hi := by
  have hm : (2 : ℚ) ^ 1023 ≤ Ieee.double.max := by decide +kernel
  have e1 : (2 : ℚ) ^ 1023 = 4 * 2 ^ 1021 := by decide +kernel
  have hfits : 2 * (|lo| + |hi|) ≤ Ieee.double.max := by
    rw [e1] at hm
    generalize (2 : ℚ) ^ 1021 = B at hm hl1 hh1
    linarith
  have e2 : (2 : ℚ) ^ (-1075 : ℤ) * 2 ^ 30 = 2 ^ (-1045 : ℤ) := by
    rw [← zpow_natCast, ← zpow_add₀ (by norm_num)]; norm_num
  refine ⟨f64_relErr, ?_, ?_, by decide +kernel, hfits, by rw [e2]; exact hbig, ?_, hle, f64_canDouble hl hl1, f64_canDouble hh hh1⟩
  · rw [one_div, ← zpow_natCast, ← zpow_neg]
    exact zpow_le_zpow_right₀ (by norm_num) (by norm_num)
  · rw [one_div, ← zpow_natCast, ← zpow_neg]
    exact zpow_le_zpow_right₀ (by norm_num) (by norm_num)
  · exact lt_of_lt_of_le (by positivity) hbig

/-- C90 for `f64`: linear digests, all non-empty, at most 2^52 items of magnitude at most 2^1021, not all within 2^-1045 of 0
(unless equal). Every value query returns, for every schedule, with a value within the limits. -/
theorem C90_linear_f64 (ds : List (LinearDigest ℚ)) (ns : List Nat) (h : List.Forall₂ HoldsItems ds ns) (hne : ds ≠ [])
    (hN : ns.sum ≤ 2 ^ 52) (lo hi : ℚ) (hl : Ieee.double.rnd lo = .fin lo) (hh : Ieee.double.rnd hi = .fin hi)
    (hl1 : |lo| ≤ 2 ^ 1021) (hh1 : |hi| ≤ 2 ^ 1021) (hle : lo ≤ hi) (hbig : lo = hi ∨ 2 ^ (-1045 : ℤ) ≤ |lo| + |hi|)
    (c : Nat → ParallelDigest.Split) (t : ℚ) :
    Always ((⟨ds, .fin lo, .fin hi⟩ : ParallelDigest (LinearDigest ℚ) ℚ).estValueSplit c (.fin t)) (fun r =>
      ∃ v : ℚ, r.1 = .fin v ∧ lo ≤ v ∧ v ≤ hi) := by
  have hsum : ns.sum ≠ 0 := by
    cases h with
    | nil => exact absurd rfl hne
    | cons h1 h2 =>
      rw [List.sum_cons]
      have := h1.2
      omega
  let I : List (LinearDigest ℚ) → Prop := fun ds => List.Forall₂ (fun d n => HoldsItems d n ∧ n ≤ 2 ^ 52) ds ns
  have hds : I ds := by
    have aux : ∀ {ds : List (LinearDigest ℚ)} {ns : List Nat}, List.Forall₂ HoldsItems ds ns → ns.sum ≤ 2 ^ 52 →
        List.Forall₂ (fun d n => HoldsItems d n ∧ n ≤ 2 ^ 52) ds ns := by
      intro ds ns h
      induction h with
      | nil => intro _; exact .nil
      | cons h1 h2 ih =>
        intro hs
        rw [List.sum_cons] at hs
        exact .cons ⟨h1, by omega⟩ (ih (by omega))
    exact aux h hN
  have hq : ∀ (lo hi : ℚ) ds, I ds → ∀ (x : ℚ) (c : ParallelDigest.Split),
      Always ((⟨ds, .fin lo, .fin hi⟩ : ParallelDigest (LinearDigest ℚ) ℚ).estQuantileSplit c (.fin x)) (fun r =>
        (∃ y : ℚ, r.1 = .fin y ∧ 0 ≤ y ∧ y ≤ 1) ∧ I r.2.digests) := fun lo hi ds hds x c =>
    C89_any_schedule_in_range f64_exactCounts _ (linear_answering f64_exactCounts) ⟨ds, .fin lo, .fin hi⟩ ns hds hsum hN c x
  rcases eq_or_ne lo hi with rfl | hlh
  · refine (C90_equal_items lo (f64_canDouble hl hl1) c (.fin t) I (fun ds hds n => (hq lo lo ds hds lo (c n)).mono
      (fun r hr => hr.2)) ds hds).mono ?_
    intro r hr
    exact ⟨lo, hr, le_rfl, le_rfl⟩
  · have hbig' := hbig.resolve_left hlh
    refine (C90_value_search_rounded (f64_searchRoom hl hh hl1 hh1 hle hbig') c I (fun _ y => 0 ≤ y ∧ y ≤ 1) t
      (fun ds hds x _ _ n => hq lo hi ds hds x (c n)) ds hds).mono ?_
    rintro r ⟨-, v, s, e, hv, h1, h2, h3, h4, -⟩
    exact ⟨v, hv, by linarith, by linarith⟩

-- non-trivial instance: two linear digests, items 0 … 9
example : Always ((⟨[⟨[.fin 0, .fin 3, .fin 7]⟩, ⟨[.fin 9, .fin (1 / 2)]⟩], .fin 0, .fin 9⟩ :
    ParallelDigest (LinearDigest ℚ) ℚ).estValueSplit (fun _ => .node 1 .leaf .leaf) (.fin (1 / 2))) (fun r =>
      ∃ v : ℚ, r.1 = .fin v ∧ 0 ≤ v ∧ v ≤ 9) :=
  C90_linear_f64 _ [3, 2] (.cons ⟨rfl, by decide⟩ (.cons ⟨rfl, by decide⟩ .nil)) (by simp) (by decide) 0 9 (by decide +kernel)
    (by decide +kernel) (by decide +kernel) (by decide +kernel) (by norm_num) (Or.inr (by decide +kernel)) _ _

/-- The data of `C89_schedule_observable_f64`: three linear digests with 22 items each. -/
def scheduleData : List (Fl ℚ) :=
  List.replicate 2 (.fin 0) ++ List.replicate 20 (.fin 1) ++ List.replicate 15 (.fin 0) ++ List.replicate 7 (.fin 1) ++
    List.replicate 15 (.fin 0) ++ List.replicate 7 (.fin 1)

/-- C89. In `f64` the schedule can be observed, in the last place: the uncut sum and the sum cut after the first of three members
give different answers to the same query. -/
theorem C89_schedule_observable_f64 :
    Always ((ParallelDigest.new [LinearDigest.new, LinearDigest.new, LinearDigest.new] :
        ParallelDigest (LinearDigest ℚ) ℚ).addBuffer scheduleData >>= fun p => do
      let a ← p.estQuantileSplit .leaf (.fin (1 / 2))
      let b ← p.estQuantileSplit (.node 1 .leaf .leaf) (.fin (1 / 2))
      return (a.1, b.1)) (fun r => r.1 ≠ r.2) := by
  decide +kernel

/-- C90. The restriction on the magnitude is needed: for the items `2^1023` and `1.5 · 2^1023` the median is infinite. -/
theorem C90_overflow_f64 :
    Always ((ParallelDigest.new [LinearDigest.new] : ParallelDigest (LinearDigest ℚ) ℚ).addBuffer
      [.fin (2 ^ 1023), .fin (3 * 2 ^ 1022)] >>= fun p => p.estValueAtQuantile (.fin (1 / 2))) (fun r => r.1 = .pinf) := by
  decide +kernel

/-- C90. The restriction on the width is needed: when `max - min` overflows the search is skipped. The 0.3-quantile of seven items,
of which the second and the third are 1 and 2, is given as the maximum `3 · 2^1022`. -/
theorem C90_wide_range_f64 :
    Always ((ParallelDigest.new [LinearDigest.new] : ParallelDigest (LinearDigest ℚ) ℚ).addBuffer
      [.fin (-3 * 2 ^ 1022), .fin 1, .fin 2, .fin 3, .fin 4, .fin 5, .fin (3 * 2 ^ 1022)] >>= fun p =>
        p.estValueAtQuantile (.fin (3 / 10))) (fun r => r.1 = .fin (3 * 2 ^ 1022)) := by
  decide +kernel

/-- A linear digest with the items 0 and `2^-1074`. -/
def tinyData : ParallelDigest (LinearDigest ℚ) ℚ := ⟨[⟨[.fin 0, .fin (1 / 2 ^ 1074)]⟩], .fin 0, .fin (1 / 2 ^ 1074)⟩

theorem tinyData_step (m : Fl ℚ) (n : Nat) :
    ParallelDigest.searchLoop (.fin (1 / 2)) (n + 1) tinyData (.fin 0) (.fin (1 / 2 ^ 1074)) m =
      ParallelDigest.searchLoop (.fin (1 / 2)) n tinyData (.fin 0) (.fin (1 / 2 ^ 1074)) (.fin 0) := by
  have h1 : Fl.lt (Fl.lit (1 / 1000000)) (Fl.fabs ((.fin (1 / 2 ^ 1074) : Fl ℚ) - .fin 0) /
      (Fl.fabs tinyData.min + Fl.fabs tinyData.max)) = true := by decide +kernel
  have h2 : ((.fin 0 : Fl ℚ) + .fin (1 / 2 ^ 1074)) / Fl.lit 2 = .fin 0 := by decide +kernel
  have h3 : tinyData.estQuantileAtValue (.fin 0 : Fl ℚ) = .ret ((Fl.lit 0 + (⟨[.fin 0, .fin (1 / 2 ^ 1074)]⟩ :
      LinearDigest ℚ).estQuantileAtValue (.fin 0) * Fl.ofNat 2) / Fl.ofNat 2, tinyData) := rfl
  have h4 : (Fl.lit 0 + (⟨[.fin 0, .fin (1 / 2 ^ 1074)]⟩ : LinearDigest ℚ).estQuantileAtValue (.fin 0) * Fl.ofNat 2) /
      Fl.ofNat 2 = (.fin 0 : Fl ℚ) := by decide +kernel
  have h5 : Fl.cmp (.fin 0 : Fl ℚ) (.fin (1 / 2)) = some .lt := by decide +kernel
  rw [ParallelDigest.searchLoop, if_pos h1]
  simp only [h2, h3, h4, bind_ret, h5]

/-- C90. The restriction to ranges that are not tiny is needed: for the items 0 and `2^-1074` (the smallest positive number) the
search for the median never ends: it does not finish within any number `n` of rounds. -/
theorem C90_tiny_range_never_ends_f64 :
    Always ((ParallelDigest.new [LinearDigest.new] : ParallelDigest (LinearDigest ℚ) ℚ).addBuffer
      [.fin 0, .fin (1 / 2 ^ 1074)]) (fun p => ∀ (m : Fl ℚ) (n : Nat),
        ParallelDigest.searchLoop (.fin (1 / 2)) n p p.min p.max m = .fail .fuel) := by
  have h : Always ((ParallelDigest.new [LinearDigest.new] : ParallelDigest (LinearDigest ℚ) ℚ).addBuffer
      [.fin 0, .fin (1 / 2 ^ 1074)]) (fun p => p = tinyData) := by decide +kernel
  refine h.mono ?_
  rintro p rfl m n
  induction n generalizing m with
  | zero => rfl
  | succ n ih =>
    show ParallelDigest.searchLoop (.fin (1 / 2)) (n + 1) tinyData (.fin 0) (.fin (1 / 2 ^ 1074)) m = _
    rw [tinyData_step]
    exact ih _

end
end AQ

/-
Property C168: with overwhelming probability all answers of a `MultiDigest` or a `ParallelDigest` of relative-error sketches keep the
relative error of the members.
-/
import Verif.Props.SymTail
import Verif.Props.CombineTail
import Verif.Props.ParallelDigest

set_option linter.unusedSectionVars false
set_option linter.unusedVariables false

namespace AQ
open Spec Prog

theorem Prog.exp_const_le {α : Type} (p : Prog α) {c : ℚ} (hc : 0 ≤ c) : exp p (fun _ => c) ≤ c := by
  induction p with
  | ret a => exact le_rfl
  | fail e => exact hc
  | flip f ih =>
    show (exp (f false) (fun _ => c) + exp (f true) (fun _ => c)) / 2 ≤ c
    have := ih false
    have := ih true
    linarith

section
variable [FloatFmt ℚ] [FloatFmt.Exact ℚ]
variable {D : Type} [Digest D (Fl ℚ)]

/-! ### Accurate members make an accurate whole -/

/-- The sum over the members of a `MultiDigest`. -/
theorem multi_sum {I : List (Fl ℚ)} {ε : ℚ} (x : Fl ℚ) (hx : x ≠ .nan) : ∀ (ds : List D) (a : ℚ), (∀ d ∈ ds, RelQ I ε d) →
    ∃ S : ℚ, MultiDigest.sumLoop (fun d => Digest.estQuantileAtValue d x) ds (.fin a : Fl ℚ) = .ret ((.fin (a + S / I.length) : Fl ℚ), ds) ∧
      |S - ds.length * rank I x| ≤ ds.length * (3 * ε * rank I x)
  | [], a, _ => ⟨0, by simp [MultiDigest.sumLoop], by simp⟩
  | d :: ds, a, h => by
    obtain ⟨A, hA, hA'⟩ := h d (by simp) x hx
    obtain ⟨S, hS, hS'⟩ := multi_sum x hx ds (a + A / I.length) (fun d' hd' => h d' (by simp [hd']))
    refine ⟨A + S, ?_, ?_⟩
    · unfold MultiDigest.sumLoop
      simp only [hA, bind_ret, Fl.add_exact, hS]
      rw [show a + (A + S) / (I.length : ℚ) = a + A / I.length + S / I.length by ring]
      rfl
    · rw [List.length_cons]
      push_cast
      have e : A + S - ((ds.length : ℚ) + 1) * rank I x = (A - rank I x) + (S - ds.length * rank I x) := by ring
      rw [e]
      refine (abs_add_le _ _).trans ?_
      linarith

/-- The mean of answers within the fraction `3 ε` of the rank is within it. -/
theorem multi_relQ {I : List (Fl ℚ)} {ε : ℚ} (ds : List D) (hne : ds ≠ []) (h : ∀ d ∈ ds, RelQ I ε d) :
    RelQ I ε (⟨ds⟩ : MultiDigest D) := by
  intro x hx
  have h0 : (0 : ℚ) < ds.length := Nat.cast_pos.2 (List.length_pos_of_ne_nil hne)
  obtain ⟨S, hS, hS'⟩ := multi_sum x hx ds 0 h
  refine ⟨S / ds.length, ?_, ?_⟩
  · show MultiDigest.estQuantileAtValue _ x = _
    unfold MultiDigest.estQuantileAtValue
    rw [Fl.lit_exact]
    simp only [hS, bind_ret, Fl.ofNat_exact]
    rw [Fl.div_exact _ h0.ne', zero_add, div_right_comm]
    rfl
  · have e : S / ds.length - rank I x = (S - ds.length * rank I x) / ds.length := by field_simp
    rw [e, abs_div, abs_of_pos h0, div_le_iff₀ h0]
    linarith

/-- What is claimed of every value query of a `MultiDigest` (the mean of the members' answers need not be an item). -/
def MultiV (I : List (Fl ℚ)) (ε c : ℚ) (m : MultiDigest D) : Prop :=
  ∀ q : ℚ, 0 ≤ q → q ≤ 1 → ∃ v : ℚ, Digest.estValueAtQuantile m (.fin q : Fl ℚ) = .ret ((.fin v : Fl ℚ), m) ∧
    (1 - 3 * ε) * (I.countP (fun y => y < (.fin v : Fl ℚ)) : ℚ) ≤ q * I.length ∧ c * (q * I.length) ≤ (1 + 3 * ε) * (rank I (.fin v) : ℚ)

/-- The sum of the members' values lies between multiples of two of them. -/
theorem multi_value_sum {I : List (Fl ℚ)} {ε c q : ℚ} (hfin : ∀ y ∈ I, ∃ r : ℚ, y = .fin r) (h0 : 0 ≤ q) (h1 : q ≤ 1) :
    ∀ (ds : List D) (a : ℚ), ds ≠ [] → (∀ d ∈ ds, RelV I ε c d) →
    ∃ S lo hi : ℚ, MultiDigest.sumLoop (fun d => Digest.estValueAtQuantile d (.fin q : Fl ℚ)) ds (.fin a : Fl ℚ) = .ret ((.fin (a + S) : Fl ℚ), ds) ∧
      ds.length * lo ≤ S ∧ S ≤ ds.length * hi ∧ (1 - 3 * ε) * (I.countP (fun y => y < (.fin hi : Fl ℚ)) : ℚ) ≤ q * I.length ∧
      c * (q * I.length) ≤ (1 + 3 * ε) * (rank I (.fin lo) : ℚ)
  | [], a, h, _ => absurd rfl h
  | d :: ds, a, _, h => by
    obtain ⟨v, hvI, hv, b1, b2⟩ := h d (by simp) q h0 h1
    obtain ⟨w, rfl⟩ := hfin v hvI
    by_cases hds : ds = []
    · subst hds
      refine ⟨w, w, w, ?_, by simp, by simp, b1, b2⟩
      unfold MultiDigest.sumLoop
      simp only [hv, bind_ret, Fl.add_exact]
      rfl
    · obtain ⟨S, lo, hi, hS, l1, l2, c1, c2⟩ := multi_value_sum hfin h0 h1 ds (a + w) hds (fun d' hd' => h d' (by simp [hd']))
      refine ⟨w + S, min w lo, max w hi, ?_, ?_, ?_, ?_, ?_⟩
      · unfold MultiDigest.sumLoop
        simp only [hv, bind_ret, Fl.add_exact, hS]
        rw [add_assoc]
        rfl
      · rw [List.length_cons]
        push_cast
        have := mul_le_mul_of_nonneg_left (min_le_right w lo) (Nat.cast_nonneg (α := ℚ) ds.length)
        linarith [min_le_left w lo]
      · rw [List.length_cons]
        push_cast
        have := mul_le_mul_of_nonneg_left (le_max_right w hi) (Nat.cast_nonneg (α := ℚ) ds.length)
        linarith [le_max_left w hi]
      · rcases max_choice w hi with e | e <;> rw [e] <;> assumption
      · rcases min_choice w lo with e | e <;> rw [e] <;> assumption

theorem multi_values {I : List (Fl ℚ)} {ε c : ℚ} (hε : 0 ≤ ε) (hε1 : ε ≤ 1 / 9) (hfin : ∀ y ∈ I, ∃ r : ℚ, y = .fin r)
    (ds : List D) (hne : ds ≠ []) (h : ∀ d ∈ ds, RelV I ε c d) : MultiV I ε c (⟨ds⟩ : MultiDigest D) := by
  intro q h0 h1
  have hp : (0 : ℚ) < ds.length := Nat.cast_pos.2 (List.length_pos_of_ne_nil hne)
  obtain ⟨S, lo, hi, hS, l1, l2, c1, c2⟩ := multi_value_sum hfin h0 h1 ds 0 hne h
  refine ⟨S / ds.length, ?_, ?_, ?_⟩
  · show MultiDigest.estValueAtQuantile _ (.fin q) = _
    unfold MultiDigest.estValueAtQuantile
    rw [Fl.lit_exact]
    simp only [hS, bind_ret, Fl.ofNat_exact]
    rw [Fl.div_exact _ hp.ne', zero_add]
    rfl
  · have hle : S / ds.length ≤ hi := by rw [div_le_iff₀ hp]; linarith
    refine le_trans (mul_le_mul_of_nonneg_left ?_ (by linarith)) c1
    have : I.countP (fun y => y < (.fin (S / ds.length) : Fl ℚ)) ≤ I.countP (fun y => y < (.fin hi : Fl ℚ)) :=
      List.countP_mono_left (fun y hy h => by
        obtain ⟨r, rfl⟩ := hfin y hy
        simp only [decide_eq_true_eq, Fl.fin_lt_fin] at h ⊢
        linarith)
    exact_mod_cast this
  · have hle : lo ≤ S / ds.length := by rw [le_div_iff₀ hp]; linarith
    refine le_trans c2 (mul_le_mul_of_nonneg_left ?_ (by linarith))
    have : rank I (.fin lo) ≤ rank I (.fin (S / ds.length)) :=
      List.countP_mono_left (fun y hy h => by
        obtain ⟨r, rfl⟩ := hfin y hy
        simp only [decide_eq_true_eq, Fl.fin_le_fin] at h ⊢
        linarith)
    exact_mod_cast this

/-- The sum over the members of a `ParallelDigest`. -/
theorem parallel_sum {ε : ℚ} (c : Nat) (x : Fl ℚ) (hx : x ≠ .nan) : ∀ (ds : List D) (I : Nat → List (Fl ℚ)) (a : ℚ),
    (∀ i (h : i < ds.length), I i ≠ [] ∧ RelQ (I i) ε ds[i] ∧ Digest.count (F := Fl ℚ) ds[i] = .ret (c * (I i).length)) →
    ∃ S : ℚ, ParallelDigest.rankLoop x ds (.fin a : Fl ℚ) = .ret ((.fin (a + c * S) : Fl ℚ), ds) ∧
      |S - ∑ i ∈ Finset.range ds.length, (rank (I i) x : ℚ)| ≤ 3 * ε * ∑ i ∈ Finset.range ds.length, (rank (I i) x : ℚ) ∧
      sumCounts (F := Fl ℚ) ds = .ret (c * ∑ i ∈ Finset.range ds.length, (I i).length)
  | [], I, a, _ => ⟨0, by simp [ParallelDigest.rankLoop], by simp, by simp [sumCounts]⟩
  | d :: ds, I, a, h => by
    obtain ⟨hI, hq, hc⟩ := h 0 (by simp)
    simp only [List.getElem_cons_zero] at hq hc
    obtain ⟨A, hA, hA'⟩ := hq x hx
    obtain ⟨S, hS, hS', hC⟩ := parallel_sum c x hx ds (fun i => I (i + 1)) (a + c * A) (fun i hi => h (i + 1) (by simpa using hi))
    have hN : ((I 0).length : ℚ) ≠ 0 := by
      have := List.length_pos_of_ne_nil hI
      positivity
    refine ⟨A + S, ?_, ?_, ?_⟩
    · have e : a + A / (I 0).length * ((c * (I 0).length : Nat) : ℚ) = a + c * A := by
        push_cast
        field_simp
      unfold ParallelDigest.rankLoop
      simp only [hA, bind_ret, hc, Fl.ofNat_exact, Fl.mul_exact, Fl.add_exact, e, hS]
      rw [mul_add, add_assoc]
      rfl
    · rw [List.length_cons, Finset.sum_range_succ']
      generalize (∑ i ∈ Finset.range ds.length, (rank (I (i + 1)) x : ℚ)) = T at hS' ⊢
      rw [show A + S - (T + rank (I 0) x) = (A - rank (I 0) x) + (S - T) by ring]
      refine (abs_add_le _ _).trans ?_
      linarith
    · unfold sumCounts
      rw [hc, bind_ret, hC, bind_ret, List.length_cons, Finset.sum_range_succ', Nat.mul_add, Nat.add_comm]
      rfl

/-- Shares whose answers are within the fraction `3 ε` of the rank in the share add up to an answer within the fraction `3 ε` of the rank. -/
theorem parallel_relQ {ε : ℚ} (c : Nat) (hc0 : c ≠ 0) (J : List (Fl ℚ)) (hJ : J ≠ []) (p : ParallelDigest D ℚ) (I : Nat → List (Fl ℚ))
    (h : ∀ i (h : i < p.digests.length), I i ≠ [] ∧ RelQ (I i) ε p.digests[i] ∧ Digest.count (F := Fl ℚ) p.digests[i] = .ret (c * (I i).length))
    (hl : ∑ i ∈ Finset.range p.digests.length, (I i).length = J.length)
    (hr : ∀ x, ∑ i ∈ Finset.range p.digests.length, rank (I i) x = rank J x) : RelQ J ε p := by
  intro x hx
  obtain ⟨S, hS, hS', hC⟩ := parallel_sum c x hx p.digests I 0 h
  have hN : (J.length : ℚ) ≠ 0 := by
    have := List.length_pos_of_ne_nil hJ
    positivity
  have hr' : ∑ i ∈ Finset.range p.digests.length, (rank (I i) x : ℚ) = rank J x := by exact_mod_cast hr x
  rw [hr'] at hS'
  rw [hl] at hC
  refine ⟨S, ?_, hS'⟩
  show ParallelDigest.estQuantileAtValue p x = _
  unfold ParallelDigest.estQuantileAtValue ParallelDigest.count
  rw [Fl.lit_exact]
  simp only [hS, bind_ret, hC, Fl.ofNat_exact]
  have hcq : (c : ℚ) ≠ 0 := by exact_mod_cast hc0
  rw [Fl.div_exact _ (by push_cast; exact mul_ne_zero hcq hN), zero_add]
  push_cast
  rw [mul_div_mul_left _ _ hcq]
  rfl

/-! ### All members are accurate at once -/

open Classical in
/-- The members of a `MultiDigest` fail with at most the sum of their probabilities. -/
theorem multi_union (G : D → Prop) (P : ℝ) (ops : List (Op (Fl ℚ))) : ∀ ds : List D,
    (∀ d ∈ ds, ((exp (execAll d ops) (fun s => if G s then 0 else 1) : ℚ) : ℝ) ≤ P) →
    ((exp (execAll (⟨ds⟩ : MultiDigest D) ops) (fun m => if ∀ d ∈ m.digests, G d then 0 else 1) : ℚ) : ℝ) ≤ ds.length * P
  | [], _ => by
    have := MultiDigest.execAll_nil_exp (D := D) ops (fun l => if ∀ d ∈ l, G d then (0 : ℚ) else 1)
    rw [this]
    simp
  | d :: ds, h => by
    have e := MultiDigest.execAll_exp ops d ds (fun l => if ∀ d ∈ l, G d then (0 : ℚ) else 1)
    have ih := multi_union G P ops ds (fun d' hd' => h d' (by simp [hd']))
    have h0 := h d (by simp)
    rw [e, List.length_cons]
    push_cast
    set Y := exp (execAll (⟨ds⟩ : MultiDigest D) ops) (fun m => if ∀ d ∈ m.digests, G d then (0 : ℚ) else 1) with hY
    have hY0 : 0 ≤ Y := by
      have := exp_mono (g := fun _ => 0) (g' := fun m : MultiDigest D => if ∀ d ∈ m.digests, G d then (0 : ℚ) else 1)
        ((partially_true (execAll (⟨ds⟩ : MultiDigest D) ops)).mono (fun m _ => by split <;> norm_num))
      rwa [Prog.exp_zero] at this
    have h2 : ∀ d' : D, exp (execAll (⟨ds⟩ : MultiDigest D) ops) (fun m => if ∀ x ∈ d' :: m.digests, G x then (0 : ℚ) else 1) ≤
        (if G d' then 0 else 1) + Y := by
      intro d'
      have hc := Prog.exp_const_le (execAll (⟨ds⟩ : MultiDigest D) ops) (c := if G d' then (0 : ℚ) else 1) (by split <;> norm_num)
      refine le_trans ?_ (add_le_add_left hc Y)
      rw [hY, ← exp_add]
      refine exp_mono ((partially_true _).mono (fun m _ => ?_))
      by_cases a : G d'
      · by_cases b : ∀ x ∈ m.digests, G x
        · rw [if_pos (List.forall_mem_cons.2 ⟨a, b⟩), if_pos a, if_pos b]; norm_num
        · rw [if_neg b, if_pos a]; split <;> norm_num
      · rw [if_neg a]; split <;> split <;> norm_num
    have h3 := exp_mono ((partially_true (execAll d ops)).mono (fun d' _ => h2 d'))
    rw [exp_add] at h3
    have h4 := h3.trans (add_le_add_right (Prog.exp_const_le (execAll d ops) hY0) _)
    have h5 := (Rat.cast_le (K := ℝ)).2 h4
    rw [Rat.cast_add] at h5
    linarith

open Classical in
/-- The members of a `ParallelDigest` fail with at most the sum of their probabilities. -/
theorem feed_union (P : ℝ) : ∀ (ds : List D) (css : List (List (List (Fl ℚ)))) (G : Nat → D → Prop),
    (∀ i (h : i < ds.length), ((exp (execAll ds[i] (ParallelDigest.column i css)) (fun s => if G i s then 0 else 1) : ℚ) : ℝ) ≤ P) →
    (∀ cs ∈ css, cs.length ≤ ds.length) →
    ((exp (ParallelDigest.feedAll css ds) (fun l => if ∀ i (h : i < l.length), G i l[i] then 0 else 1) : ℚ) : ℝ) ≤ ds.length * P
  | [], css, G, _, hl => by
    rw [ParallelDigest.feedAll_nil css hl]
    simp
  | d :: ds, css, G, h, hl => by
    have e := ParallelDigest.feedAll_exp css d ds (fun l => if ∀ i (h : i < l.length), G i l[i] then (0 : ℚ) else 1)
    have ih := feed_union P ds (css.map List.tail) (fun i => G (i + 1))
      (fun i hi => by
        rw [ParallelDigest.column_tail]
        exact h (i + 1) (by simpa using hi))
      (fun cs hcs => by
        obtain ⟨c, hc, rfl⟩ := List.mem_map.1 hcs
        have := hl c hc
        rw [List.length_tail, List.length_cons] at *
        omega)
    have h0 := h 0 (by simp)
    simp only [List.getElem_cons_zero] at h0
    rw [e, List.length_cons]
    push_cast
    set F := ParallelDigest.feedAll (css.map List.tail) ds
    set Y := exp F (fun l => if ∀ i (h : i < l.length), G (i + 1) l[i] then (0 : ℚ) else 1) with hY
    have hY0 : 0 ≤ Y := by
      have := exp_mono (g := fun _ => 0) (g' := fun l : List D => if ∀ i (h : i < l.length), G (i + 1) l[i] then (0 : ℚ) else 1)
        ((partially_true F).mono (fun m _ => by split <;> norm_num))
      rwa [Prog.exp_zero] at this
    have h2 : ∀ d' : D, exp F (fun l => if ∀ i (h : i < (d' :: l).length), G i (d' :: l)[i] then (0 : ℚ) else 1) ≤
        (if G 0 d' then 0 else 1) + Y := by
      intro d'
      have hc := Prog.exp_const_le F (c := if G 0 d' then (0 : ℚ) else 1) (by split <;> norm_num)
      refine le_trans ?_ (add_le_add_left hc Y)
      rw [hY, ← exp_add]
      refine exp_mono ((partially_true _).mono (fun m _ => ?_))
      by_cases a : G 0 d'
      · by_cases b : ∀ i (h : i < m.length), G (i + 1) m[i]
        · rw [if_pos, if_pos a, if_pos b]
          · norm_num
          · intro i hi
            cases i with
            | zero => exact a
            | succ i => simpa using b i (by simpa using hi)
        · rw [if_neg b, if_pos a]; split <;> norm_num
      · rw [if_neg a]; split <;> split <;> norm_num
    have h3 := exp_mono ((partially_true (execAll d (ParallelDigest.column 0 css))).mono (fun d' _ => h2 d'))
    rw [exp_add] at h3
    have h4 := h3.trans (add_le_add_right (Prog.exp_const_le (execAll d (ParallelDigest.column 0 css)) hY0) _)
    have h5 := (Rat.cast_le (K := ℝ)).2 h4
    rw [Rat.cast_add] at h5
    linarith

/-! ### C168 -/

open Classical in
/-- C168. Members of a `MultiDigest` whose quantile queries are all within the fraction `3 ε` of the rank except with probability at most `P`
each: those of the `MultiDigest` are, except with probability at most `P` times the number of members. Insertion does not panic if it does
not panic in the members. -/
theorem C168_multi (ds : List D) (hne : ds ≠ []) (ops : List (Op (Fl ℚ))) (ε : ℚ) (P : ℝ)
    (hs : ∀ d ∈ ds, Always (execAll d ops) (fun _ => True))
    (h : ∀ d ∈ ds, ((exp (execAll d ops) (fun s => if RelQ (itemsOf ops) ε s then 0 else 1) : ℚ) : ℝ) ≤ P) :
    Always (execAll (MultiDigest.built ds : MultiDigest D) ops) (fun _ => True) ∧
    ((exp (execAll (MultiDigest.built ds : MultiDigest D) ops) (fun m => if RelQ (itemsOf ops) ε m then 0 else 1) : ℚ) : ℝ) ≤ ds.length * P := by
  rw [MultiDigest.built_eq]
  refine ⟨(MultiDigest.execAll_all ops ds (P := fun _ => True) hs).mono (fun _ _ => trivial), ?_⟩
  refine le_trans ?_ (multi_union (RelQ (itemsOf ops) ε) P ops ds h)
  rw [Rat.cast_le]
  refine exp_mono ((MultiDigest.execAll_all ops ds (P := fun _ => True) hs).partially.mono ?_)
  rintro ⟨l⟩ ⟨hl, -⟩
  have hl' : l ≠ [] := by
    intro h0
    rw [h0] at hl
    exact hne (List.length_eq_zero_iff.1 hl.symm)
  by_cases hall : ∀ d ∈ l, RelQ (itemsOf ops) ε d
  · rw [if_pos (multi_relQ l hl' hall)]; split <;> norm_num
  · rw [if_neg hall]; split <;> norm_num

open Classical in
/-- C168, value queries of a `MultiDigest` of finite items: the same with the guarantee `RelV` of the members, except that the answer, a mean of
items, need not be an item. -/
theorem C168_multi_values (ds : List D) (hne : ds ≠ []) (ops : List (Op (Fl ℚ))) (ε c : ℚ) (hε : 0 ≤ ε) (hε1 : ε ≤ 1 / 9) (P : ℝ)
    (hfin : ∀ y ∈ itemsOf ops, ∃ r : ℚ, y = .fin r) (hs : ∀ d ∈ ds, Always (execAll d ops) (fun _ => True))
    (h : ∀ d ∈ ds, ((exp (execAll d ops) (fun s => if RelV (itemsOf ops) ε c s then 0 else 1) : ℚ) : ℝ) ≤ P) :
    ((exp (execAll (MultiDigest.built ds : MultiDigest D) ops) (fun m => if MultiV (itemsOf ops) ε c m then 0 else 1) : ℚ) : ℝ) ≤
      ds.length * P := by
  rw [MultiDigest.built_eq]
  refine le_trans ?_ (multi_union (RelV (itemsOf ops) ε c) P ops ds h)
  rw [Rat.cast_le]
  refine exp_mono ((MultiDigest.execAll_all ops ds (P := fun _ => True) hs).partially.mono ?_)
  rintro ⟨l⟩ ⟨hl, -⟩
  have hl' : l ≠ [] := by
    intro h0
    rw [h0] at hl
    exact hne (List.length_eq_zero_iff.1 hl.symm)
  by_cases hall : ∀ d ∈ l, RelV (itemsOf ops) ε c d
  · rw [if_pos (multi_values hε hε1 hfin l hl' hall)]; split <;> norm_num
  · rw [if_neg hall]; split <;> norm_num

open Classical in
/-- C168. Members of a `ParallelDigest`, each fed a non-empty share of which it counts every item (the same number `c` of times), whose quantile queries are all within the fraction `3 ε` of
the rank in their share except with probability at most `P` each: those of the `ParallelDigest` are within that fraction of the rank among
all items, except with probability at most `P` times the number of members. -/
theorem C168_parallel (c : Nat) (hc0 : c ≠ 0) (ds : List D) (hne : ds ≠ []) (ops : List (Op (Fl ℚ))) (hops : PlainIns ops) (ε : ℚ) (P : ℝ)
    (hfed : ∀ i, i < ds.length → itemsOf (share ds.length i ops) ≠ [])
    (hs : ∀ i (h : i < ds.length), Always (execAll ds[i] (share ds.length i ops))
      (fun s => Digest.count (F := Fl ℚ) s = .ret (c * (itemsOf (share ds.length i ops)).length)))
    (h : ∀ i (h : i < ds.length), ((exp (execAll ds[i] (share ds.length i ops))
      (fun s => if RelQ (itemsOf (share ds.length i ops)) ε s then 0 else 1) : ℚ) : ℝ) ≤ P) :
    Always (execAll (ParallelDigest.new ds : ParallelDigest D ℚ) ops) (fun _ => True) ∧
    ((exp (execAll (ParallelDigest.new ds : ParallelDigest D ℚ) ops) (fun p => if RelQ (itemsOf ops) ε p then 0 else 1) : ℚ) : ℝ) ≤
      ds.length * P := by
  have hm : ds.length ≠ 0 := (List.length_pos_of_ne_nil hne).ne'
  have hI : itemsOf ops ≠ [] := by
    intro h0
    obtain ⟨y, hy⟩ := List.exists_mem_of_ne_nil _ (hfed 0 (Nat.pos_of_ne_zero hm))
    have := (share_ins ds.length 0 ops).2 hy
    rw [h0] at this
    simp at this
  have hall := ParallelDigest.execAll_all (fun i s => Digest.count (F := Fl ℚ) s = .ret (c * (itemsOf (share ds.length i ops)).length))
    ops hops (ParallelDigest.new ds : ParallelDigest D ℚ) hne hs
  refine ⟨hall.mono (fun _ _ => trivial), ?_⟩
  have hlen : ∀ cs ∈ ops.map (fun o => ParallelDigest.cut ds.length o.items), cs.length ≤ ds.length := by
    intro cs hcs
    obtain ⟨o, -, rfl⟩ := List.mem_map.1 hcs
    exact ParallelDigest.cut_length _ hm _
  have hu := feed_union P ds (ops.map (fun o => ParallelDigest.cut ds.length o.items)) (fun i s => RelQ (itemsOf (share ds.length i ops)) ε s)
    (fun i hi => by
      rw [ParallelDigest.column_share _ hm]
      exact h i hi) hlen
  have e0 := ParallelDigest.execAll_feedAll
    (fun l => if ∀ i (h : i < l.length), RelQ (itemsOf (share ds.length i ops)) ε l[i] then (0 : ℚ) else 1)
    ops hops (ParallelDigest.new ds : ParallelDigest D ℚ) hne
  have e1 : (ParallelDigest.new ds : ParallelDigest D ℚ).digests = ds := rfl
  rw [e1] at e0
  rw [← e0] at hu
  refine le_trans ?_ hu
  rw [Rat.cast_le]
  refine exp_mono (hall.partially.mono ?_)
  rintro p ⟨hl, hc⟩
  have hl : p.digests.length = ds.length := hl
  by_cases hg : ∀ i (h : i < p.digests.length), RelQ (itemsOf (share ds.length i ops)) ε p.digests[i]
  · rw [if_pos]
    · split <;> norm_num
    · refine parallel_relQ c hc0 _ hI p (fun i => itemsOf (share ds.length i ops)) (fun i hi => ⟨hfed i (hl ▸ hi), hg i hi, hc i hi⟩) ?_ (fun x => ?_)
      · rw [hl]
        exact sum_share List.length rfl (fun a b => List.length_append) _ hm ops
      · rw [hl]
        exact sum_share (fun l => rank l x) rfl (fun a b => by simp [rank]) _ hm ops
  · rw [if_neg hg]; split <;> norm_num

/-- What is claimed of every value query of a `ParallelDigest`, which searches for the value by bisection between the smallest item `lo` and the
largest item `hi`: the answer `v` has rank at least `t N / (1 + 3 ε)`, and some `s ≤ v` within `(|lo| + |hi|) / 10⁶` of `v` has at most
`t N / (1 - 3 ε)` items below it. -/
def ParV (I : List (Fl ℚ)) (ε : ℚ) (p : ParallelDigest D ℚ) : Prop :=
  ∃ lo hi : ℚ, (.fin lo : Fl ℚ) ∈ I ∧ (.fin hi : Fl ℚ) ∈ I ∧ (∀ y ∈ I, (.fin lo : Fl ℚ) ≤ y ∧ y ≤ (.fin hi : Fl ℚ)) ∧
    ∀ t : ℚ, 0 ≤ t → t ≤ 1 → Always (Digest.estValueAtQuantile p (.fin t : Fl ℚ)) (fun r => ∃ v s : ℚ, r.1 = (.fin v : Fl ℚ) ∧
      lo ≤ s ∧ s ≤ v ∧ v ≤ hi ∧ v - s ≤ (|lo| + |hi|) / 1000000 ∧
      (1 - 3 * ε) * (I.countP (fun y => y < (.fin s : Fl ℚ)) : ℚ) ≤ t * I.length ∧ t * I.length ≤ (1 + 3 * ε) * (rank I (.fin v) : ℚ))

theorem parallel_values {I : List (Fl ℚ)} (hI : I ≠ []) {ε : ℚ} (hε : 0 ≤ ε) (hε1 : ε ≤ 1 / 9) (p : ParallelDigest D ℚ) (h : RelQ I ε p)
    (hfin : ∀ y ∈ I, y.IsFin) (hmin : p.min ∈ I ∧ ∀ y ∈ I, p.min ≤ y) (hmax : p.max ∈ I ∧ ∀ y ∈ I, y ≤ p.max) : ParV I ε p := by
  obtain ⟨ds, mn, mx⟩ := p
  obtain ⟨lo, rfl⟩ := hfin _ hmin.1
  obtain ⟨hi, rfl⟩ := hfin _ hmax.1
  refine ⟨lo, hi, hmin.1, hmax.1, fun y hy => ⟨hmin.2 y hy, hmax.2 y hy⟩, fun t h0 h1 => ?_⟩
  have hN : (0 : ℚ) < I.length := Nat.cast_pos.2 (List.length_pos_of_ne_nil hI)
  have hlh : lo ≤ hi := by
    have := hmin.2 _ hmax.1
    simpa using this
  have hs := C51_value_search (D := D) (fun es => es = ds)
    (fun x y => |y * I.length - rank I (.fin x)| ≤ 3 * ε * rank I (.fin x)) lo hi t hlh
    (by
      rintro es rfl x - -
      obtain ⟨A, hA, hA'⟩ := h (.fin x) (by simp)
      have hA : (⟨es, .fin lo, .fin hi⟩ : ParallelDigest D ℚ).estQuantileAtValue (.fin x) = _ := hA
      rw [hA]
      refine ⟨⟨_, rfl, ?_⟩, rfl⟩
      rw [div_mul_cancel₀ _ hN.ne']
      exact hA') ds rfl
  refine hs.mono ?_
  rintro r ⟨-, v, s, e, hv, b1, b2, b3, b4, b5, b6, b7, b8⟩
  have up : ∀ z y : ℚ, |y * I.length - rank I (.fin z)| ≤ 3 * ε * rank I (.fin z) → t ≤ y → t * I.length ≤ (1 + 3 * ε) * (rank I (.fin z) : ℚ) := by
    intro z y hy hty
    have := (abs_le.1 hy).2
    have := mul_le_mul_of_nonneg_right hty hN.le
    linarith
  refine ⟨v, s, hv, b1, b2, b3.trans b4, by linarith, ?_, ?_⟩
  · rcases b6 with rfl | ⟨y, hy, hyt⟩
    · have : I.countP (fun y => y < (.fin s : Fl ℚ)) = 0 :=
        List.countP_eq_zero.2 (fun y hy => by
          obtain ⟨z, rfl⟩ := hfin y hy
          have := hmin.2 _ hy
          simp only [Fl.fin_le_fin, decide_eq_true_eq, Fl.fin_lt_fin] at this ⊢
          exact not_lt.2 this)
      rw [this]
      simp only [Nat.cast_zero, mul_zero]
      positivity
    · have := (abs_le.1 hy).1
      have := mul_le_mul_of_nonneg_right hyt hN.le
      have hc : (I.countP (fun y => y < (.fin s : Fl ℚ)) : ℚ) ≤ rank I (.fin s) := by
        have : I.countP (fun y => y < (.fin s : Fl ℚ)) ≤ rank I (.fin s) :=
          List.countP_mono_left (fun y _ h => by simp only [decide_eq_true_eq] at h ⊢; exact h.le)
        exact_mod_cast this
      have := mul_le_mul_of_nonneg_left hc (by linarith : 0 ≤ 1 - 3 * ε)
      linarith
  · rcases b8 with rfl | ⟨y, hy, hyt⟩
    · rcases b7 with rfl | ⟨y, hy, hyt⟩
      · have : rank I (.fin v) = I.length := List.countP_eq_length.2 (fun y hy => by simpa using hmax.2 y hy)
        rw [this]
        have := mul_le_mul_of_nonneg_right h1 hN.le
        have := mul_nonneg hε hN.le
        linarith
      · exact up v y hy hyt.le
    · exact up v y hy hyt

open Classical in
/-- C168, value queries of a `ParallelDigest` of finite items in the range of the format: they all satisfy `ParV` at once, except with that
probability. -/
theorem C168_parallel_values (ds : List D) (ops : List (Op (Fl ℚ))) (ε : ℚ) (hε : 0 ≤ ε) (hε1 : ε ≤ 1 / 9) (P : ℝ)
    (hne : itemsOf ops ≠ []) (hfin : ∀ y ∈ itemsOf ops, Item y)
    (h : ((exp (execAll (ParallelDigest.new ds : ParallelDigest D ℚ) ops) (fun p => if RelQ (itemsOf ops) ε p then 0 else 1) : ℚ) : ℝ) ≤ P) :
    ((exp (execAll (ParallelDigest.new ds : ParallelDigest D ℚ) ops) (fun p => if ParV (itemsOf ops) ε p then 0 else 1) : ℚ) : ℝ) ≤ P := by
  refine le_trans ?_ h
  rw [Rat.cast_le]
  refine exp_mono ((C49_limits ds ops hne (fun x hx => ⟨?_, (hfin x hx).2⟩)).mono ?_)
  · obtain ⟨⟨y, hy⟩, -⟩ := hfin x hx
    rw [hy]
    simp
  · rintro p ⟨a, b⟩
    by_cases hq : RelQ (itemsOf ops) ε p
    · rw [if_pos (parallel_values hne hε hε1 p hq (fun y hy => (hfin y hy).1) a b)]; split <;> norm_num
    · rw [if_neg hq]; split <;> norm_num

/-! ### The sketches -/

open Classical in
/-- C168 for `m` `RCSketch`es `new(n, k)`, `k` even, in a `MultiDigest`, at most `n` items, `0 ≤ ε ≤ 1/9`, `(1 + ε)^j ≥ N`: except with
probability at most `m` times that of one sketch (C164) all quantile queries at once are off by at most the fraction `3 ε` of the rank. -/
theorem C168_multi_rcsketch (n k m : Nat) (hm : m ≠ 0) (hk : 1 ≤ k) (hk2 : k % 2 = 0) (hn : n < 2 ^ 32)
    (ops : List (Op (Fl ℚ))) (hins : ∀ o ∈ ops, (∃ x, o = .add x) ∨ ∃ xs, o = .addBuffer xs)
    (hlen : (itemsOf ops).length ≤ n) (hnan : ∀ y ∈ itemsOf ops, y ≠ .nan) (hne : itemsOf ops ≠ [])
    (ε : ℚ) (hε : 0 ≤ ε) (hε1 : ε ≤ 1 / 9) (j : Nat) (hpow : ((itemsOf ops).length : ℚ) ≤ (1 + ε) ^ j) :
    ((exp (execAll (MultiDigest.built (List.replicate m (RCSketch.fresh n k)) : MultiDigest (RCSketch ℚ)) ops)
      (fun d => if RelQ (itemsOf ops) ε d then 0 else 1) : ℚ) : ℝ) ≤
      m * (2 * (j + 1) * (2 * Real.exp (-((ε : ℝ) ^ 2 * (k * (max (2 * k * Nat.clog 2 (n / k)) (2 * k) : Nat)) / 32)) +
        Nat.clog 2 (n / k) * Real.exp (-((k * (max (2 * k * Nat.clog 2 (n / k)) (2 * k) : Nat) : ℝ) / 32)))) ∧
    ((∀ y ∈ itemsOf ops, ∃ r : ℚ, y = .fin r) →
      ((exp (execAll (MultiDigest.built (List.replicate m (RCSketch.fresh n k)) : MultiDigest (RCSketch ℚ)) ops)
        (fun d => if MultiV (itemsOf ops) ε 1 d then 0 else 1) : ℚ) : ℝ) ≤
        m * (2 * (j + 1) * (2 * Real.exp (-((ε : ℝ) ^ 2 * (k * (max (2 * k * Nat.clog 2 (n / k)) (2 * k) : Nat)) / 32)) +
          Nat.clog 2 (n / k) * Real.exp (-((k * (max (2 * k * Nat.clog 2 (n / k)) (2 * k) : Nat) : ℝ) / 32))))) := by
  obtain ⟨l1, l2, l3⟩ := rc_side_rel n k hk hk2 hn ops hins hlen hnan hne ε hε hε1 j hpow
  have hr : List.replicate m (RCSketch.fresh n k : RCSketch ℚ) ≠ [] := by simpa using hm
  have a := (C168_multi (List.replicate m (RCSketch.fresh n k : RCSketch ℚ)) hr ops ε
    (2 * (j + 1) * relFail (k * (max (2 * k * Nat.clog 2 (n / k)) (2 * k) : Nat)) (Nat.clog 2 (n / k)) ε)
    (fun d hd => by rw [List.eq_of_mem_replicate hd]; exact l1) (fun d hd => by rw [List.eq_of_mem_replicate hd]; exact l2)).2
  rw [List.length_replicate] at a
  refine ⟨a, fun hfin => ?_⟩
  have b := C168_multi_values (List.replicate m (RCSketch.fresh n k : RCSketch ℚ)) hr ops ε 1 hε hε1
    (2 * (j + 1) * relFail (k * (max (2 * k * Nat.clog 2 (n / k)) (2 * k) : Nat)) (Nat.clog 2 (n / k)) ε) hfin
    (fun d hd => by rw [List.eq_of_mem_replicate hd]; exact l1) (fun d hd => by rw [List.eq_of_mem_replicate hd]; exact l3)
  rw [List.length_replicate] at b
  exact b

open Classical in
/-- C168 for `m` `RCSketch2`s in a `MultiDigest`. -/
theorem C168_multi_rcsketch2 {sec : Nat → Nat} {k : Nat} (hk : Spec.Sections sec k) (m : Nat) (hm : m ≠ 0)
    (ops : List (Op (Fl ℚ))) (hins : ∀ o ∈ ops, (∃ x, o = .add x) ∨ ∃ xs, o = .addBuffer xs)
    (hlen : (itemsOf ops).length < 2 ^ 32) (hnan : ∀ y ∈ itemsOf ops, y ≠ .nan) (hne : itemsOf ops ≠ [])
    (ε : ℚ) (hε : 0 ≤ ε) (hε1 : ε ≤ 1 / 9) (j : Nat) (hpow : ((itemsOf ops).length : ℚ) ≤ (1 + ε) ^ j) :
    ((exp (execAll (MultiDigest.built (List.replicate m (RC2.new sec k)) : MultiDigest (RC2 sec ℚ)) ops)
      (fun d => if RelQ (itemsOf ops) ε d then 0 else 1) : ℚ) : ℝ) ≤
      m * (2 * (j + 1) * (2 * Real.exp (-(3 * (ε : ℝ) ^ 2 * k / 16)) + 22 * Real.exp (-(3 * (k : ℝ) / 16)))) ∧
    ((∀ y ∈ itemsOf ops, ∃ r : ℚ, y = .fin r) →
      ((exp (execAll (MultiDigest.built (List.replicate m (RC2.new sec k)) : MultiDigest (RC2 sec ℚ)) ops)
        (fun d => if MultiV (itemsOf ops) ε (1 - 3 * ε) d then 0 else 1) : ℚ) : ℝ) ≤
        m * (2 * (j + 1) * (2 * Real.exp (-(3 * (ε : ℝ) ^ 2 * k / 16)) + 22 * Real.exp (-(3 * (k : ℝ) / 16))))) := by
  obtain ⟨l1, l2, l3⟩ := rc2_side_rel hk ops hins hlen hnan hne ε hε hε1 j hpow
  have hr : List.replicate m (RC2.new sec k : RC2 sec ℚ) ≠ [] := by simpa using hm
  have a := (C168_multi (List.replicate m (RC2.new sec k : RC2 sec ℚ)) hr ops ε
    (2 * (j + 1) * (2 * Real.exp (-(3 * (ε : ℝ) ^ 2 * k / 16)) + 22 * Real.exp (-(3 * (k : ℝ) / 16))))
    (fun d hd => by rw [List.eq_of_mem_replicate hd]; exact l1) (fun d hd => by rw [List.eq_of_mem_replicate hd]; exact l2)).2
  rw [List.length_replicate] at a
  refine ⟨a, fun hfin => ?_⟩
  have b := C168_multi_values (List.replicate m (RC2.new sec k : RC2 sec ℚ)) hr ops ε (1 - 3 * ε) hε hε1
    (2 * (j + 1) * (2 * Real.exp (-(3 * (ε : ℝ) ^ 2 * k / 16)) + 22 * Real.exp (-(3 * (k : ℝ) / 16)))) hfin
    (fun d hd => by rw [List.eq_of_mem_replicate hd]; exact l1) (fun d hd => by rw [List.eq_of_mem_replicate hd]; exact l3)
  rw [List.length_replicate] at b
  exact b

theorem counts_of_sure {x : Fl ℚ} {ops : List (Op (Fl ℚ))} {n R V : Nat} {d : D} (h : Concentrates x ops n R V d)
    (hst : Always (execAll d ops) (fun s => ∃ a, Digest.estQuantileAtValue s x = .ret (a, s))) :
    Always (execAll d ops) (fun s => Digest.count (F := Fl ℚ) s = .ret n) := by
  have := h.sure
  rw [always_bind] at this
  refine (this.and hst.partially).mono ?_
  rintro s ⟨h1, a, h2⟩
  rw [h2] at h1
  exact h1.2

open Classical in
/-- C168 for `m` `RCSketch`es `new(n, k)`, `k` even, in a `ParallelDigest`, every share non-empty and of at most `n` items: except with
probability at most `m` times that of one sketch (C164) all quantile queries at once are off by at most the fraction `3 ε` of the rank. -/
theorem C168_parallel_rcsketch (n k m : Nat) (hm : m ≠ 0) (hk : 1 ≤ k) (hk2 : k % 2 = 0) (hn : n < 2 ^ 32)
    (ops : List (Op (Fl ℚ))) (hops : PlainIns ops)
    (hfed : ∀ i, i < m → itemsOf (share m i ops) ≠ [] ∧ (itemsOf (share m i ops)).length ≤ n)
    (ε : ℚ) (hε : 0 ≤ ε) (hε1 : ε ≤ 1 / 9) (j : Nat) (hpow : (n : ℚ) ≤ (1 + ε) ^ j) :
    ((exp (execAll (ParallelDigest.new (List.replicate m (RCSketch.fresh n k)) : ParallelDigest (RCSketch ℚ) ℚ) ops)
      (fun d => if RelQ (itemsOf ops) ε d then 0 else 1) : ℚ) : ℝ) ≤
      m * (2 * (j + 1) * (2 * Real.exp (-((ε : ℝ) ^ 2 * (k * (max (2 * k * Nat.clog 2 (n / k)) (2 * k) : Nat)) / 32)) +
        Nat.clog 2 (n / k) * Real.exp (-((k * (max (2 * k * Nat.clog 2 (n / k)) (2 * k) : Nat) : ℝ) / 32)))) := by
  have hlr : (List.replicate m (RCSketch.fresh n k : RCSketch ℚ)).length = m := List.length_replicate
  have hcap : n < rcCapacity n k := RCSketch.C122_declared n k hk (lt_of_lt_of_le (by omega : n < 1 * (2 ^ 33 - 34)) (Nat.mul_le_mul_right _ hk))
  have key : ∀ i, i < m → Always (execAll (RCSketch.fresh n k : RCSketch ℚ) (share m i ops))
      (fun s => Digest.count (F := Fl ℚ) s = .ret (itemsOf (share m i ops)).length) ∧
      ((exp (execAll (RCSketch.fresh n k : RCSketch ℚ) (share m i ops)) (fun s => if RelQ (itemsOf (share m i ops)) ε s then 0 else 1) : ℚ) : ℝ) ≤
      2 * (j + 1) * relFail (k * (max (2 * k * Nat.clog 2 (n / k)) (2 * k) : Nat)) (Nat.clog 2 (n / k)) ε := by
    intro i hi
    obtain ⟨a1, a2⟩ := hfed i hi
    obtain ⟨h1, h2⟩ := share_ins m i ops
    have hnan : ∀ y ∈ itemsOf (share m i ops), y ≠ .nan := fun y hy => hops.nan y (h2 hy)
    have hp : ((itemsOf (share m i ops)).length : ℚ) ≤ (1 + ε) ^ j := le_trans (by exact_mod_cast a2) hpow
    refine ⟨?_, (rc_side_rel n k hk hk2 hn _ h1 a2 hnan a1 ε hε hε1 j hp).2.1⟩
    exact counts_of_sure (rc_concentrates n k hk hk2 _ h1 (by omega) (by omega) hnan a1 (.fin 0) (by simp))
      ((rc_side n k hk hk2 hn _ h1 a2 hnan a1 (.fin 0) (by simp)).1.mono (fun s hs => ⟨_, hs.1⟩))
  have h := (C168_parallel 1 one_ne_zero (List.replicate m (RCSketch.fresh n k : RCSketch ℚ)) (by simpa using hm) ops hops ε _
    (fun i hi => by rw [hlr] at hi ⊢; exact (hfed i hi).1)
    (fun i hi => by rw [List.getElem_replicate, hlr]; rw [hlr] at hi; simpa using (key i hi).1)
    (fun i hi => by rw [List.getElem_replicate, hlr]; rw [hlr] at hi; exact (key i hi).2)).2
  rw [hlr] at h
  exact h

open Classical in
/-- C168 for `m` `RCSketch2`s in a `ParallelDigest`, every share non-empty and of at most `n` items. -/
theorem C168_parallel_rcsketch2 {sec : Nat → Nat} {k : Nat} (hk : Spec.Sections sec k) (n m : Nat) (hm : m ≠ 0) (hn : n < 2 ^ 32)
    (ops : List (Op (Fl ℚ))) (hops : PlainIns ops)
    (hfed : ∀ i, i < m → itemsOf (share m i ops) ≠ [] ∧ (itemsOf (share m i ops)).length ≤ n)
    (ε : ℚ) (hε : 0 ≤ ε) (hε1 : ε ≤ 1 / 9) (j : Nat) (hpow : (n : ℚ) ≤ (1 + ε) ^ j) :
    ((exp (execAll (ParallelDigest.new (List.replicate m (RC2.new sec k)) : ParallelDigest (RC2 sec ℚ) ℚ) ops)
      (fun d => if RelQ (itemsOf ops) ε d then 0 else 1) : ℚ) : ℝ) ≤
      m * (2 * (j + 1) * (2 * Real.exp (-(3 * (ε : ℝ) ^ 2 * k / 16)) + 22 * Real.exp (-(3 * (k : ℝ) / 16)))) := by
  have hlr : (List.replicate m (RC2.new sec k : RC2 sec ℚ)).length = m := List.length_replicate
  have key : ∀ i, i < m → Always (execAll (RC2.new sec k : RC2 sec ℚ) (share m i ops))
      (fun s => Digest.count (F := Fl ℚ) s = .ret (itemsOf (share m i ops)).length) ∧
      ((exp (execAll (RC2.new sec k : RC2 sec ℚ) (share m i ops)) (fun s => if RelQ (itemsOf (share m i ops)) ε s then 0 else 1) : ℚ) : ℝ) ≤
      2 * (j + 1) * (2 * Real.exp (-(3 * (ε : ℝ) ^ 2 * k / 16)) + 22 * Real.exp (-(3 * (k : ℝ) / 16))) := by
    intro i hi
    obtain ⟨a1, a2⟩ := hfed i hi
    obtain ⟨h1, h2⟩ := share_ins m i ops
    have hnan : ∀ y ∈ itemsOf (share m i ops), y ≠ .nan := fun y hy => hops.nan y (h2 hy)
    have hp : ((itemsOf (share m i ops)).length : ℚ) ≤ (1 + ε) ^ j := le_trans (by exact_mod_cast a2) hpow
    refine ⟨?_, (rc2_side_rel hk _ h1 (by omega) hnan a1 ε hε hε1 j hp).2.1⟩
    exact counts_of_sure (rc2_concentrates hk _ h1 (by omega) hnan a1 (.fin 0) (by simp))
      ((rc2_side hk _ h1 (by omega) hnan a1 (.fin 0) (by simp)).1.mono (fun s hs => ⟨_, hs.1⟩))
  have h := (C168_parallel 1 one_ne_zero (List.replicate m (RC2.new sec k : RC2 sec ℚ)) (by simpa using hm) ops hops ε _
    (fun i hi => by rw [hlr] at hi ⊢; exact (hfed i hi).1)
    (fun i hi => by rw [List.getElem_replicate, hlr]; rw [hlr] at hi; simpa using (key i hi).1)
    (fun i hi => by rw [List.getElem_replicate, hlr]; rw [hlr] at hi; exact (key i hi).2)).2
  rw [hlr] at h
  exact h

/-! ### A concrete case -/

open Classical in
/-- Four sketches `new(1000000, 100)` in a `ParallelDigest`, any four million non-NaN items in one batch: with probability at least
`1 - 4·10⁻⁵` every quantile query whatsoever is off by at most 15% of the rank, and, the items being finite, every value query satisfies
`ParV` with 15%. -/
theorem C168_example (xs : List (Fl ℚ)) (hl : xs.length = 4000000) (hxs : ∀ y ∈ xs, y ≠ .nan) :
    ((exp (execAll (ParallelDigest.new (List.replicate 4 (RCSketch.fresh 1000000 100)) : ParallelDigest (RCSketch ℚ) ℚ) [.addBuffer xs])
      (fun d => if RelQ xs (1 / 20) d then 0 else 1) : ℚ) : ℝ) ≤ 4 / 10 ^ 5 ∧
    ((∀ y ∈ xs, Item y) →
      ((exp (execAll (ParallelDigest.new (List.replicate 4 (RCSketch.fresh 1000000 100)) : ParallelDigest (RCSketch ℚ) ℚ) [.addBuffer xs])
        (fun d => if ParV xs (1 / 20) d then 0 else 1) : ℚ) : ℝ) ≤ 4 / 10 ^ 5) := by
  have hB : max (2 * 100 * Nat.clog 2 (1000000 / 100)) (2 * 100) = 2800 := by decide +kernel
  have hL : Nat.clog 2 (1000000 / 100) = 14 := by decide +kernel
  have he : itemsOf [Op.addBuffer xs] = xs := by simp [itemsOf, Op.items]
  have hne : xs ≠ [] := by intro h; rw [h] at hl; simp at hl
  have hsh : ∀ i, i < 4 → (itemsOf (share 4 i [Op.addBuffer xs])).length = 1000000 := by
    intro i hi
    have hp : (piece 4 i xs).length = 1000000 := by
      unfold piece
      rw [List.length_take, List.length_drop, hl]
      norm_num
      omega
    have hpn : piece 4 i xs ≠ [] := by intro h; rw [h] at hp; simp at hp
    have e1 : (Op.addBuffer xs : Op (Fl ℚ)).items = xs := rfl
    rw [share_cons, e1, if_neg hpn]
    simpa [itemsOf, Op.items, share] using hp
  have h := C168_parallel_rcsketch 1000000 100 4 (by norm_num) (by norm_num) (by norm_num) (by norm_num) [.addBuffer xs]
    (fun o ho => by
      have : o = .addBuffer xs := by simpa using ho
      subst this
      exact ⟨Or.inr ⟨xs, rfl, hne⟩, hxs⟩)
    (fun i hi => by
      have := hsh i hi
      exact ⟨by intro h; rw [h] at this; simp at this, this.le⟩)
    (1 / 20) (by norm_num) (by norm_num) 284 (by rw [show 284 = 71 * 4 by norm_num, pow_mul]; norm_num)
  rw [hB, hL, he] at h
  have h2 := mul_le_mul_of_nonneg_left relFail_million (show (0 : ℝ) ≤ (4 : Nat) * (2 * ((284 : Nat) + 1)) by positivity)
  rw [← mul_assoc] at h
  have h3 := (h.trans h2).trans (show _ ≤ (4 : ℝ) / 10 ^ 5 by norm_num)
  refine ⟨h3, fun hfin => ?_⟩
  have h4 := C168_parallel_values (List.replicate 4 (RCSketch.fresh 1000000 100 : RCSketch ℚ)) [.addBuffer xs] (1 / 20) (by norm_num)
    (by norm_num) (4 / 10 ^ 5) (by rw [he]; exact hne) (by rw [he]; exact hfin) (by rw [he]; exact h3)
  rw [he] at h4
  exact h4

end
end AQ

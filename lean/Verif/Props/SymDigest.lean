/-
Properties C53 and C54 (SymDigest, src/sym_digest.rs).
-/
import Verif.Model.SymDigest
import Verif.Spec.History
import Verif.Spec.F64
import Verif.Proofs.MultiDigest
import Verif.Proofs.Nondet
import Verif.Proofs.Linear

set_option linter.unusedSectionVars false
set_option linter.unusedVariables false
set_option linter.unusedSimpArgs false

namespace AQ
open Prog Spec

namespace Spec
variable {K : Type} [Field K] [LinearOrder K] [IsStrictOrderedRing K] [FloatFmt K]

/-- The call on the mirrored axis: data and values negated, quantile `q` becomes `1 - q`. -/
def mirrorOp : Op (Fl K) → Op (Fl K)
  | .add x => .add (-x)
  | .addBuffer xs => .addBuffer (xs.map (fun x => -x))
  | .quantile v => .quantile (-v)
  | .value q => .value (Fl.lit 1 - q)

/-- The mirrored answers to a history: `1 - a` for quantile queries, `-a` for value queries. -/
def mirrorAnswers : List (Op (Fl K)) → List (Fl K) → List (Fl K)
  | .quantile _ :: os, a :: as => (Fl.lit 1 - a) :: mirrorAnswers os as
  | .value _ :: os, a :: as => (-a) :: mirrorAnswers os as
  | .add _ :: os, as => mirrorAnswers os as
  | .addBuffer _ :: os, as => mirrorAnswers os as
  | _, as => as

/-- Exchange the two sides. -/
def _root_.AQ.SymDigest.swap {D : Type} (s : SymDigest D) : SymDigest D := ⟨s.high, s.low⟩
end Spec

section
variable {K : Type} [Field K] [LinearOrder K] [IsStrictOrderedRing K] [FloatFmt K]
variable {D : Type} [Digest D (Fl K)]

theorem Fl.neg_neg' (a : Fl K) : - -a = a := by cases a <;> simp

theorem Fl.one_sub_one_sub [FloatFmt.Exact K] (a : Fl K) : Fl.lit 1 - (Fl.lit 1 - a) = a := by
  rw [Fl.lit_exact]
  cases a with
  | fin a => rw [Fl.sub_exact, Fl.sub_exact]; congr 1; ring
  | _ => rfl

/-- Comparing with one half on the mirrored axis. -/
theorem compare_mirror (a : K) : compare (1 - a) (1 / 2) = (compare a (1 / 2)).swap := by
  rcases lt_trichotomy a (1 / 2) with h | h | h
  · rw [compare_lt_iff_lt.2 h, compare_gt_iff_gt.2 (by linarith)]; rfl
  · rw [compare_eq_iff_eq.2 h, compare_eq_iff_eq.2 (by linarith)]; rfl
  · rw [compare_gt_iff_gt.2 h, compare_lt_iff_lt.2 (by linarith)]; rfl

theorem Fl.arith_inf :
    (∀ a : K, (.fin a + .ninf : Fl K) = .ninf) ∧ (∀ a : K, (.fin a + .pinf : Fl K) = .pinf) ∧
    (∀ a : K, (.ninf + .fin a : Fl K) = .ninf) ∧ (∀ a : K, (.pinf + .fin a : Fl K) = .pinf) ∧
    (.pinf + .pinf : Fl K) = .pinf ∧ (.ninf + .ninf : Fl K) = .ninf ∧ (.pinf + .ninf : Fl K) = .nan ∧
    (.ninf + .pinf : Fl K) = .nan ∧ (∀ a : K, (.fin a - .ninf : Fl K) = .pinf) ∧ (∀ a : K, (.fin a - .pinf : Fl K) = .ninf) ∧
    (.pinf / .fin 2 : Fl K) = .pinf ∧ (.ninf / .fin 2 : Fl K) = .ninf ∧
    (∀ a : K, Fl.cmp (.pinf : Fl K) (.fin a) = some .gt) ∧ (∀ a : K, Fl.cmp (.ninf : Fl K) (.fin a) = some .lt) ∧
    (∀ a : Fl K, (a + .nan : Fl K) = .nan) ∧ (∀ a : Fl K, (.nan / a : Fl K) = .nan) ∧ (∀ a : Fl K, Fl.cmp .nan a = none) := by
  have h2 : ¬ (2 : K) < 0 := not_lt.2 zero_le_two
  refine ⟨fun _ => rfl, fun _ => rfl, fun _ => rfl, fun _ => rfl, rfl, rfl, rfl, rfl, fun _ => rfl, fun _ => rfl, ?_, ?_, ?_, ?_,
    ?_, ?_, ?_⟩
  · show (if (2 : K) < 0 then _ else _) = _
    rw [if_neg h2]
  · show (if (2 : K) < 0 then _ else _) = _
    rw [if_neg h2]
  · intro a; rw [Fl.cmp_eq (by simp) (by simp), compare_gt_iff_gt.2]; exact lt_of_le_of_ne (Fl.fin_le_pinf a) (by simp)
  · intro a; rw [Fl.cmp_eq (by simp) (by simp), compare_lt_iff_lt.2]; exact lt_of_le_of_ne (Fl.ninf_le _) (by simp)
  · intro a; cases a <;> rfl
  · intro a; cases a <;> rfl
  · intro a; cases a <;> rfl

theorem SymDigest.chooseQuantile_mirror [FloatFmt.Exact K] (l h : Fl K) (g : Fl K → ℚ) :
    exp (chooseQuantile l (Fl.lit 1 - h)) g = exp (chooseQuantile h (Fl.lit 1 - l)) (fun r => g (Fl.lit 1 - r)) := by
  obtain ⟨a1, a2, a3, a4, a5, a6, a7, a8, a9, a10, a11, a12, a13, a14, a15, a16, a17⟩ := Fl.arith_inf (K := K)
  unfold chooseQuantile
  simp only [Fl.lit_exact]
  cases l with
  | fin l =>
    cases h with
    | fin h =>
      simp only [Fl.sub_exact, Fl.add_exact, Fl.div_exact _ (two_ne_zero : (2 : K) ≠ 0), Fl.cmp_fin]
      rw [show (h + (1 - l)) / 2 = 1 - (l + (1 - h)) / 2 by ring, compare_mirror]
      generalize hc : compare ((l + (1 - h)) / 2) (1 / 2) = c
      cases c
      · simp only [Ordering.swap, exp_ret, Fl.sub_exact]; congr 2; ring
      · simp only [Ordering.swap, exp_ret, Fl.sub_exact]; congr 2; ring
      · simp only [Ordering.swap, exp_ret, Fl.sub_exact]
    | nan => rfl
    | _ => simp only [Fl.sub_exact, a1, a2, a3, a4, a9, a10, a11, a12, a13, a14, exp_ret, sub_sub_cancel]
  | nan => cases h <;> rfl
  | pinf =>
    cases h with
    | nan => rfl
    | pinf => rfl
    | _ => simp only [Fl.sub_exact, a1, a2, a3, a4, a5, a6, a9, a10, a11, a12, a13, a14, exp_ret, sub_sub_cancel]
  | ninf =>
    cases h with
    | nan => rfl
    | ninf => rfl
    | _ => simp only [Fl.sub_exact, a1, a2, a3, a4, a5, a6, a9, a10, a11, a12, a13, a14, exp_ret, sub_sub_cancel]

theorem SymDigest.chooseValue_mirror [FloatFmt.Exact K] (q l h : Fl K) (g : Fl K → ℚ) :
    exp (chooseValue q l (-h)) g = exp (chooseValue (Fl.lit 1 - q) h (-l)) (fun r => g (-r)) := by
  obtain ⟨a1, a2, a3, a4, a5, a6, a7, a8, a9, a10, a11, a12, a13, a14, a15, a16, a17⟩ := Fl.arith_inf (K := K)
  unfold chooseValue
  simp only [Fl.lit_exact]
  cases q with
  | nan => rfl
  | pinf => simp only [a9, a10, a13, a14, exp_ret]
  | ninf => simp only [a9, a10, a13, a14, exp_ret, Fl.neg_neg']
  | fin q =>
    simp only [Fl.sub_exact, Fl.cmp_fin]
    rw [compare_mirror]
    generalize compare q (1 / 2) = c
    cases c
    · simp only [Ordering.swap, exp_ret, Fl.neg_neg']
    · simp only [Ordering.swap, exp_ret]
      congr 1
      cases l with
      | fin l =>
        cases h with
        | fin h =>
          simp only [Fl.neg_fin, Fl.add_exact, Fl.div_exact _ (two_ne_zero : (2 : K) ≠ 0)]
          congr 1; ring
        | nan => rfl
        | _ => simp only [Fl.neg_pinf, Fl.neg_ninf, Fl.neg_fin, a1, a2, a3, a4, a11, a12]
      | nan => cases h <;> rfl
      | pinf =>
        cases h with
        | nan => rfl
        | pinf => rfl
        | _ => simp only [Fl.neg_pinf, Fl.neg_ninf, Fl.neg_fin, a1, a2, a3, a4, a5, a6, a11, a12]
      | ninf =>
        cases h with
        | nan => rfl
        | ninf => rfl
        | _ => simp only [Fl.neg_pinf, Fl.neg_ninf, Fl.neg_fin, a1, a2, a3, a4, a5, a6, a11, a12]
    · simp only [Ordering.swap, exp_ret]

theorem SymDigest.answers_mirror [FloatFmt.Exact K] : ∀ (ops : List (Op (Fl K))) (s : SymDigest D)
    (f : List (Fl K) → SymDigest D → ℚ),
    exp (answers s ops) (fun r => f r.1 r.2) =
      exp (answers s.swap (ops.map mirrorOp)) (fun r => f (mirrorAnswers ops r.1) r.2.swap)
  | [], s, f => rfl
  | .add x :: os, s, f => by
    show exp (answers s (.add x :: os)) _ = exp (answers s.swap (.add (-x) :: os.map mirrorOp)) _
    unfold answers Op.call
    simp only [exp_bind, pure_eq, exp_ret]
    show exp (SymDigest.add s x) _ = exp (SymDigest.add s.swap (-x)) _
    unfold SymDigest.add
    simp only [exp_bind, pure_eq, exp_ret, SymDigest.swap, Fl.neg_neg']
    rw [exp_swap]
    refine congrArg _ (funext fun h => congrArg _ (funext fun l => ?_))
    exact answers_mirror os ⟨l, h⟩ f
  | .addBuffer x :: os, s, f => by
    show exp (answers s (.addBuffer x :: os)) _ =
      exp (answers s.swap (.addBuffer (x.map (fun x => -x)) :: os.map mirrorOp)) _
    unfold answers Op.call
    simp only [exp_bind, pure_eq, exp_ret]
    show exp (SymDigest.addBuffer s x) _ = exp (SymDigest.addBuffer s.swap (x.map (fun x => -x))) _
    unfold SymDigest.addBuffer
    simp only [exp_bind, pure_eq, exp_ret, SymDigest.swap, List.map_map, Function.comp_def, Fl.neg_neg', List.map_id']
    rw [exp_swap]
    refine congrArg _ (funext fun h => congrArg _ (funext fun l => ?_))
    exact answers_mirror os ⟨l, h⟩ f
  | .quantile v :: os, s, f => by
    show exp (answers s (.quantile v :: os)) _ = exp (answers s.swap (.quantile (-v) :: os.map mirrorOp)) _
    unfold answers Op.call
    simp only [exp_bind, pure_eq, exp_ret]
    show exp (SymDigest.estQuantileAtValue s v) _ = exp (SymDigest.estQuantileAtValue s.swap (-v)) _
    unfold SymDigest.estQuantileAtValue
    simp only [exp_bind, pure_eq, exp_ret, SymDigest.swap, Fl.neg_neg']
    rw [exp_swap]
    refine congrArg _ (funext fun h => congrArg _ (funext fun l => ?_))
    rw [SymDigest.chooseQuantile_mirror]
    refine congrArg _ (funext fun a => ?_)
    exact answers_mirror os ⟨l.2, h.2⟩ (fun as => f ((Fl.lit 1 - a) :: as))
  | .value q :: os, s, f => by
    show exp (answers s (.value q :: os)) _ = exp (answers s.swap (.value (Fl.lit 1 - q) :: os.map mirrorOp)) _
    unfold answers Op.call
    simp only [exp_bind, pure_eq, exp_ret]
    show exp (SymDigest.estValueAtQuantile s q) _ = exp (SymDigest.estValueAtQuantile s.swap (Fl.lit 1 - q)) _
    unfold SymDigest.estValueAtQuantile
    simp only [exp_bind, pure_eq, exp_ret, SymDigest.swap, Fl.one_sub_one_sub]
    rw [exp_swap]
    refine congrArg _ (funext fun h => congrArg _ (funext fun l => ?_))
    rw [SymDigest.chooseValue_mirror]
    refine congrArg _ (funext fun a => ?_)
    exact answers_mirror os ⟨l.2, h.2⟩ (fun as => f ((-a) :: as))

/-- C53. Mirror symmetry (exact arithmetic; any sub-digests, also randomised): the answers of a history and the mirrored
answers of the mirrored history on the exchanged digests have the same distribution, as have the digests afterwards. -/
theorem C53_mirror_symmetric [FloatFmt.Exact K] (low high : D) (ops : List (Op (Fl K))) (f : List (Fl K) × SymDigest D → ℚ) :
    exp (answers (SymDigest.new low high) ops) f =
      exp (answers (SymDigest.new high low) (ops.map mirrorOp)) (fun r => f (mirrorAnswers ops r.1, r.2.swap)) :=
  SymDigest.answers_mirror ops ⟨low, high⟩ (fun a b => f (a, b))

/-- C53, as for single outcomes: what one side can answer, the mirrored side can. -/
theorem C53_mirror_outcomes [FloatFmt.Exact K] [DecidableEq D] (low high : D) (ops : List (Op (Fl K))) (as : List (Fl K))
    (s : SymDigest D) :
    CanReturn (answers (SymDigest.new low high) ops) (as, s) ↔
      ∃ bs t, CanReturn (answers (SymDigest.new high low) (ops.map mirrorOp)) (bs, t) ∧ mirrorAnswers ops bs = as ∧
        t = s.swap := by
  have key : ∀ {α : Type} (p : Prog α) (S : α → Prop) [DecidablePred S],
      (∃ a, CanReturn p a ∧ S a) ↔ 0 < exp p (fun r => if S r then 1 else 0) := by
    intro α p S _
    induction p with
    | ret a =>
      by_cases h : S a <;> simp [CanReturn, h]
    | fail e => simp [CanReturn, exp]
    | flip g ih =>
      have hn : ∀ q : Prog α, 0 ≤ exp q (fun r => if S r then (1 : ℚ) else 0) := by
        intro q
        refine (Prog.exp_zero q).symm.le.trans (exp_mono ?_)
        rw [partially_iff]
        intro a _
        split <;> norm_num
      rw [exp_flip]
      have h1 := hn (g false)
      have h2 := hn (g true)
      have i1 := ih false
      have i2 := ih true
      constructor
      · rintro ⟨a, ⟨b, hb⟩, ha⟩
        cases b
        · have := i1.1 ⟨a, hb, ha⟩; linarith
        · have := i2.1 ⟨a, hb, ha⟩; linarith
      · intro h
        rcases h1.lt_or_eq with h | h
        · obtain ⟨a, ha, hs⟩ := i1.2 h
          exact ⟨a, ⟨false, ha⟩, hs⟩
        · obtain ⟨a, ha, hs⟩ := i2.2 (by linarith)
          exact ⟨a, ⟨true, ha⟩, hs⟩
  have h1 : CanReturn (answers (SymDigest.new low high) ops) (as, s) ↔
      ∃ r, CanReturn (answers (SymDigest.new low high) ops) r ∧ r = (as, s) := by simp
  rw [h1, key, C53_mirror_symmetric, ← key]
  constructor
  · rintro ⟨⟨bs, t⟩, h, e⟩
    simp only [Prod.mk.injEq] at e
    exact ⟨bs, t, h, e.1, by rw [← e.2]; rfl⟩
  · rintro ⟨bs, t, h, e, e2⟩
    exact ⟨(bs, t), h, by rw [e, e2]; rfl⟩

/-- The choice between two finite answers. -/
theorem SymDigest.chooseQuantile_fin [FloatFmt.Exact K] (a b : K) :
    ∃ c : K, chooseQuantile (.fin a) (.fin b) = .ret (.fin c) ∧ (a + b < 1 → c = a) ∧ (1 < a + b → c = b) ∧
      (a + b = 1 → c = 1 / 2) ∧ min a b ≤ c ∧ c ≤ max a b := by
  unfold chooseQuantile
  simp only [Fl.lit_exact, Fl.add_exact, Fl.div_exact _ (two_ne_zero : (2 : K) ≠ 0), Fl.cmp_fin]
  rcases lt_trichotomy (a + b) 1 with h | h | h
  · rw [compare_lt_iff_lt.2 (by linarith : (a + b) / 2 < 1 / 2)]
    exact ⟨a, rfl, fun _ => rfl, fun h' => absurd h' (by linarith), fun h' => absurd h' (by linarith),
      min_le_left _ _, le_max_left _ _⟩
  · rw [compare_eq_iff_eq.2 (by linarith : (a + b) / 2 = 1 / 2)]
    refine ⟨_, rfl, fun h' => absurd h' (by linarith), fun h' => absurd h' (by linarith), fun _ => by linarith, ?_, ?_⟩
    · have h1 := min_le_left a b
      have h2 := min_le_right a b
      linarith
    · have h1 := le_max_left a b
      have h2 := le_max_right a b
      linarith
  · rw [compare_gt_iff_gt.2 (by linarith : (a + b) / 2 > 1 / 2)]
    exact ⟨b, rfl, fun h' => absurd h' (by linarith), fun _ => rfl, fun h' => absurd h' (by linarith),
      min_le_right _ _, le_max_right _ _⟩

theorem SymDigest.chooseValue_fin [FloatFmt.Exact K] (q a b : K) :
    ∃ c : K, chooseValue (.fin q) (.fin a) (.fin b) = .ret (.fin c) ∧ (q < 1 / 2 → c = a) ∧ (1 / 2 < q → c = b) ∧
      (q = 1 / 2 → c = (a + b) / 2) ∧ min a b ≤ c ∧ c ≤ max a b := by
  unfold chooseValue
  simp only [Fl.lit_exact, Fl.add_exact, Fl.div_exact _ (two_ne_zero : (2 : K) ≠ 0), Fl.cmp_fin]
  rcases lt_trichotomy q (1 / 2) with h | h | h
  · rw [compare_lt_iff_lt.2 h]
    exact ⟨a, rfl, fun _ => rfl, fun h' => absurd h' (by linarith), fun h' => absurd h' (by linarith),
      min_le_left _ _, le_max_left _ _⟩
  · rw [compare_eq_iff_eq.2 h]
    refine ⟨_, rfl, fun h' => absurd h' (by linarith), fun h' => absurd h' (by linarith), fun _ => rfl, ?_, ?_⟩
    · have h1 := min_le_left a b
      have h2 := min_le_right a b
      linarith
    · have h1 := le_max_left a b
      have h2 := le_max_right a b
      linarith
  · rw [compare_gt_iff_gt.2 h]
    exact ⟨b, rfl, fun h' => absurd h' (by linarith), fun _ => rfl, fun h' => absurd h' (by linarith),
      min_le_right _ _, le_max_right _ _⟩

/-- C54, quantile queries: the low side answers with a number `a`, the mirrored side with `b`; the answer is `a` if the mean of
`a` and `1 - b` is below one half, `1 - b` if it is above, one half if equal, and lies between `a` and `1 - b`. -/
theorem C54_quantile_answer [FloatFmt.Exact K] (s : SymDigest D) (v : Fl K) :
    Partially (s.estQuantileAtValue v) (fun r => ∃ l h, CanReturn (Digest.estQuantileAtValue s.low v) l ∧
      CanReturn (Digest.estQuantileAtValue s.high (-v)) h ∧ r.2 = ⟨l.2, h.2⟩ ∧
      ∀ a b : K, l.1 = .fin a → h.1 = .fin b → ∃ c : K, r.1 = .fin c ∧
        (a + (1 - b) < 1 → c = a) ∧ (1 < a + (1 - b) → c = 1 - b) ∧ (a + (1 - b) = 1 → c = 1 / 2) ∧
        min a (1 - b) ≤ c ∧ c ≤ max a (1 - b)) := by
  unfold SymDigest.estQuantileAtValue
  rw [partially_bind, partially_iff]
  intro l hl
  rw [partially_bind, partially_iff]
  intro h hh
  rw [partially_bind, partially_iff]
  intro r hr
  refine ⟨l, h, hl, hh, rfl, fun a b ha hb => ?_⟩
  rw [ha, hb, Fl.lit_exact, Fl.sub_exact] at hr
  obtain ⟨c, hc, h1⟩ := SymDigest.chooseQuantile_fin a (1 - b)
  rw [hc] at hr
  exact ⟨c, (show Fl.fin c = r from hr).symm, h1⟩

/-- C54, value queries: the low side's answer `a` below the median, the mirrored side's `-b` above, their mean at the median. -/
theorem C54_value_answer [FloatFmt.Exact K] (s : SymDigest D) (q : K) :
    Partially (s.estValueAtQuantile (.fin q)) (fun r => ∃ l h, CanReturn (Digest.estValueAtQuantile s.low (.fin q)) l ∧
      CanReturn (Digest.estValueAtQuantile s.high (.fin (1 - q))) h ∧ r.2 = ⟨l.2, h.2⟩ ∧
      ∀ a b : K, l.1 = .fin a → h.1 = .fin b → ∃ c : K, r.1 = .fin c ∧
        (q < 1 / 2 → c = a) ∧ (1 / 2 < q → c = -b) ∧ (q = 1 / 2 → c = (a + -b) / 2) ∧ min a (-b) ≤ c ∧ c ≤ max a (-b)) := by
  unfold SymDigest.estValueAtQuantile
  rw [partially_bind, partially_iff]
  intro l hl
  rw [Fl.lit_exact, Fl.sub_exact, partially_bind, partially_iff]
  intro h hh
  rw [partially_bind, partially_iff]
  intro r hr
  refine ⟨l, h, hl, hh, rfl, fun a b ha hb => ?_⟩
  rw [ha, hb, Fl.neg_fin] at hr
  obtain ⟨c, hc, h1⟩ := SymDigest.chooseValue_fin q a (-b)
  rw [hc] at hr
  exact ⟨c, (show Fl.fin c = r from hr).symm, h1⟩

/-- C54. Any interval that surely contains both sides' answers contains the answer, and the query does not panic. So an error
bound that both sides have is an error bound of the SymDigest. -/
theorem C54_between_sides [FloatFmt.Exact K] (s : SymDigest D) (lo hi : K) :
    (∀ v : Fl K, Always (Digest.estQuantileAtValue s.low v) (fun r => ∃ a : K, r.1 = .fin a ∧ lo ≤ a ∧ a ≤ hi) →
      Always (Digest.estQuantileAtValue s.high (-v)) (fun r => ∃ a : K, r.1 = .fin a ∧ lo ≤ 1 - a ∧ 1 - a ≤ hi) →
      Always (s.estQuantileAtValue v) (fun r => ∃ a : K, r.1 = .fin a ∧ lo ≤ a ∧ a ≤ hi)) ∧
    (∀ q : K, Always (Digest.estValueAtQuantile s.low (.fin q)) (fun r => ∃ a : K, r.1 = .fin a ∧ lo ≤ a ∧ a ≤ hi) →
      Always (Digest.estValueAtQuantile s.high (.fin (1 - q))) (fun r => ∃ a : K, r.1 = .fin a ∧ lo ≤ -a ∧ -a ≤ hi) →
      Always (s.estValueAtQuantile (.fin q)) (fun r => ∃ a : K, r.1 = .fin a ∧ lo ≤ a ∧ a ≤ hi)) := by
  constructor
  · intro v h1 h2
    unfold SymDigest.estQuantileAtValue
    rw [always_bind]
    refine h1.mono ?_
    rintro l ⟨a, ha, ha1, ha2⟩
    rw [always_bind]
    refine h2.mono ?_
    rintro h ⟨b, hb, hb1, hb2⟩
    rw [ha, hb, Fl.lit_exact, Fl.sub_exact]
    obtain ⟨c, hc, -, -, -, h3, h4⟩ := SymDigest.chooseQuantile_fin a (1 - b)
    rw [hc]
    exact ⟨c, rfl, (le_min ha1 hb1).trans h3, h4.trans (max_le ha2 hb2)⟩
  · intro q h1 h2
    unfold SymDigest.estValueAtQuantile
    rw [always_bind]
    refine h1.mono ?_
    rintro l ⟨a, ha, ha1, ha2⟩
    rw [Fl.lit_exact, Fl.sub_exact, always_bind]
    refine h2.mono ?_
    rintro h ⟨b, hb, hb1, hb2⟩
    rw [ha, hb, Fl.neg_fin]
    obtain ⟨c, hc, -, -, -, h3, h4⟩ := SymDigest.chooseValue_fin q a (-b)
    rw [hc]
    exact ⟨c, rfl, (le_min ha1 hb1).trans h3, h4.trans (max_le ha2 hb2)⟩

/-- Each side after a history is its digest after the history (the mirrored history for the high side). -/
theorem SymDigest.execAll_sides : ∀ (ops : List (Op (Fl K))) (s : SymDigest D),
    Partially (execAll s ops) (fun t => CanReturn (execAll s.low ops) t.low ∧
      CanReturn (execAll s.high (ops.map mirrorOp)) t.high)
  | [], s => ⟨rfl, rfl⟩
  | o :: os, s => by
    have h : Partially (o.exec s) (fun t => CanReturn (o.exec s.low) t.low ∧ CanReturn ((mirrorOp o).exec s.high) t.high) := by
      cases o with
      | add x =>
        show Partially (SymDigest.add s x) _
        unfold SymDigest.add
        rw [partially_bind, partially_iff]
        intro l hl
        rw [partially_bind, partially_iff]
        intro h hh
        exact ⟨hl, hh⟩
      | addBuffer x =>
        show Partially (SymDigest.addBuffer s x) _
        unfold SymDigest.addBuffer
        rw [partially_bind, partially_iff]
        intro l hl
        rw [partially_bind, partially_iff]
        intro h hh
        exact ⟨hl, hh⟩
      | quantile v =>
        show Partially (SymDigest.estQuantileAtValue s v >>= fun r => .ret r.2) _
        unfold SymDigest.estQuantileAtValue
        simp only [partially_bind]
        rw [partially_iff]
        intro l hl
        rw [partially_iff]
        intro h hh
        rw [partially_iff]
        intro r _
        exact ⟨canReturn_bind.2 ⟨l, hl, rfl⟩, canReturn_bind.2 ⟨h, hh, rfl⟩⟩
      | value v =>
        show Partially (SymDigest.estValueAtQuantile s v >>= fun r => .ret r.2) _
        unfold SymDigest.estValueAtQuantile
        simp only [partially_bind]
        rw [partially_iff]
        intro l hl
        rw [partially_iff]
        intro h hh
        rw [partially_iff]
        intro r _
        exact ⟨canReturn_bind.2 ⟨l, hl, rfl⟩, canReturn_bind.2 ⟨h, hh, rfl⟩⟩
    unfold execAll
    rw [partially_bind]
    refine h.mono ?_
    rintro t ⟨h1, h2⟩
    refine (execAll_sides os t).mono ?_
    rintro u ⟨h3, h4⟩
    exact ⟨canReturn_bind.2 ⟨_, h1, h3⟩, canReturn_bind.2 ⟨_, h2, h4⟩⟩

/-- C54. `count()` is the number of items supplied if the low side counts right. -/
theorem C54_count (low high : D) (h : CountsItems low) (ops : List (Op (Fl K))) :
    Partially (execAll (SymDigest.new low high) ops) (fun s => Digest.count s = .ret (itemsOf ops).length) := by
  refine (SymDigest.execAll_sides ops _).mono ?_
  rintro t ⟨h1, -⟩
  exact (partially_iff _ _).1 (h ops) _ h1

theorem chooseQuantile_nan (low high : Fl K) (h : low = .nan ∨ high = .nan) : Panics (SymDigest.chooseQuantile low high) := by
  unfold SymDigest.chooseQuantile
  have : low + high = .nan := by
    rcases h with rfl | rfl
    · cases high <;> rfl
    · exact Fl.arith_inf.2.2.2.2.2.2.2.2.2.2.2.2.2.2.1 _
  rw [this]
  have : (.nan : Fl K) / Fl.lit 2 = .nan := Fl.arith_inf.2.2.2.2.2.2.2.2.2.2.2.2.2.2.2.1 _
  rw [this]
  have h3 : Fl.cmp (.nan : Fl K) (Fl.lit (1 / 2)) = none := rfl
  dsimp only
  rw [h3]
  simp [Panics]

/-- C54. When one side always answers NaN and the other side answers at all, the quantile query panics. -/
theorem C54_nan_panics (s : SymDigest D) (v : Fl K)
    (h : (Always (Digest.estQuantileAtValue s.low v) (fun r => r.1 = .nan) ∧
          Always (Digest.estQuantileAtValue s.high (-v)) (fun _ => True)) ∨
        (Always (Digest.estQuantileAtValue s.low v) (fun _ => True) ∧
          Always (Digest.estQuantileAtValue s.high (-v)) (fun r => r.1 = .nan))) :
    Panics (s.estQuantileAtValue v) := by
  unfold SymDigest.estQuantileAtValue
  have key : ∀ {P Q : Fl K × D → Prop}, Always (Digest.estQuantileAtValue s.low v) P →
      Always (Digest.estQuantileAtValue s.high (-v)) Q → (∀ l h, P l → Q h → l.1 = .nan ∨ h.1 = .nan) →
      Panics (s.estQuantileAtValue v) := by
    intro P Q h1 h2 h3
    unfold SymDigest.estQuantileAtValue
    refine panics_of_always (h1.mono fun l hl => ?_)
    refine panics_of_always (h2.mono fun r hr => ?_)
    refine panics_bind_left (chooseQuantile_nan _ _ ?_)
    rcases h3 l r hl hr with h | h
    · exact Or.inl h
    · right
      rw [h]
      unfold Fl.lit
      cases (FloatFmt.rnd (1 : K)) <;> rfl
  rcases h with ⟨h1, h2⟩ | ⟨h1, h2⟩
  · exact key h1 h2 (fun l _ hl _ => Or.inl hl)
  · exact key h1 h2 (fun _ r _ hr => Or.inr hr)

end

section linear
variable {K : Type} [Field K] [LinearOrder K] [IsStrictOrderedRing K] [FloorRing K] [FloatFmt K]

theorem LinearDigest.execAll_items (ops : List (Op (Fl K))) :
    Partially (execAll (LinearDigest.new : LinearDigest K) ops) (fun d => d.values.Perm (itemsOf ops)) :=
  LinearDigest.execAll_perm ops

theorem itemsOf_mirror (ops : List (Op (Fl K))) : itemsOf (ops.map mirrorOp) = (itemsOf ops).map (fun x => -x) := by
  induction ops with
  | nil => rfl
  | cons o os ih =>
    show (mirrorOp o).items ++ itemsOf (os.map mirrorOp) = (o.items ++ itemsOf os).map _
    rw [ih, List.map_append]
    cases o <;> rfl

theorem Fl.lt_inf (a : K) : (.ninf : Fl K) < .pinf ∧ (.ninf : Fl K) < .fin a ∧ (.fin a : Fl K) < .pinf ∧
    ¬ (.pinf : Fl K) < .ninf ∧ ¬ (.fin a : Fl K) < .ninf ∧ ¬ (.pinf : Fl K) < .fin a := by
  have h1 : (.ninf : Fl K) < .pinf := lt_of_le_of_ne (Fl.ninf_le _) (by simp)
  have h2 : (.ninf : Fl K) < .fin a := lt_of_le_of_ne (Fl.ninf_le _) (by simp)
  have h3 : (.fin a : Fl K) < .pinf := lt_of_le_of_ne (Fl.fin_le_pinf a) (by simp)
  exact ⟨h1, h2, h3, h1.not_gt, h2.not_gt, h3.not_gt⟩

theorem countP_neg (l : List (Fl K)) (hnan : ∀ x ∈ l, x ≠ .nan) (v : Fl K) (hv : v ≠ .nan) :
    l.countP (fun x => Fl.lt x v) + l.countP (fun x => Fl.feq x v) +
      (l.map (fun x => -x)).countP (fun x => Fl.lt x (-v)) = l.length ∧
    (l.map (fun x => -x)).countP (fun x => Fl.feq x (-v)) = l.countP (fun x => Fl.feq x v) := by
  induction l with
  | nil => simp
  | cons x l ih =>
    obtain ⟨h1, h2⟩ := ih (fun y hy => hnan y (by simp [hy]))
    have hx := hnan x (by simp)
    have key : (if Fl.lt x v then 1 else 0) + (if Fl.feq x v then 1 else 0) + (if Fl.lt (-x) (-v) then 1 else 0) = 1 ∧
        Fl.feq (-x) (-v) = Fl.feq x v := by
      match x, v, hx, hv with
      | .ninf, .ninf, _, _ => simp [Fl.lt, Fl.feq]
      | .ninf, .pinf, _, _ => simp [Fl.lt, Fl.feq, Fl.lt_inf (0 : K)]
      | .ninf, .fin w, _, _ => simp [Fl.lt, Fl.feq, Fl.lt_inf w, Fl.lt_inf (-w)]
      | .pinf, .ninf, _, _ => simp [Fl.lt, Fl.feq, Fl.lt_inf (0 : K)]
      | .pinf, .pinf, _, _ => simp [Fl.lt, Fl.feq]
      | .pinf, .fin w, _, _ => simp [Fl.lt, Fl.feq, Fl.lt_inf w, Fl.lt_inf (-w)]
      | .fin w, .ninf, _, _ => simp [Fl.lt, Fl.feq, Fl.lt_inf w, Fl.lt_inf (-w)]
      | .fin w, .pinf, _, _ => simp [Fl.lt, Fl.feq, Fl.lt_inf w, Fl.lt_inf (-w)]
      | .fin a, .fin b, _, _ =>
      rcases lt_trichotomy a b with h | h | h
      · simp [h, h.ne, not_lt.2 h.le]
      · simp [h]
      · simp [h, h.ne', not_lt.2 h.le]
    simp only [List.map_cons, List.countP_cons, List.length_cons, key.2]
    refine ⟨?_, by rw [h2]⟩
    have := key.1
    omega

/-- C75. A SymDigest of two exact digests answers a quantile query exactly: with the mid-rank fraction of the items if the value
does not occur exactly once among them, and otherwise with the fraction of items below it or of items not above it. -/
theorem C75_sym_of_exact_digests [FloatFmt.Exact K] (ops : List (Op (Fl K))) (hne : itemsOf ops ≠ [])
    (hnan : ∀ x ∈ itemsOf ops, x ≠ .nan) (v : Fl K) (hv : v ≠ .nan) :
    Partially (execAll (SymDigest.new (LinearDigest.new : LinearDigest K) LinearDigest.new) ops) (fun s =>
      Always (s.estQuantileAtValue v) (fun r => ∃ a : K, r.1 = .fin a ∧
        ((itemsOf ops).countP (fun x => Fl.lt x v) : K) / (itemsOf ops).length ≤ a ∧
        a ≤ (((itemsOf ops).countP (fun x => Fl.lt x v) : K) + (itemsOf ops).countP (fun x => Fl.feq x v)) /
          (itemsOf ops).length ∧
        ((itemsOf ops).countP (fun x => Fl.feq x v) ≠ 1 → a = midRank (itemsOf ops) v / (itemsOf ops).length))) := by
  refine (SymDigest.execAll_sides ops _).mono ?_
  rintro t ⟨h1, h2⟩
  have p1 := (partially_iff _ _).1 (LinearDigest.execAll_perm ops) _ h1
  have p2 := (partially_iff _ _).1 (LinearDigest.execAll_perm (ops.map mirrorOp)) _ h2
  rw [itemsOf_mirror] at p2
  generalize itemsOf ops = l at *
  have hN : (0 : K) < l.length := Nat.cast_pos.2 (List.length_pos_of_ne_nil hne)
  have n1 : t.low.values ≠ [] := by intro h; rw [h] at p1; exact hne p1.nil_eq.symm
  have n2 : t.high.values ≠ [] := by
    intro h; rw [h] at p2; exact hne (by simpa using p2.nil_eq.symm)
  have q1 : t.low.estQuantileAtValue v = .fin (midRank l v / l.length) := by
    rw [t.low.estQuantile_eq v n1 (exactCounts_of_exact _) (Fl.rnd_exact _) (Fl.rnd_exact _), Fl.rnd_exact]
    unfold midRank
    rw [p1.countP_eq, p1.countP_eq, p1.length_eq]
  have q2 : t.high.estQuantileAtValue (-v) = .fin (midRank (l.map (fun x => -x)) (-v) / l.length) := by
    rw [t.high.estQuantile_eq (-v) n2 (exactCounts_of_exact _) (Fl.rnd_exact _) (Fl.rnd_exact _), Fl.rnd_exact]
    unfold midRank
    rw [p2.countP_eq, p2.countP_eq, p2.length_eq, List.length_map]
  obtain ⟨c1, c2⟩ := countP_neg l hnan v hv
  have c1' : (l.countP (fun x => Fl.lt x v) : K) + l.countP (fun x => Fl.feq x v) +
      (l.map (fun x => -x)).countP (fun x => Fl.lt x (-v)) = l.length := by exact_mod_cast c1
  unfold SymDigest.estQuantileAtValue
  show Always ((Prog.ret (t.low.estQuantileAtValue v, t.low) : Prog _) >>= fun l =>
    (Prog.ret (t.high.estQuantileAtValue (-v), t.high) : Prog _) >>= _) _
  rw [bind_ret, bind_ret, q1, q2, Fl.lit_exact, Fl.sub_exact]
  obtain ⟨c, hc, -, -, -, h3, h4⟩ := SymDigest.chooseQuantile_fin (midRank l v / (l.length : K))
    (1 - midRank (l.map (fun x => -x)) (-v) / l.length)
  rw [hc]
  have e0 : (0 : K) ≤ l.countP (fun x => Fl.feq x v) := Nat.cast_nonneg _
  have hb : 1 - midRank (l.map (fun x => -x)) (-v) / (l.length : K) =
      ((l.length : K) - midRank (l.map (fun x => -x)) (-v)) / l.length := by field_simp
  rw [hb] at h3 h4
  refine ⟨c, rfl, ?_, ?_, ?_⟩
  · refine le_trans (le_min ?_ ?_) h3
    · refine div_le_div_of_nonneg_right ?_ hN.le
      unfold midRank
      split <;> linarith
    · refine div_le_div_of_nonneg_right ?_ hN.le
      unfold midRank
      rw [c2]
      split <;> linarith
  · refine h4.trans (max_le ?_ ?_)
    · refine div_le_div_of_nonneg_right ?_ hN.le
      unfold midRank
      split <;> linarith
    · refine div_le_div_of_nonneg_right ?_ hN.le
      unfold midRank
      rw [c2]
      split <;> linarith
  · intro hne1
    have : (l.length : K) - midRank (l.map (fun x => -x)) (-v) = midRank l v := by
      unfold midRank
      rw [c2]
      by_cases h2 : 2 ≤ l.countP (fun x => Fl.feq x v)
      · rw [if_pos h2]; linarith
      · rw [if_neg h2]
        have h0 : l.countP (fun x => Fl.feq x v) = 0 := by omega
        rw [h0, Nat.cast_zero] at c1'
        linarith
    rw [this] at h3 h4
    rw [min_self] at h3
    rw [max_self] at h4
    exact le_antisymm h4 h3

end linear

section examples
attribute [local instance] ratExact ratExact_exact

/-- C53: a history with both kinds of queries on unequal sides. -/
def symHist : List (Op (Fl ℚ)) := [.addBuffer [.fin 3, .fin 1, .fin 2, .fin 2], .value (.fin (1 / 4)), .add (.fin 7), .quantile (.fin 3)]
example : Always (answers (SymDigest.new (LinearDigest.new : LinearDigest ℚ) ⟨[.fin 9]⟩) symHist) (fun r =>
    r.1 = [.fin 2, .fin (5 / 6)]) := by decide +kernel
example : Always (answers (SymDigest.new (⟨[.fin 9]⟩ : LinearDigest ℚ) LinearDigest.new) (symHist.map mirrorOp)) (fun r =>
    r.1 = [.fin (-2), .fin (1 / 6)]) := by decide +kernel

/-- C54: an empty SymDigest panics on a quantile query although its sides do not. -/
theorem C54_empty_panics :
    Panics ((SymDigest.new (LinearDigest.new : LinearDigest ℚ) LinearDigest.new).estQuantileAtValue (.fin 0)) := by
  decide +kernel

/-- C75: values occurring once, twice and never. -/
example : Always (answers (SymDigest.new (LinearDigest.new : LinearDigest ℚ) LinearDigest.new)
    [.addBuffer [.fin 3, .fin 1, .fin 2, .fin 2], .quantile (.fin 1), .quantile (.fin 2), .quantile (.fin 3), .quantile (.fin 4)])
    (fun r => r.1 = [.fin 0, .fin (1 / 2), .fin 1, .fin 1]) := by decide +kernel

end examples
end AQ

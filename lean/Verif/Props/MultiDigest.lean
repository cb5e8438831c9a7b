/-
Properties C55, C56, C73 and C74 (MultiDigest, src/multi_digest.rs).
-/
import Verif.Proofs.TraitIns
import Verif.Proofs.MultiDigest
import Verif.Props.BufferedDigest
import Verif.Props.RCSketch
import Verif.Proofs.Nondet

set_option linter.unusedSectionVars false
set_option linter.unusedVariables false

namespace AQ
open Prog Spec

section
variable {K : Type} [Field K] [LinearOrder K] [IsStrictOrderedRing K] [FloatFmt K]
variable {D : Type} [Digest D (Fl K)]

theorem MultiDigest.mean_of_answers [FloatFmt.Exact K] {ds : List D} {as : List K} (h : as.length = ds.length) (hne : ds ≠ []) :
    (as.map Fl.fin).foldl (· + ·) (Fl.lit 0) / Fl.ofNat ds.length = (.fin (as.sum / as.length) : Fl K) := by
  have h0 : ((ds.length : Nat) : K) ≠ 0 := Nat.cast_ne_zero.2 (List.length_pos_of_ne_nil hne).ne'
  rw [Fl.lit_exact, MultiDigest.foldl_fin, Fl.ofNat_exact, Fl.div_exact _ h0, zero_add, h]

/-- A MultiDigest with the members `ds`, built with its public functions. -/
def MultiDigest.built {D : Type} (ds : List D) : MultiDigest D := ds.foldl MultiDigest.addDigest MultiDigest.new

theorem MultiDigest.built_eq {D : Type} (ds : List D) : MultiDigest.built ds = ⟨ds⟩ := by
  have : ∀ (ds es : List D), ds.foldl MultiDigest.addDigest (⟨es⟩ : MultiDigest D) = ⟨es ++ ds⟩ := by
    intro ds
    induction ds with
    | nil => simp
    | cons d ds ih => intro es; rw [List.foldl_cons, MultiDigest.addDigest, ih]; simp
  exact this ds []

/-- C55. Members of different types (`Box<dyn Digest>`): a boxed digest answers like its content. -/
theorem C55_boxed_members {D E F : Type} [Digest D F] [Digest E F] (ops : List (Op F)) :
    (∀ d : D, answers (.inl d : D ⊕ E) ops = (answers d ops >>= fun r => .ret (r.1, .inl r.2)) ∧
      Digest.count (F := F) (.inl d : D ⊕ E) = Digest.count (F := F) d) ∧
    (∀ e : E, answers (.inr e : D ⊕ E) ops = (answers e ops >>= fun r => .ret (r.1, .inr r.2)) ∧
      Digest.count (F := F) (.inr e : D ⊕ E) = Digest.count (F := F) e) := by
  refine ⟨fun d => ⟨?_, rfl⟩, fun e => ⟨?_, rfl⟩⟩
  · induction ops generalizing d with
    | nil => rfl
    | cons o os ih =>
      have step : o.call (.inl d : D ⊕ E) = (o.call d >>= fun r => .ret (r.1, .inl r.2)) := by
        cases o <;> simp only [Op.call, Digest.add, Digest.addBuffer, Digest.estQuantileAtValue, Digest.estValueAtQuantile, bind_assoc, pure_eq, bind_ret]
      simp only [answers, step, bind_assoc, bind_ret, ih, pure_eq]
  · induction ops generalizing e with
    | nil => rfl
    | cons o os ih =>
      have step : o.call (.inr e : D ⊕ E) = (o.call e >>= fun r => .ret (r.1, .inr r.2)) := by
        cases o <;> simp only [Op.call, Digest.add, Digest.addBuffer, Digest.estQuantileAtValue, Digest.estValueAtQuantile, bind_assoc, pure_eq, bind_ret]
      simp only [answers, step, bind_assoc, bind_ret, ih, pure_eq]

/-- C55. Whenever a quantile or value query returns, there are answers of the members, in order, which are numbers only if the
MultiDigest's answer is their mean; the members are left in the states after these answers. -/
theorem C55_mean_of_members [FloatFmt.Exact K] (ds : List D) (hne : ds ≠ []) (x : Fl K) :
    Partially ((MultiDigest.built ds).estQuantileAtValue x) (fun r => ∃ rs : List (Fl K × D),
      List.Forall₂ (fun d s => CanReturn (Digest.estQuantileAtValue d x) s) ds rs ∧
      r.2 = MultiDigest.built (rs.map Prod.snd) ∧
      ∀ as : List K, rs.map Prod.fst = as.map Fl.fin → r.1 = .fin (as.sum / as.length)) ∧
    Partially ((MultiDigest.built ds).estValueAtQuantile x) (fun r => ∃ rs : List (Fl K × D),
      List.Forall₂ (fun d s => CanReturn (Digest.estValueAtQuantile d x) s) ds rs ∧
      r.2 = MultiDigest.built (rs.map Prod.snd) ∧
      ∀ as : List K, rs.map Prod.fst = as.map Fl.fin → r.1 = .fin (as.sum / as.length)) := by
  simp only [MultiDigest.built_eq]
  constructor
  all_goals
    first
      | unfold MultiDigest.estQuantileAtValue
      | unfold MultiDigest.estValueAtQuantile
    rw [partially_bind]
    refine (MultiDigest.sumLoop_partially _ ds (Fl.lit 0)).mono ?_
    rintro r ⟨rs, h1, h2, h3⟩
    refine ⟨rs, h1, by simp [h2], fun as has => ?_⟩
    have hl : as.length = ds.length := by
      rw [h1.length_eq, ← List.length_map (as := rs) (f := Prod.fst), has, List.length_map]
    show r.1 / _ = _
    rw [h3, has]
    exact MultiDigest.mean_of_answers hl hne

theorem MultiDigest.mean_between {lo hi : K} {as : List K} (h : ∀ a ∈ as, lo ≤ a ∧ a ≤ hi) (hne : as ≠ []) :
    lo ≤ as.sum / as.length ∧ as.sum / as.length ≤ hi := by
  have h0 : (0 : K) < as.length := Nat.cast_pos.2 (List.length_pos_of_ne_nil hne)
  rw [le_div_iff₀ h0, div_le_iff₀ h0]
  constructor
  · have := List.card_nsmul_le_sum as lo (fun a ha => (h a ha).1)
    rw [nsmul_eq_mul] at this
    linarith
  · have := List.sum_le_card_nsmul as hi (fun a ha => (h a ha).2)
    rw [nsmul_eq_mul] at this
    linarith

theorem MultiDigest.loop_between [FloatFmt.Exact K] (est : D → Prog (Fl K × D)) (ds : List D) (hne : ds ≠ []) (lo hi : K)
    (h : ∀ d ∈ ds, Always (est d) (fun r => ∃ a : K, r.1 = .fin a ∧ lo ≤ a ∧ a ≤ hi)) :
    Always (MultiDigest.sumLoop est ds (Fl.lit 0)) (fun r =>
      ∃ a : K, r.1 / Fl.ofNat ds.length = .fin a ∧ lo ≤ a ∧ a ≤ hi) := by
  refine (MultiDigest.sumLoop_always est ds (Fl.lit 0) h).mono ?_
  rintro r ⟨rs, h0, h1, h2, h3⟩
  have hex : ∃ as : List K, rs.map Prod.fst = as.map Fl.fin ∧ ∀ a ∈ as, lo ≤ a ∧ a ≤ hi := by
    clear h0 h2 h3
    induction rs with
    | nil => exact ⟨[], rfl, by simp⟩
    | cons s rs ih =>
      obtain ⟨as, e, hb⟩ := ih (fun s' hs' => h1 s' (by simp [hs']))
      obtain ⟨a, ha, hab⟩ := h1 s (by simp)
      refine ⟨a :: as, by simp [e, ha], ?_⟩
      intro b hb'
      rcases List.mem_cons.1 hb' with rfl | hb'
      · exact hab
      · exact hb b hb'
  obtain ⟨as, e, hb⟩ := hex
  have hl : as.length = ds.length := by
    rw [← h0, ← List.length_map (as := rs) (f := Prod.fst), e, List.length_map]
  refine ⟨_, ?_, MultiDigest.mean_between hb ?_⟩
  · rw [h3, e]; exact MultiDigest.mean_of_answers hl hne
  · intro h0
    rw [h0] at hl
    exact hne (List.length_eq_zero_iff.1 hl.symm)

/-- C55. If each member surely answers with a number between `lo` and `hi`, so does the MultiDigest. -/
theorem C55_between_members [FloatFmt.Exact K] (ds : List D) (hne : ds ≠ []) (x : Fl K) (lo hi : K) :
    ((∀ d ∈ ds, Always (Digest.estQuantileAtValue d x) (fun r => ∃ a : K, r.1 = .fin a ∧ lo ≤ a ∧ a ≤ hi)) →
      Always ((MultiDigest.built ds).estQuantileAtValue x) (fun r => ∃ a : K, r.1 = .fin a ∧ lo ≤ a ∧ a ≤ hi)) ∧
    ((∀ d ∈ ds, Always (Digest.estValueAtQuantile d x) (fun r => ∃ a : K, r.1 = .fin a ∧ lo ≤ a ∧ a ≤ hi)) →
      Always ((MultiDigest.built ds).estValueAtQuantile x) (fun r => ∃ a : K, r.1 = .fin a ∧ lo ≤ a ∧ a ≤ hi)) := by
  simp only [MultiDigest.built_eq]
  constructor <;> intro h
  · unfold MultiDigest.estQuantileAtValue
    rw [always_bind]
    exact MultiDigest.loop_between _ ds hne lo hi h
  · unfold MultiDigest.estValueAtQuantile
    rw [always_bind]
    exact MultiDigest.loop_between _ ds hne lo hi h

/-- C55. Without members both answers are NaN. -/
theorem C55_no_members_nan [FloatFmt.Mono K] (x : Fl K) :
    Always ((MultiDigest.new : MultiDigest D).estQuantileAtValue x) (fun r => r.1 = .nan) ∧
    Always ((MultiDigest.new : MultiDigest D).estValueAtQuantile x) (fun r => r.1 = .nan) := by
  have : (Fl.lit 0 : Fl K) / Fl.ofNat 0 = .nan := by
    unfold Fl.lit Fl.ofNat
    rw [Nat.cast_zero, FloatFmt.Mono.rnd_zero, Fl.div_fin, if_pos rfl]
    simp [Fl.signInf]
  exact ⟨this, this⟩

/-- All members count the items `n`. -/
theorem sumCounts_const (n : Nat) : ∀ ds : List D, (∀ d ∈ ds, Digest.count d = .ret n) → sumCounts ds = .ret (ds.length * n)
  | [], _ => by simp [sumCounts]
  | d :: ds, h => by
    unfold sumCounts
    rw [h d (by simp), bind_ret, sumCounts_const n ds (fun d' hd' => h d' (by simp [hd'])), bind_ret, List.length_cons,
      Nat.succ_mul, Nat.add_comm]
    rfl

theorem forEach_forall₂ (f : D → Prog D) : ∀ ds : List D,
    Partially (forEach f ds) (fun ds' => List.Forall₂ (fun d d' => CanReturn (f d) d') ds ds')
  | [] => List.Forall₂.nil
  | d :: ds => by
    unfold forEach
    rw [partially_bind, partially_iff]
    intro d' hd'
    rw [partially_bind]
    exact (forEach_forall₂ f ds).mono (fun ds' h => .cons hd' h)

/-- The members after a history are members after that history. -/
theorem MultiDigest.execAll_members : ∀ (ops : List (Op (Fl K))) (ds : List D),
    Partially (execAll (⟨ds⟩ : MultiDigest D) ops) (fun m =>
      List.Forall₂ (fun d d' => CanReturn (execAll d ops) d') ds m.digests)
  | [], ds => by
    show List.Forall₂ (fun d d' => d = d') ds ds
    exact List.forall₂_same.2 (fun _ _ => rfl)
  | o :: os, ds => by
    unfold execAll
    rw [partially_bind]
    have h : Partially (o.exec (⟨ds⟩ : MultiDigest D)) (fun m =>
        List.Forall₂ (fun d d' => CanReturn (o.exec d) d') ds m.digests) := by
      cases o with
      | add x =>
        show Partially (MultiDigest.add _ x) _
        unfold MultiDigest.add
        rw [partially_bind]
        exact forEach_forall₂ _ ds
      | addBuffer x =>
        show Partially (MultiDigest.addBuffer _ x) _
        unfold MultiDigest.addBuffer
        rw [partially_bind]
        exact forEach_forall₂ _ ds
      | quantile v =>
        show Partially (MultiDigest.estQuantileAtValue _ v >>= _) _
        unfold MultiDigest.estQuantileAtValue
        simp only [partially_bind]
        refine (MultiDigest.sumLoop_partially _ ds (Fl.lit 0)).mono ?_
        rintro r ⟨rs, h1, h2, -⟩
        show List.Forall₂ _ ds r.2
        rw [h2, List.forall₂_map_right_iff]
        exact h1.imp (fun d s hs => by
          rw [Op.exec, canReturn_bind]
          exact ⟨s, hs, rfl⟩)
      | value v =>
        show Partially (MultiDigest.estValueAtQuantile _ v >>= _) _
        unfold MultiDigest.estValueAtQuantile
        simp only [partially_bind]
        refine (MultiDigest.sumLoop_partially _ ds (Fl.lit 0)).mono ?_
        rintro r ⟨rs, h1, h2, -⟩
        show List.Forall₂ _ ds r.2
        rw [h2, List.forall₂_map_right_iff]
        exact h1.imp (fun d s hs => by
          rw [Op.exec, canReturn_bind]
          exact ⟨s, hs, rfl⟩)
    refine h.mono ?_
    intro m hm
    refine (MultiDigest.execAll_members os m.digests).mono ?_
    intro m' hm'
    have : ∀ {ds es fs : List D}, List.Forall₂ (fun d d' => CanReturn (o.exec d) d') ds es →
        List.Forall₂ (fun d d' => CanReturn (execAll d os) d') es fs →
        List.Forall₂ (fun d d' => CanReturn (execAll d (o :: os)) d') ds fs := by
      intro ds es fs h1 h2
      induction h1 generalizing fs with
      | nil => cases h2; exact .nil
      | cons a as ih =>
        cases h2 with
        | cons b bs =>
          refine .cons ?_ (ih bs)
          rw [execAll, canReturn_bind]
          exact ⟨_, a, b⟩
    exact this hm hm'

/-- C56, partial: `count()` is the number of items times the number of members (if each member counts right). The full
statement, that it is the number of items, is false: `C56_two_members_count_double`. -/
theorem C56_count_partial (ds : List D) (hd : ∀ d ∈ ds, CountsItems d) (ops : List (Op (Fl K))) :
    Partially (execAll (MultiDigest.built ds) ops) (fun m => Digest.count m = .ret (ds.length * (itemsOf ops).length)) := by
  rw [MultiDigest.built_eq]
  refine (MultiDigest.execAll_members ops ds).mono ?_
  intro m hm
  show sumCounts m.digests = _
  rw [hm.length_eq]
  refine sumCounts_const _ _ ?_
  have : ∀ {ds es : List D}, List.Forall₂ (fun d d' => CanReturn (execAll d ops) d') ds es → (∀ d ∈ ds, CountsItems d) →
      ∀ d ∈ es, Digest.count d = .ret (itemsOf ops).length := by
    intro ds es h
    induction h with
    | nil => simp
    | cons a as ih =>
      intro h d hd
      rcases List.mem_cons.1 hd with rfl | hd
      · exact (partially_iff _ _).1 (h _ (by simp) ops) _ a
      · exact ih (fun d' hd' => h d' (by simp [hd'])) d hd
  exact this hm hd

end

section
variable {D : Type} [FloatFmt ℚ] [FloatFmt.Exact ℚ] [Digest D (Fl ℚ)]

theorem MultiDigest.averaging (est : D → Prog (Fl ℚ × D)) (ops : List (Op (Fl ℚ))) (ds : List D) (hne : ds ≠ []) (μ v : ℚ)
    (h : ∀ d ∈ ds, MultiDigest.Unbiased est ops μ v d) :
    exp (execAll (⟨ds⟩ : MultiDigest D) ops >>= fun m => (MultiDigest.sumLoop est m.digests (Fl.lit 0) >>= fun r =>
      .ret (r.1 / Fl.ofNat m.digests.length))) Fl.toK = μ ∧
    exp (execAll (⟨ds⟩ : MultiDigest D) ops >>= fun m => (MultiDigest.sumLoop est m.digests (Fl.lit 0) >>= fun r =>
      .ret (r.1 / Fl.ofNat m.digests.length))) (fun x => (x.toK - μ) ^ 2) ≤ v / ds.length := by
  have h0 : (0 : ℚ) < ds.length := Nat.cast_pos.2 (List.length_pos_of_ne_nil hne)
  -- rewrite the answer
  have key : ∀ g : ℚ → ℚ, exp (execAll (⟨ds⟩ : MultiDigest D) ops >>= fun m =>
      (MultiDigest.sumLoop est m.digests (Fl.lit 0) >>= fun r => .ret (r.1 / Fl.ofNat m.digests.length))) (fun x => g x.toK) =
      exp (execAll (⟨ds⟩ : MultiDigest D) ops) (fun m => exp (MultiDigest.sumLoop est m.digests (.fin 0))
        (fun s => g (s.1.toK / ds.length))) := by
    intro g
    simp only [exp_bind, exp_ret]
    refine exp_congr ((MultiDigest.execAll_members ops ds).mono ?_)
    intro m hm
    rw [Fl.lit_exact]
    have hfin : ∀ d ∈ m.digests, Partially (est d) (fun r => r.1.IsFin) := by
      have : ∀ {ds es : List D}, List.Forall₂ (fun d d' => CanReturn (execAll d ops) d') ds es →
          (∀ d ∈ ds, MultiDigest.Unbiased est ops μ v d) → ∀ d ∈ es, Partially (est d) (fun r => r.1.IsFin) := by
        intro ds es h
        induction h with
        | nil => simp
        | cons a as ih =>
          intro h d hd
          rcases List.mem_cons.1 hd with rfl | hd
          · have h1 := (h _ List.mem_cons_self).1.partially
            rw [partially_bind] at h1
            exact (partially_iff _ _).1 h1 _ a
          · exact ih (fun d' hd' => h d' (by simp [hd'])) d hd
      exact this hm h
    have hall : ∀ (es : List D) (a : ℚ), (∀ d ∈ es, Partially (est d) (fun r => r.1.IsFin)) →
        Partially (MultiDigest.sumLoop est es (.fin a)) (fun r => r.1.IsFin) := by
      intro es
      induction es with
      | nil => intro a _; exact ⟨a, rfl⟩
      | cons d es ih =>
        intro a hes
        unfold MultiDigest.sumLoop
        rw [partially_bind]
        refine (hes d (by simp)).mono ?_
        rintro r ⟨x, hx⟩
        rw [partially_bind, hx, Fl.add_exact]
        exact (ih _ (fun d' hd' => hes d' (by simp [hd']))).mono (fun _ h => h)
    refine exp_congr ((hall _ 0 hfin).mono ?_)
    rintro r ⟨x, hx⟩
    rw [hx, Fl.ofNat_exact, ← hm.length_eq, Fl.div_exact _ h0.ne']
    rfl
  obtain ⟨h1, h2⟩ := MultiDigest.sum_variance est ops μ v ds h 0
  constructor
  · rw [key (fun x => x)]
    have : (fun m : MultiDigest D => exp (MultiDigest.sumLoop est m.digests (.fin 0)) (fun s => s.1.toK / ds.length)) =
        fun m => (1 / (ds.length : ℚ)) * exp (MultiDigest.sumLoop est m.digests (.fin 0)) (fun s => s.1.toK) := by
      funext m
      rw [← exp_mul_left]
      exact congrArg _ (funext fun s => by ring)
    rw [this, exp_mul_left, h1]
    field_simp
    ring
  · rw [key (fun x => (x - μ) ^ 2)]
    have : (fun m : MultiDigest D => exp (MultiDigest.sumLoop est m.digests (.fin 0))
        (fun s => (s.1.toK / ds.length - μ) ^ 2)) =
        fun m => (1 / (ds.length : ℚ) ^ 2) * exp (MultiDigest.sumLoop est m.digests (.fin 0))
          (fun s => (s.1.toK - (0 + ds.length * μ) + 0) ^ 2) := by
      funext m
      rw [← exp_mul_left]
      refine congrArg _ (funext fun s => ?_)
      field_simp
      ring
    rw [this, exp_mul_left]
    have h3 := h2 0
    calc 1 / (ds.length : ℚ) ^ 2 * _ ≤ 1 / (ds.length : ℚ) ^ 2 * (ds.length * v + 0 ^ 2) :=
          mul_le_mul_of_nonneg_left h3 (by positivity)
      _ = v / ds.length := by field_simp; ring

/-- C73. Averaging: if after a history every member's answer to a query is unbiased for `μ` with mean squared error at most
`v`, the answer of the MultiDigest with `m` members is unbiased for `μ` with mean squared error at most `v / m`. -/
theorem C73_averaging_divides_variance (ops : List (Op (Fl ℚ))) (ds : List D) (hne : ds ≠ []) (x : Fl ℚ) (μ v : ℚ)
    (hfin : ∀ d ∈ ds, Always (execAll d ops >>= fun d' => Digest.estQuantileAtValue d' x) (fun r => r.1.IsFin))
    (hmean : ∀ d ∈ ds, exp (execAll d ops >>= fun d' => Digest.estQuantileAtValue d' x) (fun r => r.1.toK) = μ)
    (hvar : ∀ d ∈ ds, exp (execAll d ops >>= fun d' => Digest.estQuantileAtValue d' x) (fun r => (r.1.toK - μ) ^ 2) ≤ v) :
    exp (execAll (MultiDigest.built ds) ops >>= fun m => m.estQuantileAtValue x) (fun r => r.1.toK) = μ ∧
    exp (execAll (MultiDigest.built ds) ops >>= fun m => m.estQuantileAtValue x) (fun r => (r.1.toK - μ) ^ 2) ≤
      v / ds.length := by
  rw [MultiDigest.built_eq]
  have h := MultiDigest.averaging (fun d => Digest.estQuantileAtValue d x) ops ds hne μ v
    (fun d hd => ⟨hfin d hd, hmean d hd, hvar d hd⟩)
  simp only [exp_bind, exp_ret] at h
  simp only [exp_bind, MultiDigest.estQuantileAtValue, pure_eq, exp_ret]
  exact h

/-- C73 for value queries. -/
theorem C73_averaging_divides_variance_value (ops : List (Op (Fl ℚ))) (ds : List D) (hne : ds ≠ []) (q : Fl ℚ) (μ v : ℚ)
    (hfin : ∀ d ∈ ds, Always (execAll d ops >>= fun d' => Digest.estValueAtQuantile d' q) (fun r => r.1.IsFin))
    (hmean : ∀ d ∈ ds, exp (execAll d ops >>= fun d' => Digest.estValueAtQuantile d' q) (fun r => r.1.toK) = μ)
    (hvar : ∀ d ∈ ds, exp (execAll d ops >>= fun d' => Digest.estValueAtQuantile d' q) (fun r => (r.1.toK - μ) ^ 2) ≤ v) :
    exp (execAll (MultiDigest.built ds) ops >>= fun m => m.estValueAtQuantile q) (fun r => r.1.toK) = μ ∧
    exp (execAll (MultiDigest.built ds) ops >>= fun m => m.estValueAtQuantile q) (fun r => (r.1.toK - μ) ^ 2) ≤
      v / ds.length := by
  rw [MultiDigest.built_eq]
  have h := MultiDigest.averaging (fun d => Digest.estValueAtQuantile d q) ops ds hne μ v
    (fun d hd => ⟨hfin d hd, hmean d hd, hvar d hd⟩)
  simp only [exp_bind, exp_ret] at h
  simp only [exp_bind, MultiDigest.estValueAtQuantile, pure_eq, exp_ret]
  exact h

/-- Averaging `m` RCSketches whose rank estimates have mean squared error at most `v N²`. -/
theorem multi_rcsketch (n k m : Nat) (hm : 1 ≤ m) (hk : 1 ≤ k) (hk2 : k % 2 = 0) (hn : n < 2 ^ 32)
    (ops : List (Op (Fl ℚ))) (hins : ∀ o ∈ ops, (∃ x, o = .add x) ∨ ∃ xs, o = .addBuffer xs)
    (hlen : (itemsOf ops).length ≤ n) (hnan : ∀ y ∈ itemsOf ops, y ≠ .nan) (hne : itemsOf ops ≠ []) (x : Fl ℚ) (hx : x ≠ .nan)
    (v : ℚ) (hv : ∀ iops : List (InsOp ℚ), insItems iops = itemsOf ops → (∀ o ∈ iops, o.method = .default) →
      (∀ o ∈ iops, o.fast = false) →
      exp (RCSketch.runHist n k iops) (fun s => ((weightedRank s.buffers x : ℚ) - rank (insItems iops) x) ^ 2) ≤
        v * ((insItems iops).length : ℚ) ^ 2) :
    exp ((RCSketch.new n k : Prog (RCSketch ℚ)) >>= fun s => execAll (MultiDigest.built (List.replicate m s)) ops >>=
      fun d => d.estQuantileAtValue x) (fun r => r.1.toK) = (rank (itemsOf ops) x : ℚ) / (itemsOf ops).length ∧
    exp ((RCSketch.new n k : Prog (RCSketch ℚ)) >>= fun s => execAll (MultiDigest.built (List.replicate m s)) ops >>=
      fun d => d.estQuantileAtValue x) (fun r => (r.1.toK - (rank (itemsOf ops) x : ℚ) / (itemsOf ops).length) ^ 2) ≤ v / m := by
  obtain ⟨iops, hio⟩ := exists_traitIns ops hins
  have hmeth : ∀ o ∈ iops, o.method = .default := (traitIns_exec hio (RCSketch.fresh n k)).2.2
  have hit : itemsOf ops = insItems iops := (traitIns_exec hio (RCSketch.fresh n k)).2.1
  have hex : execAll (RCSketch.fresh n k : RCSketch ℚ) ops = RCSketch.runHist n k iops := by
    rw [(traitIns_exec hio _).1]
    unfold RCSketch.runHist
    rw [RCSketch.new_eq (by omega), bind_ret]
  rw [hit] at hlen hnan hne ⊢
  rw [RCSketch.new_eq (by omega), bind_ret]
  have hN : (0 : ℚ) < (insItems iops).length := Nat.cast_pos.2 (List.length_pos_of_ne_nil hne)
  -- the member's answer
  have hstate : Always (RCSketch.runHist n k iops) (fun s : RCSketch ℚ => Digest.estQuantileAtValue s x =
      .ret ((.fin ((weightedRank s.buffers x : ℚ) / (insItems iops).length) : Fl ℚ), s)) := by
    refine ((C07_insertions_never_panic n k hk hn iops hmeth hlen hnan).and
      (rc_levels n k hk2 iops (by omega))).mono ?_
    rintro s ⟨hc, hl⟩
    show (s.estQuantileAtValue x >>= _) = _
    unfold RCSketch.estQuantileAtValue
    rw [estQuantile_eq hx _ _ (by omega), bind_ret, hc, Fl.ofNat_exact, Fl.ofNat_exact, Fl.div_exact _ hN.ne']
    rfl
  have hexp : ∀ g : ℚ → ℚ, exp (execAll (RCSketch.fresh n k : RCSketch ℚ) ops >>= fun d' => Digest.estQuantileAtValue d' x)
      (fun r => g r.1.toK) = exp (RCSketch.runHist n k iops) (fun s => g ((weightedRank s.buffers x : ℚ) / (insItems iops).length)) := by
    intro g
    rw [hex, exp_bind]
    refine exp_congr (hstate.partially.mono ?_)
    intro s hs
    rw [hs, exp_ret]
    rfl
  have hmem : ∀ d ∈ List.replicate m (RCSketch.fresh n k : RCSketch ℚ), d = RCSketch.fresh n k := fun d hd =>
    List.eq_of_mem_replicate hd
  have hrep : (List.replicate m (RCSketch.fresh n k : RCSketch ℚ)).length = m := List.length_replicate
  have := C73_averaging_divides_variance ops (List.replicate m (RCSketch.fresh n k : RCSketch ℚ))
    (by intro h0; rw [h0] at hrep; simp at hrep; omega) x ((rank (insItems iops) x : ℚ) / (insItems iops).length)
    v ?_ ?_ ?_
  · rw [hrep] at this; exact this
  · intro d hd
    rw [hmem d hd, hex, always_bind]
    refine hstate.mono ?_
    intro s hs
    rw [hs]
    exact ⟨_, rfl⟩
  · intro d hd
    rw [hmem d hd, hexp (fun z => z)]
    have e : (fun s : RCSketch ℚ => (weightedRank s.buffers x : ℚ) / (insItems iops).length) =
        fun s => (1 / ((insItems iops).length : ℚ)) * (weightedRank s.buffers x : ℚ) := by funext s; ring
    rw [e, exp_mul_left, C10_rank_unbiased n k hk hn iops hmeth hlen hnan x]
    ring
  · intro d hd
    rw [hmem d hd, hexp (fun z => (z - (rank (insItems iops) x : ℚ) / (insItems iops).length) ^ 2)]
    have e : (fun s : RCSketch ℚ => ((weightedRank s.buffers x : ℚ) / (insItems iops).length -
        (rank (insItems iops) x : ℚ) / (insItems iops).length) ^ 2) =
        fun s => (1 / ((insItems iops).length : ℚ) ^ 2) * ((weightedRank s.buffers x : ℚ) - rank (insItems iops) x) ^ 2 := by
      funext s; field_simp
    rw [e, exp_mul_left]
    have h1 := hv iops hit.symm hmeth (traitIns_fast hio)
    calc _ ≤ 1 / ((insItems iops).length : ℚ) ^ 2 * (v * ((insItems iops).length : ℚ) ^ 2) :=
          mul_le_mul_of_nonneg_left h1 (by positivity)
      _ = _ := by field_simp

/-- C74. A MultiDigest of `m` RCSketches (even `k`, within the declared input length): its quantile estimate is unbiased and
its mean squared error is at most `2 / (k · buffer_size · m)`. -/
theorem C74_multi_rcsketch (n k m : Nat) (hm : 1 ≤ m) (hk : 1 ≤ k) (hk2 : k % 2 = 0) (hn : n < 2 ^ 32)
    (ops : List (Op (Fl ℚ))) (hins : ∀ o ∈ ops, (∃ x, o = .add x) ∨ ∃ xs, o = .addBuffer xs)
    (hlen : (itemsOf ops).length ≤ n) (hnan : ∀ y ∈ itemsOf ops, y ≠ .nan) (hne : itemsOf ops ≠ []) (x : Fl ℚ) (hx : x ≠ .nan) :
    exp ((RCSketch.new n k : Prog (RCSketch ℚ)) >>= fun s => execAll (MultiDigest.built (List.replicate m s)) ops >>=
      fun d => d.estQuantileAtValue x) (fun r => r.1.toK) = (rank (itemsOf ops) x : ℚ) / (itemsOf ops).length ∧
    exp ((RCSketch.new n k : Prog (RCSketch ℚ)) >>= fun s => execAll (MultiDigest.built (List.replicate m s)) ops >>=
      fun d => d.estQuantileAtValue x) (fun r => (r.1.toK - (rank (itemsOf ops) x : ℚ) / (itemsOf ops).length) ^ 2) ≤
        2 / (k * (max (2 * k * Nat.clog 2 (n / k)) (2 * k) : Nat)) / m := by
  refine multi_rcsketch n k m hm hk hk2 hn ops hins hlen hnan hne x hx _ (fun iops hit hmeth _ => ?_)
  rw [← hit] at hlen hnan
  refine (C61_mean_squared_error n k hk hk2 hn iops hmeth hlen hnan x).trans (le_of_eq ?_)
  ring

end

section examples
attribute [local instance] ratExact ratExact_exact

/-- C56 is false: two LinearDigests in a MultiDigest, three items added, `count()` is 6. -/
theorem C56_two_members_count_double :
    Always (execAll (MultiDigest.built [LinearDigest.new, LinearDigest.new] : MultiDigest (LinearDigest ℚ))
      [.add (.fin 1), .addBuffer [.fin 2, .fin 5]]) (fun m => Always (Digest.count m) (fun n => n = 6)) := by decide +kernel

/-- C55: two members holding different data (built before being added); the answer is the mean of 2/4 and 0. -/
example : Always ((MultiDigest.built [⟨[.fin 1, .fin 2, .fin 3, .fin 4]⟩, ⟨[.fin 3, .fin 5, .fin 6, .fin 7]⟩] :
    MultiDigest (LinearDigest ℚ)).estQuantileAtValue (.fin 3)) (fun r => r.1 = .fin (1 / 4)) := by decide +kernel

/-- C73, C74: 14 items into two RCSketches `new(16, 2)`. The mean squared error of one of them is at least twice that of the pair. -/
def multiHist : List (Op (Fl ℚ)) := [.add (.fin 20), .addBuffer (upTo 12), .add (.fin 1)]
example : (itemsOf multiHist).length = 14 ∧ rank (itemsOf multiHist) (.fin 5) = 7 := by decide +kernel
example :
    exp ((RCSketch.new 16 2 : Prog (RCSketch ℚ)) >>= fun s => execAll (⟨List.replicate 1 s⟩ : MultiDigest (RCSketch ℚ)) multiHist >>=
      fun d => d.estQuantileAtValue (.fin 11)) (fun r => (r.1.toK - 13 / 14) ^ 2) = 1 / 196 ∧
    exp ((RCSketch.new 16 2 : Prog (RCSketch ℚ)) >>= fun s => execAll (⟨List.replicate 2 s⟩ : MultiDigest (RCSketch ℚ)) multiHist >>=
      fun d => d.estQuantileAtValue (.fin 11)) (fun r => (r.1.toK - 13 / 14) ^ 2) = 1 / 392 := by decide +kernel

end examples
end AQ

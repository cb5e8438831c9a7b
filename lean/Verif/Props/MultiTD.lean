/-
C153, C154: rank accuracy of a MultiDigest and of a SymDigest from that of their sub-digests, and for TDigests as sub-digests.
-/
import Verif.Props.ParallelTD

set_option linter.unusedSectionVars false
set_option linter.unusedVariables false

namespace AQ
open Prog Spec

section
variable {K : Type} [Field K] [LinearOrder K] [IsStrictOrderedRing K] [FloatFmt K] {D : Type} [Digest D (Fl K)]

theorem forEach_true (f : D → Prog D) : ∀ ds : List D, (∀ d ∈ ds, Always (f d) (fun _ => True)) → Always (forEach f ds) (fun _ => True)
  | [], _ => trivial
  | d :: ds, h => by
    unfold forEach
    rw [always_bind]
    refine (h d (by simp)).mono (fun _ _ => ?_)
    rw [always_bind]
    exact (forEach_true f ds (fun e he => h e (by simp [he]))).mono (fun _ _ => trivial)

theorem MultiDigest.exec_true (o : Op (Fl K)) (ds : List D) (h : ∀ d ∈ ds, Always (o.exec d) (fun _ => True)) :
    Always (o.exec (⟨ds⟩ : MultiDigest D)) (fun _ => True) := by
  cases o with
  | add x =>
    show Always (MultiDigest.add _ x) _
    unfold MultiDigest.add
    rw [always_bind]
    exact (forEach_true _ ds h).mono (fun _ _ => trivial)
  | addBuffer x =>
    show Always (MultiDigest.addBuffer _ x) _
    unfold MultiDigest.addBuffer
    rw [always_bind]
    exact (forEach_true _ ds h).mono (fun _ _ => trivial)
  | quantile v =>
    show Always (MultiDigest.estQuantileAtValue _ v >>= _) _
    unfold MultiDigest.estQuantileAtValue
    simp only [always_bind]
    refine (MultiDigest.sumLoop_always (P := fun _ => True) _ ds (Fl.lit 0) (fun d hd => ?_)).mono (fun _ _ => trivial)
    have := h d hd
    rw [Op.exec, always_bind] at this
    exact this.mono (fun _ _ => trivial)
  | value v =>
    show Always (MultiDigest.estValueAtQuantile _ v >>= _) _
    unfold MultiDigest.estValueAtQuantile
    simp only [always_bind]
    refine (MultiDigest.sumLoop_always (P := fun _ => True) _ ds (Fl.lit 0) (fun d hd => ?_)).mono (fun _ _ => trivial)
    have := h d hd
    rw [Op.exec, always_bind] at this
    exact this.mono (fun _ _ => trivial)

/-- One operation leaves members that each could have got that way alone. -/
theorem MultiDigest.exec_members (o : Op (Fl K)) (ds : List D) :
    Partially (o.exec (⟨ds⟩ : MultiDigest D)) (fun m => List.Forall₂ (fun d d' => CanReturn (o.exec d) d') ds m.digests) := by
  have h := MultiDigest.execAll_members [o] ds
  unfold execAll at h
  rw [partially_bind] at h
  refine h.mono (fun m hm => ?_)
  refine List.Forall₂.imp (fun d d' hd => ?_) hm
  rw [canReturn_bind] at hd
  obtain ⟨a, h1, h2⟩ := hd
  rw [show a = d' from h2] at h1
  exact h1

/-- A MultiDigest whose members never panic never panics. -/
theorem MultiDigest.execAll_true : ∀ (ops : List (Op (Fl K))) (ds : List D), (∀ d ∈ ds, Always (execAll d ops) (fun _ => True)) →
    Always (execAll (⟨ds⟩ : MultiDigest D) ops) (fun _ => True)
  | [], _, _ => trivial
  | o :: os, ds, h => by
    unfold execAll
    rw [always_bind]
    refine (Always.and (MultiDigest.exec_true o ds (fun d hd => ?_)) (MultiDigest.exec_members o ds)).mono ?_
    · have := h d hd
      rw [execAll, always_bind] at this
      exact this.mono (fun _ _ => trivial)
    · rintro m ⟨-, hm⟩
      refine MultiDigest.execAll_true os m.digests (fun d' hd' => ?_)
      have aux : ∀ {ds es : List D}, List.Forall₂ (fun d d' => CanReturn (o.exec d) d') ds es → d' ∈ es → ∃ d ∈ ds, CanReturn (o.exec d) d' := by
        intro ds es hf
        induction hf with
        | nil => simp
        | cons a as ih =>
          intro hmem
          rcases List.mem_cons.1 hmem with rfl | hmem
          · exact ⟨_, by simp, a⟩
          · obtain ⟨d, h1, h2⟩ := ih hmem
            exact ⟨d, by simp [h1], h2⟩
      obtain ⟨d, h1, h2⟩ := aux hm hd'
      have := h d h1
      rw [execAll, always_bind] at this
      exact (partially_iff _ _).1 this.partially _ h2

/-- The members after a history, each with what is known of it. -/
theorem MultiDigest.execAll_forall {A : Type} (P : A → D → Prop) (ops : List (Op (Fl K))) (ds : List D) (as : List A)
    (h : List.Forall₂ (fun d a => Always (execAll d ops) (P a)) ds as) :
    Always (execAll (⟨ds⟩ : MultiDigest D) ops) (fun m => List.Forall₂ (fun d a => P a d) m.digests as) := by
  have h1 : ∀ d ∈ ds, Always (execAll d ops) (fun _ => True) := by
    induction h with
    | nil => simp
    | cons a as ih =>
      intro d hd
      rcases List.mem_cons.1 hd with rfl | hd
      · exact a.mono (fun _ _ => trivial)
      · exact ih d hd
  refine (Always.and (MultiDigest.execAll_true ops ds h1) (MultiDigest.execAll_members ops ds)).mono ?_
  rintro m ⟨-, hm⟩
  generalize m.digests = es at hm
  clear h1
  induction h generalizing es with
  | nil => cases hm; exact .nil
  | cons a as ih =>
    cases hm with
    | cons b bs => exact .cons ((partially_iff _ _).1 a.partially _ b) (ih _ bs)

/-- The loop over the members, each with what is known of its answer. -/
theorem MultiDigest.loop_mean [FloatFmt.Exact K] {A : Type} (est : D → Prog (Fl K × D)) (Q : A → K → Prop) (ds : List D) (hne : ds ≠ []) (as : List A)
    (h : List.Forall₂ (fun d a => Always (est d) (fun r => ∃ e : K, r.1 = .fin e ∧ Q a e)) ds as) :
    Always (MultiDigest.sumLoop est ds (Fl.lit 0)) (fun r => ∃ ys : List K, List.Forall₂ Q as ys ∧ ys.length = ds.length ∧
      r.1 / Fl.ofNat ds.length = .fin (ys.sum / ys.length)) := by
  have h1 : ∀ d ∈ ds, Always (est d) (fun _ => True) := by
    clear hne
    induction h with
    | nil => simp
    | cons a as ih =>
      intro d hd
      rcases List.mem_cons.1 hd with rfl | hd
      · exact a.mono (fun _ _ => trivial)
      · exact ih d hd
  refine (Always.and (MultiDigest.sumLoop_always (P := fun _ => True) est ds (Fl.lit 0) h1) (MultiDigest.sumLoop_partially est ds (Fl.lit 0))).mono ?_
  rintro r ⟨-, rs, h2, -, h4⟩
  have hex : ∃ ys : List K, rs.map Prod.fst = ys.map Fl.fin ∧ List.Forall₂ Q as ys := by
    clear hne h1 h4
    induction h generalizing rs with
    | nil => cases h2; exact ⟨[], rfl, .nil⟩
    | cons a as ih =>
      cases h2 with
      | cons b bs =>
        obtain ⟨ys, e, hy⟩ := ih _ bs
        obtain ⟨y, e1, e2⟩ := (partially_iff _ _).1 a.partially _ b
        exact ⟨y :: ys, by simp [e, e1], .cons e2 hy⟩
  obtain ⟨ys, e, hy⟩ := hex
  have hl : ys.length = ds.length := by rw [← hy.length_eq, h.length_eq]
  refine ⟨ys, hy, hl, ?_⟩
  rw [h4, e]
  exact MultiDigest.mean_of_answers hl hne

/-- Rank errors of several estimates of the rank of one value average. -/
theorem rankWithin_mean {xs : List (Fl K)} {n x : K} {Es ys : List K} (h : List.Forall₂ (fun E y => RankWithin xs (n * y) x E) Es ys) (hne : ys ≠ []) :
    RankWithin xs (n * (ys.sum / ys.length)) x (Es.sum / Es.length) := by
  have aux : ∀ {Es ys : List K}, List.Forall₂ (fun E y => RankWithin xs (n * y) x E) Es ys →
      ys.length * (xs.countP (fun y => Fl.lt y (.fin x)) : K) ≤ n * ys.sum + Es.sum ∧
      n * ys.sum ≤ ys.length * (xs.countP (fun y => Fl.le y (.fin x)) : K) + Es.sum := by
    intro Es ys h
    induction h with
    | nil => simp
    | cons a as ih =>
      obtain ⟨a1, a2⟩ := a
      obtain ⟨i1, i2⟩ := ih
      simp only [List.length_cons, List.sum_cons, Nat.cast_add, Nat.cast_one]
      constructor <;> linarith
  obtain ⟨h1, h2⟩ := aux h
  have h0 : (0 : K) < ys.length := Nat.cast_pos.2 (List.length_pos_of_ne_nil hne)
  rw [h.length_eq]
  unfold RankWithin
  have e : n * (ys.sum / ys.length) + Es.sum / ys.length = (n * ys.sum + Es.sum) / ys.length := by ring
  have e' : n * (ys.sum / ys.length) = n * ys.sum / ys.length := by ring
  rw [e, e', le_div_iff₀ h0, div_le_iff₀ h0, add_mul, div_mul_cancel₀ _ h0.ne']
  constructor <;> linarith

/-- The two halves of `RankWithin` are kept by smaller and by larger values. -/
theorem rankWithin_between {xs : List (Fl K)} (hfin : ∀ y ∈ xs, y.IsFin) {r a b v E : K} (ha : RankWithin xs r a E) (hb : RankWithin xs r b E) (h1 : a ≤ v) (h2 : v ≤ b) :
    RankWithin xs r v E := by
  constructor
  · refine le_trans ?_ hb.1
    exact_mod_cast List.countP_mono_left (fun y hy h => by
      obtain ⟨z, rfl⟩ := hfin y hy
      simp only [Fl.lt_fin, decide_eq_true_eq] at h ⊢
      exact lt_of_lt_of_le h h2)
  · refine le_trans ha.2 (add_le_add_left ?_ E)
    exact_mod_cast List.countP_mono_left (fun y hy h => by
      obtain ⟨z, rfl⟩ := hfin y hy
      simp only [Fl.le_fin, decide_eq_true_eq] at h ⊢
      exact le_trans h h1)

/-- C153, quantile queries. The rank error of a MultiDigest is at most the mean of those of its members: if each member, alone and after the same history, answers
quantile queries within `E` ranks (`Es` lists one `E` for each member, `n` is the number of items), the MultiDigest answers within the mean of `Es`. -/
theorem C153_ranks_average [FloatFmt.Exact K] (ds : List D) (hne : ds ≠ []) (ops : List (Op (Fl K))) (xs : List (Fl K)) (n : K) (Es : List K)
    (h : List.Forall₂ (fun d E => Always (execAll d ops) (fun d' => ∀ x : K, Always (Digest.estQuantileAtValue d' (.fin x : Fl K)) (fun r =>
      ∃ e : K, r.1 = .fin e ∧ RankWithin xs (n * e) x E))) ds Es) :
    Always (execAll (MultiDigest.built ds) ops) (fun m => ∀ x : K, Always (m.estQuantileAtValue (.fin x : Fl K)) (fun r =>
      ∃ e : K, r.1 = .fin e ∧ RankWithin xs (n * e) x (Es.sum / Es.length))) := by
  rw [MultiDigest.built_eq]
  refine (MultiDigest.execAll_forall _ ops ds Es h).mono (fun m hm x => ?_)
  have hl : m.digests.length = ds.length := by rw [hm.length_eq, h.length_eq]
  have hne' : m.digests ≠ [] := by
    intro h0
    rw [h0] at hl
    exact hne (List.length_eq_zero_iff.1 hl.symm)
  unfold MultiDigest.estQuantileAtValue
  rw [always_bind]
  refine (MultiDigest.loop_mean _ (fun E e => RankWithin xs (n * e) x E) m.digests hne' Es (hm.imp (fun d E hd => hd x))).mono ?_
  rintro r ⟨ys, h1, h2, h3⟩
  refine ⟨_, h3, rankWithin_mean h1 ?_⟩
  intro h0
  rw [h0] at h2
  exact hne' (List.length_eq_zero_iff.1 h2.symm)

/-- C153, value queries. If each member finds a value within `E` ranks of `r`, so does the MultiDigest: the mean of the members' values lies between them. -/
theorem C153_values_between [FloatFmt.Exact K] (ds : List D) (hne : ds ≠ []) (ops : List (Op (Fl K))) (xs : List (Fl K)) (hfin : ∀ y ∈ xs, y.IsFin) (q r E : K)
    (h : ∀ d ∈ ds, Always (execAll d ops) (fun d' => Always (Digest.estValueAtQuantile d' (.fin q : Fl K)) (fun res =>
      ∃ v : K, res.1 = .fin v ∧ RankWithin xs r v E))) :
    Always (execAll (MultiDigest.built ds) ops) (fun m => Always (m.estValueAtQuantile (.fin q : Fl K)) (fun res =>
      ∃ v : K, res.1 = .fin v ∧ RankWithin xs r v E)) := by
  rw [MultiDigest.built_eq]
  have hf : List.Forall₂ (fun d (_ : D) => Always (execAll d ops) (fun d' => Always (Digest.estValueAtQuantile d' (.fin q : Fl K)) (fun res =>
      ∃ v : K, res.1 = .fin v ∧ RankWithin xs r v E))) ds ds := List.forall₂_same.2 h
  refine (MultiDigest.execAll_forall (fun _ d' => Always (Digest.estValueAtQuantile d' (.fin q : Fl K)) (fun res =>
      ∃ v : K, res.1 = .fin v ∧ RankWithin xs r v E)) ops ds ds hf).mono (fun m hm => ?_)
  have hl : m.digests.length = ds.length := hm.length_eq
  have hne' : m.digests ≠ [] := by
    intro h0
    rw [h0] at hl
    exact hne (List.length_eq_zero_iff.1 hl.symm)
  unfold MultiDigest.estValueAtQuantile
  rw [always_bind]
  refine (MultiDigest.loop_mean _ (fun _ v => RankWithin xs r v E) m.digests hne' ds hm).mono ?_
  rintro res ⟨ys, h1, h2, h3⟩
  refine ⟨_, h3, ?_⟩
  have hy : ∀ y ∈ ys, RankWithin xs r y E := by
    clear hm hl h2 h3 h hf hne
    induction h1 with
    | nil => simp
    | cons a as ih =>
      intro y hy
      rcases List.mem_cons.1 hy with rfl | hy
      · exact a
      · exact ih y hy
  have hy0 : ys ≠ [] := by
    intro h0
    rw [h0] at h2
    exact hne' (List.length_eq_zero_iff.1 h2.symm)
  obtain ⟨a, ha, hle⟩ : ∃ a ∈ ys, ∀ b ∈ ys, a ≤ b := by
    obtain ⟨a, ha, h⟩ := Finset.exists_min_image ys.toFinset id (by simpa using hy0)
    exact ⟨a, List.mem_toFinset.1 ha, fun b hb => h b (List.mem_toFinset.2 hb)⟩
  obtain ⟨b, hb, hge⟩ : ∃ b ∈ ys, ∀ a ∈ ys, a ≤ b := by
    obtain ⟨b, hb, h⟩ := Finset.exists_max_image ys.toFinset id (by simpa using hy0)
    exact ⟨b, List.mem_toFinset.1 hb, fun a ha => h a (List.mem_toFinset.2 ha)⟩
  obtain ⟨h4, h5⟩ := MultiDigest.mean_between (fun c hc => ⟨hle c hc, hge c hc⟩) hy0
  exact rankWithin_between hfin (hy a ha) (hy b hb) h4 h5

end

section
variable {K : Type} [Field K] [LinearOrder K] [IsStrictOrderedRing K] [FloatFmt K] {D : Type} [Digest D (Fl K)]

/-- C154, quantile queries. A SymDigest of any two digests is as accurate as the less accurate of them: if the lower digest, fed the items, and the upper one, fed the
negated items, both answer quantile queries within `E` ranks, so does the SymDigest. -/
theorem C154_quantile [FloatFmt.Exact K] (l h : D) (ops : List (Op (Fl K))) (hins : ∀ o ∈ ops, (∃ x, o = .add x) ∨ ∃ xs, o = .addBuffer xs)
    (hfin : ∀ y ∈ itemsOf ops, y.IsFin) (E N : K) (hN : N = (itemsOf ops).length)
    (hl : Always (execAll l ops) (fun d => ∀ x : K, Always (Digest.estQuantileAtValue d (.fin x : Fl K)) (fun r =>
      ∃ e : K, r.1 = .fin e ∧ RankWithin (itemsOf ops) (N * e) x E)))
    (hh : Always (execAll h (ops.map mirrorOp)) (fun d => ∀ x : K, Always (Digest.estQuantileAtValue d (.fin x : Fl K)) (fun r =>
      ∃ e : K, r.1 = .fin e ∧ RankWithin ((itemsOf ops).map (fun y => -y)) (N * e) x E))) :
    Always (execAll (SymDigest.new l h) ops) (fun s => ∀ x : K, Always (s.estQuantileAtValue (.fin x : Fl K)) (fun r =>
      ∃ e : K, r.1 = .fin e ∧ RankWithin (itemsOf ops) (N * e) x E)) := by
  refine (SymDigest.always_sides _ _ ops hins l h hl hh).mono ?_
  rintro s ⟨s1, s2⟩ x
  unfold SymDigest.estQuantileAtValue
  rw [always_bind]
  refine (s1 x).mono ?_
  rintro r ⟨a, hr, ha⟩
  rw [always_bind, Fl.neg_fin]
  refine (s2 (-x)).mono ?_
  rintro t ⟨b, ht, hb⟩
  replace hb := RankWithin.mirror hfin hb
  rw [← hN, show N - N * b = N * (1 - b) by ring] at hb
  rw [hr, ht, Fl.lit_exact, Fl.sub_exact]
  obtain ⟨c, c1, -, -, -, c4, c5⟩ := SymDigest.chooseQuantile_fin a (1 - b)
  rw [c1, bind_ret]
  have hn0 : 0 ≤ N := by rw [hN]; exact Nat.cast_nonneg _
  refine ⟨c, rfl, ?_, ?_⟩
  · have := mul_le_mul_of_nonneg_left c4 hn0
    rcases min_choice a (1 - b) with hm | hm <;> rw [hm] at this <;> linarith [ha.1, hb.1]
  · have := mul_le_mul_of_nonneg_left c5 hn0
    rcases max_choice a (1 - b) with hm | hm <;> rw [hm] at this <;> linarith [ha.2, hb.2]

/-- C154, value queries, for the quantile `q`: the lower digest is only needed up to the median, the upper one only down to it. -/
theorem C154_value [FloatFmt.Exact K] (l h : D) (ops : List (Op (Fl K))) (hins : ∀ o ∈ ops, (∃ x, o = .add x) ∨ ∃ xs, o = .addBuffer xs)
    (hfin : ∀ y ∈ itemsOf ops, y.IsFin) (E N q : K) (hN : N = (itemsOf ops).length)
    (hl : Always (execAll l ops) (fun d => Always (Digest.estValueAtQuantile d (.fin q : Fl K)) (fun r =>
      q ≤ 1 / 2 → ∃ v : K, r.1 = .fin v ∧ RankWithin (itemsOf ops) (N * q) v E)))
    (hh : Always (execAll h (ops.map mirrorOp)) (fun d => Always (Digest.estValueAtQuantile d (.fin (1 - q) : Fl K)) (fun r =>
      1 / 2 ≤ q → ∃ v : K, r.1 = .fin v ∧ RankWithin ((itemsOf ops).map (fun y => -y)) (N * (1 - q)) v E))) :
    Always (execAll (SymDigest.new l h) ops) (fun s => Always (s.estValueAtQuantile (.fin q : Fl K)) (fun r =>
      ∃ v : K, r.1 = .fin v ∧ RankWithin (itemsOf ops) (N * q) v E)) := by
  refine (SymDigest.always_sides _ _ ops hins l h hl hh).mono ?_
  rintro s ⟨s1, s2⟩
  unfold SymDigest.estValueAtQuantile
  rw [always_bind]
  refine s1.mono ?_
  intro r hr
  rw [always_bind, Fl.lit_exact, Fl.sub_exact]
  refine s2.mono ?_
  intro t ht
  have key : 1 / 2 ≤ q → ∃ v : K, -t.1 = .fin v ∧ RankWithin (itemsOf ops) (N * q) v E := by
    intro h2
    obtain ⟨w, e1, e2⟩ := ht h2
    rw [show w = - -w by ring] at e2
    have := RankWithin.mirror hfin e2
    rw [← hN, show N - N * (1 - q) = N * q by ring] at this
    exact ⟨-w, by rw [e1, Fl.neg_fin], this⟩
  unfold SymDigest.chooseValue
  rw [Fl.lit_exact, Fl.cmp_fin]
  rcases lt_trichotomy q (1 / 2) with hq | hq | hq
  · rw [compare_lt_iff_lt.2 hq]
    exact hr hq.le
  · rw [compare_eq_iff_eq.2 hq]
    obtain ⟨v, e1, e2⟩ := hr hq.le
    obtain ⟨w, f1, f2⟩ := key hq.ge
    rw [e1, f1, Fl.lit_exact, Fl.add_exact, Fl.div_exact _ (two_ne_zero : (2 : K) ≠ 0)]
    refine ⟨_, rfl, ?_⟩
    rcases le_total v w with hvw | hvw
    · exact rankWithin_between hfin e2 f2 (by linarith) (by linarith)
    · exact rankWithin_between hfin f2 e2 (by linarith) (by linarith)
  · rw [compare_gt_iff_gt.2 hq]
    exact key hq.le

end

section
variable [FloatFmt ℝ] [FloatFmt.Exact ℝ]

/-- The rank error of a TDigest that lets no more than the fraction `c` of `N` items into one centroid, after `B` insertion calls. -/
noncomputable def Spec.fracError (c N : ℝ) (B : Nat) : ℝ := Max.max 1 (c * N / 2) + B * (c * N)

/-- What is known of one TDigest fed through the trait. -/
theorem td_frac_member (c : ℝ) (s i : ScaleFn ℝ) (cf : Fl ℝ) (ops : List (Op (Fl ℝ))) (hins : ∀ o ∈ ops, (∃ x, o = .add x) ∨ ∃ xs, o = .addBuffer xs)
    (hit : ∀ x ∈ itemsOf ops, Item x) (hne : itemsOf ops ≠ []) (N : ℝ) (hN : N = (itemsOf ops).length) (h64 : N < 2 ^ 64) (hk : FracScale c N s i cf) :
    Always (execAll (TDigest.new s i cf : TDigest ℝ) ops) (fun d =>
      (∀ x : ℝ, Always (Digest.estQuantileAtValue d (.fin x : Fl ℝ)) (fun r => ∃ e : ℝ, r.1 = .fin e ∧ RankWithin (itemsOf ops) (N * e) x (fracError c N ops.length))) ∧
      ∀ q : ℝ, Always (Digest.estValueAtQuantile d (.fin q : Fl ℝ)) (fun r => 0 ≤ q → q ≤ 1 → N * q < N - Max.max 1 (c * N) / 2 ∨ N - 1 < N * q →
        ∃ v : ℝ, r.1 = .fin v ∧ RankWithin (itemsOf ops) (N * q) v (fracError c N ops.length))) := by
  have h1 : 1 ≤ N := by rw [hN]; exact one_le_length hne
  have hl := TDigest.fracScale_limit h1 hk
  have hc := TDigest.fracScale_nonneg h1 hk
  have hs : ∀ c ∈ (itemsOf ops).map (fun x => (⟨x, .fin 1⟩ : Centroid ℝ)), Good c := by
    intro c hc
    obtain ⟨x, hx, rfl⟩ := List.mem_map.1 hc
    exact ⟨(hit x hx).1, 1, zero_lt_one, rfl⟩
  refine (td_member ((ParTDigest.layered_weight hc hl).and (ParTDigest.layered_near hc hl)) (fun l _ hl1 =>
    ⟨fun e he => le_max_of_le_left (hl1 e he), fun x => by simp [TDigest.Near]⟩) ops hins hit hne (by rw [← hN]; exact h64) hN.ge).mono ?_
  rintro d ⟨⟨l, a, b, hv, hwt, hw1⟩, -, -, -, hw, hn⟩
  rw [TDigest.totalW_items, ← hN] at hw hn
  rw [← hN] at hwt
  refine ⟨fun x => ?_, fun q => ?_⟩
  · obtain ⟨e, h4, h5⟩ := TDigest.Near.query hn hs hv (by rw [hwt, TDigest.totalW_items, hN]) (le_max_left _ _)
      (fun e he => TTree.half_frac le_rfl (hw e he)) x
    rw [TDigest.totalW_items, TDigest.weightWithin_items hit, ← hN] at h5
    show Always (d.estQuantileAtValue (.fin x) >>= fun r => .ret (r, d)) _
    rw [h4, bind_ret]
    exact ⟨e, rfl, h5⟩
  · have hr := TDigest.estValue_eq hv hw1 (by rw [hwt]; exact h64) q
    show Always (d.estValueAtQuantile (.fin q) >>= fun r => .ret (r, d)) _
    rw [hr, bind_ret]
    intro hq0 hq1 hq
    have hcne : d.centroids ≠ [] := by
      rw [hv.cs]
      simpa using hv.ne
    have hlast := List.getLast?_eq_some_getLast hcne
    have hlw := hw _ (List.getLast_mem hcne)
    generalize d.centroids.getLast hcne = last at hlast hlw
    obtain ⟨v, h4, h5⟩ := TDigest.Near.value hn hs hv (by rw [hwt, TDigest.totalW_items, hN]) hw1
      (by rw [TDigest.totalW_items, ← hN]; exact h64) (le_max_left _ _) (fun e he => TTree.half_frac le_rfl (hw e he)) hlast hq0 hq1
      (by
        rw [TDigest.totalW_items, ← hN]
        rintro ⟨t1, t2⟩
        rcases hq with hq | hq
        · linarith
        · linarith)
    rw [hr] at h4
    rw [TDigest.totalW_items, TDigest.weightWithin_items hit, ← hN] at h5
    exact ⟨v, by injection h4, h5⟩

/-- C153 for TDigests, one for each `(c, s, i, cf)` in `ts`: different scale functions (`k0` to `k3`) and compression factors in one MultiDigest. The rank error of
quantile queries is the mean of the members' errors, that of value queries the largest one `F`. -/
theorem C153_tdigests (ts : List (ℝ × ScaleFn ℝ × ScaleFn ℝ × Fl ℝ)) (hts : ts ≠ []) (ops : List (Op (Fl ℝ)))
    (hins : ∀ o ∈ ops, (∃ x, o = .add x) ∨ ∃ xs, o = .addBuffer xs) (hit : ∀ x ∈ itemsOf ops, Item x) (hne : itemsOf ops ≠ []) (N : ℝ)
    (hN : N = (itemsOf ops).length) (h64 : N < 2 ^ 64) (hk : ∀ t ∈ ts, FracScale t.1 N t.2.1 t.2.2.1 t.2.2.2) :
    Always (execAll (MultiDigest.built (ts.map (fun t => TDigest.new t.2.1 t.2.2.1 t.2.2.2)) : MultiDigest (TDigest ℝ)) ops) (fun m =>
      (∀ x : ℝ, Always (m.estQuantileAtValue (.fin x : Fl ℝ)) (fun r => ∃ e : ℝ, r.1 = .fin e ∧
        RankWithin (itemsOf ops) (N * e) x ((ts.map (fun t => fracError t.1 N ops.length)).sum / ts.length))) ∧
      ∀ q F : ℝ, 0 ≤ q → q ≤ 1 → (∀ t ∈ ts, fracError t.1 N ops.length ≤ F) → (∀ t ∈ ts, N * q < N - Max.max 1 (t.1 * N) / 2 ∨ N - 1 < N * q) →
        Always (m.estValueAtQuantile (.fin q : Fl ℝ)) (fun r => ∃ v : ℝ, r.1 = .fin v ∧ RankWithin (itemsOf ops) (N * q) v F)) := by
  have hne' : ts.map (fun t => (TDigest.new t.2.1 t.2.2.1 t.2.2.2 : TDigest ℝ)) ≠ [] := by simpa using hts
  have hm := fun t ht => td_frac_member t.1 t.2.1 t.2.2.1 t.2.2.2 ops hins hit hne N hN h64 (hk t ht)
  have h1 := C153_ranks_average _ hne' ops (itemsOf ops) N (ts.map (fun t => fracError t.1 N ops.length)) (by
    rw [List.forall₂_map_left_iff, List.forall₂_map_right_iff, List.forall₂_same]
    exact fun t ht => (hm t ht).mono (fun d hd => hd.1))
  rw [List.length_map] at h1
  have h2 : ∀ q F : ℝ, 0 ≤ q → q ≤ 1 → (∀ t ∈ ts, fracError t.1 N ops.length ≤ F) → (∀ t ∈ ts, N * q < N - Max.max 1 (t.1 * N) / 2 ∨ N - 1 < N * q) → _ :=
    fun q F hq0 hq1 hF hq => C153_values_between _ hne' ops (itemsOf ops) (fun y hy => (hit y hy).1) q (N * q) F (by
      intro d hd
      obtain ⟨t, ht, rfl⟩ := List.mem_map.1 hd
      refine (hm t ht).mono (fun d' hd' => (hd'.2 q).mono (fun r hr => ?_))
      obtain ⟨v, e1, e2, e3⟩ := hr hq0 hq1 (hq t ht)
      have := hF t ht
      exact ⟨v, e1, by linarith, by linarith⟩)
  rw [always_iff] at h1 ⊢
  refine ⟨fun m hm => ⟨h1.1 m hm, fun q F a1 a2 a3 a4 => ?_⟩, h1.2⟩
  exact ((always_iff _ _).1 (h2 q F a1 a2 a3 a4)).1 m hm

/-- C154 for two TDigests with the same scale function (`k0` to `k3`): the rank error is that of one of them; for value queries if `c < 1`. The defect of value queries at the right end of a TDigest (C84) is not met. -/
theorem C154_tdigests (c : ℝ) (s i : ScaleFn ℝ) (cf : Fl ℝ) (ops : List (Op (Fl ℝ))) (hins : ∀ o ∈ ops, (∃ x, o = .add x) ∨ ∃ xs, o = .addBuffer xs)
    (hit : ∀ x ∈ itemsOf ops, Item x) (hne : itemsOf ops ≠ []) (N : ℝ) (hN : N = (itemsOf ops).length) (h64 : N < 2 ^ 64) (hk : FracScale c N s i cf) :
    Always (execAll (SymDigest.new (TDigest.new s i cf) (TDigest.new s i cf) : SymDigest (TDigest ℝ)) ops) (fun d =>
      (∀ x : ℝ, Always (d.estQuantileAtValue (.fin x : Fl ℝ)) (fun r => ∃ e : ℝ, r.1 = .fin e ∧ RankWithin (itemsOf ops) (N * e) x (fracError c N ops.length))) ∧
      ∀ q : ℝ, 0 ≤ q → q ≤ 1 → 1 < N → c < 1 →
        Always (d.estValueAtQuantile (.fin q : Fl ℝ)) (fun r => ∃ v : ℝ, r.1 = .fin v ∧ RankWithin (itemsOf ops) (N * q) v (fracError c N ops.length))) := by
  have hfin : ∀ y ∈ itemsOf ops, y.IsFin := fun y hy => (hit y hy).1
  have ha := td_frac_member c s i cf ops hins hit hne N hN h64 hk
  have hb := td_frac_member c s i cf (ops.map mirrorOp) (mirror_ins hins) (by
    rw [mirror_items]
    intro x hx
    obtain ⟨y, hy, rfl⟩ := List.mem_map.1 hx
    exact item_neg (hit y hy)) (by rw [mirror_items]; simpa using hne) N (by rw [mirror_items, List.length_map]; exact hN) h64 hk
  rw [mirror_items, List.length_map] at hb
  have h1 := C154_quantile _ _ ops hins hfin _ N hN (ha.mono (fun d hd => hd.1)) (hb.mono (fun d hd => hd.1))
  have h2 : ∀ q : ℝ, 0 ≤ q → q ≤ 1 → 1 < N → c < 1 → _ := fun q hq0 hq1 hN1 hc =>
    have hmid : Max.max 1 (c * N) < N := max_lt hN1 (by nlinarith)
    C154_value _ _ ops hins hfin (fracError c N ops.length) N q hN
      (ha.mono (fun d hd => (hd.2 q).mono (fun r hr hq => hr hq0 hq1 (Or.inl (by nlinarith)))))
      (hb.mono (fun d hd => (hd.2 (1 - q)).mono (fun r hr hq => hr (by linarith) (by linarith) (Or.inl (by nlinarith)))))
  rw [always_iff] at h1 ⊢
  refine ⟨fun m hm => ⟨h1.1 m hm, fun q a1 a2 a3 a4 => ?_⟩, h1.2⟩
  exact ((always_iff _ _).1 (h2 q a1 a2 a3 a4)).1 m hm

end

/-- Non-vacuity: 1000 items in one call to a MultiDigest of a TDigest with `k0` and one with `k1`, `δ = 1000`: quantile queries are off by at most 4 ranks (3 and 5
for the members), value queries by at most 5. -/
theorem C153_example : let _ := realExact; let _ := realExact_exact;
    Always (execAll (MultiDigest.built [TDigest.new k0 invK0 (.fin 1000), TDigest.new k1 invK1 (.fin 1000)] : MultiDigest (TDigest ℝ))
      [.addBuffer (relShard 0 ++ relShard 1)]) (fun m =>
      (∀ x : ℝ, Always (m.estQuantileAtValue (.fin x : Fl ℝ)) (fun r => ∃ e : ℝ, r.1 = .fin e ∧ RankWithin (relShard 0 ++ relShard 1) (1000 * e) x 4)) ∧
      ∀ q : ℝ, 0 ≤ q → q ≤ 99 / 100 → Always (m.estValueAtQuantile (.fin q : Fl ℝ)) (fun r => ∃ v : ℝ, r.1 = .fin v ∧
        RankWithin (relShard 0 ++ relShard 1) (1000 * q) v 5)) := by
  intro i1 i2
  have hit := relShard_item
  have hlen := relShard_length
  generalize relShard 0 ++ relShard 1 = xs at hit hlen ⊢
  have e : itemsOf [Op.addBuffer xs] = xs := by simp [itemsOf, Op.items]
  have hW : (1000 : ℝ) = (itemsOf [Op.addBuffer xs]).length := by rw [e, hlen]; norm_num
  have hne : xs ≠ [] := by intro h; rw [h] at hlen; simp at hlen
  have hpi := Real.pi_lt_d2
  have h := C153_tdigests [(2 / 1000, k0, invK0, .fin 1000), (315 / 100000, k1, invK1, .fin 1000)] (by simp) [.addBuffer xs] (by simp)
    (by rw [e]; exact hit) (by rw [e]; exact hne) 1000 hW (by norm_num) (by
      intro t ht
      simp only [List.mem_cons, List.not_mem_nil, or_false] at ht
      rcases ht with rfl | rfl
      · exact ⟨1000, rfl, by norm_num, Or.inl ⟨rfl, rfl, le_refl _⟩⟩
      · exact ⟨1000, rfl, by norm_num, Or.inr (Or.inl ⟨rfl, rfl, by linarith⟩)⟩)
  rw [e] at h
  have f1 : fracError (2 / 1000) 1000 [Op.addBuffer xs].length = 3 := by
    unfold fracError
    rw [show [Op.addBuffer xs].length = 1 from rfl]; norm_num
  have f2 : fracError (315 / 100000) 1000 [Op.addBuffer xs].length = 189 / 40 := by
    unfold fracError
    rw [show [Op.addBuffer xs].length = 1 from rfl, max_eq_right (by norm_num)]; norm_num
  refine Always.mono h ?_
  rintro m ⟨h1, h2⟩
  refine ⟨fun x => Always.mono (h1 x) ?_, fun q q0 q1 => h2 q 5 q0 (by linarith) ?_ ?_⟩
  · rintro r ⟨e, g1, g2⟩
    simp only [List.map_cons, List.map_nil, List.sum_cons, List.sum_nil, f1, f2] at g2
    simp only [List.length_cons, List.length_nil] at g2
    rw [show ((3 : ℝ) + (189 / 40 + 0)) / ((0 + 1 + 1 : ℕ) : ℝ) = 309 / 80 by norm_num] at g2
    obtain ⟨g2, g3⟩ := g2
    exact ⟨e, g1, by linarith, by linarith⟩
  · intro t ht
    simp only [List.mem_cons, List.not_mem_nil, or_false] at ht
    rcases ht with rfl | rfl
    · rw [f1]; norm_num
    · rw [f2]; norm_num
  · intro t ht
    left
    simp only [List.mem_cons, List.not_mem_nil, or_false] at ht
    rcases ht with rfl | rfl
    · rw [max_eq_right (by norm_num)]; norm_num; linarith
    · rw [max_eq_right (by norm_num)]; norm_num; linarith

/-- Non-vacuity: 1000 items in one call to a SymDigest of two TDigests with `k1` and `δ = 1000`: off by at most 5 ranks, value queries at every quantile. -/
theorem C154_example : let _ := realExact; let _ := realExact_exact;
    Always (execAll (SymDigest.new (TDigest.new k1 invK1 (.fin 1000)) (TDigest.new k1 invK1 (.fin 1000)) : SymDigest (TDigest ℝ))
      [.addBuffer (relShard 0 ++ relShard 1)]) (fun m =>
      (∀ x : ℝ, Always (m.estQuantileAtValue (.fin x : Fl ℝ)) (fun r => ∃ e : ℝ, r.1 = .fin e ∧ RankWithin (relShard 0 ++ relShard 1) (1000 * e) x 5)) ∧
      ∀ q : ℝ, 0 ≤ q → q ≤ 1 → Always (m.estValueAtQuantile (.fin q : Fl ℝ)) (fun r => ∃ v : ℝ, r.1 = .fin v ∧
        RankWithin (relShard 0 ++ relShard 1) (1000 * q) v 5)) := by
  intro i1 i2
  have hit := relShard_item
  have hlen := relShard_length
  generalize relShard 0 ++ relShard 1 = xs at hit hlen ⊢
  have e : itemsOf [Op.addBuffer xs] = xs := by simp [itemsOf, Op.items]
  have hW : (1000 : ℝ) = (itemsOf [Op.addBuffer xs]).length := by rw [e, hlen]; norm_num
  have hne : xs ≠ [] := by intro h; rw [h] at hlen; simp at hlen
  have hpi := Real.pi_lt_d2
  have h := C154_tdigests (315 / 100000) k1 invK1 (.fin 1000) [.addBuffer xs] (by simp)
    (by rw [e]; exact hit) (by rw [e]; exact hne) 1000 hW (by norm_num) ⟨1000, rfl, by norm_num, Or.inr (Or.inl ⟨rfl, rfl, by linarith⟩)⟩
  rw [e] at h
  have f2 : fracError (315 / 100000) 1000 [Op.addBuffer xs].length = 189 / 40 := by
    unfold fracError
    rw [show [Op.addBuffer xs].length = 1 from rfl, max_eq_right (by norm_num)]; norm_num
  rw [f2] at h
  refine Always.mono h ?_
  rintro m ⟨h1, h2⟩
  refine ⟨fun x => Always.mono (h1 x) ?_, fun q q0 q1 => Always.mono (h2 q q0 q1 (by norm_num) (by norm_num)) ?_⟩
  · rintro r ⟨e, g1, g2, g3⟩
    exact ⟨e, g1, by linarith, by linarith⟩
  · rintro r ⟨v, g1, g2, g3⟩
    exact ⟨v, g1, by linarith, by linarith⟩

end AQ

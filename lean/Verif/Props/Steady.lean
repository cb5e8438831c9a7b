/-
Property C175: queries do not disturb each other, in nested digests.
-/
import Verif.Props.Repeat
import Verif.Model.MultiDigest
import Verif.Model.SymDigest
import Verif.Model.RCSketch
import Verif.Model.RCSketch2
import Verif.Model.Linear
import Verif.Props.AffineValue

set_option linter.unusedSectionVars false
set_option linter.unusedVariables false

namespace AQ
open Prog Spec
variable {K : Type} [Field K] [LinearOrder K] [IsStrictOrderedRing K] [FloatFmt K]

/-- Ask any digest: the answer, and the digest afterwards. -/
def Query.askAny {D : Type} [Digest D (Fl K)] (d : D) : Query K → Prog (Fl K × D)
  | .quantile v => Digest.estQuantileAtValue d v
  | .value q => Digest.estValueAtQuantile d q

/-- Ask several questions and forget the answers. -/
def askAllAny {D : Type} [Digest D (Fl K)] (d : D) : List (Query K) → Prog D
  | [] => .ret d
  | Q :: Qs => do let r ← Q.askAny d; askAllAny r.2 Qs

/-- `P` describes digests at rest: a question leaves any digest at rest and would be answered in the same way again, and a digest at rest is not
changed by questions. -/
structure AtRest {D : Type} [Digest D (Fl K)] (P : D → Prop) : Prop where
  settle : ∀ (d : D) (Q : Query K), Partially (Q.askAny d) (fun r => P r.2 ∧ Always (Q.askAny r.2) (fun r' => r' = r))
  keep : ∀ (d : D) (Q : Query K), P d → Partially (Q.askAny d) (fun r => r.2 = d)

section
variable {D : Type} [Digest D (Fl K)] {P : D → Prop}

/-- C175. After one question, any number of further questions leaves the digest exactly as it is, and the first question gets the same answer
again. -/
theorem C175_answers (h : AtRest P) (d : D) (Q : Query K) :
    Partially (Q.askAny d) (fun r => ∀ Qs : List (Query K),
      Partially (askAllAny r.2 Qs) (fun d' => d' = r.2 ∧ Always (Q.askAny d') (fun r' => r' = r))) := by
  have keep : ∀ (Qs : List (Query K)) (e : D), P e → Partially (askAllAny e Qs) (fun d' => d' = e) := by
    intro Qs
    induction Qs with
    | nil => intro e _; rfl
    | cons Q Qs ih =>
      intro e he
      unfold askAllAny
      rw [partially_bind]
      refine (h.keep e Q he).mono ?_
      intro r hr
      rw [hr]
      exact ih e he
  refine (h.settle d Q).mono ?_
  rintro r ⟨h1, h2⟩ Qs
  refine (keep Qs r.2 h1).mono ?_
  rintro d' rfl
  exact ⟨rfl, h2⟩

/-! ### The wrappers -/

theorem sumLoop_settle {f : D → Prog (Fl K × D)} (h : ∀ d, Partially (f d) (fun r => P r.2 ∧ Always (f r.2) (fun r' => r' = r))) :
    ∀ (ds : List D) (acc : Fl K), Partially (MultiDigest.sumLoop f ds acc) (fun s => (∀ d ∈ s.2, P d) ∧ s.2.length = ds.length ∧
      Always (MultiDigest.sumLoop f s.2 acc) (fun s' => s' = s))
  | [], acc => ⟨by simp, rfl, rfl⟩
  | d :: ds, acc => by
    unfold MultiDigest.sumLoop
    rw [partially_bind]
    refine (h d).mono ?_
    rintro r ⟨h1, h2⟩
    rw [partially_bind]
    refine (sumLoop_settle h ds (acc + r.1)).mono ?_
    rintro s ⟨h3, h4, h5⟩
    refine ⟨?_, by simp [h4], ?_⟩
    · intro e he
      rcases List.mem_cons.1 he with rfl | he
      · exact h1
      · exact h3 e he
    · show Always (MultiDigest.sumLoop f (r.2 :: s.2) acc) _
      unfold MultiDigest.sumLoop
      rw [always_bind]
      refine h2.mono ?_
      rintro r' rfl
      rw [always_bind]
      refine h5.mono ?_
      rintro s' rfl
      rfl

theorem sumLoop_keep {f : D → Prog (Fl K × D)} (h : ∀ d, P d → Partially (f d) (fun r => r.2 = d)) :
    ∀ (ds : List D) (acc : Fl K), (∀ d ∈ ds, P d) → Partially (MultiDigest.sumLoop f ds acc) (fun s => s.2 = ds)
  | [], acc, _ => rfl
  | d :: ds, acc, hd => by
    unfold MultiDigest.sumLoop
    rw [partially_bind]
    refine (h d (hd d (by simp))).mono ?_
    intro r hr
    rw [partially_bind]
    refine (sumLoop_keep h ds (acc + r.1) (fun e he => hd e (by simp [he]))).mono ?_
    intro s hs
    show r.2 :: s.2 = d :: ds
    rw [hr, hs]

theorem multi_ask (m : MultiDigest D) (Q : Query K) : Q.askAny m =
    (MultiDigest.sumLoop (fun d => Q.askAny d) m.digests (Fl.lit 0) >>= fun r => .ret (r.1 / Fl.ofNat m.digests.length, ⟨r.2⟩)) := by
  cases Q <;> rfl

/-- C175. A `MultiDigest`. -/
theorem C175_multi (h : AtRest P) : AtRest (fun m : MultiDigest D => ∀ d ∈ m.digests, P d) where
  settle m Q := by
    rw [multi_ask, partially_bind]
    refine (sumLoop_settle (fun d => h.settle d Q) m.digests (Fl.lit 0)).mono ?_
    rintro s ⟨h1, h2, h3⟩
    refine ⟨h1, ?_⟩
    rw [multi_ask, always_bind]
    refine h3.mono ?_
    rintro s' rfl
    show (_, _) = (_, _)
    simp only [h2]
  keep m Q hm := by
    rw [multi_ask, partially_bind]
    refine (sumLoop_keep (fun d hd => h.keep d Q hd) m.digests (Fl.lit 0) hm).mono ?_
    intro s hs
    show (⟨s.2⟩ : MultiDigest D) = m
    rw [hs]

/-- The question a `SymDigest` asks its upper side. -/
def Query.mirror : Query K → Query K
  | .quantile v => .quantile (-v)
  | .value q => .value (Fl.lit 1 - q)

/-- How a `SymDigest` combines the answers. -/
def Query.combine (l h : Fl K) : Query K → Prog (Fl K)
  | .quantile _ => SymDigest.chooseQuantile l (Fl.lit 1 - h)
  | .value q => SymDigest.chooseValue q l (-h)

theorem sym_ask (s : SymDigest D) (Q : Query K) : Q.askAny s = (Q.askAny s.low >>= fun l => Q.mirror.askAny s.high >>= fun h =>
    Q.combine l.1 h.1 >>= fun r => .ret (r, ⟨l.2, h.2⟩)) := by
  cases Q <;> rfl

theorem combine_one (l h : Fl K) (Q : Query K) : OneOutcome (Q.combine l h) := by
  cases Q with
  | quantile v =>
    show OneOutcome (SymDigest.chooseQuantile _ _)
    unfold SymDigest.chooseQuantile
    simp only []
    split
    · exact Or.inr ⟨_, rfl⟩
    all_goals exact oneOutcome_ret _
  | value q =>
    show OneOutcome (SymDigest.chooseValue _ _ _)
    unfold SymDigest.chooseValue
    split
    · exact Or.inr ⟨_, rfl⟩
    all_goals exact oneOutcome_ret _

/-- C175. A `SymDigest`. -/
theorem C175_sym (h : AtRest P) : AtRest (fun s : SymDigest D => P s.low ∧ P s.high) where
  settle s Q := by
    rw [sym_ask, partially_bind]
    refine (h.settle s.low Q).mono ?_
    rintro l ⟨l1, l2⟩
    rw [partially_bind]
    refine (h.settle s.high Q.mirror).mono ?_
    rintro g ⟨g1, g2⟩
    obtain ⟨a, ha⟩ | ⟨e, he⟩ := combine_one l.1 g.1 Q
    · rw [ha]
      refine ⟨⟨l1, g1⟩, ?_⟩
      rw [sym_ask, always_bind]
      refine l2.mono ?_
      rintro l' rfl
      rw [always_bind]
      refine g2.mono ?_
      rintro g' rfl
      rw [ha]
      rfl
    · rw [he]; trivial
  keep s Q hs := by
    rw [sym_ask, partially_bind]
    refine (h.keep s.low Q hs.1).mono ?_
    intro l hl
    rw [partially_bind]
    refine (h.keep s.high Q.mirror hs.2).mono ?_
    intro g hg
    rw [partially_bind]
    refine (partially_true _).mono ?_
    intro r _
    show (⟨l.2, g.2⟩ : SymDigest D) = s
    rw [hl, hg]

theorem boxed_inl {E : Type} [Digest E (Fl K)] (d : D) (Q : Query K) :
    Q.askAny (.inl d : D ⊕ E) = (Q.askAny d >>= fun r => .ret (r.1, .inl r.2)) := by
  cases Q <;> rfl

theorem boxed_inr {E : Type} [Digest E (Fl K)] (d : E) (Q : Query K) :
    Q.askAny (.inr d : D ⊕ E) = (Q.askAny d >>= fun r => .ret (r.1, .inr r.2)) := by
  cases Q <;> rfl

/-- C175. Two types of digests side by side (`Box<dyn Digest>`). -/
theorem C175_boxed {E : Type} [Digest E (Fl K)] {S : E → Prop} (h : AtRest P) (h' : AtRest S) : AtRest (D := D ⊕ E) (Sum.elim P S) where
  settle d Q := by
    cases d with
    | inl d =>
      rw [boxed_inl, partially_bind]
      refine (h.settle d Q).mono ?_
      rintro r ⟨h1, h2⟩
      refine ⟨h1, ?_⟩
      rw [boxed_inl, always_bind]
      exact h2.mono (by rintro r' rfl; rfl)
    | inr d =>
      rw [boxed_inr, partially_bind]
      refine (h'.settle d Q).mono ?_
      rintro r ⟨h1, h2⟩
      refine ⟨h1, ?_⟩
      rw [boxed_inr, always_bind]
      exact h2.mono (by rintro r' rfl; rfl)
  keep d Q hd := by
    cases d with
    | inl d =>
      rw [boxed_inl, partially_bind]
      refine (h.keep d Q hd).mono ?_
      intro r hr
      show Sum.inl r.2 = _
      rw [hr]
    | inr d =>
      rw [boxed_inr, partially_bind]
      refine (h'.keep d Q hd).mono ?_
      intro r hr
      show Sum.inr r.2 = _
      rw [hr]
end

/-! ### The digests inside -/

/-- A digest whose queries have one outcome and do not touch it. -/
theorem atRest_of_pure {D : Type} [Digest D (Fl K)] (f : D → Query K → Prog (Fl K)) (h1 : ∀ d Q, OneOutcome (f d Q))
    (h2 : ∀ (d : D) (Q : Query K), Q.askAny d = (f d Q >>= fun a => .ret (a, d))) : AtRest (fun _ : D => True) where
  settle d Q := by
    rw [h2]
    obtain ⟨a, ha⟩ | ⟨e, he⟩ := h1 d Q
    · rw [ha]
      refine ⟨trivial, ?_⟩
      rw [h2, ha]
      rfl
    · rw [he]; trivial
  keep d Q _ := by
    rw [h2]
    obtain ⟨a, ha⟩ | ⟨e, he⟩ := h1 d Q
    · rw [ha]; rfl
    · rw [he]; trivial

/-- C175. A `TDigest`. -/
theorem C175_tdigest [FloorRing K] : AtRest (K := K) (fun _ : TDigest K => True) :=
  atRest_of_pure (fun d Q => Q.inner d) inner_one (by intro d Q; cases Q <;> rfl)

/-- C175. A `ParTDigest`. -/
theorem C175_partdigest [FloorRing K] : AtRest (K := K) (fun p : ParTDigest K => p.buffer = []) where
  settle p Q := by
    have e : ∀ p : ParTDigest K, Q.askAny p = Q.askPar p := by intro p; cases Q <;> rfl
    rw [e, askPar_eq, partially_bind]
    refine (parFlush_empties p).mono ?_
    intro p1 h1
    obtain ⟨a, ha⟩ | ⟨e', he⟩ := inner_one p1.digest Q
    · rw [ha]
      refine ⟨h1, ?_⟩
      show Always (Q.askAny p1) _
      rw [e, askPar_eq, parFlush_nil h1, bind_ret, ha]
      rfl
    · rw [he]; trivial
  keep p Q hp := by
    have e : Q.askAny p = Q.askPar p := by cases Q <;> rfl
    rw [e, askPar_eq, parFlush_nil hp, bind_ret, partially_bind]
    exact (partially_true _).mono (fun _ _ => rfl)

theorem rankFrom_one (x : Fl K) : ∀ (bs : List (List (Fl K))) (i r : Nat), OneOutcome (rankFrom x i r bs)
  | [], _, _ => oneOutcome_ret _
  | b :: bs, i, r => by
    unfold rankFrom
    exact oneOutcome_ite (rankFrom_one x bs _ _) (Or.inr ⟨_, rfl⟩)

theorem weightedFrom_one : ∀ (bs : List (List (Fl K))) (i : Nat), OneOutcome (weightedFrom i bs)
  | [], _ => oneOutcome_ret _
  | b :: bs, i => by
    unfold weightedFrom
    refine OneOutcome.bind ?_ (fun here => (weightedFrom_one bs (i + 1)).bind (fun rest => oneOutcome_ret _))
    unfold levelCentroids
    refine oneOutcome_ite (oneOutcome_ret _) (OneOutcome.bind ?_ (fun w => oneOutcome_ret _))
    unfold levelWeight
    exact oneOutcome_ite (oneOutcome_ret _) (oneOutcome_ite (oneOutcome_ret _) (Or.inr ⟨_, rfl⟩))

theorem valueSearch_one (t : Fl K) : ∀ (cs : List (Centroid K)) (w : Fl K) (o : Option (Fl K)), OneOutcome (valueSearch t w o cs)
  | [], _, _ => oneOutcome_unwrap _
  | c :: cs, _, _ => by
    unfold valueSearch
    exact oneOutcome_ite (oneOutcome_ret _) (valueSearch_one t cs _ _)

theorem estQuantileFrom_one (bs : List (List (Fl K))) (n : Nat) (x : Fl K) : OneOutcome (estQuantileFrom bs n x) :=
  (rankFrom_one x bs 0 0).bind (fun _ => oneOutcome_ret _)

theorem estValueFrom_one (bs : List (List (Fl K))) (n : Nat) (q : Fl K) : OneOutcome (estValueFrom bs n q) := by
  unfold estValueFrom sortedWeightedValues
  refine ((weightedFrom_one bs 0).bind (fun cs => ?_)).bind (fun cs => valueSearch_one _ _ _ _)
  unfold sortByKey
  exact oneOutcome_ite (Or.inr ⟨_, rfl⟩) (oneOutcome_ret _)

/-- C175. An `RCSketch`. -/
theorem C175_rcsketch : AtRest (K := K) (fun _ : RCSketch K => True) :=
  atRest_of_pure (fun s Q => match Q with | .quantile v => s.estQuantileAtValue v | .value q => s.estValueAtQuantile q)
    (by intro s Q; cases Q; exacts [estQuantileFrom_one _ _ _, estValueFrom_one _ _ _]) (by intro d Q; cases Q <;> rfl)

/-- C175. An `RCSketch2`. -/
theorem C175_rcsketch2 {sec : Nat → Nat} : AtRest (K := K) (fun _ : RC2 sec K => True) :=
  atRest_of_pure (fun s Q => match Q with | .quantile v => RCSketch2.estQuantileAtValue s v | .value q => RCSketch2.estValueAtQuantile s q)
    (by intro s Q; cases Q; exacts [estQuantileFrom_one _ _ _, estValueFrom_one _ _ _]) (by intro d Q; cases Q <;> rfl)

/-- C175. A nest: a `SymDigest` whose sides are `MultiDigest`s of members of different types. -/
theorem C175_nest [FloorRing K] (s : SymDigest (MultiDigest (TDigest K ⊕ ParTDigest K ⊕ RCSketch K))) (Q : Query K) :
    Partially (Q.askAny s) (fun r => ∀ Qs : List (Query K),
      Partially (askAllAny r.2 Qs) (fun s' => s' = r.2 ∧ Always (Q.askAny s') (fun r' => r' = r))) :=
  C175_answers (C175_sym (C175_multi (C175_boxed C175_tdigest (C175_boxed C175_partdigest C175_rcsketch)))) s Q

theorem not_always_false {α : Type} : ∀ p : Prog α, ¬ Always p (fun _ => False)
  | .ret _, h => h
  | .fail _, h => h
  | .flip f, h => not_always_false (f true) (h true)

section examples
attribute [local instance] ratExact ratExact_exact

/-- Two sketches with data in a `MultiDigest` in a `SymDigest`: the questions are answered, and the digest answers the first one again. -/
example : Always (execAll (SymDigest.new ⟨List.replicate 2 (RCSketch.fresh 64 4)⟩ ⟨List.replicate 2 (RCSketch.fresh 64 4)⟩ : SymDigest (MultiDigest (RCSketch ℚ)))
      [.addBuffer [.fin 3, .fin 1, .fin 2, .fin 5]] >>= fun s =>
    Query.askAny s (.value (.fin (1 / 4))) >>= fun r =>
    askAllAny r.2 [.quantile (.fin 2), .value (.fin (3 / 4))] >>= fun s' =>
    Query.askAny s' (.value (.fin (1 / 4))) >>= fun r' => .ret (r.1, r'.1)) (fun r => r = (.fin 2, .fin 2)) := by
  decide +kernel

/-- C175. A `LinearDigest` is left out because a value query sorts its values in place: no description of digests at rest fits it. -/
theorem C175_linear_sorts : ¬ ∃ P : LinearDigest ℚ → Prop, AtRest P := by
  rintro ⟨P, h⟩
  have h1 := h.settle ⟨[.fin 2, .fin 1]⟩ (.quantile (.fin 1))
  have hP : P ⟨[.fin 2, .fin 1]⟩ := h1.1
  have h2 := h.keep _ (.value (.fin 0)) hP
  have h3 : Always (Query.askAny (⟨[.fin 2, .fin 1]⟩ : LinearDigest ℚ) (.value (.fin 0)) >>= fun r => .ret r.2.values)
      (fun l => l = [.fin 1, .fin 2]) := by
    decide +kernel
  have h4 : Always (Query.askAny (⟨[.fin 2, .fin 1]⟩ : LinearDigest ℚ) (.value (.fin 0))) (fun r => False) := by
    rw [always_bind] at h3
    refine (h3.and h2).mono ?_
    rintro r ⟨h5, h6⟩
    rw [h6] at h5
    have h7 : ([.fin 2, .fin 1] : List (Fl ℚ)) = [.fin 1, .fin 2] := h5
    exact absurd h7 (by decide +kernel)
  exact not_always_false _ h4

end examples
end AQ

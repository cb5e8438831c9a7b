/-
Property C174: asking again. A query of a `BufferedDigest` around a `TDigest` runs a merge pass even when nothing new has arrived; straight after
another pass it changes nothing.
-/
import Verif.Proofs.TDAgain
import Verif.Model.BufferedDigest
import Verif.Model.ParTDigest
import Verif.Proofs.Linear
import Verif.Model.ScaleK0

set_option linter.unusedSectionVars false
set_option linter.unusedVariables false

namespace AQ
open Prog Spec
variable {K : Type} [Field K] [LinearOrder K] [IsStrictOrderedRing K] [FloatFmt K]

section
variable [FloatFmt.Exact K]

/-- What the proofs keep: the digest was left by a pass over ordinary data. -/
def TDigest.Passed (d : TDigest K) : Prop :=
  ∃ sup : List (Centroid K), d.Inv sup ∧ (∀ c ∈ sup, Good c) ∧ (d.DistinctMeans → d.Settled)

theorem TDigest.new_passed (s i : ScaleFn K) (cf : Fl K) : (TDigest.new s i cf).Passed := by
  refine ⟨[], TDigest.new_inv s i cf, by simp, fun _ => ?_⟩
  rw [TDigest.Settled, TDigest.addCentroidBuffer_nil _ rfl]
  rfl

theorem TDigest.Passed.addCentroidBuffer {d : TDigest K} (h : d.Passed) {batch : List (Centroid K)} (hb : ∀ c ∈ batch, Good c ∧ InRange c) :
    Always (d.addCentroidBuffer batch) TDigest.Passed := by
  obtain ⟨sup, h1, h2, -⟩ := h
  refine (TDigest.pass_settles h1.toCInv h2 (fun c hc => (hb c hc).1) (fun c hc => (hb c hc).2)).mono ?_
  rintro d' ⟨h3, h4⟩
  refine ⟨sup ++ batch, h3, ?_, h4⟩
  intro c hc
  rcases List.mem_append.1 hc with hc | hc
  · exact h2 c hc
  · exact (hb c hc).1

theorem units_ok {xs : List (Fl K)} (hx : ∀ x ∈ xs, Item x) : ∀ c ∈ xs.map TDigest.unit, Good c ∧ InRange c := by
  intro c hc
  obtain ⟨x, hxm, rfl⟩ := List.mem_map.1 hc
  exact ⟨⟨(hx x hxm).1, 1, one_pos, by simp [TDigest.unit]⟩, (hx x hxm).2⟩

/-- C174. After any history of insertions, `add_buffer(&[])` and `add_centroid_buffer` of nothing leave a `TDigest` exactly as it is, whatever its scale
function, if no two of its centroids have the same mean. -/
theorem C174_tdigest (s i : ScaleFn K) (cf : Fl K) (ops : List (TDigest.TOp K)) (hg : ∀ c ∈ TDigest.supplied ops, Good c ∧ InRange c) :
    Always ((TDigest.new s i cf).execOps ops) (fun d => (d.centroids.map Centroid.mean).Nodup →
      Always (d.addBuffer []) (fun d' => d' = d) ∧ Always (d.addCentroidBuffer []) (fun d' => d' = d)) := by
  have key : ∀ (ops : List (TDigest.TOp K)) (d : TDigest K), d.Passed → (∀ c ∈ TDigest.supplied ops, Good c ∧ InRange c) →
      Always (d.execOps ops) TDigest.Passed := by
    intro ops
    induction ops with
    | nil => intro d hd _; exact hd
    | cons o os ih =>
      intro d hd hg
      unfold TDigest.execOps
      rw [always_bind, TDigest.exec_eq]
      refine (hd.addCentroidBuffer (fun c hc => hg c (by simp [TDigest.supplied]; exact Or.inl hc))).mono ?_
      intro d' hd'
      exact ih d' hd' (fun c hc => hg c (by simp only [TDigest.supplied, List.flatMap_cons, List.mem_append] at hc ⊢; exact Or.inr hc))
  refine (key ops _ (TDigest.new_passed s i cf) hg).mono ?_
  rintro d ⟨sup, -, -, h⟩ hd
  exact ⟨h hd, h hd⟩

/-! ### BufferedDigest around a TDigest -/
variable [FloorRing K]

/-- What the proofs keep of a `BufferedDigest`. -/
structure BPassed (b : BufferedDigest (TDigest K) (Fl K)) : Prop where
  digest : b.digest.Passed
  buffer : ∀ x ∈ b.buffer, Item x

theorem BPassed.flush {b : BufferedDigest (TDigest K) (Fl K)} (h : BPassed b) :
    Always b.flush (fun b' => BPassed b' ∧ b'.buffer = []) := by
  unfold BufferedDigest.flush
  rw [always_bind]
  refine (h.digest.addCentroidBuffer (units_ok h.buffer)).mono ?_
  intro d hd
  exact ⟨⟨hd, by intro x hx; simp at hx⟩, rfl⟩

theorem BPassed.flushIfFull {b : BufferedDigest (TDigest K) (Fl K)} (h : BPassed b) : Always b.flushIfFull BPassed := by
  unfold BufferedDigest.flushIfFull
  split
  · exact h.flush.mono (fun _ h => h.1)
  · exact h

theorem BPassed.more {b : BufferedDigest (TDigest K) (Fl K)} (h : BPassed b) {xs : List (Fl K)} (hx : ∀ x ∈ xs, Item x) :
    BPassed { b with buffer := b.buffer ++ xs } := by
  refine ⟨h.digest, ?_⟩
  intro x hx'
  rcases List.mem_append.1 hx' with h' | h'
  · exact h.buffer x h'
  · exact hx x h'

theorem BPassed.addChunks : ∀ (cs : List (List (Fl K))) {b : BufferedDigest (TDigest K) (Fl K)}, BPassed b → (∀ c ∈ cs, ∀ x ∈ c, Item x) →
    Always (b.addChunks cs) BPassed
  | [], b, h, _ => h
  | c :: cs, b, h, hc => by
    unfold BufferedDigest.addChunks
    rw [always_bind]
    exact (h.more (hc c (by simp))).flushIfFull.mono (fun b' h' => BPassed.addChunks cs h' (fun c hc' => hc c (by simp [hc'])))

/-- The queries of the `Digest` trait. -/
inductive Query (K : Type) where
  | quantile (v : Fl K)
  | value (q : Fl K)

/-- Ask a `TDigest`. -/
def Query.inner (d : TDigest K) : Query K → Prog (Fl K)
  | .quantile v => d.estQuantileAtValue v
  | .value q => d.estValueAtQuantile q

/-- Ask a `BufferedDigest`: the answer, and the digest afterwards. -/
def Query.ask (b : BufferedDigest (TDigest K) (Fl K)) : Query K → Prog (Fl K × BufferedDigest (TDigest K) (Fl K))
  | .quantile v => b.estQuantileAtValue v
  | .value q => b.estValueAtQuantile q

/-- Ask several questions and forget the answers. -/
def askAll (b : BufferedDigest (TDigest K) (Fl K)) : List (Query K) → Prog (BufferedDigest (TDigest K) (Fl K))
  | [] => .ret b
  | Q :: Qs => do let r ← Q.ask b; askAll r.2 Qs

/-- No coins: one answer or a panic. -/
def OneOutcome {α : Type} (p : Prog α) : Prop := (∃ a, p = .ret a) ∨ ∃ e, p = .fail e

theorem OneOutcome.bind {α β : Type} {p : Prog α} {f : α → Prog β} (h : OneOutcome p) (hf : ∀ a, OneOutcome (f a)) : OneOutcome (p >>= f) := by
  obtain ⟨a, rfl⟩ | ⟨e, rfl⟩ := h
  · exact hf a
  · exact Or.inr ⟨e, rfl⟩

theorem oneOutcome_ret {α : Type} (a : α) : OneOutcome (.ret a) := Or.inl ⟨a, rfl⟩

theorem oneOutcome_idx {α : Type} (l : List α) (j : Nat) : OneOutcome (idx l j) := by
  unfold idx
  split
  · exact Or.inl ⟨_, rfl⟩
  · exact Or.inr ⟨_, rfl⟩

theorem oneOutcome_unwrap {α : Type} (o : Option α) : OneOutcome (unwrap o) := by
  cases o
  · exact Or.inr ⟨_, rfl⟩
  · exact Or.inl ⟨_, rfl⟩

theorem oneOutcome_ite {α : Type} {c : Prop} [Decidable c] {p q : Prog α} (hp : OneOutcome p) (hq : OneOutcome q) : OneOutcome (if c then p else q) := by
  split
  · exact hp
  · exact hq

omit [FloatFmt.Exact K] in
theorem valueLoop_one (cs : List (Centroid K)) (target : Fl K) : ∀ (steps j : Nat) (w : Fl K), OneOutcome (TDigest.valueLoop cs target steps j w)
  | 0, _, _ => oneOutcome_ret _
  | steps + 1, j, w => by
    unfold TDigest.valueLoop
    refine (oneOutcome_idx _ _).bind (fun c => (oneOutcome_idx _ _).bind (fun n => ?_))
    exact oneOutcome_ite (oneOutcome_ite (oneOutcome_ret _) (oneOutcome_ite (oneOutcome_ret _) (oneOutcome_ret _))) (valueLoop_one cs target steps _ _)

omit [FloatFmt.Exact K] in
theorem inner_one (d : TDigest K) (Q : Query K) : OneOutcome (Q.inner d) := by
  cases Q with
  | quantile v =>
    show OneOutcome (d.estQuantileAtValue v)
    unfold TDigest.estQuantileAtValue
    split
    · exact oneOutcome_ret _
    · exact oneOutcome_ite (oneOutcome_ret _) (oneOutcome_ite (oneOutcome_ret _) (oneOutcome_ite (oneOutcome_ret _) (oneOutcome_ret _)))
    · simp only []
      refine oneOutcome_ite (oneOutcome_ret _) (oneOutcome_ite (oneOutcome_ret _) (oneOutcome_ite ?_ (oneOutcome_ite ?_ ?_)))
      · exact oneOutcome_ite (oneOutcome_ite (oneOutcome_ret _) (oneOutcome_ret _)) (oneOutcome_ret _)
      · exact oneOutcome_ite (oneOutcome_ite (oneOutcome_ret _) (oneOutcome_ret _)) (oneOutcome_ret _)
      · split
        · exact oneOutcome_ret _
        · exact oneOutcome_ite (oneOutcome_ite (oneOutcome_ret _) (oneOutcome_ret _)) (Or.inr ⟨_, rfl⟩)
  | value q =>
    show OneOutcome (d.estValueAtQuantile q)
    unfold TDigest.estValueAtQuantile
    refine oneOutcome_ite (oneOutcome_ret _) ((oneOutcome_idx _ _).bind (fun f => ?_))
    refine oneOutcome_ite (oneOutcome_ret _) (oneOutcome_ite (oneOutcome_ret _) ((oneOutcome_unwrap _).bind (fun l => ?_)))
    refine oneOutcome_ite (oneOutcome_ret _) ((oneOutcome_unwrap _).bind (fun n => (valueLoop_one _ _ _ _ _).bind (fun o => ?_)))
    cases o <;> exact oneOutcome_ret _

theorem ask_eq (b : BufferedDigest (TDigest K) (Fl K)) (Q : Query K) :
    Q.ask b = (b.flush >>= fun b' => Q.inner b'.digest >>= fun a => .ret (a, b')) := by
  cases Q with
  | quantile v =>
    show b.flush >>= _ = _
    congr 1
    funext b'
    show (b'.digest.estQuantileAtValue v >>= fun r => Prog.ret (r, b'.digest)) >>= _ = _
    rw [bind_assoc']
    rfl
  | value q =>
    show b.flush >>= _ = _
    congr 1
    funext b'
    show (b'.digest.estValueAtQuantile q >>= fun r => Prog.ret (r, b'.digest)) >>= _ = _
    rw [bind_assoc']
    rfl

/-- A query keeps what we know, and afterwards nothing is buffered. -/
theorem BPassed.ask {b : BufferedDigest (TDigest K) (Fl K)} (h : BPassed b) (Q : Query K) :
    Partially (Q.ask b) (fun r => BPassed r.2 ∧ r.2.buffer = [] ∧ Q.inner r.2.digest = .ret r.1) := by
  rw [ask_eq, partially_bind]
  refine h.flush.partially.mono ?_
  rintro b' ⟨h1, h2⟩
  obtain ⟨a, ha⟩ | ⟨e, he⟩ := inner_one b'.digest Q
  · rw [ha]; exact ⟨h1, h2, ha⟩
  · rw [he]; trivial

/-- Nothing buffered and a settled digest: the flush changes nothing. -/
theorem flush_settled {b : BufferedDigest (TDigest K) (Fl K)} (hb : b.buffer = []) (hs : b.digest.Settled) : Always b.flush (fun b' => b' = b) := by
  unfold BufferedDigest.flush
  rw [always_bind, hb]
  refine Always.mono hs ?_
  rintro d rfl
  obtain ⟨d, u, c⟩ := b
  simp only at hb
  subst hb
  rfl

theorem askAll_settled : ∀ (Qs : List (Query K)) {b : BufferedDigest (TDigest K) (Fl K)}, b.buffer = [] → b.digest.Settled →
    Partially (askAll b Qs) (fun b' => b' = b)
  | [], b, _, _ => rfl
  | Q :: Qs, b, hb, hs => by
    unfold askAll
    rw [partially_bind, ask_eq, partially_bind]
    refine (flush_settled hb hs).partially.mono ?_
    rintro b' rfl
    obtain ⟨a, ha⟩ | ⟨e, he⟩ := inner_one b'.digest Q
    · rw [ha]; exact askAll_settled Qs hb hs
    · rw [he]; trivial

theorem BPassed.execAll : ∀ (ops : List (Op (Fl K))) {b : BufferedDigest (TDigest K) (Fl K)}, BPassed b → (∀ x ∈ itemsOf ops, Item x) →
    Partially (AQ.execAll b ops) BPassed
  | [], b, h, _ => h
  | o :: ops, b, h, hi => by
    unfold AQ.execAll
    rw [partially_bind]
    have h1 : ∀ x ∈ o.items, Item x := fun x hx => hi x (by simp [itemsOf]; exact Or.inl hx)
    have h2 : ∀ x ∈ itemsOf ops, Item x := fun x hx => hi x (by simp only [itemsOf, List.flatMap_cons, List.mem_append] at hx ⊢; exact Or.inr hx)
    refine Partially.mono (Q := BPassed) ?_ (fun b' h' => BPassed.execAll ops h' h2)
    match o, h1 with
    | .add x, h1 => exact (h.more (xs := [x]) h1).flushIfFull.partially
    | .addBuffer xs, h1 =>
      show Partially (b.addBuffer xs) _
      unfold BufferedDigest.addBuffer chunks
      split
      · trivial
      · rename_i hc
        exact (BPassed.addChunks _ h (fun c hc' x hx => h1 x (by
          have := chunksAux_flatten b.capacity hc xs.length xs le_rfl
          show x ∈ xs
          rw [← this]
          exact List.mem_flatten.2 ⟨c, hc', hx⟩))).partially
    | .quantile v, _ =>
      show Partially (Query.ask b (.quantile v) >>= fun r => .ret r.2) _
      rw [partially_bind]
      exact (h.ask _).mono (fun r hr => hr.1)
    | .value v, _ =>
      show Partially (Query.ask b (.value v) >>= fun r => .ret r.2) _
      rw [partially_bind]
      exact (h.ask _).mono (fun r hr => hr.1)

/-- C174. A `BufferedDigest` around a `TDigest`, after any history of calls. Once a question has been answered (and no two centroids have the same
mean), no further question changes anything: any number of questions `Qs` leaves the digest exactly as it is, and the first question asked again
gets the same answer and does not panic. -/
theorem C174_buffered (s i : ScaleFn K) (cf : Fl K) (capacity : Nat) (ops : List (Op (Fl K))) (hi : ∀ x ∈ itemsOf ops, Item x) (Q : Query K) :
    Partially (execAll (BufferedDigest.new (TDigest.new s i cf) capacity) ops) (fun b =>
      Partially (Q.ask b) (fun r => (r.2.digest.centroids.map Centroid.mean).Nodup → ∀ Qs : List (Query K),
        Partially (askAll r.2 Qs) (fun b' => b' = r.2 ∧ Always (Q.ask b') (fun r' => r' = r)))) := by
  refine (BPassed.execAll ops (b := BufferedDigest.new (TDigest.new s i cf) capacity)
    ⟨TDigest.new_passed s i cf, by intro x hx; simp [BufferedDigest.new] at hx⟩ hi).mono ?_
  intro b hb
  refine (hb.ask Q).mono ?_
  rintro r ⟨h1, h2, h3⟩ hd Qs
  obtain ⟨sup, -, -, h4⟩ := h1.digest
  refine (askAll_settled Qs h2 (h4 hd)).mono ?_
  rintro b' rfl
  refine ⟨rfl, ?_⟩
  rw [ask_eq, always_bind]
  refine (flush_settled h2 (h4 hd)).mono ?_
  rintro b'' rfl
  rw [h3]
  rfl

end

/-! ### ParTDigest -/
section
variable [FloorRing K]

/-- Ask a `ParTDigest`: the answer, and the digest afterwards. -/
def Query.askPar (p : ParTDigest K) : Query K → Prog (Fl K × ParTDigest K)
  | .quantile v => p.estQuantileAtValue v
  | .value q => p.estValueAtQuantile q

/-- Ask several questions and forget the answers. -/
def askAllPar (p : ParTDigest K) : List (Query K) → Prog (ParTDigest K)
  | [] => .ret p
  | Q :: Qs => do let r ← Q.askPar p; askAllPar r.2 Qs

theorem askPar_eq (p : ParTDigest K) (Q : Query K) : Q.askPar p = (p.flush >>= fun p' => Q.inner p'.digest >>= fun a => .ret (a, p')) := by
  cases Q <;> rfl

theorem parFlush_nil {p : ParTDigest K} (h : p.buffer = []) : p.flush = .ret p := by
  unfold ParTDigest.flush
  rw [if_pos h]

theorem parFlush_empties (p : ParTDigest K) : Partially p.flush (fun p' => p'.buffer = []) := by
  unfold ParTDigest.flush
  split
  · assumption
  · simp only [partially_bind]
    refine (partially_true _).mono (fun _ _ => (partially_true _).mono (fun _ _ => (partially_true _).mono (fun _ _ => (partially_true _).mono
      (fun _ _ => (partially_true _).mono (fun _ _ => (partially_true _).mono (fun _ _ => (partially_true _).mono (fun _ _ => ?_)))))))
    rfl

theorem askAllPar_same : ∀ (Qs : List (Query K)) {p : ParTDigest K}, p.buffer = [] → Partially (askAllPar p Qs) (fun p' => p' = p)
  | [], p, _ => rfl
  | Q :: Qs, p, h => by
    unfold askAllPar
    rw [partially_bind, askPar_eq, parFlush_nil h, bind_ret]
    obtain ⟨a, ha⟩ | ⟨e, he⟩ := inner_one p.digest Q
    · rw [ha]; exact askAllPar_same Qs h
    · rw [he]; trivial

/-- C174. A `ParTDigest` in any state, with any rounding: its `flush` does nothing when nothing is pending, so after one question no further question
changes anything and the first one gets the same answer, equal means or not. -/
theorem C174_partdigest (p : ParTDigest K) (Q : Query K) :
    Partially (Q.askPar p) (fun r => ∀ Qs : List (Query K),
      Partially (askAllPar r.2 Qs) (fun p' => p' = r.2 ∧ Always (Q.askPar p') (fun r' => r' = r))) := by
  rw [askPar_eq, partially_bind]
  refine (parFlush_empties p).mono ?_
  intro p1 h1
  obtain ⟨a, ha⟩ | ⟨e, he⟩ := inner_one p1.digest Q
  · rw [ha]
    intro Qs
    refine (askAllPar_same Qs h1).mono ?_
    rintro p' rfl
    refine ⟨rfl, ?_⟩
    rw [askPar_eq, parFlush_nil h1, bind_ret]
    show Always (Q.inner p'.digest >>= _) _
    rw [ha]
    rfl
  · rw [he]; trivial
end

section examples
attribute [local instance] ratExact ratExact_exact

/-- Ten items. -/
def tenItems : List (Fl ℚ) := [.fin 0, .fin 1, .fin 2, .fin 3, .fin 4, .fin 5, .fin 6, .fin 7, .fin 8, .fin 9]

/-- Ten items in a `TDigest` of few centroids, with distinct means: the hypotheses of C174 are met, and the digest is compressed. -/
example : (∀ c ∈ TDigest.supplied ([.addBuffer tenItems] : List (TDigest.TOp ℚ)), Good c ∧ InRange c) ∧
    Always ((TDigest.new k0 invK0 (.fin 6) : TDigest ℚ).execOps [.addBuffer tenItems])
      (fun d => (d.centroids.map Centroid.mean).Nodup ∧ d.centroids.length = 4) := by
  constructor
  · intro c hc
    simp only [TDigest.supplied, TDigest.TOp.supplied, tenItems, List.flatMap_cons, List.flatMap_nil, List.append_nil, List.map_cons, List.map_nil,
      List.mem_cons, List.not_mem_nil, or_false] at hc
    rcases hc with rfl | rfl | rfl | rfl | rfl | rfl | rfl | rfl | rfl | rfl <;> exact ⟨⟨⟨_, rfl⟩, 1, one_pos, rfl⟩, by unfold InRange; decide +kernel⟩
  · decide +kernel

/-- C174. The hypothesis on the means is needed, because the order in which the unstable sort leaves equal means is not determined: weights 3, 1, 3, 1
at the same mean, of which no two neighbours fit together, may come out as 1, 1, 3, 3 in a pass without new items, and then two of them are merged. -/
theorem C174_equal_means_may_change : ¬ Always ((TDigest.new k0 invK0 (.fin 5) : TDigest ℚ).addCentroidBuffer
      [⟨.fin 0, .fin 3⟩, ⟨.fin 0, .fin 1⟩, ⟨.fin 0, .fin 3⟩, ⟨.fin 0, .fin 1⟩] >>= fun d =>
    d.addCentroidBuffer [] >>= fun d' => .ret (d.centroids.length, d'.centroids.length)) (fun r => r ≠ (4, 3)) := by
  decide +kernel

end examples
end AQ

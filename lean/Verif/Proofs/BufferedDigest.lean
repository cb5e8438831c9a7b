/-
BufferedDigest as a reordering of calls: what the inner digest sees.
-/
import Verif.Model.BufferedDigest
import Verif.Spec.History
import Verif.Spec.Cost
import Verif.Proofs.Linear

set_option linter.unusedSectionVars false
set_option linter.unusedVariables false
set_option linter.unusedSimpArgs false

namespace AQ
open Prog Spec

section answers
variable {D F : Type} [Digest D F]

theorem answers_append (d : D) : ∀ (os os' : List (Op F)),
    answers d (os ++ os') = (do
      let r ← answers d os
      let s ← answers r.2 os'
      return (r.1 ++ s.1, s.2)) := by
  intro os
  induction os generalizing d with
  | nil => intro os'; simp [answers, bind_ret, pure_eq, bind_ret_right]
  | cons o os ih =>
    intro os'
    simp only [List.cons_append, answers, ih, bind_assoc', bind_ret, pure_eq, List.append_assoc]

theorem answers_execAll (d : D) : ∀ os : List (Op F), (answers d os >>= fun r => .ret r.2) = execAll d os := by
  intro os
  induction os generalizing d with
  | nil => rfl
  | cons o os ih =>
    simp only [answers, execAll, bind_assoc', bind_ret, pure_eq, ih]
    cases o <;> simp only [Op.call, Op.exec, bind_assoc', bind_ret, pure_eq]

theorem queriesFrom_append (seen : List F) : ∀ os os' : List (Op F),
    queriesFrom seen (os ++ os') = queriesFrom seen os ++ queriesFrom (seen ++ itemsOf os) os' := by
  intro os
  induction os generalizing seen with
  | nil => intro os'; simp [queriesFrom, itemsOf]
  | cons o os ih =>
    intro os'
    cases o <;> simp [queriesFrom, itemsOf, ih, Op.items, List.append_assoc]

theorem itemsOf_append (a b : List (Op F)) : itemsOf (a ++ b) = itemsOf a ++ itemsOf b := by
  simp [itemsOf]

end answers

namespace BufferedDigest
variable {F : Type}

/-- `ops'` on the inner digest leaving `buf` pending does what `ops` does on the wrapper. -/
def Sim (capacity : Nat) (buf0 : List F) (ops ops' : List (Op F)) (buf : List F) : Prop :=
  (∀ (D : Type) [Digest D F] (d : D), answers ({ digest := d, buffer := buf0, capacity := capacity } : BufferedDigest D F) ops =
    (answers d ops' >>= fun r => .ret (r.1, { digest := r.2, buffer := buf, capacity := capacity })))

theorem Sim.append {c : Nat} {b0 b1 b2 : List F} {o1 o1' o2 o2' : List (Op F)} (h1 : Sim c b0 o1 o1' b1) (h2 : Sim c b1 o2 o2' b2) :
    Sim c b0 (o1 ++ o2) (o1' ++ o2') b2 := by
  intro D _ d
  rw [answers_append, h1 D d, answers_append]
  simp only [bind_assoc', bind_ret, pure_eq]
  refine congrArg _ (funext fun r => ?_)
  rw [h2 D r.2]
  simp only [bind_assoc', bind_ret, pure_eq]

/-- Batches delivered without queries. -/
theorem answers_batches {D : Type} [Digest D F] : ∀ (bs : List (List F)) (d : D),
    answers d (bs.map Op.addBuffer) = (execAll d (bs.map Op.addBuffer) >>= fun d' => .ret ([], d'))
  | [], d => rfl
  | b :: bs, d => by
    simp only [List.map_cons, answers, execAll, Op.call, Op.exec, bind_assoc', bind_ret, pure_eq, answers_batches bs,
      List.append_nil]

theorem queriesFrom_batches (seen : List F) : ∀ bs : List (List F), queriesFrom seen (bs.map Op.addBuffer) = []
  | [] => rfl
  | b :: bs => by simp only [List.map_cons, queriesFrom]; exact queriesFrom_batches _ bs

theorem itemsOf_batches (bs : List (List F)) : itemsOf (bs.map Op.addBuffer) = bs.flatten := by
  induction bs with
  | nil => rfl
  | cons b bs ih =>
    have : itemsOf ((b :: bs).map Op.addBuffer) = b ++ itemsOf (bs.map Op.addBuffer) := rfl
    rw [this, ih]; rfl

/-- Whole batches have more than `c` and at most `2·c` items. -/
def Batch (c : Nat) (b : List F) : Prop := c < b.length ∧ b.length ≤ 2 * c

/-- `xs` (at most one capacity long) after pending `b`. -/
theorem flushIfFull_eq (c : Nat) (b xs : List F) (hb : b.length ≤ c) (hx : xs.length ≤ c) :
    ∃ (bs : List (List F)) (buf : List F), (∀ (D : Type) [Digest D F] (d : D),
      flushIfFull ({ digest := d, buffer := b ++ xs, capacity := c } : BufferedDigest D F) =
        (execAll d (bs.map Op.addBuffer) >>= fun d' => .ret { digest := d', buffer := buf, capacity := c })) ∧
      bs.flatten ++ buf = b ++ xs ∧ buf.length ≤ c ∧ ∀ x ∈ bs, Batch c x := by
  by_cases h : c < (b ++ xs).length
  · refine ⟨[b ++ xs], [], ?_, by simp, by simp, ?_⟩
    · intro D _ d
      unfold flushIfFull flush
      rw [if_pos h]
      simp only [List.map_cons, List.map_nil, execAll, Op.exec, bind_assoc', bind_ret, pure_eq]
    · intro x hx'
      rw [List.mem_singleton] at hx'
      subst hx'
      refine ⟨h, ?_⟩
      rw [List.length_append]; omega
  · refine ⟨[], b ++ xs, ?_, by simp, not_lt.1 h, by simp⟩
    intro D _ d
    unfold flushIfFull
    rw [if_neg h]
    rfl

theorem execAll_append {D : Type} [Digest D F] (d : D) : ∀ os os' : List (Op F),
    execAll d (os ++ os') = (execAll d os >>= fun d' => execAll d' os') := by
  intro os
  induction os generalizing d with
  | nil => intro os'; rfl
  | cons o os ih => intro os'; simp only [List.cons_append, execAll, ih, bind_assoc']

theorem addChunks_eq (c : Nat) : ∀ (cs : List (List F)) (b : List F), (∀ x ∈ cs, x.length ≤ c) → b.length ≤ c →
    ∃ (bs : List (List F)) (buf : List F), (∀ (D : Type) [Digest D F] (d : D),
      addChunks ({ digest := d, buffer := b, capacity := c } : BufferedDigest D F) cs =
        (execAll d (bs.map Op.addBuffer) >>= fun d' => .ret { digest := d', buffer := buf, capacity := c })) ∧
      bs.flatten ++ buf = b ++ cs.flatten ∧ buf.length ≤ c ∧ ∀ x ∈ bs, Batch c x
  | [], b, _, hb => ⟨[], b, fun D _ d => rfl, by simp, hb, by simp⟩
  | x :: cs, b, h, hb => by
    obtain ⟨bs1, buf1, h1, h2, h3, h4⟩ := flushIfFull_eq c b x hb (h x (by simp))
    obtain ⟨bs2, buf2, g1, g2, g3, g4⟩ := addChunks_eq c cs buf1 (fun y hy => h y (by simp [hy])) h3
    refine ⟨bs1 ++ bs2, buf2, ?_, ?_, g3, ?_⟩
    · intro D _ d
      unfold addChunks
      rw [h1 D d, List.map_append, execAll_append]
      simp only [bind_assoc', bind_ret, g1]
    · rw [List.flatten_append, List.append_assoc, g2, ← List.append_assoc, h2, List.flatten_cons, List.append_assoc]
    · intro y hy
      rcases List.mem_append.1 hy with hy | hy
      · exact h4 y hy
      · exact g4 y hy

/-- Whole batches take more than `c` items each. -/
theorem insertCalls_batches (c : Nat) : ∀ bs : List (List F), (∀ x ∈ bs, Batch c x) →
    insertCalls (bs.map Op.addBuffer) * (c + 1) ≤ (itemsOf (bs.map Op.addBuffer)).length
  | [], _ => by simp [insertCalls]
  | b :: bs, h => by
    have ih := insertCalls_batches c bs (fun x hx => h x (by simp [hx]))
    have h1 := (h b (by simp)).1
    have e1 : insertCalls ((b :: bs).map Op.addBuffer) = insertCalls (bs.map Op.addBuffer) + 1 := by
      simp [insertCalls]
    have e2 : itemsOf ((b :: bs).map Op.addBuffer) = b ++ itemsOf (bs.map Op.addBuffer) := rfl
    rw [e1, e2, List.length_append, Nat.add_mul]
    omega

theorem insertCalls_append (a b : List (Op F)) : insertCalls (a ++ b) = insertCalls a + insertCalls b := by
  simp [insertCalls]

theorem queryCalls_append (a b : List (Op F)) : queryCalls (a ++ b) = queryCalls a + queryCalls b := by
  simp [queryCalls]

/-- One call of the wrapper. -/
theorem call_cost (c : Nat) (hc : c ≠ 0) (b : List F) (hb : b.length ≤ c) (o : Op F) :
    ∃ ops' buf, Sim c b [o] ops' buf ∧ buf.length ≤ c ∧ itemsOf ops' ++ buf = b ++ o.items ∧
      (∀ seen, queriesFrom seen ops' = queriesFrom (seen ++ b) [o]) ∧ (∀ x, Op.add x ∉ ops') ∧ queryCalls ops' = queryCalls [o] ∧
      insertCalls ops' * (c + 1) ≤ queryCalls [o] * (c + 1) + (itemsOf ops').length := by
  have hins : ∀ (xs : List F) (bs : List (List F)) (buf : List F) (o : Op F),
      (∀ (D : Type) [Digest D F] (d : D), o.call ({ digest := d, buffer := b, capacity := c } : BufferedDigest D F) =
        (execAll d (bs.map Op.addBuffer) >>= fun d' => .ret ([], { digest := d', buffer := buf, capacity := c }))) →
      Sim c b [o] (bs.map Op.addBuffer) buf := by
    intro xs bs buf o h D _ d
    rw [answers_batches]
    simp only [answers, h, bind_assoc', bind_ret, pure_eq, List.append_nil]
  have hnq : ∀ bs : List (List F), queryCalls (bs.map Op.addBuffer) = 0 := by
    intro bs
    simp [queryCalls, List.countP_map, Function.comp_def]
  cases o with
  | add x =>
    obtain ⟨bs, buf, h1, h2, h3, h4⟩ := flushIfFull_eq c b [x] hb (by simp; omega)
    refine ⟨bs.map Op.addBuffer, buf, hins [x] bs buf _ ?_, h3, by rw [itemsOf_batches]; exact h2, ?_, by simp, ?_, ?_⟩
    · intro D _ d
      show (BufferedDigest.add _ x >>= _) = _
      unfold BufferedDigest.add
      simp only [h1, bind_assoc', bind_ret, pure_eq]
    · intro seen; rw [queriesFrom_batches]; rfl
    · rw [hnq]; rfl
    · exact le_trans (insertCalls_batches c bs h4) (Nat.le_add_left _ _)
  | addBuffer xs =>
    obtain ⟨bs, buf, h1, h2, h3, h4⟩ := addChunks_eq c (chunksAux c xs.length xs) b (chunksAux_length_le c _ _) hb
    rw [chunksAux_flatten c hc _ _ le_rfl] at h2
    refine ⟨bs.map Op.addBuffer, buf, hins xs bs buf _ ?_, h3, by rw [itemsOf_batches]; exact h2, ?_, by simp, ?_, ?_⟩
    · intro D _ d
      show (BufferedDigest.addBuffer _ xs >>= _) = _
      unfold BufferedDigest.addBuffer chunks
      rw [if_neg hc]
      simp only [h1, bind_assoc', bind_ret, pure_eq]
    · intro seen; rw [queriesFrom_batches]; rfl
    · rw [hnq]; rfl
    · exact le_trans (insertCalls_batches c bs h4) (Nat.le_add_left _ _)
  | quantile v =>
    refine ⟨[.addBuffer b, .quantile v], [], ?_, by simp, by simp [itemsOf, Op.items], fun seen => by simp [queriesFrom], by simp,
      rfl, by simp [insertCalls, queryCalls]⟩
    intro D _ d
    simp only [answers, Op.call, bind_assoc', bind_ret, pure_eq]
    show (estQuantileAtValue _ v >>= _) = _
    unfold estQuantileAtValue flush
    simp only [bind_assoc', bind_ret, pure_eq, List.nil_append]
  | value v =>
    refine ⟨[.addBuffer b, .value v], [], ?_, by simp, by simp [itemsOf, Op.items], fun seen => by simp [queriesFrom], by simp,
      rfl, by simp [insertCalls, queryCalls]⟩
    intro D _ d
    simp only [answers, Op.call, bind_assoc', bind_ret, pure_eq]
    show (estValueAtQuantile _ v >>= _) = _
    unfold estValueAtQuantile flush
    simp only [bind_assoc', bind_ret, pure_eq, List.nil_append]

theorem history_cost (c : Nat) (hc : c ≠ 0) : ∀ (ops : List (Op F)) (b : List F), b.length ≤ c →
    ∃ ops' buf, Sim c b ops ops' buf ∧ buf.length ≤ c ∧ itemsOf ops' ++ buf = b ++ itemsOf ops ∧
      (∀ seen, queriesFrom seen ops' = queriesFrom (seen ++ b) ops) ∧ (∀ x, Op.add x ∉ ops') ∧ queryCalls ops' = queryCalls ops ∧
      insertCalls ops' * (c + 1) ≤ queryCalls ops * (c + 1) + (itemsOf ops').length
  | [], b, hb => ⟨[], b, fun D _ d => rfl, hb, by simp [itemsOf], fun seen => rfl, by simp, rfl, by simp [insertCalls]⟩
  | o :: os, b, hb => by
    obtain ⟨o', b1, h1, h2, h3, h4, h5, h6, h7⟩ := call_cost c hc b hb o
    obtain ⟨os', b2, g1, g2, g3, g4, g5, g6, g7⟩ := history_cost c hc os b1 h2
    refine ⟨o' ++ os', b2, Sim.append h1 g1, g2, ?_, fun seen => ?_, ?_, ?_, ?_⟩
    · rw [itemsOf_append, List.append_assoc, g3, ← List.append_assoc, h3, List.append_assoc]; rfl
    · rw [queriesFrom_append, h4, g4, List.append_assoc, h3]
      have := queriesFrom_append (seen ++ b) [o] os
      rw [List.singleton_append] at this
      rw [this]
      simp [itemsOf, List.append_assoc]
    · intro x hx
      rcases List.mem_append.1 hx with hx | hx
      · exact h5 x hx
      · exact g5 x hx
    · rw [queryCalls_append, h6, g6, ← queryCalls_append]; rfl
    · rw [insertCalls_append, itemsOf_append, List.length_append, ← List.singleton_append, queryCalls_append, Nat.add_mul, Nat.add_mul]
      omega

theorem history_sim (c : Nat) (hc : c ≠ 0) (ops : List (Op F)) (b : List F) (hb : b.length ≤ c) :
    ∃ ops' buf, Sim c b ops ops' buf ∧ buf.length ≤ c ∧ itemsOf ops' ++ buf = b ++ itemsOf ops ∧
      (∀ seen, queriesFrom seen ops' = queriesFrom (seen ++ b) ops) := by
  obtain ⟨ops', buf, h1, h2, h3, h4, -⟩ := history_cost c hc ops b hb
  exact ⟨ops', buf, h1, h2, h3, h4⟩

end BufferedDigest

section linear
variable {K : Type} [Field K] [LinearOrder K] [IsStrictOrderedRing K] [FloorRing K] [FloatFmt K]

/-- The exact answer to a query about the given items. -/
def LinearDigest.answer (q : List (Fl K) × Op (Fl K)) : Prog (List (Fl K)) :=
  q.2.call (⟨q.1⟩ : LinearDigest K) >>= fun r => .ret r.1

/-- The exact answers to a list of queries. -/
def LinearDigest.answersTo : List (List (Fl K) × Op (Fl K)) → Prog (List (Fl K))
  | [] => .ret []
  | q :: qs => do
    let a ← LinearDigest.answer q
    let as ← LinearDigest.answersTo qs
    return a ++ as

theorem sortFl_perm {l l' : List (Fl K)} (h : l.Perm l') : sortFl l = sortFl l' := by
  unfold sortFl sortByKey
  rw [h.length_eq]
  have ha : l.any (fun a => Fl.isNan (id a)) = l'.any (fun a => Fl.isNan (id a)) := by
    rw [Bool.eq_iff_iff, List.any_eq_true, List.any_eq_true]
    exact ⟨fun ⟨x, hx, e⟩ => ⟨x, h.mem_iff.1 hx, e⟩, fun ⟨x, hx, e⟩ => ⟨x, h.mem_iff.2 hx, e⟩⟩
  rw [ha]
  split
  · rfl
  · congr 1
    have p : (l.insertionSort (fun a b => id a ≤ id b)).Perm (l'.insertionSort (fun a b => id a ≤ id b)) :=
      (List.perm_insertionSort _ l).trans (h.trans (List.perm_insertionSort _ l').symm)
    have : Std.Antisymm (fun a b : Fl K => id a ≤ id b) := ⟨fun a b h1 h2 => le_antisymm h1 h2⟩
    exact p.eq_of_pairwise' (List.pairwise_insertionSort _ l) (List.pairwise_insertionSort _ l')

theorem LinearDigest.answers_eq : ∀ (ops : List (Op (Fl K))) (d : LinearDigest K) (seen : List (Fl K)), d.values.Perm seen →
    (answers d ops >>= fun r => .ret r.1) = LinearDigest.answersTo (queriesFrom seen ops) := by
  intro ops
  induction ops with
  | nil => intro d seen h; rfl
  | cons o os ih =>
    intro d seen h
    cases o with
    | add x =>
      have := ih (d.add x) (seen ++ [x]) (h.append_right _)
      simp only [answers, Op.call, queriesFrom, bind_assoc', bind_ret, pure_eq, List.nil_append]
      exact this
    | addBuffer x =>
      have := ih (d.addBuffer x) (seen ++ x) (h.append_right _)
      simp only [answers, Op.call, queriesFrom, bind_assoc', bind_ret, pure_eq, List.nil_append]
      exact this
    | quantile v =>
      have e : d.estQuantileAtValue v = (⟨seen⟩ : LinearDigest K).estQuantileAtValue v := by
        unfold LinearDigest.estQuantileAtValue
        rw [h.countP_eq, h.countP_eq, h.length_eq]
      simp only [answers, queriesFrom, LinearDigest.answersTo, LinearDigest.answer]
      rw [← ih d seen h]
      simp only [Op.call, Digest.estQuantileAtValue, bind_assoc', bind_ret, pure_eq, e]
    | value v =>
      simp only [answers, queriesFrom, LinearDigest.answersTo, LinearDigest.answer]
      simp only [Op.call, Digest.estValueAtQuantile, LinearDigest.estValueAtQuantile, bind_assoc', bind_ret, pure_eq]
      rw [sortFl_perm h, h.length_eq]
      refine congrArg _ (funext fun i => ?_)
      unfold sortFl sortByKey
      split
      · rfl
      · have p := List.perm_insertionSort (fun a b : Fl K => id a ≤ id b) seen
        simp only [bind_ret]
        split <;> simp only [bind_assoc', bind_ret, pure_eq] <;> refine congrArg _ (funext fun w => ?_) <;>
          rw [← ih ⟨seen.insertionSort (fun a b : Fl K => id a ≤ id b)⟩ seen p] <;> simp only [bind_assoc', bind_ret, pure_eq]

end linear
end AQ

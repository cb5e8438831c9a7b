/-
Properties C47, C48 and C72 (BufferedDigest, src/buffered_digest.rs).
-/
import Verif.Proofs.BufferedDigest
import Verif.Spec.F64

set_option linter.unusedSectionVars false
set_option linter.unusedVariables false

namespace AQ
open Prog Spec

section
variable {F : Type}

/-- C47. For every capacity of at least 1 and every history there are a history for the inner digest and a list of pending
items such that, whatever the inner digest is and does (its answers, panics and coin flips): the wrapper gives the answers the
inner digest gives to that history; delivered and pending items together are the items supplied, in order; and each query
reaches the inner digest after exactly the items that were supplied before it. -/
theorem C47_transparent (capacity : Nat) (hc : capacity ≠ 0) (ops : List (Op F)) :
    ∃ (ops' : List (Op F)) (pending : List F), itemsOf ops' ++ pending = itemsOf ops ∧ queriesOf ops' = queriesOf ops ∧
      pending.length ≤ capacity ∧
      ∀ (D : Type) [Digest D F] (d : D), answers (BufferedDigest.new d capacity) ops =
        (answers d ops' >>= fun r => .ret (r.1, { digest := r.2, buffer := pending, capacity := capacity })) := by
  obtain ⟨ops', buf, h1, h2, h3, h4⟩ := BufferedDigest.history_sim capacity hc ops [] (by simp)
  exact ⟨ops', buf, by simpa using h3, by simpa [queriesOf] using h4 [], h2, fun D _ d => h1 D d⟩

/-- C47. `count()` is the number of items supplied, if that is so for the inner digest. -/
theorem C47_count {D : Type} [Digest D F] (d : D) (hd : CountsItems d) (capacity : Nat) (hc : capacity ≠ 0) :
    CountsItems (BufferedDigest.new d capacity) := by
  intro ops
  obtain ⟨ops', buf, h1, -, -, h4⟩ := C47_transparent capacity hc ops
  have h := hd ops'
  rw [← answers_execAll] at h ⊢
  rw [h4 D d]
  simp only [bind_assoc', bind_ret, partially_bind] at h ⊢
  refine h.mono ?_
  intro r hr
  show BufferedDigest.count _ = _
  unfold BufferedDigest.count
  have hr' : Digest.count r.2 = .ret (itemsOf ops').length := hr
  simp only [hr', bind_ret, pure_eq]
  rw [← h1, List.length_append]

/-- C48. After any history the pending buffer holds at most `capacity` items. -/
theorem C48_buffer_bounded {D : Type} [Digest D F] (d : D) (capacity : Nat) (hc : capacity ≠ 0) (ops : List (Op F)) :
    Partially (execAll (BufferedDigest.new d capacity) ops) (fun b => b.buffer.length ≤ capacity) := by
  obtain ⟨ops', buf, -, -, h3, h4⟩ := C47_transparent capacity hc ops
  rw [← answers_execAll, h4 D d]
  simp only [bind_assoc', bind_ret, partially_bind]
  exact (partially_true _).mono (fun r _ => h3)

/-- C48. Capacity 0: every single item is delivered at once, but a whole buffer panics (`chunks(0)`). -/
theorem C48_capacity_zero {D : Type} [Digest D F] (d : D) (x : F) (xs : List F) :
    (BufferedDigest.new d 0).add x = (Digest.addBuffer d [x] >>= fun d' => .ret (BufferedDigest.new d' 0)) ∧
    Panics ((BufferedDigest.new d 0).addBuffer xs) := by
  refine ⟨rfl, ?_⟩
  unfold BufferedDigest.addBuffer chunks BufferedDigest.new
  rw [if_pos rfl]
  exact Prog.panics_bind_left (by simp [Panics])

/-- C72. Between queries the inner digest only sees batches of more than `capacity` and at most `2·capacity` items. -/
theorem C72_batches (capacity : Nat) (hc : capacity ≠ 0) (ops : List (Op F))
    (hins : ∀ o ∈ ops, (∃ x, o = .add x) ∨ ∃ xs, o = .addBuffer xs) :
    ∃ (batches : List (List F)) (pending : List F), batches.flatten ++ pending = itemsOf ops ∧
      (∀ b ∈ batches, capacity < b.length ∧ b.length ≤ 2 * capacity) ∧ pending.length ≤ capacity ∧
      ∀ (D : Type) [Digest D F] (d : D), execAll (BufferedDigest.new d capacity) ops =
        (execAll d (batches.map .addBuffer) >>= fun d' => .ret { digest := d', buffer := pending, capacity := capacity }) := by
  suffices h : ∀ (ops : List (Op F)) (b : List F), b.length ≤ capacity →
      (∀ o ∈ ops, (∃ x, o = .add x) ∨ ∃ xs, o = .addBuffer xs) →
      ∃ (batches : List (List F)) (pending : List F), batches.flatten ++ pending = b ++ itemsOf ops ∧
      (∀ b ∈ batches, capacity < b.length ∧ b.length ≤ 2 * capacity) ∧ pending.length ≤ capacity ∧
      ∀ (D : Type) [Digest D F] (d : D),
        execAll ({ digest := d, buffer := b, capacity := capacity } : BufferedDigest D F) ops =
        (execAll d (batches.map .addBuffer) >>= fun d' => .ret { digest := d', buffer := pending, capacity := capacity }) from
    h ops [] (by simp) hins
  intro ops
  induction ops with
  | nil => intro b hb _; exact ⟨[], b, by simp [itemsOf], by simp, hb, fun D _ d => rfl⟩
  | cons o os ih =>
    intro b hb h
    have hone : ∃ (bs : List (List F)) (buf : List F), (∀ (D : Type) [Digest D F] (d : D),
        o.exec ({ digest := d, buffer := b, capacity := capacity } : BufferedDigest D F) =
          (execAll d (bs.map .addBuffer) >>= fun d' => .ret { digest := d', buffer := buf, capacity := capacity })) ∧
        bs.flatten ++ buf = b ++ o.items ∧ buf.length ≤ capacity ∧ ∀ x ∈ bs, BufferedDigest.Batch capacity x := by
      rcases h o (by simp) with ⟨x, rfl⟩ | ⟨xs, rfl⟩
      · exact BufferedDigest.flushIfFull_eq capacity b [x] hb (by simp; omega)
      · obtain ⟨bs, buf, h1, h2⟩ := BufferedDigest.addChunks_eq capacity (chunksAux capacity xs.length xs) b
          (chunksAux_length_le capacity _ _) hb
        rw [chunksAux_flatten capacity hc _ _ le_rfl] at h2
        refine ⟨bs, buf, fun D _ d => ?_, h2⟩
        rw [← h1 D d]
        show BufferedDigest.addBuffer _ xs = _
        unfold BufferedDigest.addBuffer chunks
        rw [if_neg hc]
        rfl
    obtain ⟨bs1, buf1, h1, h2, h3, h4⟩ := hone
    obtain ⟨bs2, buf2, g1, g2, g3, g4⟩ := ih buf1 h3 (fun o' ho' => h o' (by simp [ho']))
    refine ⟨bs1 ++ bs2, buf2, ?_, ?_, g3, ?_⟩
    · rw [List.flatten_append, List.append_assoc, g1, ← List.append_assoc, h2, List.append_assoc]; rfl
    · intro x hx
      rcases List.mem_append.1 hx with hx | hx
      · exact h4 x hx
      · exact g2 x hx
    · intro D _ d
      simp only [execAll]
      rw [h1 D d, List.map_append, BufferedDigest.execAll_append]
      simp only [bind_assoc', bind_ret, g4]

end

section linear
variable {K : Type} [Field K] [LinearOrder K] [IsStrictOrderedRing K] [FloorRing K] [FloatFmt K]

/-- C47. A buffered LinearDigest answers every history exactly like a bare LinearDigest (panics included). -/
theorem C47_linear_same_answers (capacity : Nat) (hc : capacity ≠ 0) (ops : List (Op (Fl K))) :
    (answers (BufferedDigest.new (LinearDigest.new : LinearDigest K) capacity) ops >>= fun r => .ret r.1) =
    (answers (LinearDigest.new : LinearDigest K) ops >>= fun r => .ret r.1) := by
  obtain ⟨ops', buf, -, h2, -, h4⟩ := C47_transparent capacity hc ops
  rw [h4, LinearDigest.answers_eq ops LinearDigest.new [] (List.Perm.refl _)]
  simp only [bind_assoc', bind_ret]
  rw [LinearDigest.answers_eq ops' LinearDigest.new [] (List.Perm.refl _)]
  exact congrArg _ h2

/-- LinearDigest meets the hypothesis of `C47_count`. -/
theorem LinearDigest.countsItems : CountsItems (LinearDigest.new : LinearDigest K) := by
  intro ops
  refine (LinearDigest.execAll_perm ops).mono ?_
  intro d hd
  show Prog.ret d.values.length = _
  rw [hd.length_eq]

/-- So does a buffered LinearDigest. -/
example : CountsItems (BufferedDigest.new (LinearDigest.new : LinearDigest K) 7) :=
  C47_count _ LinearDigest.countsItems 7 (by decide)

end linear

section examples
attribute [local instance] ratExact

/-- A history with an automatic flush, a query and a pending item, capacity 2. -/
example : Always (answers (BufferedDigest.new (LinearDigest.new : LinearDigest ℚ) 2)
    [.addBuffer [.fin 3, .fin 1, .fin 2], .value (.fin 0), .add (.fin 5), .quantile (.fin 5), .add (.fin 9)]) (fun r =>
      r.1 = [.fin 1, .fin (3 / 4)] ∧ r.2.buffer = [.fin 9] ∧ Always (Digest.count r.2) (fun n => n = 5)) := by decide +kernel

/-- C72 on five items and capacity 2: one batch of four, one item pending. -/
example : Always (execAll (BufferedDigest.new (LinearDigest.new : LinearDigest ℚ) 2)
    [.addBuffer [.fin 3, .fin 1, .fin 2, .fin 7], .add (.fin 5)]) (fun b =>
      b.digest.values = [.fin 3, .fin 1, .fin 2, .fin 7] ∧ b.buffer = [.fin 5]) := by decide +kernel

end examples
end AQ

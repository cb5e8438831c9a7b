/-
Property C106: ParTDigest with explicit flushes, and `total_weight` (src/t_digest/par_t_digest.rs).
-/
import Verif.Props.ParTRound
import Verif.Spec.Calls

set_option linter.unusedSectionVars false
set_option linter.unusedVariables false

namespace AQ
open Prog Spec
variable {K : Type} [Field K] [LinearOrder K] [IsStrictOrderedRing K] [FloatFmt K] [FloorRing K]

namespace ParTDigest

/-- A flush does to the digest what a quantile query does. -/
def Call.asOp : Call K → Op (Fl K)
  | .op o => o
  | .flush => .quantile (.fin 0)

theorem itemsOf_asOp : ∀ cs : List (Call K), itemsOf (cs.map Call.asOp) = itemsOfCalls cs
  | [] => rfl
  | c :: cs => by
    have ih := itemsOf_asOp cs
    unfold itemsOf itemsOfCalls at *
    rw [List.map_cons, List.flatMap_cons, List.flatMap_cons, ih]
    cases c <;> rfl

/-- What surely holds with queries in place of the flushes surely holds with the flushes. -/
theorem execCalls_always {P : ParTDigest K → Prop} : ∀ (cs : List (Call K)) (p : ParTDigest K),
    Always (execAll p (cs.map Call.asOp)) P → Always (p.execCalls cs) P
  | [], p, h => h
  | .op o :: cs, p, h => by
    rw [execCalls, always_bind]
    rw [List.map_cons, show execAll p (Call.asOp (.op o) :: cs.map Call.asOp) =
      (o.exec p >>= fun p' => execAll p' (cs.map Call.asOp)) from rfl, always_bind] at h
    exact h.mono (fun p' h' => execCalls_always cs p' h')
  | .flush :: cs, p, h => by
    rw [execCalls, always_bind]
    rw [List.map_cons, show execAll p (Call.asOp .flush :: cs.map Call.asOp) =
      ((p.estQuantileAtValue (.fin 0) >>= fun r => .ret r.2) >>= fun p' => execAll p' (cs.map Call.asOp)) from rfl, bind_assoc',
      estQuantileAtValue, bind_assoc', always_bind] at h
    refine h.mono (fun p' h' => ?_)
    rw [bind_assoc', always_bind] at h'
    obtain ⟨r, -, h2⟩ := Always.ret_of_eq h'
    exact execCalls_always cs p' h2

theorem execCalls_append : ∀ (cs ds : List (Call K)) (p : ParTDigest K),
    p.execCalls (cs ++ ds) = (p.execCalls cs >>= fun p' => p'.execCalls ds)
  | [], ds, p => rfl
  | .op o :: cs, ds, p => by
    rw [List.cons_append, execCalls, execCalls, bind_assoc']
    exact congrArg _ (funext fun p' => execCalls_append cs ds p')
  | .flush :: cs, ds, p => by
    rw [List.cons_append, execCalls, execCalls, bind_assoc']
    exact congrArg _ (funext fun p' => execCalls_append cs ds p')

theorem flush_buffer (p : ParTDigest K) : Partially p.flush (fun p' => p'.buffer = []) := by
  unfold flush
  split
  · assumption
  · simp only [partially_bind]
    exact (partially_true _).mono (fun _ _ => (partially_true _).mono (fun _ _ => (partially_true _).mono (fun _ _ =>
      (partially_true _).mono (fun _ _ => (partially_true _).mono (fun _ _ => (partially_true _).mono (fun _ _ =>
      (partially_true _).mono (fun _ _ => rfl)))))))

end ParTDigest

/-- C106. With explicit `flush` calls anywhere in a history of ordinary calls, in exact arithmetic: nothing panics, `count()` is the
number of items supplied, and `total_weight()` is that number less the pending items, of which there are at most `capacity`. -/
theorem C106_count_and_weight [FloatFmt.Exact K] (s i : ScaleFn K) (cf : Fl K) (threads capacity : Nat) (ht : threads ≠ 0)
    (cs : List (ParTDigest.Call K)) (ho : ∀ o, .op o ∈ cs → OrdinaryOp o) (hn : (ParTDigest.itemsOfCalls cs).length < 2 ^ 64) :
    Always (ParTDigest.callHistory s i cf threads capacity cs) (fun p =>
      p.count = .ret (ParTDigest.itemsOfCalls cs).length ∧
      p.totalWeight = .fin ((ParTDigest.itemsOfCalls cs).length - p.buffer.length : K) ∧ p.buffer.length ≤ capacity) := by
  rw [← ParTDigest.itemsOf_asOp] at hn ⊢
  have ho' : ∀ o ∈ cs.map ParTDigest.Call.asOp, OrdinaryOp o := by
    intro o h
    obtain ⟨c, hc, rfl⟩ := List.mem_map.1 h
    cases c with
    | op o => exact ho o hc
    | flush => exact ⟨0, rfl⟩
  have h1 := C45_count s i cf threads capacity ht _ ho' hn
  have h2 := C71_buffer_bounded s i cf threads capacity ht _ ho' hn
  have h3 := ParTDigest.history_inv s i cf threads capacity ht _ ho' hn
  have h : Always (ParTDigest.history s i cf threads capacity (cs.map ParTDigest.Call.asOp)) (fun p =>
      p.count = .ret (itemsOf (cs.map ParTDigest.Call.asOp)).length ∧
      p.totalWeight = .fin ((itemsOf (cs.map ParTDigest.Call.asOp)).length - p.buffer.length : K) ∧ p.buffer.length ≤ capacity) := by
    refine ((h1.and h2.partially).and h3.partially).mono ?_
    rintro p ⟨⟨a, b⟩, ⟨fl, e0, h, -⟩, -⟩
    refine ⟨a, ?_, b⟩
    unfold ParTDigest.totalWeight TDigest.totalWeight
    rw [TDigest.weightSum_exact h.good, h.weight, e0, List.length_append]
    push_cast
    ring_nf
  unfold ParTDigest.history ParTDigest.new at h
  unfold ParTDigest.callHistory ParTDigest.new
  rw [bind_ret] at h ⊢
  exact ParTDigest.execCalls_always _ _ h

/-- C106. The same in any monotone rounding arithmetic with room for the items. -/
theorem C106_count_and_weight_round [FloatFmt.Mono K] {N : Nat} {A B : K} (R : Roomy N A B) (h64 : N < 2 ^ 64) (s i : ScaleFn K)
    (cf : Fl K) (threads capacity : Nat) (ht : threads ≠ 0) (cs : List (ParTDigest.Call K)) (ho : ∀ o, .op o ∈ cs → OpIn A B o)
    (hN : (ParTDigest.itemsOfCalls cs).length ≤ N) :
    Always (ParTDigest.callHistory s i cf threads capacity cs) (fun p =>
      p.count = .ret (ParTDigest.itemsOfCalls cs).length ∧
      p.totalWeight = .fin ((ParTDigest.itemsOfCalls cs).length - p.buffer.length : K) ∧ p.buffer.length ≤ capacity) := by
  rw [← ParTDigest.itemsOf_asOp] at hN ⊢
  have ho' : ∀ o ∈ cs.map ParTDigest.Call.asOp, OpIn A B o := by
    intro o h
    obtain ⟨c, hc, rfl⟩ := List.mem_map.1 h
    cases c with
    | op o => exact ho o hc
    | flush => exact ⟨0, rfl⟩
  have h1 := C96_count R h64 s i cf threads capacity ht _ ho' hN
  have h2 := C71_any_arithmetic (.ret (TDigest.new s i cf)) threads capacity (cs.map ParTDigest.Call.asOp)
  have h3 := ParTDigest.history_round R h64 s i cf threads capacity ht _ ho' hN
  have h : Always (ParTDigest.history s i cf threads capacity (cs.map ParTDigest.Call.asOp)) (fun p =>
      p.count = .ret (itemsOf (cs.map ParTDigest.Call.asOp)).length ∧
      p.totalWeight = .fin ((itemsOf (cs.map ParTDigest.Call.asOp)).length - p.buffer.length : K) ∧ p.buffer.length ≤ capacity) := by
    refine ((h1.and h2).and h3.partially).mono ?_
    rintro p ⟨⟨a, b⟩, n, e0, h, -⟩
    refine ⟨a, ?_, b⟩
    have hw : p.digest.totalWeight = .fin (n : K) := by
      have := TDigest.weightSum_roomy R h.within (by rw [h.weight]; exact_mod_cast (show n ≤ N by omega))
      rw [h.weight] at this
      exact this
    unfold ParTDigest.totalWeight
    rw [hw, e0]
    push_cast
    ring_nf
  unfold ParTDigest.history ParTDigest.new at h
  unfold ParTDigest.callHistory ParTDigest.new
  rw [bind_ret] at h ⊢
  exact ParTDigest.execCalls_always _ _ h

/-- C106. Right after a flush `total_weight()` is the number of items supplied. -/
theorem C106_flushed_weight [FloatFmt.Mono K] {N : Nat} {A B : K} (R : Roomy N A B) (h64 : N < 2 ^ 64) (s i : ScaleFn K)
    (cf : Fl K) (threads capacity : Nat) (ht : threads ≠ 0) (cs : List (ParTDigest.Call K)) (ho : ∀ o, .op o ∈ cs → OpIn A B o)
    (hN : (ParTDigest.itemsOfCalls cs).length ≤ N) :
    Always (ParTDigest.callHistory s i cf threads capacity (cs ++ [.flush])) (fun p =>
      p.buffer = [] ∧ p.totalWeight = .fin ((ParTDigest.itemsOfCalls cs).length : K)) := by
  have e : ParTDigest.itemsOfCalls (cs ++ [.flush]) = ParTDigest.itemsOfCalls cs := by simp [ParTDigest.itemsOfCalls]
  have h := C106_count_and_weight_round R h64 s i cf threads capacity ht (cs ++ [.flush])
    (by intro o h; exact ho o (by simpa using h)) (by rw [e]; exact hN)
  rw [e] at h
  have hb : Partially (ParTDigest.callHistory s i cf threads capacity (cs ++ [.flush])) (fun p => p.buffer = []) := by
    unfold ParTDigest.callHistory
    rw [partially_bind]
    refine (partially_true _).mono (fun p _ => ?_)
    rw [ParTDigest.execCalls_append, partially_bind]
    refine (partially_true _).mono (fun q _ => ?_)
    rw [ParTDigest.execCalls, partially_bind]
    exact q.flush_buffer
  refine (h.and hb).mono ?_
  rintro p ⟨⟨-, b, -⟩, c⟩
  refine ⟨c, ?_⟩
  rw [b, c]
  simp

section doubles
attribute [local instance] f64Fmt f64_mono

/-- C106 for `f64`: up to `2^52` items of magnitude at most `2^970`. -/
theorem C106_f64 (s i : ScaleFn ℚ) (cf : Fl ℚ) (threads capacity : Nat) (ht : threads ≠ 0) (cs : List (ParTDigest.Call ℚ))
    (ho : ∀ o, .op o ∈ cs → OpIn (-2 ^ (970 : ℤ)) (2 ^ (970 : ℤ)) o) (hN : (ParTDigest.itemsOfCalls cs).length ≤ 2 ^ 52) :
    Always (ParTDigest.callHistory s i cf threads capacity cs) (fun p =>
      p.count = .ret (ParTDigest.itemsOfCalls cs).length ∧
      p.totalWeight = .fin ((ParTDigest.itemsOfCalls cs).length - p.buffer.length : ℚ) ∧ p.buffer.length ≤ capacity) :=
  C106_count_and_weight_round (f64_roomy (e := 970) (by norm_num) le_rfl) (by norm_num) s i cf threads capacity ht cs ho hN

/-- Items, a flush, more items: two of five are pending. -/
def flushCalls : List (ParTDigest.Call ℚ) := [.op (.addBuffer [.fin 1, .fin 2]), .flush, .flush, .op (.add (.fin 4)), .op (.quantile (.fin 2)),
  .op (.addBuffer [.fin 5, .fin 6])]

theorem C106_example : Always (ParTDigest.callHistory k0 invK0 (.fin 2) 2 3 flushCalls) (fun p =>
    p.buffer = [.fin 5, .fin 6] ∧ Always p.count (fun n => n = 5) ∧ p.totalWeight = .fin 3) := by decide +kernel

end doubles
end AQ

/-
Property C96: ParTDigest in floating point, where every operation rounds (src/t_digest/par_t_digest.rs).
-/
import Verif.Props.ParTDigest
import Verif.Proofs.ParTRound
import Verif.Proofs.F64Roomy

set_option linter.unusedSectionVars false
set_option linter.unusedVariables false

namespace AQ
open Prog Spec
variable {K : Type} [Field K] [LinearOrder K] [IsStrictOrderedRing K] [FloatFmt K] [FloorRing K]

theorem ParTDigest.history_round [FloatFmt.Mono K] {N : Nat} {A B : K} (R : Roomy N A B) (h64 : N < 2 ^ 64) (s i : ScaleFn K)
    (cf : Fl K) (threads capacity : Nat) (ht : threads ≠ 0) (ops : List (Op (Fl K))) (ho : ∀ o ∈ ops, OpIn A B o)
    (hN : (itemsOf ops).length ≤ N) :
    Always (ParTDigest.history s i cf threads capacity ops) (fun p =>
      ParTDigest.RHInv A B s i cf threads capacity p (itemsOf ops).length) := by
  unfold ParTDigest.history ParTDigest.new
  rw [bind_ret]
  have := ParTDigest.execAll_rhinv R h64 (s := s) (i := i) (cf := cf) (t := threads) (c := capacity) ht ops
    { digest := TDigest.new s i cf, threads := threads, buffer := [], capacity := capacity,
      creator := .ret (TDigest.new s i cf) } 0
    ⟨0, rfl, ParTDigest.new_prinv A B s i cf, by simp, by simp, rfl, rfl, rfl⟩ ho (by simpa using hN)
  exact this.mono (fun p h => by simpa using h)

/-- C96. In any monotone rounding arithmetic with room for `N` items between `A` and `B`: a history of insertions and queries
supplying at most `N` items between `A` and `B` never panics, for any scale functions, number of threads and capacity, and `count()` is
the number of items supplied. -/
theorem C96_count [FloatFmt.Mono K] {N : Nat} {A B : K} (R : Roomy N A B) (h64 : N < 2 ^ 64) (s i : ScaleFn K)
    (cf : Fl K) (threads capacity : Nat) (ht : threads ≠ 0) (ops : List (Op (Fl K))) (ho : ∀ o ∈ ops, OpIn A B o)
    (hN : (itemsOf ops).length ≤ N) :
    Always (ParTDigest.history s i cf threads capacity ops) (fun p => p.count = .ret (itemsOf ops).length) := by
  refine (ParTDigest.history_round R h64 s i cf threads capacity ht ops ho hN).mono ?_
  rintro p ⟨n, e0, h, -⟩
  have hn : n ≤ N := by omega
  have hw : p.digest.totalWeight = .fin (n : K) := by
    have := TDigest.weightSum_roomy R h.within (by rw [h.weight]; exact_mod_cast hn)
    rw [h.weight] at this
    exact this
  unfold ParTDigest.count TDigest.count
  rw [hw, TDigest.toUsize_nat (by omega), e0]
  rfl

/-- C96. In the same arithmetic a flush leaves nothing pending: the inner digest holds the exact weight of everything supplied, in
centroids of positive integer weight with means between `A` and `B`. Its limits lie there too; if anything was pending they
enclose the pending items and the centroids of earlier flushes. -/
theorem C96_flush [FloatFmt.Mono K] {N : Nat} {A B : K} (R : Roomy N A B) (h64 : N < 2 ^ 64) (s i : ScaleFn K)
    (cf : Fl K) (threads capacity : Nat) (ht : threads ≠ 0) (ops : List (Op (Fl K))) (ho : ∀ o ∈ ops, OpIn A B o)
    (hN : (itemsOf ops).length ≤ N) (hne : itemsOf ops ≠ []) :
    Always (ParTDigest.history s i cf threads capacity ops) (fun p => Always p.flush (fun p' =>
      p'.buffer = [] ∧ p'.digest.totalWeight = .fin ((itemsOf ops).length : K) ∧
      (∀ c ∈ p'.digest.centroids, Within A B c) ∧ ItemIn A B p'.digest.min ∧ ItemIn A B p'.digest.max ∧
      (p.buffer ≠ [] → (∀ x ∈ p.buffer, p'.digest.min ≤ x ∧ x ≤ p'.digest.max) ∧
        ∀ c ∈ p.digest.centroids, p'.digest.min ≤ c.mean ∧ c.mean ≤ p'.digest.max))) := by
  refine (ParTDigest.history_round R h64 s i cf threads capacity ht ops ho hN).mono ?_
  rintro p ⟨n, e0, h, h2, h3, e1, e2, e3⟩
  refine (ParTDigest.flush_round R s i cf p n e3 (by rw [e1]; exact ht) h h2 (by omega)).mono ?_
  rintro p' ⟨a1, a2, a3⟩
  rw [← e0] at a1
  have hpos : (itemsOf ops).length ≠ 0 := by simpa using hne
  refine ⟨by rw [a2], ?_, a1.within, a1.min hpos, a1.max hpos, a3⟩
  have := TDigest.weightSum_roomy R a1.within (by rw [a1.weight]; exact_mod_cast hN)
  rw [a1.weight] at this
  exact this

/-- C96. In the same arithmetic, once an item was supplied, quantile queries answer with a number between 0 and 1 for every value
except NaN. -/
theorem C96_quantile_is_probability [FloatFmt.Mono K] {N : Nat} {A B : K} (R : Roomy N A B) (h64 : N < 2 ^ 64) (s i : ScaleFn K)
    (cf : Fl K) (threads capacity : Nat) (ht : threads ≠ 0) (ops : List (Op (Fl K))) (ho : ∀ o ∈ ops, OpIn A B o)
    (hN : (itemsOf ops).length ≤ N) (hne : itemsOf ops ≠ []) (v : Fl K) (hv : v ≠ .nan) :
    Always (ParTDigest.history s i cf threads capacity ops >>= fun p => p.estQuantileAtValue v) (fun r =>
      ∃ q : K, r.1 = .fin q ∧ 0 ≤ q ∧ q ≤ 1) := by
  rw [always_bind]
  refine (ParTDigest.history_round R h64 s i cf threads capacity ht ops ho hN).mono ?_
  rintro p ⟨n, e0, h, h2, h3, e1, e2, e3⟩
  unfold ParTDigest.estQuantileAtValue
  rw [always_bind]
  refine (ParTDigest.flush_round R s i cf p n e3 (by rw [e1]; exact ht) h h2 (by omega)).mono ?_
  rintro p' ⟨a1, -⟩
  rw [← e0] at a1
  have hpos : (itemsOf ops).length ≠ 0 := by simpa using hne
  obtain ⟨a, ha, ha'⟩ := a1.min hpos
  obtain ⟨b, hb, hb'⟩ := a1.max hpos
  rw [always_bind]
  exact TDigest.quantile_roomy R a1.within (fun e => hpos (a1.empty.1 e)) (by rw [a1.weight]; exact_mod_cast hN) ha hb ha' hb' hv

/-- C96. In the same arithmetic, once an item was supplied, value queries return for every `q` except NaN; for 0 and 1 they return
the limits of the flushed digest, which lie between `A` and `B`. -/
theorem C96_value_returns [FloatFmt.Mono K] {N : Nat} {A B : K} (R : Roomy N A B) (h64 : N < 2 ^ 64) (s i : ScaleFn K)
    (cf : Fl K) (threads capacity : Nat) (ht : threads ≠ 0) (ops : List (Op (Fl K))) (ho : ∀ o ∈ ops, OpIn A B o)
    (hN : (itemsOf ops).length ≤ N) (hne : itemsOf ops ≠ []) (q : Fl K) (hq : q ≠ .nan) :
    Always (ParTDigest.history s i cf threads capacity ops >>= fun p => p.estValueAtQuantile q) (fun r =>
      (q = .fin 0 → r.1 = r.2.digest.min ∧ ItemIn A B r.1) ∧ (q = .fin 1 → r.1 = r.2.digest.max ∧ ItemIn A B r.1)) := by
  rw [always_bind]
  refine (ParTDigest.history_round R h64 s i cf threads capacity ht ops ho hN).mono ?_
  rintro p ⟨n, e0, h, h2, h3, e1, e2, e3⟩
  unfold ParTDigest.estValueAtQuantile
  rw [always_bind]
  refine (ParTDigest.flush_round R s i cf p n e3 (by rw [e1]; exact ht) h h2 (by omega)).mono ?_
  rintro p' ⟨a1, -⟩
  rw [← e0] at a1
  have hpos : (itemsOf ops).length ≠ 0 := by simpa using hne
  have hcn : p'.digest.centroids ≠ [] := fun e => hpos (a1.empty.1 e)
  have hN' : totalW p'.digest.centroids ≤ N := by rw [a1.weight]; exact_mod_cast hN
  obtain ⟨v0, v1⟩ := TDigest.value_ends R a1.within hcn hN'
  by_cases q0 : q = .fin 0
  · subst q0
    rw [v0, bind_ret]
    exact ⟨fun _ => ⟨rfl, a1.min hpos⟩, fun e => by simp at e⟩
  by_cases q1 : q = .fin 1
  · subst q1
    rw [v1, bind_ret]
    exact ⟨fun e => by simp at e, fun _ => ⟨rfl, a1.max hpos⟩⟩
  rw [always_bind]
  exact (TDigest.value_roomy R a1.within hcn hN' h64 hq).mono (fun r _ => ⟨fun e => absurd e q0, fun e => absurd e q1⟩)

section doubles
attribute [local instance] f64Fmt f64_mono

/-- C96 for `f64`: up to `2^52` doubles of magnitude at most `2^970`. -/
theorem C96_f64 (s i : ScaleFn ℚ) (cf : Fl ℚ) (threads capacity : Nat) (ht : threads ≠ 0) (ops : List (Op (Fl ℚ)))
    (ho : ∀ o ∈ ops, OpIn (-2 ^ (970 : ℤ)) (2 ^ (970 : ℤ)) o) (hN : (itemsOf ops).length ≤ 2 ^ 52) :
    Always (ParTDigest.history s i cf threads capacity ops) (fun p => p.count = .ret (itemsOf ops).length) ∧
    (itemsOf ops ≠ [] → ∀ v : Fl ℚ, v ≠ .nan →
      Always (ParTDigest.history s i cf threads capacity ops >>= fun p => p.estQuantileAtValue v) (fun r =>
        ∃ q : ℚ, r.1 = .fin q ∧ 0 ≤ q ∧ q ≤ 1) ∧
      Always (ParTDigest.history s i cf threads capacity ops >>= fun p => p.estValueAtQuantile v) (fun _ => True)) := by
  have R := f64_roomy (e := 970) (by norm_num) le_rfl
  exact ⟨C96_count R (by norm_num) s i cf threads capacity ht ops ho hN,
    fun hne v hv => ⟨C96_quantile_is_probability R (by norm_num) s i cf threads capacity ht ops ho hN hne v hv,
      (C96_value_returns R (by norm_num) s i cf threads capacity ht ops ho hN hne v hv).mono (fun _ _ => trivial)⟩⟩

/-- A history in which the arithmetic rounds: thrice 0.1, a query, then 0.05, two threads, capacity 2. -/
def ptfOps : List (Op (Fl ℚ)) :=
  [.addBuffer [Ieee.double.rnd (1 / 10), Ieee.double.rnd (1 / 10), Ieee.double.rnd (1 / 10)], .quantile (.fin 1),
    .add (Ieee.double.rnd (1 / 20))]

example : (∀ o ∈ ptfOps, OpIn (-2 ^ (970 : ℤ)) (2 ^ (970 : ℤ)) o) ∧ itemsOf ptfOps ≠ [] ∧
    (itemsOf ptfOps).length ≤ 2 ^ 52 ∧
    Always (ParTDigest.history k0 invK0 (.fin 1) 2 2 ptfOps) (fun p =>
      p.buffer = [Ieee.double.rnd (1 / 20)] ∧ Always p.count (fun n => n = 4) ∧
      Always p.flush (fun p' => p'.digest.min = .fin (3602879701896397 / 72057594037927936) ∧
        .fin (3602879701896397 / 36028797018963968) < p'.digest.max)) := by
  have h1 : Ieee.double.rnd (1 / 10) = .fin (3602879701896397 / 36028797018963968) := by decide +kernel
  have h2 : Ieee.double.rnd (1 / 20) = .fin (3602879701896397 / 72057594037927936) := by decide +kernel
  refine ⟨?_, by decide +kernel, by decide +kernel, by decide +kernel⟩
  have hi1 : ItemIn (-2 ^ (970 : ℤ)) (2 ^ (970 : ℤ)) (Ieee.double.rnd (1 / 10)) :=
    ⟨_, h1, by decide +kernel, by decide +kernel⟩
  have hi2 : ItemIn (-2 ^ (970 : ℤ)) (2 ^ (970 : ℤ)) (Ieee.double.rnd (1 / 20)) :=
    ⟨_, h2, by decide +kernel, by decide +kernel⟩
  intro o ho
  simp only [ptfOps, List.mem_cons, List.not_mem_nil, or_false] at ho
  rcases ho with rfl | rfl | rfl
  · intro x hx
    simp only [List.mem_cons, List.not_mem_nil, or_false] at hx
    rcases hx with rfl | rfl | rfl <;> exact hi1
  · exact ⟨_, rfl⟩
  · exact hi2

end doubles
end AQ

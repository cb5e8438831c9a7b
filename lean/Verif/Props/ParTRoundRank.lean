/-
C125: accuracy of a ParTDigest in floating point (src/t_digest/par_t_digest.rs).
-/
import Verif.Proofs.ParTRoundRank
import Verif.Props.BufferedRound

set_option linter.unusedSectionVars false
set_option linter.unusedVariables false

namespace AQ
open Prog Spec
variable {K : Type} [Field K] [LinearOrder K] [IsStrictOrderedRing K] [FloatFmt K]

namespace Spec

/-- An upper bound of the number of flushes of a ParTDigest when the answer to a query is computed: one per earlier query or flush, one per full
buffer and the last one. -/
def flushesUpTo (capacity : Nat) (cs : List (ParTDigest.Call K)) : K :=
  1 + flushingCalls cs + (ParTDigest.itemsOfCalls cs).length / (capacity + 1)

end Spec

namespace ParTDigest
open TDigest
variable [FloorRing K]

theorem asOp_in {A B : K} {cs : List (Call K)} (ho : ∀ o, .op o ∈ cs → OpIn A B o) : ∀ o ∈ cs.map Call.asOp, OpIn A B o := by
  intro o h
  obtain ⟨c, hc, rfl⟩ := List.mem_map.1 h
  cases c with
  | op o => exact ho o hc
  | flush => exact ⟨0, rfl⟩

theorem calls_items_in {A B : K} {cs : List (Call K)} (ho : ∀ o, .op o ∈ cs → OpIn A B o) : ∀ x ∈ itemsOfCalls cs, ItemIn A B x := by
  intro x hx
  rw [← itemsOf_asOp] at hx
  obtain ⟨o, h1, h2⟩ := List.mem_flatMap.1 hx
  exact items_in (asOp_in ho o h1) x h2

theorem callHistory_rdhist [FloatFmt.Mono K] {N : Nat} {A B u η Rm X δ M : K} (H : K0Room N A B u η Rm X δ) (hM1 : 1 ≤ M) (h64 : N < 2 ^ 64)
    (threads capacity : Nat) (ht : threads ≠ 0) (cs : List (Call K)) (ho : ∀ o, .op o ∈ cs → OpIn A B o) (hN : (itemsOfCalls cs).length ≤ N)
    (hM : ((itemsOfCalls cs).length : K) * (2 / δ + 40 * u) ≤ M) :
    Always (callHistory k0 invK0 (.fin δ) threads capacity cs) (fun p =>
      RHInv A B k0 invK0 (.fin δ) threads capacity p (itemsOfCalls cs).length ∧ RDHist u η X δ M capacity p (itemsOfCalls cs) (flushingCalls cs)) := by
  rw [← itemsOf_asOp] at hN hM ⊢
  unfold callHistory ParTDigest.new
  rw [bind_ret]
  apply execCalls_always
  have := execAll_rdhist (t := threads) (c := capacity) H hM1 h64 ht (cs.map Call.asOp)
    { digest := TDigest.new k0 invK0 (.fin δ), threads := threads, buffer := [], capacity := capacity,
      creator := .ret (TDigest.new k0 invK0 (.fin δ)) } [] 0
    ⟨0, rfl, new_prinv A B k0 invK0 (.fin δ), by simp, by simp, rfl, rfl, rfl⟩
    ⟨[], 0, rfl, by simpa using new_rd H.err.u_nonneg H.small H.factor, by simp⟩ (by simp) (asOp_in ho) (by simpa using hN) (by simpa using hM)
  refine this.mono (fun p h => ?_)
  rw [List.nil_append, zero_add, queriesIn_asOp] at h
  exact h

/-- The inner digest when the answer to a query is computed. -/
theorem flushed_rd [FloatFmt.Mono K] {N : Nat} {A B u η Rm X δ M : K} (H : K0Room N A B u η Rm X δ) (hM1 : 1 ≤ M) (h64 : N < 2 ^ 64)
    (threads capacity : Nat) (ht : threads ≠ 0) (cs : List (Call K)) (ho : ∀ o, .op o ∈ cs → OpIn A B o) (hne : itemsOfCalls cs ≠ [])
    (hN : (itemsOfCalls cs).length ≤ N) (hM : ((itemsOfCalls cs).length : K) * (2 / δ + 40 * u) ≤ M) :
    Always (callHistory k0 invK0 (.fin δ) threads capacity cs >>= fun p => p.flush) (fun p' => PRInv A B p'.digest (itemsOfCalls cs).length ∧
      (∀ c ∈ p'.digest.centroids, c.weight.toK ≤ M) ∧ ∃ S s' E', Runs (u * X + η) S p'.digest.centroids ∧ (∀ c ∈ S, Good c) ∧
        (∀ c ∈ S, p'.digest.min ≤ c.mean ∧ c.mean ≤ p'.digest.max) ∧ CloseTo s' E' S ((itemsOfCalls cs).map unit) ∧ 0 ≤ E' ∧
        s' + (u * X + η) * (M + 1) ≤ flushesUpTo capacity cs * (2 * ((u * X + η) * (M + 1))) ∧
        E' ≤ (itemsOfCalls cs).length * (2 / δ + 40 * u) * (1 + flushesUpTo capacity cs)) := by
  have hρ := H.rate_nonneg
  have hκM : 0 ≤ (u * X + η) * (M + 1) := mul_nonneg H.shift_nonneg (by linarith)
  have hit := calls_items_in ho
  rw [always_bind]
  refine (callHistory_rdhist H hM1 h64 threads capacity ht cs ho hN hM).mono ?_
  rintro p ⟨⟨n, e0, h1, h2, h3, e1, e2, e3⟩, fl, F, e0', d1, d2⟩
  obtain rfl : n = fl.length := by
    rw [e0', List.length_append] at e0
    omega
  have hfl : ∀ x ∈ fl, ItemIn A B x := fun x hx => hit x (by rw [e0']; simp [hx])
  have hf := flush_rdhist (q := flushingCalls cs + 1) (c := capacity) H hM1 ht h1 hfl h2 e1 e3 d1 (by rw [List.length_append]; nlinarith)
    (by rw [← e0']; exact hN) (by rw [← e0']; exact hM)
  refine ((flush_rhinv H.roomy ht h1 h2 e1 e2 e3 (by rw [← e0]; exact hN)).and hf).mono ?_
  rw [← e0, ← e0']
  rintro p' ⟨⟨hb, hp, -⟩, fl', F', q0, q1, q2⟩
  rw [hb, List.append_nil] at q0
  subst q0
  have hF : (F' : K) ≤ flushesUpTo capacity cs := by
    have h3 : (F' : K) * (capacity + 1) ≤ ((flushingCalls cs : K) + 1) * (capacity + 1) + (itemsOfCalls cs).length := by exact_mod_cast q2
    have hc : (0 : K) < capacity + 1 := by positivity
    unfold flushesUpTo
    rw [← mul_le_mul_iff_left₀ hc, add_mul, div_mul_cancel₀ _ hc.ne']
    linarith
  have hpos : (itemsOfCalls cs).length ≠ 0 := by simpa using hne
  obtain ⟨S, s', E', k1, k2, k3, k4, k5, k6, k7⟩ := q1.last (fun e => hpos (hp.empty.1 e))
  refine ⟨hp, q1.size.le hM1 hM, S, s', E', k1, k2, k3, k4, k7, k5.trans ?_, k6.trans ?_⟩
  · exact mul_le_mul_of_nonneg_right hF (by linarith)
  · exact mul_le_mul_of_nonneg_left (by linarith) (by positivity)

end ParTDigest

/-- Ranks in terms of the items. -/
theorem ParTDigest.rankAround_of {xs : List (Fl K)} [FloatFmt.Mono K] (hfin : ∀ y ∈ xs, ∃ m : K, y = .fin m) {r x s err : K}
    (h1 : TDigest.lw (x - s) (xs.map TDigest.unit) ≤ r + err) (h2 : r ≤ TDigest.uw (x + s) (xs.map TDigest.unit) + err) : RankAround xs r x s err := by
  have e : xs.map TDigest.unit = xs.map (fun y => (⟨y, .fin 1⟩ : Centroid K)) := by
    congr 1
    funext y
    simp [TDigest.unit, TDigest.lit_one]
  have hg : ∀ c ∈ xs.map TDigest.unit, Good c := by
    intro c hc
    obtain ⟨y, hy, rfl⟩ := List.mem_map.1 hc
    exact ⟨hfin y hy, 1, one_pos, by simp [TDigest.unit, TDigest.lit_one]⟩
  rw [← TDigest.weightBelow_eq_lw _ hg, e, TDigest.weightBelow_units _ _ hfin] at h1
  rw [← TDigest.weightUpTo_eq_uw _ hg, e, TDigest.weightUpTo_units _ _ hfin] at h2
  exact ⟨h1, h2⟩

/-- C125. In an arithmetic with relative error `u` (and `η` near zero), a ParTDigest with `k0` and factor `δ` after any history of insertions, queries and
flushes that supplied `n` items of magnitude up to `X`: with `ρ = 2/δ + 40u`, `M = max 1 (n ρ)` and `P` a bound on the number of flushes, the
quantile answered for `x` is the rank of a value within `2 P (u X + η) (M + 1)` of `x`, up to `n ρ (P + 1) + 2 M` and the rounding of the answer itself. -/
theorem C125_quantile_round [FloorRing K] [FloatFmt.Mono K] {N : Nat} {A B u η Rm X δ M : K} (H : TDigest.K0Room N A B u η Rm X δ) (hR1 : 1 ≤ Rm) (h64 : N < 2 ^ 64)
    (threads capacity : Nat) (ht : threads ≠ 0) (cs : List (ParTDigest.Call K)) (ho : ∀ o, .op o ∈ cs → OpIn A B o)
    (hne : ParTDigest.itemsOfCalls cs ≠ []) (hN : (ParTDigest.itemsOfCalls cs).length ≤ N)
    (hM : M = Max.max 1 ((ParTDigest.itemsOfCalls cs).length * (2 / δ + 40 * u))) (x : K) :
    Always (ParTDigest.callHistory k0 invK0 (.fin δ) threads capacity cs >>= fun p => p.estQuantileAtValue (.fin x)) (fun r => ∃ y : K, r.1 = .fin y ∧
      RankAround (ParTDigest.itemsOfCalls cs) (y * (ParTDigest.itemsOfCalls cs).length) x (flushesUpTo capacity cs * (2 * ((u * X + η) * (M + 1))))
        ((ParTDigest.itemsOfCalls cs).length * (2 / δ + 40 * u) * (1 + flushesUpTo capacity cs) + 2 * M +
          2 * (u + η) * (ParTDigest.itemsOfCalls cs).length)) := by
  have hit := ParTDigest.calls_items_in ho
  have hfin : ∀ y ∈ ParTDigest.itemsOfCalls cs, ∃ m : K, y = .fin m := fun y hy => by obtain ⟨m, h, -⟩ := hit y hy; exact ⟨m, h⟩
  have hM1 : 1 ≤ M := by rw [hM]; exact le_max_left _ _
  have h := ParTDigest.flushed_rd H hM1 h64 threads capacity ht cs ho hne hN (by rw [hM]; exact le_max_right _ _)
  rw [always_bind] at h ⊢
  refine h.mono (fun p h => ?_)
  unfold ParTDigest.estQuantileAtValue
  rw [always_bind]
  refine h.mono ?_
  rintro p' ⟨hp, hw, S, s', E', k1, k2, k3, k4, k5, k6, k7⟩
  have hpos : (ParTDigest.itemsOfCalls cs).length ≠ 0 := by simpa using hne
  have htot := ParTDigest.totalW_units' (ParTDigest.itemsOfCalls cs)
  have hg : ∀ c ∈ (ParTDigest.itemsOfCalls cs).map TDigest.unit, Good c := by
    intro c hc
    obtain ⟨y, hy, rfl⟩ := List.mem_map.1 hc
    exact (ParTDigest.unit_within (hit y hy)).good
  obtain ⟨y, hy, l1, l2⟩ := TDigest.closeTo_query H.roomy H.err hR1 H.shift_nonneg hp.within (fun e => hpos (hp.empty.1 e)) hg (hp.weight.trans htot.symm)
    (by rw [htot]; exact_mod_cast hN) (hp.min hpos) (hp.max hpos) k1 k2 k3 k5 k4 hw x
  rw [hy, bind_ret]
  rw [htot] at l1 l2
  refine ⟨y, rfl, (ParTDigest.rankAround_of hfin l1 l2).mono hfin k6 ?_⟩
  linarith

/-- C125 for values: the value answered for a quantile `q` with `n q < n - M/2 - 2 (u + η) n` is within `2 P (u X + η) (M + 1) + 12 (u X + η)` of a value whose
rank is `n q`, up to the same number of items. -/
theorem C125_value_round [FloorRing K] [FloatFmt.Mono K] {N : Nat} {A B u η Rm X δ M : K} (H : TDigest.K0Room N A B u η Rm X δ) (hX : 8 * (X + η) ≤ Rm)
    (hNR : (N : K) ≤ Rm) (h64 : N < 2 ^ 64)
    (threads capacity : Nat) (ht : threads ≠ 0) (cs : List (ParTDigest.Call K)) (ho : ∀ o, .op o ∈ cs → OpIn A B o)
    (hne : ParTDigest.itemsOfCalls cs ≠ []) (hN : (ParTDigest.itemsOfCalls cs).length ≤ N)
    (hM : M = Max.max 1 ((ParTDigest.itemsOfCalls cs).length * (2 / δ + 40 * u))) (q : K) (hq0 : 0 ≤ q)
    (hq : (ParTDigest.itemsOfCalls cs).length * q < (ParTDigest.itemsOfCalls cs).length - M / 2 - 2 * (u + η) * (ParTDigest.itemsOfCalls cs).length) :
    Always (ParTDigest.callHistory k0 invK0 (.fin δ) threads capacity cs >>= fun p => p.estValueAtQuantile (.fin q)) (fun r => ∃ v : K, r.1 = .fin v ∧
      RankAround (ParTDigest.itemsOfCalls cs) (q * (ParTDigest.itemsOfCalls cs).length) v
        (flushesUpTo capacity cs * (2 * ((u * X + η) * (M + 1))) + 12 * (u * X + η))
        ((ParTDigest.itemsOfCalls cs).length * (2 / δ + 40 * u) * (1 + flushesUpTo capacity cs) + 2 * M +
          2 * (u + η) * (ParTDigest.itemsOfCalls cs).length)) := by
  have hit := ParTDigest.calls_items_in ho
  have hfin : ∀ y ∈ ParTDigest.itemsOfCalls cs, ∃ m : K, y = .fin m := fun y hy => by obtain ⟨m, h, -⟩ := hit y hy; exact ⟨m, h⟩
  have hM1 : 1 ≤ M := by rw [hM]; exact le_max_left _ _
  have hu0 := H.err.u_nonneg
  have hη0 := H.err.eta_nonneg
  have hpos : (ParTDigest.itemsOfCalls cs).length ≠ 0 := by simpa using hne
  have hn0 : (0 : K) < (ParTDigest.itemsOfCalls cs).length := by exact_mod_cast Nat.pos_of_ne_zero hpos
  have hq1 : q ≤ 1 := by
    have h0 : 0 ≤ 2 * (u + η) * ((ParTDigest.itemsOfCalls cs).length : K) := by positivity
    have : ((ParTDigest.itemsOfCalls cs).length : K) * q ≤ (ParTDigest.itemsOfCalls cs).length * 1 := by linarith
    exact le_of_mul_le_mul_left this hn0
  have h := ParTDigest.flushed_rd H hM1 h64 threads capacity ht cs ho hne hN (by rw [hM]; exact le_max_right _ _)
  rw [always_bind] at h ⊢
  refine h.mono (fun p h => ?_)
  unfold ParTDigest.estValueAtQuantile
  rw [always_bind]
  refine h.mono ?_
  rintro p' ⟨hp, hw, S, s', E', k1, k2, k3, k4, k5, k6, k7⟩
  have htot := ParTDigest.totalW_units' (ParTDigest.itemsOfCalls cs)
  have hg : ∀ c ∈ (ParTDigest.itemsOfCalls cs).map TDigest.unit, Good c := by
    intro c hc
    obtain ⟨y, hy, rfl⟩ := List.mem_map.1 hc
    exact (ParTDigest.unit_within (hit y hy)).good
  obtain ⟨v, hv, l1, l2⟩ := TDigest.closeTo_value H.roomy H.err (H.small.trans (by norm_num)) H.lo H.hi hX hNR h64 hp.within (fun e => hpos (hp.empty.1 e)) hg
    (hp.weight.trans htot.symm) (by rw [htot]; exact_mod_cast hN) (hp.min hpos) (hp.max hpos) k1 k2 k3 k5 k4 hw hq0 hq1 (by rw [htot]; exact hq)
  rw [hv, bind_ret]
  rw [htot, mul_comm _ q] at l1 l2
  refine ⟨v, rfl, (ParTDigest.rankAround_of hfin l1 l2).mono hfin ?_ ?_⟩
  · linarith
  · linarith

namespace Spec

theorem OpUpTo.opIn {X : K} {o : Op (Fl K)} (h : OpUpTo X o) : OpIn (-X) X o := by
  cases o with
  | add x => obtain ⟨m, rfl, hm⟩ := h; exact ⟨m, rfl, abs_le.1 hm⟩
  | addBuffer xs => intro x hx; obtain ⟨m, rfl, hm⟩ := h x hx; exact ⟨m, rfl, abs_le.1 hm⟩
  | quantile v => exact h
  | value q => exact h

end Spec

section F64
attribute [local instance] f64Fmt f64_mono

theorem f64_k0Room (D : Nat) (hD : 1 ≤ D) (hD7 : D ≤ 10 ^ 7) (e : ℤ) (he1 : -1022 ≤ e) (he2 : e ≤ 970) :
    TDigest.K0Room (2 ^ 52) (-2 ^ e) ((2 : ℚ) ^ e) (2 ^ (-53 : ℤ)) (2 ^ (-1075 : ℤ)) Ieee.double.max (2 ^ e) (D : ℚ) := by
  have hDq : (1 : ℚ) ≤ D := by exact_mod_cast hD
  have hD7q : (D : ℚ) ≤ 10 ^ 7 := by exact_mod_cast hD7
  have hmax : (12 * 2 ^ 52 : ℚ) ≤ Ieee.double.max := by decide +kernel
  have hX : (2 : ℚ) ^ e * ((2 ^ 52 : ℕ) : ℚ) ≤ Ieee.double.max := by
    have h1 : (2 : ℚ) ^ e ≤ 2 ^ (970 : ℤ) := zpow_le_zpow_right₀ (by norm_num) he2
    have h2 : (2 : ℚ) ^ (970 : ℤ) * ((2 ^ 52 : ℕ) : ℚ) ≤ Ieee.double.max := by decide +kernel
    exact (mul_le_mul_of_nonneg_right h1 (by positivity)).trans h2
  exact ⟨f64_roomy (e := e) (by omega) he2, f64_relErr, by decide +kernel, by decide +kernel, hDq, by linarith, by push_cast; linarith, le_rfl, le_rfl, hX⟩

theorem f64_shift {e : ℤ} (he1 : -1022 ≤ e) : (2 : ℚ) ^ (-53 : ℤ) * 2 ^ e + 2 ^ (-1075 : ℤ) ≤ 2 ^ e / 2 ^ 52 := by
  have e53 : (2 : ℚ) ^ (-53 : ℤ) = 1 / 2 ^ 53 := by decide +kernel
  have hη : (2 : ℚ) ^ (-1075 : ℤ) ≤ 2 ^ (-53 : ℤ) * 2 ^ e := by
    rw [← zpow_add₀ (by norm_num)]
    exact zpow_le_zpow_right₀ (by norm_num) (by omega)
  generalize (2 : ℚ) ^ (-1075 : ℤ) = η at hη ⊢
  generalize (2 : ℚ) ^ e = X at hη ⊢
  rw [e53] at hη ⊢
  have : 1 / 2 ^ 53 * X + 1 / 2 ^ 53 * X = X / 2 ^ 52 := by ring
  linarith

theorem f64_answer (n : ℚ) (hn : 0 ≤ n) : 2 * ((2 : ℚ) ^ (-53 : ℤ) + 2 ^ (-1075 : ℤ)) * n ≤ n / 2 ^ 51 := by
  have h : 2 * ((2 : ℚ) ^ (-53 : ℤ) + 2 ^ (-1075 : ℤ)) ≤ 1 / 2 ^ 51 := by decide +kernel
  calc _ ≤ 1 / 2 ^ 51 * n := mul_le_mul_of_nonneg_right h hn
    _ = n / 2 ^ 51 := by ring

/-- C125. `ParTDigest::new(threads, capacity, || TDigest::<f64>::new(&k0, &inv_k0, D))`, `1 ≤ D ≤ 10 ^ 7`, after any calls supplying `n ≤ 2^52` items of magnitude
up to `2^e`: with `ρ = 2/D + 40/2^53`, `M = max 1 (n ρ)` and `P = 1 + c + n / (capacity + 1)`, `c` the number of queries and flushes, the quantile
answered for `x` is the rank of a value within `P (M + 1) 2^e / 2^51` of `x`, up to `n ρ (P + 1) + 2 M + n / 2^51` items. -/
theorem C125_quantile_f64 (D : Nat) (hD : 1 ≤ D) (hD7 : D ≤ 10 ^ 7) (e : ℤ) (he1 : -1022 ≤ e) (he2 : e ≤ 970) (threads capacity : Nat) (ht : threads ≠ 0)
    (cs : List (ParTDigest.Call ℚ)) (ho : ∀ o, .op o ∈ cs → OpUpTo (2 ^ e) o) (n : Nat) (hn : n = (ParTDigest.itemsOfCalls cs).length) (hn0 : n ≠ 0)
    (hN : n ≤ 2 ^ 52) (x ρ M P : ℚ) (hρ : ρ = 2 / D + 40 / 2 ^ 53) (hM : M = Max.max 1 (n * ρ)) (hP : P = flushesUpTo capacity cs) :
    Always (ParTDigest.callHistory k0 invK0 (.fin (D : ℚ)) threads capacity cs >>= fun p => p.estQuantileAtValue (.fin x)) (fun r => ∃ y : ℚ, r.1 = .fin y ∧
      RankAround (ParTDigest.itemsOfCalls cs) (y * n) x (P * ((M + 1) * 2 ^ e / 2 ^ 51)) (n * ρ * (P + 1) + 2 * M + n / 2 ^ 51)) := by
  have hne : ParTDigest.itemsOfCalls cs ≠ [] := fun h => hn0 (by rw [hn, h]; rfl)
  have e53 : 2 / (D : ℚ) + 40 * 2 ^ (-53 : ℤ) = ρ := by
    rw [hρ, show (2 : ℚ) ^ (-53 : ℤ) = 1 / 2 ^ 53 by decide +kernel]; ring
  have hit := ParTDigest.calls_items_in (fun o h => (ho o h).opIn)
  have hfin : ∀ y ∈ ParTDigest.itemsOfCalls cs, ∃ m : ℚ, y = .fin m := fun y hy => by obtain ⟨m, h, -⟩ := hit y hy; exact ⟨m, h⟩
  have hM1 : 1 ≤ M := by rw [hM]; exact le_max_left _ _
  have hP0 : 0 ≤ P := by rw [hP]; unfold flushesUpTo; positivity
  have h := C125_quantile_round (f64_k0Room D hD hD7 e he1 he2) (by decide +kernel) (by norm_num) threads capacity ht cs (fun o h => (ho o h).opIn) hne
    (by rw [← hn]; exact hN) (M := M) (by rw [hM, e53, hn]) x
  rw [← hn, e53, ← hP] at h
  refine h.mono ?_
  rintro r ⟨y, hy, h⟩
  refine ⟨y, hy, h.mono hfin ?_ ?_⟩
  · refine mul_le_mul_of_nonneg_left ?_ hP0
    have := mul_le_mul_of_nonneg_right (f64_shift he1) (show 0 ≤ M + 1 by linarith)
    calc _ ≤ 2 * (2 ^ e / 2 ^ 52 * (M + 1)) := mul_le_mul_of_nonneg_left this (by norm_num)
      _ = (M + 1) * 2 ^ e / 2 ^ 51 := by ring
  · have := f64_answer (n : ℚ) (by positivity)
    linarith

/-- C125 for values: the value answered for a quantile `q ≥ 0` with `n q < n - M/2 - n/2^51` is within `(P (M + 1) + 6) 2^e / 2^51` of a value whose rank
is `n q`, up to the same number of items. -/
theorem C125_value_f64 (D : Nat) (hD : 1 ≤ D) (hD7 : D ≤ 10 ^ 7) (e : ℤ) (he1 : -1022 ≤ e) (he2 : e ≤ 970) (threads capacity : Nat) (ht : threads ≠ 0)
    (cs : List (ParTDigest.Call ℚ)) (ho : ∀ o, .op o ∈ cs → OpUpTo (2 ^ e) o) (n : Nat) (hn : n = (ParTDigest.itemsOfCalls cs).length) (hn0 : n ≠ 0)
    (hN : n ≤ 2 ^ 52) (ρ M P : ℚ) (hρ : ρ = 2 / D + 40 / 2 ^ 53) (hM : M = Max.max 1 (n * ρ)) (hP : P = flushesUpTo capacity cs) (q : ℚ) (hq0 : 0 ≤ q)
    (hq : n * q < n - M / 2 - n / 2 ^ 51) :
    Always (ParTDigest.callHistory k0 invK0 (.fin (D : ℚ)) threads capacity cs >>= fun p => p.estValueAtQuantile (.fin q)) (fun r => ∃ v : ℚ, r.1 = .fin v ∧
      RankAround (ParTDigest.itemsOfCalls cs) (q * n) v ((P * (M + 1) + 6) * 2 ^ e / 2 ^ 51) (n * ρ * (P + 1) + 2 * M + n / 2 ^ 51)) := by
  have hne : ParTDigest.itemsOfCalls cs ≠ [] := fun h => hn0 (by rw [hn, h]; rfl)
  have e53 : 2 / (D : ℚ) + 40 * 2 ^ (-53 : ℤ) = ρ := by
    rw [hρ, show (2 : ℚ) ^ (-53 : ℤ) = 1 / 2 ^ 53 by decide +kernel]; ring
  have hit := ParTDigest.calls_items_in (fun o h => (ho o h).opIn)
  have hfin : ∀ y ∈ ParTDigest.itemsOfCalls cs, ∃ m : ℚ, y = .fin m := fun y hy => by obtain ⟨m, h, -⟩ := hit y hy; exact ⟨m, h⟩
  have hM1 : 1 ≤ M := by rw [hM]; exact le_max_left _ _
  have hP0 : 0 ≤ P := by rw [hP]; unfold flushesUpTo; positivity
  have hans := f64_answer (n : ℚ) (by positivity)
  have hX8 : 8 * ((2 : ℚ) ^ e + 2 ^ (-1075 : ℤ)) ≤ Ieee.double.max := by
    have h1 : (2 : ℚ) ^ e ≤ 2 ^ (970 : ℤ) := zpow_le_zpow_right₀ (by norm_num) he2
    have h2 : 8 * ((2 : ℚ) ^ (970 : ℤ) + 2 ^ (-1075 : ℤ)) ≤ Ieee.double.max := by decide +kernel
    generalize Ieee.double.max = R at h2 ⊢
    linarith
  have h := C125_value_round (f64_k0Room D hD hD7 e he1 he2) hX8 (by decide +kernel) (by norm_num) threads capacity ht cs (fun o h => (ho o h).opIn) hne
    (by rw [← hn]; exact hN) (M := M) (by rw [hM, e53, hn]) q hq0 (by rw [← hn]; linarith)
  rw [← hn, e53, ← hP] at h
  refine h.mono ?_
  rintro r ⟨v, hv, h⟩
  refine ⟨v, hv, h.mono hfin ?_ ?_⟩
  · have h1 := f64_shift he1
    generalize (2 : ℚ) ^ (-53 : ℤ) * 2 ^ e + 2 ^ (-1075 : ℤ) = κ at h1 ⊢
    have h2 : P * (2 * (κ * (M + 1))) + 12 * κ = κ * (P * (2 * (M + 1)) + 12) := by ring
    rw [h2]
    calc _ ≤ 2 ^ e / 2 ^ 52 * (P * (2 * (M + 1)) + 12) := mul_le_mul_of_nonneg_right h1 (by positivity)
      _ = (P * (M + 1) + 6) * 2 ^ e / 2 ^ 51 := by ring
  · linarith

/-- Ninths, a query, the ninths again and a flush. -/
def parNinths : List (ParTDigest.Call ℚ) := [.op (.addBuffer ninths64), .op (.quantile (.fin (1 / 2))), .op (.addBuffer ninths64), .flush]

theorem parNinths_upTo : ∀ o, .op o ∈ parNinths → OpUpTo ((2 : ℚ) ^ (0 : ℤ)) o := by
  have hsize : OpUpTo ((2 : ℚ) ^ (0 : ℤ)) (Op.addBuffer ninths64) :=
    fun x hx => ninths64_size x (by rw [List.flatten_cons, List.flatten_nil, List.append_nil]; exact hx)
  intro o ho
  unfold parNinths at ho
  generalize ninths64 = xs at ho hsize
  simp only [List.mem_cons, List.not_mem_nil, or_false, ParTDigest.Call.op.injEq, reduceCtorEq] at ho
  rcases ho with rfl | rfl | rfl
  · exact hsize
  · exact ⟨_, rfl⟩
  · exact hsize

theorem parNinths_length : (ParTDigest.itemsOfCalls parNinths).length = 72 := by decide +kernel

/-- The hypotheses are met by two buffers of 36 items with a query between them and a flush after them; the bound on the rank error is less than the number
of items. -/
theorem C125_example : (∀ o, .op o ∈ parNinths → OpUpTo ((2 : ℚ) ^ (0 : ℤ)) o) ∧ 72 = (ParTDigest.itemsOfCalls parNinths).length ∧
    flushesUpTo 71 parNinths = (4 : ℚ) ∧ 72 * (2 / 40 + 40 / 2 ^ 53) * (4 + 1) + 2 * Max.max (1 : ℚ) (72 * (2 / 40 + 40 / 2 ^ 53)) + 72 / 2 ^ 51 < 72 := by
  refine ⟨parNinths_upTo, parNinths_length.symm, ?_, by norm_num⟩
  unfold flushesUpTo
  rw [parNinths_length, show flushingCalls parNinths = 2 from rfl]
  norm_num

/-- So the median query is answered there, for three threads. -/
example : Always (ParTDigest.callHistory k0 invK0 (.fin ((40 : ℕ) : ℚ)) 3 71 parNinths >>= fun p => p.estValueAtQuantile (.fin (1 / 2))) (fun r =>
    ∃ v : ℚ, r.1 = .fin v) := by
  have h1 := parNinths_upTo
  have h2 := parNinths_length
  generalize parNinths = cs at h1 h2 ⊢
  refine (C125_value_f64 40 (by norm_num) (by norm_num) 0 (by norm_num) (by norm_num) 3 71 (by norm_num) cs h1 72 h2.symm (by norm_num) (by norm_num)
    _ _ _ rfl rfl rfl (1 / 2) (by norm_num) (by norm_num)).mono ?_
  rintro r ⟨v, hv, -⟩
  exact ⟨v, hv⟩

end F64

section F32
attribute [local instance] f32Fmt f32_mono

theorem f32_k0Room (D : Nat) (hD : 1 ≤ D) (hD7 : D ≤ 900) (e : ℤ) (he1 : -126 ≤ e) (he2 : e ≤ 103) :
    TDigest.K0Room (2 ^ 23) (-2 ^ e) ((2 : ℚ) ^ e) (2 ^ (-24 : ℤ)) (2 ^ (-150 : ℤ)) Ieee.single.max (2 ^ e) (D : ℚ) := by
  have hDq : (1 : ℚ) ≤ D := by exact_mod_cast hD
  have hD7q : (D : ℚ) ≤ 900 := by exact_mod_cast hD7
  have hmax : (12 * 2 ^ 23 : ℚ) ≤ Ieee.single.max := by decide +kernel
  have hX : (2 : ℚ) ^ e * ((2 ^ 23 : ℕ) : ℚ) ≤ Ieee.single.max := by
    have h1 : (2 : ℚ) ^ e ≤ 2 ^ (103 : ℤ) := zpow_le_zpow_right₀ (by norm_num) he2
    have h2 : (2 : ℚ) ^ (103 : ℤ) * ((2 ^ 23 : ℕ) : ℚ) ≤ Ieee.single.max := by decide +kernel
    exact (mul_le_mul_of_nonneg_right h1 (by positivity)).trans h2
  exact ⟨f32_roomy (e := e) (by omega) he2, f32_relErr, by decide +kernel, by decide +kernel, hDq, by linarith, by push_cast; linarith, le_rfl, le_rfl, hX⟩

theorem f32_shift {e : ℤ} (he1 : -126 ≤ e) : (2 : ℚ) ^ (-24 : ℤ) * 2 ^ e + 2 ^ (-150 : ℤ) ≤ 2 ^ e / 2 ^ 23 := by
  have e53 : (2 : ℚ) ^ (-24 : ℤ) = 1 / 2 ^ 24 := by decide +kernel
  have hη : (2 : ℚ) ^ (-150 : ℤ) ≤ 2 ^ (-24 : ℤ) * 2 ^ e := by
    rw [← zpow_add₀ (by norm_num)]
    exact zpow_le_zpow_right₀ (by norm_num) (by omega)
  generalize (2 : ℚ) ^ (-150 : ℤ) = η at hη ⊢
  generalize (2 : ℚ) ^ e = X at hη ⊢
  rw [e53] at hη ⊢
  have : 1 / 2 ^ 24 * X + 1 / 2 ^ 24 * X = X / 2 ^ 23 := by ring
  linarith

theorem f32_answer (n : ℚ) (hn : 0 ≤ n) : 2 * ((2 : ℚ) ^ (-24 : ℤ) + 2 ^ (-150 : ℤ)) * n ≤ n / 2 ^ 22 := by
  have h : 2 * ((2 : ℚ) ^ (-24 : ℤ) + 2 ^ (-150 : ℤ)) ≤ 1 / 2 ^ 22 := by decide +kernel
  calc _ ≤ 1 / 2 ^ 22 * n := mul_le_mul_of_nonneg_right h hn
    _ = n / 2 ^ 22 := by ring

/-- C125. `ParTDigest::new(threads, capacity, || TDigest::<f32>::new(&k0, &inv_k0, D))`, `1 ≤ D ≤ 900`, after any calls supplying `n ≤ 2^23` items of magnitude
up to `2^e`: with `ρ = 2/D + 40/2^24`, `M = max 1 (n ρ)` and `P = 1 + c + n / (capacity + 1)`, `c` the number of queries and flushes, the quantile
answered for `x` is the rank of a value within `P (M + 1) 2^e / 2^22` of `x`, up to `n ρ (P + 1) + 2 M + n / 2^22` items. -/
theorem C125_quantile_f32 (D : Nat) (hD : 1 ≤ D) (hD7 : D ≤ 900) (e : ℤ) (he1 : -126 ≤ e) (he2 : e ≤ 103) (threads capacity : Nat) (ht : threads ≠ 0)
    (cs : List (ParTDigest.Call ℚ)) (ho : ∀ o, .op o ∈ cs → OpUpTo (2 ^ e) o) (n : Nat) (hn : n = (ParTDigest.itemsOfCalls cs).length) (hn0 : n ≠ 0)
    (hN : n ≤ 2 ^ 23) (x ρ M P : ℚ) (hρ : ρ = 2 / D + 40 / 2 ^ 24) (hM : M = Max.max 1 (n * ρ)) (hP : P = flushesUpTo capacity cs) :
    Always (ParTDigest.callHistory k0 invK0 (.fin (D : ℚ)) threads capacity cs >>= fun p => p.estQuantileAtValue (.fin x)) (fun r => ∃ y : ℚ, r.1 = .fin y ∧
      RankAround (ParTDigest.itemsOfCalls cs) (y * n) x (P * ((M + 1) * 2 ^ e / 2 ^ 22)) (n * ρ * (P + 1) + 2 * M + n / 2 ^ 22)) := by
  have hne : ParTDigest.itemsOfCalls cs ≠ [] := fun h => hn0 (by rw [hn, h]; rfl)
  have e53 : 2 / (D : ℚ) + 40 * 2 ^ (-24 : ℤ) = ρ := by
    rw [hρ, show (2 : ℚ) ^ (-24 : ℤ) = 1 / 2 ^ 24 by decide +kernel]; ring
  have hit := ParTDigest.calls_items_in (fun o h => (ho o h).opIn)
  have hfin : ∀ y ∈ ParTDigest.itemsOfCalls cs, ∃ m : ℚ, y = .fin m := fun y hy => by obtain ⟨m, h, -⟩ := hit y hy; exact ⟨m, h⟩
  have hM1 : 1 ≤ M := by rw [hM]; exact le_max_left _ _
  have hP0 : 0 ≤ P := by rw [hP]; unfold flushesUpTo; positivity
  have h := C125_quantile_round (f32_k0Room D hD hD7 e he1 he2) (by decide +kernel) (by norm_num) threads capacity ht cs (fun o h => (ho o h).opIn) hne
    (by rw [← hn]; exact hN) (M := M) (by rw [hM, e53, hn]) x
  rw [← hn, e53, ← hP] at h
  refine h.mono ?_
  rintro r ⟨y, hy, h⟩
  refine ⟨y, hy, h.mono hfin ?_ ?_⟩
  · refine mul_le_mul_of_nonneg_left ?_ hP0
    have := mul_le_mul_of_nonneg_right (f32_shift he1) (show 0 ≤ M + 1 by linarith)
    calc _ ≤ 2 * (2 ^ e / 2 ^ 23 * (M + 1)) := mul_le_mul_of_nonneg_left this (by norm_num)
      _ = (M + 1) * 2 ^ e / 2 ^ 22 := by ring
  · have := f32_answer (n : ℚ) (by positivity)
    linarith

/-- C125 for values: the value answered for a quantile `q ≥ 0` with `n q < n - M/2 - n/2^22` is within `(P (M + 1) + 6) 2^e / 2^22` of a value whose rank
is `n q`, up to the same number of items. -/
theorem C125_value_f32 (D : Nat) (hD : 1 ≤ D) (hD7 : D ≤ 900) (e : ℤ) (he1 : -126 ≤ e) (he2 : e ≤ 103) (threads capacity : Nat) (ht : threads ≠ 0)
    (cs : List (ParTDigest.Call ℚ)) (ho : ∀ o, .op o ∈ cs → OpUpTo (2 ^ e) o) (n : Nat) (hn : n = (ParTDigest.itemsOfCalls cs).length) (hn0 : n ≠ 0)
    (hN : n ≤ 2 ^ 23) (ρ M P : ℚ) (hρ : ρ = 2 / D + 40 / 2 ^ 24) (hM : M = Max.max 1 (n * ρ)) (hP : P = flushesUpTo capacity cs) (q : ℚ) (hq0 : 0 ≤ q)
    (hq : n * q < n - M / 2 - n / 2 ^ 22) :
    Always (ParTDigest.callHistory k0 invK0 (.fin (D : ℚ)) threads capacity cs >>= fun p => p.estValueAtQuantile (.fin q)) (fun r => ∃ v : ℚ, r.1 = .fin v ∧
      RankAround (ParTDigest.itemsOfCalls cs) (q * n) v ((P * (M + 1) + 6) * 2 ^ e / 2 ^ 22) (n * ρ * (P + 1) + 2 * M + n / 2 ^ 22)) := by
  have hne : ParTDigest.itemsOfCalls cs ≠ [] := fun h => hn0 (by rw [hn, h]; rfl)
  have e53 : 2 / (D : ℚ) + 40 * 2 ^ (-24 : ℤ) = ρ := by
    rw [hρ, show (2 : ℚ) ^ (-24 : ℤ) = 1 / 2 ^ 24 by decide +kernel]; ring
  have hit := ParTDigest.calls_items_in (fun o h => (ho o h).opIn)
  have hfin : ∀ y ∈ ParTDigest.itemsOfCalls cs, ∃ m : ℚ, y = .fin m := fun y hy => by obtain ⟨m, h, -⟩ := hit y hy; exact ⟨m, h⟩
  have hM1 : 1 ≤ M := by rw [hM]; exact le_max_left _ _
  have hP0 : 0 ≤ P := by rw [hP]; unfold flushesUpTo; positivity
  have hans := f32_answer (n : ℚ) (by positivity)
  have hX8 : 8 * ((2 : ℚ) ^ e + 2 ^ (-150 : ℤ)) ≤ Ieee.single.max := by
    have h1 : (2 : ℚ) ^ e ≤ 2 ^ (103 : ℤ) := zpow_le_zpow_right₀ (by norm_num) he2
    have h2 : 8 * ((2 : ℚ) ^ (103 : ℤ) + 2 ^ (-150 : ℤ)) ≤ Ieee.single.max := by decide +kernel
    generalize Ieee.single.max = R at h2 ⊢
    linarith
  have h := C125_value_round (f32_k0Room D hD hD7 e he1 he2) hX8 (by decide +kernel) (by norm_num) threads capacity ht cs (fun o h => (ho o h).opIn) hne
    (by rw [← hn]; exact hN) (M := M) (by rw [hM, e53, hn]) q hq0 (by rw [← hn]; linarith)
  rw [← hn, e53, ← hP] at h
  refine h.mono ?_
  rintro r ⟨v, hv, h⟩
  refine ⟨v, hv, h.mono hfin ?_ ?_⟩
  · have h1 := f32_shift he1
    generalize (2 : ℚ) ^ (-24 : ℤ) * 2 ^ e + 2 ^ (-150 : ℤ) = κ at h1 ⊢
    have h2 : P * (2 * (κ * (M + 1))) + 12 * κ = κ * (P * (2 * (M + 1)) + 12) := by ring
    rw [h2]
    calc _ ≤ 2 ^ e / 2 ^ 23 * (P * (2 * (M + 1)) + 12) := mul_le_mul_of_nonneg_right h1 (by positivity)
      _ = (P * (M + 1) + 6) * 2 ^ e / 2 ^ 22 := by ring
  · linarith

end F32

end AQ

/-
C118: accuracy of TDigest quantile queries in floating point.
-/
import Verif.Proofs.TDRoundRank
import Verif.Proofs.TDRoundSize
import Verif.Proofs.F64Roomy
import Verif.Props.TDDrift
import Verif.Props.BatchOrder

set_option linter.unusedSectionVars false
set_option linter.unusedVariables false

namespace AQ
open Prog Spec
variable {K : Type} [Field K] [LinearOrder K] [IsStrictOrderedRing K] [FloatFmt K]

namespace Spec

/-- `r` is, up to `err`, between the weight of the clusters below `x - s` and that of the clusters up to `x + s`. -/
def WeightAround (l : List (Centroid K)) (r x s err : K) : Prop :=
  weightBelow l (.fin (x - s)) ≤ r + err ∧ r ≤ weightUpTo l (.fin (x + s)) + err

/-- `r` is, up to `err`, between the number of items below `x - s` and the number of items up to `x + s`. -/
def RankAround (xs : List (Fl K)) (r x s err : K) : Prop :=
  (xs.countP (fun y => Fl.lt y (.fin (x - s))) : K) ≤ r + err ∧ r ≤ (xs.countP (fun y => Fl.le y (.fin (x + s))) : K) + err

end Spec

/-- C118. In an arithmetic with relative error `u` (and `η` near zero), after `p` calls of `add`, `add_buffer` and `add_centroid_buffer` with any scale
functions and data of magnitude up to `X`, the quantile answered for `x` has the rank of a value within `p (u X + η) (M + 1)` of `x`, up to
`(p + 1) M` and the rounding of the answer itself; `M` is the weight of the heaviest centroid. -/
theorem C118_rank_round [FloatFmt.Mono K] {A B : K} {N : Nat} (R : Roomy N A B) {u η Rm X : K} (E : RelErr u η Rm) (hR1 : 1 ≤ Rm) (hA : -X ≤ A) (hB : B ≤ X)
    (hXR : X * N ≤ Rm) (s i : ScaleFn K) (cf : Fl K) (ops : List (TDigest.TOp K)) (hne : TDigest.supplied ops ≠ [])
    (hs : ∀ c ∈ TDigest.supplied ops, Within A B c) (hN : totalW (TDigest.supplied ops) ≤ N) :
    Always ((TDigest.new s i cf).execOps ops) (fun d => ∀ M : K, (∀ c ∈ d.centroids, c.weight ≤ .fin M) → ∀ x : K,
      ∃ y : K, d.estQuantileAtValue (.fin x) = .ret (.fin y) ∧
        WeightAround (TDigest.supplied ops) (y * totalW (TDigest.supplied ops)) x (ops.length * ((u * X + η) * (M + 1)))
          ((ops.length + 1) * M + 2 * (u + η) * totalW (TDigest.supplied ops))) := by
  have hX0 : 0 ≤ X := by have := R.range.2.1; linarith
  have hκ : 0 ≤ u * X + η := add_nonneg (mul_nonneg E.u_nonneg hX0) E.eta_nonneg
  refine (TDigest.execOps_rankInv R E hA hB hXR ops 0 _ [] (TDigest.new_rinv A B s i cf) (TDigest.new_rankInv _ s i cf) (by simp) hs
    (by simpa using hN)).mono ?_
  rintro d ⟨h1, h2⟩ M hM x
  simp only [List.nil_append, Nat.zero_add] at h1 h2
  have hM' : ∀ c ∈ d.centroids, c.weight.toK ≤ M := by
    intro c hc
    obtain ⟨w, hw, -⟩ := (h1.within c hc).nat
    have := hM c hc
    rw [hw] at this ⊢
    exact Fl.fin_le_fin.1 this
  obtain ⟨y, hy, l1, l2⟩ := h2.query R E hR1 hκ h1 hs hne hN hM' x
  have hg : ∀ c ∈ TDigest.supplied ops, Good c := fun c hc => (hs c hc).good
  refine ⟨y, hy, ?_, ?_⟩
  · rw [TDigest.weightBelow_eq_lw _ hg]; exact l1
  · rw [TDigest.weightUpTo_eq_uw _ hg]; exact l2

namespace TDigest

theorem weightBelow_units (x : K) : ∀ (xs : List (Fl K)), (∀ y ∈ xs, ∃ m : K, y = .fin m) →
    weightBelow (xs.map (fun y => (⟨y, .fin 1⟩ : Centroid K))) (.fin x) = (xs.countP (fun y => Fl.lt y (.fin x)) : K)
  | [], _ => by simp [weightBelow]
  | y :: xs, h => by
    obtain ⟨m, rfl⟩ := h y (by simp)
    have ih := weightBelow_units x xs (fun z hz => h z (by simp [hz]))
    unfold weightBelow at *
    rw [List.map_cons, List.filter_cons, List.countP_cons, Fl.lt_fin]
    by_cases hx : m < x
    · simp only [Fl.fin_lt_fin, hx, decide_true, if_true, List.map_cons, List.sum_cons, ih]
      push_cast
      rw [add_comm]; rfl
    · simp only [Fl.fin_lt_fin, hx, decide_false, if_false, ih, Bool.false_eq_true]
      push_cast
      rw [add_zero]

theorem weightUpTo_units (x : K) : ∀ (xs : List (Fl K)), (∀ y ∈ xs, ∃ m : K, y = .fin m) →
    weightUpTo (xs.map (fun y => (⟨y, .fin 1⟩ : Centroid K))) (.fin x) = (xs.countP (fun y => Fl.le y (.fin x)) : K)
  | [], _ => by simp [weightUpTo]
  | y :: xs, h => by
    obtain ⟨m, rfl⟩ := h y (by simp)
    have ih := weightUpTo_units x xs (fun z hz => h z (by simp [hz]))
    unfold weightUpTo at *
    rw [List.map_cons, List.filter_cons, List.countP_cons, Fl.le_fin]
    by_cases hx : m ≤ x
    · simp only [Fl.fin_le_fin, hx, decide_true, if_true, List.map_cons, List.sum_cons, ih]
      push_cast
      rw [add_comm]; rfl
    · simp only [Fl.fin_le_fin, hx, decide_false, if_false, ih, Bool.false_eq_true]
      push_cast
      rw [add_zero]

end TDigest

section F64
attribute [local instance] f64Fmt f64_mono

/-- C118. `TDigest::<f64>` with `k0`, `inv_k0` and a factor `1 ≤ D ≤ 10^7`, after `p` batches of together `n ≤ 2^52` items of magnitude up to `2^e`:
with `M = max 1 (n (2/D + 40/2^53))` the quantile answered for `x` is the rank of a value within `p (M + 1) 2^e / 2^52` of `x`, up to
`(p + 1) M + n / 2^51` items. -/
theorem C118_f64 (D : Nat) (hD : 1 ≤ D) (hD7 : D ≤ 10 ^ 7) (e : ℤ) (he1 : -1022 ≤ e) (he2 : e ≤ 970) (batches : List (List (Fl ℚ)))
    (hs : ∀ y ∈ batches.flatten, ∃ m : ℚ, y = .fin m ∧ |m| ≤ 2 ^ e) (hne : batches.flatten ≠ []) (hN : batches.flatten.length ≤ 2 ^ 52) :
    Always ((TDigest.new k0 invK0 (.fin (D : ℚ))).execOps (batches.map TDigest.TOp.addBuffer)) (fun d => ∀ M : ℚ,
      M = Max.max 1 ((batches.flatten.length : ℚ) * (2 / D + 40 / 2 ^ 53)) → ∀ x : ℚ, ∃ y : ℚ, d.estQuantileAtValue (.fin x) = .ret (.fin y) ∧
        RankAround batches.flatten (y * batches.flatten.length) x (batches.length * ((M + 1) * 2 ^ e / 2 ^ 52))
          ((batches.length + 1) * M + batches.flatten.length / 2 ^ 51)) := by
  have hsup := TDigest.supplied_batches batches
  have hfin : ∀ y ∈ batches.flatten, ∃ m : ℚ, y = .fin m := fun y hy => by obtain ⟨m, h, -⟩ := hs y hy; exact ⟨m, h⟩
  have hw : ∀ c ∈ TDigest.supplied (batches.map TDigest.TOp.addBuffer), Within (-2 ^ e) (2 ^ e) c := by
    intro c hc
    rw [hsup] at hc
    obtain ⟨y, hy, rfl⟩ := List.mem_map.1 hc
    obtain ⟨m, rfl, hm⟩ := hs y hy
    obtain ⟨m1, m2⟩ := abs_le.1 hm
    exact ⟨m, 1, rfl, m1, m2, by simp, le_rfl⟩
  have htot : totalW (TDigest.supplied (batches.map TDigest.TOp.addBuffer)) = (batches.flatten.length : ℚ) := by
    rw [hsup, TDigest.totalW_items]
  have hNq : (batches.flatten.length : ℚ) ≤ 2 ^ 52 := by exact_mod_cast hN
  have hDq : (1 : ℚ) ≤ D := by exact_mod_cast hD
  have hD7q : (D : ℚ) ≤ 10 ^ 7 := by exact_mod_cast hD7
  have hmax : (12 * 2 ^ 52 : ℚ) ≤ Ieee.double.max := by decide +kernel
  have hX : (2 : ℚ) ^ e * ((2 ^ 52 : ℕ) : ℚ) ≤ Ieee.double.max := by
    have h1 : (2 : ℚ) ^ e ≤ 2 ^ (970 : ℤ) := zpow_le_zpow_right₀ (by norm_num) he2
    have h2 : (2 : ℚ) ^ (970 : ℤ) * ((2 ^ 52 : ℕ) : ℚ) ≤ Ieee.double.max := by decide +kernel
    exact (mul_le_mul_of_nonneg_right h1 (by positivity)).trans h2
  have hR := f64_roomy (e := e) (by omega) he2
  have h1 := C118_rank_round hR f64_relErr (by linarith) le_rfl le_rfl hX (k0 : ScaleFn ℚ) invK0 (.fin (D : ℚ))
    (batches.map TDigest.TOp.addBuffer) (by rw [hsup]; simpa using hne) hw (by rw [htot]; exact_mod_cast hN)
  have h2 := TDigest.execOps_k0Size (M0 := 1) hR f64_relErr (by decide +kernel) (by decide +kernel) hDq (by linarith) (by push_cast; linarith)
    (batches.map TDigest.TOp.addBuffer) _ [] (TDigest.new_rinv _ _ k0 invK0 (.fin (D : ℚ)))
    (TDigest.new_k0Size f64_relErr.u_nonneg (by decide +kernel) hDq) (by simp) hw (by
      intro c hc
      rw [hsup] at hc
      obtain ⟨y, hy, rfl⟩ := List.mem_map.1 hc
      exact le_rfl) (by rw [List.nil_append, htot]; exact_mod_cast hN)
  refine (h1.and h2.partially).mono ?_
  rintro d ⟨h3, h4⟩ M hM x
  have e53 : (2 : ℚ) ^ (-53 : ℤ) = 1 / 2 ^ 53 := by decide +kernel
  have hM0 : 1 ≤ M := by rw [hM]; exact le_max_left _ _
  obtain ⟨y, hy, l1, l2⟩ := h3 M (by
    intro c hc
    obtain ⟨w, hw, hle⟩ := h4.weights c hc
    rw [List.nil_append, htot, e53, show (40 : ℚ) * (1 / 2 ^ 53) = 40 / 2 ^ 53 by ring] at hle
    rw [hw, hM]
    exact Fl.fin_le_fin.2 hle) x
  refine ⟨y, hy, ?_⟩
  rw [htot, hsup] at l1 l2
  rw [TDigest.weightBelow_units _ _ hfin] at l1
  rw [TDigest.weightUpTo_units _ _ hfin] at l2
  rw [List.length_map] at l1 l2
  -- the shift and the error are at most those of the claim
  have hη' : (2 : ℚ) ^ (-1075 : ℤ) ≤ 2 ^ (-53 : ℤ) := zpow_le_zpow_right₀ (by norm_num) (by norm_num)
  have hη : (2 : ℚ) ^ (-1075 : ℤ) ≤ 2 ^ (-53 : ℤ) * 2 ^ e := by
    rw [← zpow_add₀ (by norm_num)]
    exact zpow_le_zpow_right₀ (by norm_num) (by omega)
  have h2e : (0 : ℚ) < 2 ^ e := by positivity
  generalize (2 : ℚ) ^ (-1075 : ℤ) = η at l1 l2 hη' hη ⊢
  generalize (2 : ℚ) ^ (-53 : ℤ) = u at l1 l2 hη' hη e53 ⊢
  generalize (2 : ℚ) ^ e = X at l1 l2 hη h2e ⊢
  have hshift : (batches.length : ℚ) * ((u * X + η) * (M + 1)) ≤ batches.length * ((M + 1) * X / 2 ^ 52) := by
    refine mul_le_mul_of_nonneg_left ?_ (by positivity)
    have h5 : u * X + η ≤ X / 2 ^ 52 := by
      have : u * X + u * X = X / 2 ^ 52 := by rw [e53]; ring
      linarith
    calc (u * X + η) * (M + 1) ≤ X / 2 ^ 52 * (M + 1) := mul_le_mul_of_nonneg_right h5 (by linarith)
      _ = (M + 1) * X / 2 ^ 52 := by ring
  have herr : 2 * (u + η) * batches.flatten.length ≤ batches.flatten.length / 2 ^ 51 := by
    have : 2 * (u + η) ≤ 1 / 2 ^ 51 := by
      rw [e53] at hη' ⊢
      linarith
    have := mul_le_mul_of_nonneg_right this (show (0 : ℚ) ≤ batches.flatten.length by positivity)
    calc _ ≤ _ := this
      _ = (batches.flatten.length : ℚ) / 2 ^ 51 := by ring
  constructor
  · refine le_trans ?_ (l1.trans ?_)
    · have : List.countP (fun y => Fl.lt y (.fin (x - batches.length * ((M + 1) * X / 2 ^ 52)))) batches.flatten ≤
        List.countP (fun y => Fl.lt y (.fin (x - batches.length * ((u * X + η) * (M + 1))))) batches.flatten := by
        refine List.countP_mono_left ?_
        intro z hz h
        obtain ⟨m, rfl⟩ := hfin z hz
        rw [Fl.lt_fin, decide_eq_true_eq] at h ⊢
        linarith
      exact_mod_cast this
    · linarith
  · refine l2.trans ?_
    have : List.countP (fun y => Fl.le y (.fin (x + batches.length * ((u * X + η) * (M + 1))))) batches.flatten ≤
        List.countP (fun y => Fl.le y (.fin (x + batches.length * ((M + 1) * X / 2 ^ 52)))) batches.flatten := by
      refine List.countP_mono_left ?_
      intro z hz h
      obtain ⟨m, rfl⟩ := hfin z hz
      rw [Fl.le_fin, decide_eq_true_eq] at h ⊢
      linarith
    have : ((List.countP (fun y => Fl.le y (.fin (x + batches.length * ((u * X + η) * (M + 1))))) batches.flatten : ℕ) : ℚ) ≤
        (List.countP (fun y => Fl.le y (.fin (x + batches.length * ((M + 1) * X / 2 ^ 52)))) batches.flatten : ℕ) := by exact_mod_cast this
    linarith

/-- `0.9` as a double. -/
def ninth64 : ℚ := 8106479329266893 / 2 ^ 53

/-- 35 items 0.9 and one item 1. -/
def ninths64 : List (Fl ℚ) := List.replicate 35 (.fin ninth64) ++ [.fin 1]

theorem ninths64_size : ∀ y ∈ [ninths64].flatten, ∃ m : ℚ, y = .fin m ∧ |m| ≤ 2 ^ (0 : ℤ) := by
  intro y hy
  simp only [List.flatten_cons, List.flatten_nil, List.append_nil, ninths64, List.mem_append, List.mem_singleton, List.mem_replicate] at hy
  rcases hy with ⟨-, rfl⟩ | rfl
  · exact ⟨ninth64, rfl, by unfold ninth64; decide +kernel⟩
  · exact ⟨1, rfl, by norm_num⟩

/-- A batch has one result, and it answers every number: what one execution answers is what all answer. -/
theorem first_batch_answer (D : Nat) (hD : 1 ≤ D) (hD7 : D ≤ 10 ^ 7) (xs : List (Fl ℚ)) (hs : ∀ y ∈ [xs].flatten, ∃ m : ℚ, y = .fin m ∧ |m| ≤ 2 ^ (0 : ℤ))
    (hne : [xs].flatten ≠ []) (hN : [xs].flatten.length ≤ 2 ^ 52) (x b : ℚ)
    (hc : CanReturn ((TDigest.new k0 invK0 (.fin (D : ℚ))).addBuffer xs >>= fun d =>
      d.estQuantileAtValue (.fin x) >>= fun q => .ret (decide (q ≤ .fin b))) true) :
    Always ((TDigest.new k0 invK0 (.fin (D : ℚ))).addBuffer xs >>= fun d => d.estQuantileAtValue (.fin x)) (fun q => q ≤ .fin b) := by
  obtain ⟨d₀, hd₀, hc⟩ := canReturn_bind.1 hc
  obtain ⟨q₀, hq₀, hc⟩ := canReturn_bind.1 hc
  have hle : q₀ ≤ .fin b := of_decide_eq_true hc
  have h1 := C118_f64 D hD hD7 0 (by norm_num) (by norm_num) [xs] hs hne hN
  have e : (TDigest.new k0 invK0 (.fin (D : ℚ))).execOps ([xs].map TDigest.TOp.addBuffer) =
      (TDigest.new k0 invK0 (.fin (D : ℚ))).addBuffer xs := bind_ret_right _
  rw [e] at h1
  rw [always_bind]
  obtain ⟨g1, g2⟩ := (always_iff _ _).1 h1
  refine (always_iff _ _).2 ⟨fun d hd => ?_, g2⟩
  have e : d = d₀ := TDigest.addBuffer_fresh_det rfl (List.Perm.refl _) hd hd₀
  subst e
  obtain ⟨y, hy, -⟩ := g1 d hd _ rfl x
  rw [hy] at hq₀ ⊢
  have : (.fin y : Fl ℚ) = q₀ := hq₀
  show (.fin y : Fl ℚ) ≤ .fin b
  rw [this]
  exact hle

theorem ninths64_run : CanReturn ((TDigest.new k0 invK0 (.fin ((6 : ℕ) : ℚ))).addBuffer ninths64 >>= fun d =>
    d.estQuantileAtValue (.fin (ninth64 + 1 / 2 ^ 53)) >>= fun q => .ret (decide (q ≤ .fin (1 / 10)))) true := by decide +kernel

/-- C118. The shift cannot be left out. 35 items 0.9 and one item 1 in one batch, factor 6, `x` the double after 0.9: all but one of the items are less
than `x`, and the answer is below 10 percent, because the sums of the equal items are rounded up to a mean of `x`. -/
theorem C118_f64_repeated :
    Always ((TDigest.new k0 invK0 (.fin ((6 : ℕ) : ℚ))).addBuffer ninths64 >>= fun d => d.estQuantileAtValue (.fin (ninth64 + 1 / 2 ^ 53)))
      (fun q => q ≤ .fin (1 / 10)) ∧
    ninths64.countP (fun y => Fl.lt y (.fin (ninth64 + 1 / 2 ^ 53))) = 35 ∧ ninths64.length = 36 :=
  ⟨first_batch_answer 6 (by norm_num) (by norm_num) ninths64 ninths64_size (by decide +kernel) (by decide +kernel) _ _ ninths64_run,
    by decide +kernel, by decide +kernel⟩

end F64

section F32
attribute [local instance] f32Fmt f32_mono

/-- C118. `TDigest::<f32>` with `k0`, `inv_k0` and a factor `1 ≤ D ≤ 900`, after `p` batches of together `n ≤ 2^23` items of magnitude up to `2^e`:
with `M = max 1 (n (2/D + 40/2^24))` the quantile answered for `x` is the rank of a value within `p (M + 1) 2^e / 2^23` of `x`, up to
`(p + 1) M + n / 2^22` items. -/
theorem C118_f32 (D : Nat) (hD : 1 ≤ D) (hD7 : D ≤ 900) (e : ℤ) (he1 : -126 ≤ e) (he2 : e ≤ 103) (batches : List (List (Fl ℚ)))
    (hs : ∀ y ∈ batches.flatten, ∃ m : ℚ, y = .fin m ∧ |m| ≤ 2 ^ e) (hne : batches.flatten ≠ []) (hN : batches.flatten.length ≤ 2 ^ 23) :
    Always ((TDigest.new k0 invK0 (.fin (D : ℚ))).execOps (batches.map TDigest.TOp.addBuffer)) (fun d => ∀ M : ℚ,
      M = Max.max 1 ((batches.flatten.length : ℚ) * (2 / D + 40 / 2 ^ 24)) → ∀ x : ℚ, ∃ y : ℚ, d.estQuantileAtValue (.fin x) = .ret (.fin y) ∧
        RankAround batches.flatten (y * batches.flatten.length) x (batches.length * ((M + 1) * 2 ^ e / 2 ^ 23))
          ((batches.length + 1) * M + batches.flatten.length / 2 ^ 22)) := by
  have hsup := TDigest.supplied_batches batches
  have hfin : ∀ y ∈ batches.flatten, ∃ m : ℚ, y = .fin m := fun y hy => by obtain ⟨m, h, -⟩ := hs y hy; exact ⟨m, h⟩
  have hw : ∀ c ∈ TDigest.supplied (batches.map TDigest.TOp.addBuffer), Within (-2 ^ e) (2 ^ e) c := by
    intro c hc
    rw [hsup] at hc
    obtain ⟨y, hy, rfl⟩ := List.mem_map.1 hc
    obtain ⟨m, rfl, hm⟩ := hs y hy
    obtain ⟨m1, m2⟩ := abs_le.1 hm
    exact ⟨m, 1, rfl, m1, m2, by simp, le_rfl⟩
  have htot : totalW (TDigest.supplied (batches.map TDigest.TOp.addBuffer)) = (batches.flatten.length : ℚ) := by
    rw [hsup, TDigest.totalW_items]
  have hNq : (batches.flatten.length : ℚ) ≤ 2 ^ 23 := by exact_mod_cast hN
  have hDq : (1 : ℚ) ≤ D := by exact_mod_cast hD
  have hD7q : (D : ℚ) ≤ 900 := by exact_mod_cast hD7
  have hmax : (12 * 2 ^ 23 : ℚ) ≤ Ieee.single.max := by decide +kernel
  have hX : (2 : ℚ) ^ e * ((2 ^ 23 : ℕ) : ℚ) ≤ Ieee.single.max := by
    have h1 : (2 : ℚ) ^ e ≤ 2 ^ (103 : ℤ) := zpow_le_zpow_right₀ (by norm_num) he2
    have h2 : (2 : ℚ) ^ (103 : ℤ) * ((2 ^ 23 : ℕ) : ℚ) ≤ Ieee.single.max := by decide +kernel
    exact (mul_le_mul_of_nonneg_right h1 (by positivity)).trans h2
  have hR := f32_roomy (e := e) (by omega) he2
  have h1 := C118_rank_round hR f32_relErr (by linarith) le_rfl le_rfl hX (k0 : ScaleFn ℚ) invK0 (.fin (D : ℚ))
    (batches.map TDigest.TOp.addBuffer) (by rw [hsup]; simpa using hne) hw (by rw [htot]; exact_mod_cast hN)
  have h2 := TDigest.execOps_k0Size (M0 := 1) hR f32_relErr (by decide +kernel) (by decide +kernel) hDq (by linarith) (by push_cast; linarith)
    (batches.map TDigest.TOp.addBuffer) _ [] (TDigest.new_rinv _ _ k0 invK0 (.fin (D : ℚ)))
    (TDigest.new_k0Size f32_relErr.u_nonneg (by decide +kernel) hDq) (by simp) hw (by
      intro c hc
      rw [hsup] at hc
      obtain ⟨y, hy, rfl⟩ := List.mem_map.1 hc
      exact le_rfl) (by rw [List.nil_append, htot]; exact_mod_cast hN)
  refine (h1.and h2.partially).mono ?_
  rintro d ⟨h3, h4⟩ M hM x
  have e53 : (2 : ℚ) ^ (-24 : ℤ) = 1 / 2 ^ 24 := by decide +kernel
  have hM0 : 1 ≤ M := by rw [hM]; exact le_max_left _ _
  obtain ⟨y, hy, l1, l2⟩ := h3 M (by
    intro c hc
    obtain ⟨w, hw, hle⟩ := h4.weights c hc
    rw [List.nil_append, htot, e53, show (40 : ℚ) * (1 / 2 ^ 24) = 40 / 2 ^ 24 by ring] at hle
    rw [hw, hM]
    exact Fl.fin_le_fin.2 hle) x
  refine ⟨y, hy, ?_⟩
  rw [htot, hsup] at l1 l2
  rw [TDigest.weightBelow_units _ _ hfin] at l1
  rw [TDigest.weightUpTo_units _ _ hfin] at l2
  rw [List.length_map] at l1 l2
  -- the shift and the error are at most those of the claim
  have hη' : (2 : ℚ) ^ (-150 : ℤ) ≤ 2 ^ (-24 : ℤ) := zpow_le_zpow_right₀ (by norm_num) (by norm_num)
  have hη : (2 : ℚ) ^ (-150 : ℤ) ≤ 2 ^ (-24 : ℤ) * 2 ^ e := by
    rw [← zpow_add₀ (by norm_num)]
    exact zpow_le_zpow_right₀ (by norm_num) (by omega)
  have h2e : (0 : ℚ) < 2 ^ e := by positivity
  generalize (2 : ℚ) ^ (-150 : ℤ) = η at l1 l2 hη' hη ⊢
  generalize (2 : ℚ) ^ (-24 : ℤ) = u at l1 l2 hη' hη e53 ⊢
  generalize (2 : ℚ) ^ e = X at l1 l2 hη h2e ⊢
  have hshift : (batches.length : ℚ) * ((u * X + η) * (M + 1)) ≤ batches.length * ((M + 1) * X / 2 ^ 23) := by
    refine mul_le_mul_of_nonneg_left ?_ (by positivity)
    have h5 : u * X + η ≤ X / 2 ^ 23 := by
      have : u * X + u * X = X / 2 ^ 23 := by rw [e53]; ring
      linarith
    calc (u * X + η) * (M + 1) ≤ X / 2 ^ 23 * (M + 1) := mul_le_mul_of_nonneg_right h5 (by linarith)
      _ = (M + 1) * X / 2 ^ 23 := by ring
  have herr : 2 * (u + η) * batches.flatten.length ≤ batches.flatten.length / 2 ^ 22 := by
    have : 2 * (u + η) ≤ 1 / 2 ^ 22 := by
      rw [e53] at hη' ⊢
      linarith
    have := mul_le_mul_of_nonneg_right this (show (0 : ℚ) ≤ batches.flatten.length by positivity)
    calc _ ≤ _ := this
      _ = (batches.flatten.length : ℚ) / 2 ^ 22 := by ring
  constructor
  · refine le_trans ?_ (l1.trans ?_)
    · have : List.countP (fun y => Fl.lt y (.fin (x - batches.length * ((M + 1) * X / 2 ^ 23)))) batches.flatten ≤
        List.countP (fun y => Fl.lt y (.fin (x - batches.length * ((u * X + η) * (M + 1))))) batches.flatten := by
        refine List.countP_mono_left ?_
        intro z hz h
        obtain ⟨m, rfl⟩ := hfin z hz
        rw [Fl.lt_fin, decide_eq_true_eq] at h ⊢
        linarith
      exact_mod_cast this
    · linarith
  · refine l2.trans ?_
    have : List.countP (fun y => Fl.le y (.fin (x + batches.length * ((u * X + η) * (M + 1))))) batches.flatten ≤
        List.countP (fun y => Fl.le y (.fin (x + batches.length * ((M + 1) * X / 2 ^ 23)))) batches.flatten := by
      refine List.countP_mono_left ?_
      intro z hz h
      obtain ⟨m, rfl⟩ := hfin z hz
      rw [Fl.le_fin, decide_eq_true_eq] at h ⊢
      linarith
    have : ((List.countP (fun y => Fl.le y (.fin (x + batches.length * ((u * X + η) * (M + 1))))) batches.flatten : ℕ) : ℚ) ≤
        (List.countP (fun y => Fl.le y (.fin (x + batches.length * ((M + 1) * X / 2 ^ 23)))) batches.flatten : ℕ) := by exact_mod_cast this
    linarith

end F32
end AQ

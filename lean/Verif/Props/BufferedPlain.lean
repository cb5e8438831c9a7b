/-
C129: a BufferedDigest around a TDigest answers exactly as long as there are fewer items than the compression factor.
-/
import Verif.Props.BufferedRound
import Verif.Props.TDPlain

set_option linter.unusedSectionVars false
set_option linter.unusedVariables false

namespace AQ
open Prog Spec
variable {K : Type} [Field K] [LinearOrder K] [IsStrictOrderedRing K] [FloatFmt K]

/-- What a user passes: numbers of the format of magnitude up to `X`, and finite arguments of queries. -/
def Spec.OpNumber (X : K) : Op (Fl K) → Prop
  | .add x => ∃ m : K, x = .fin m ∧ |m| ≤ X ∧ FloatFmt.rnd m = .fin m
  | .addBuffer xs => ∀ x ∈ xs, ∃ m : K, x = .fin m ∧ |m| ≤ X ∧ FloatFmt.rnd m = .fin m
  | .quantile v => v.IsFin
  | .value q => q.IsFin

theorem Spec.OpNumber.upTo {X : K} {o : Op (Fl K)} (h : OpNumber X o) : OpUpTo X o := by
  cases o with
  | add x => obtain ⟨m, h1, h2, -⟩ := h; exact ⟨m, h1, h2⟩
  | addBuffer xs => intro x hx; obtain ⟨m, h1, h2, -⟩ := h x hx; exact ⟨m, h1, h2⟩
  | quantile v => exact h
  | value v => exact h

theorem numbers_of {X : K} {ops : List (Op (Fl K))} (ho : ∀ o ∈ ops, OpNumber X o) :
    ∀ x ∈ itemsOf ops, ∃ m : K, x = .fin m ∧ |m| ≤ X ∧ FloatFmt.rnd m = .fin m := by
  intro y hy
  obtain ⟨o, hc, hy⟩ := List.mem_flatMap.1 hy
  have := ho o hc
  cases o with
  | add x => rw [List.mem_singleton.1 hy]; exact this
  | addBuffer xs => exact this y hy
  | quantile v => simp [Op.items] at hy
  | value v => simp [Op.items] at hy

theorem plain_of_batches [FloatFmt.Mono K] {X : K} {ops : List (Op (Fl K))} (ho : ∀ o ∈ ops, OpNumber X o) {batches : List (List (Fl K))}
    (hb : batches.flatten = itemsOf ops) :
    PlainItems (-X) X (batches.map TDigest.TOp.addBuffer) ((itemsOf ops).map Fl.toK) ∧ ((itemsOf ops).map Fl.toK).map Fl.fin = itemsOf ops := by
  have hn := numbers_of ho
  refine ⟨⟨?_, ?_, ?_⟩, ?_⟩
  · rw [TDigest.supplied_batches, hb, List.map_map]
    refine List.map_congr_left ?_
    intro x hx
    obtain ⟨m, rfl, -⟩ := hn x hx
    rfl
  · intro x hx
    obtain ⟨y, hy, rfl⟩ := List.mem_map.1 hx
    obtain ⟨m, rfl, -, h⟩ := hn y hy
    exact h
  · intro x hx
    obtain ⟨y, hy, rfl⟩ := List.mem_map.1 hx
    obtain ⟨m, rfl, h, -⟩ := hn y hy
    exact abs_le.1 h
  · rw [List.map_map]
    refine (List.map_congr_left ?_).trans (List.map_id _)
    intro x hx
    obtain ⟨m, rfl, -⟩ := hn x hx
    rfl

section F64
attribute [local instance] f64Fmt f64_mono

/-- C129. `BufferedDigest` with any capacity except 0 around a `TDigest::<f64>` with `k0`, `inv_k0` and a factor `D ≤ 10^7`: after any history of
queries and of insertions of together at least two and fewer than `D` items (doubles of magnitude up to `2^970`) the quantile answered for `x` is
the one a LinearDigest of the same items answers. -/
theorem C129_quantile_f64 (D : Nat) (hD7 : D ≤ 10 ^ 7) (capacity : Nat) (hc : capacity ≠ 0) (ops : List (Op (Fl ℚ)))
    (ho : ∀ o ∈ ops, OpNumber (2 ^ (970 : ℤ)) o) (h2 : 2 ≤ (itemsOf ops).length) (hn : (itemsOf ops).length < D) (x : ℚ) :
    Always (execAll (BufferedDigest.new (TDigest.new k0 invK0 (.fin (D : ℚ))) capacity) ops >>= fun b => b.estQuantileAtValue (.fin x)) (fun r =>
      r.1 = (⟨itemsOf ops⟩ : LinearDigest ℚ).estQuantileAtValue (.fin x)) := by
  refine BufferedDigest.flush_batches (f64_roomy (e := 970) (by norm_num) le_rfl) (by norm_num) _ _ _ capacity hc ops (fun o h => (ho o h).upTo)
    (by omega) (fun b' => do
      let r ← Digest.estQuantileAtValue b'.digest (.fin x)
      return (r.1, { b' with digest := r.2 })) _ ?_
  intro batches hb _
  obtain ⟨hp, he⟩ := plain_of_batches ho hb
  refine (C127_f64 D hD7 hp (by rw [List.length_map]; exact h2) (by rw [List.length_map]; exact hn)).mono ?_
  rintro d ⟨-, h, -⟩
  rw [he] at h
  show Always (((d.estQuantileAtValue (.fin x)) >>= _) >>= _) _
  rw [h x]
  rfl

/-- C129 for values: the answer for `0 ≤ q ≤ 1` is the item with `⌊fl(n q)⌋` items before it in sorted order. -/
theorem C129_value_f64 (D : Nat) (hD7 : D ≤ 10 ^ 7) (capacity : Nat) (hc : capacity ≠ 0) (ops : List (Op (Fl ℚ)))
    (ho : ∀ o ∈ ops, OpNumber (2 ^ (970 : ℤ)) o) (h2 : 2 ≤ (itemsOf ops).length) (hn : (itemsOf ops).length < D) (q : ℚ) (hq0 : 0 ≤ q) (hq1 : q ≤ 1) :
    Always (execAll (BufferedDigest.new (TDigest.new k0 invK0 (.fin (D : ℚ))) capacity) ops >>= fun b => b.estValueAtQuantile (.fin q)) (fun r =>
      ∃ t : ℚ, Ieee.double.rnd ((itemsOf ops).length * q) = .fin t ∧ IsOrderStat (itemsOf ops) (Min.min ⌊t⌋₊ ((itemsOf ops).length - 1)) r.1) := by
  refine BufferedDigest.flush_batches (f64_roomy (e := 970) (by norm_num) le_rfl) (by norm_num) _ _ _ capacity hc ops (fun o h => (ho o h).upTo)
    (by omega) (fun b' => do
      let r ← Digest.estValueAtQuantile b'.digest (.fin q)
      return (r.1, { b' with digest := r.2 })) _ ?_
  intro batches hb _
  obtain ⟨hp, he⟩ := plain_of_batches ho hb
  refine (C127_f64 D hD7 hp (by rw [List.length_map]; exact h2) (by rw [List.length_map]; exact hn)).mono ?_
  rintro d ⟨-, -, h⟩
  obtain ⟨t, v, h3, h4, h5⟩ := h q hq0 hq1
  rw [List.length_map] at h3 h5
  show Always (((d.estValueAtQuantile (.fin q)) >>= _) >>= _) _
  rw [h4]
  refine ⟨t, h3, ?_⟩
  show IsOrderStat (itemsOf ops) _ (.fin v)
  generalize Min.min ⌊t⌋₊ ((itemsOf ops).length - 1) = j at h5 ⊢
  obtain ⟨g1, g2, g3⟩ := h5
  rw [← he]
  refine ⟨List.mem_map_of_mem g1, ?_, ?_⟩
  · rw [List.countP_map]
    simpa only [Function.comp_def, Fl.fin_lt_fin] using g2
  · rw [List.countP_map]
    simpa only [Function.comp_def, Fl.fin_le_fin] using g3

/-- A history of five items with queries in between: two insertions of one item, one of three. -/
def bufPlainOps : List (Op (Fl ℚ)) :=
  [.add (.fin 7), .quantile (.fin 2), .addBuffer [.fin (1 / 8), .fin 3, .fin 3], .value (.fin (1 / 2)), .add (.fin (-5 / 2))]

theorem bufPlainOps_number : ∀ o ∈ bufPlainOps, OpNumber ((2 : ℚ) ^ (970 : ℤ)) o := by
  have h1 : (1 : ℚ) ≤ 2 ^ (960 : ℤ) := one_le_zpow₀ (by norm_num) (by norm_num)
  have h2 : (2 : ℚ) ^ (970 : ℤ) = 2 ^ (960 : ℤ) * 1024 := by
    rw [show (970 : ℤ) = 960 + 10 by norm_num, zpow_add₀ (by norm_num)]; norm_num
  have hb : ∀ m : ℚ, |m| ≤ 7 → |m| ≤ 2 ^ (970 : ℤ) := by
    intro m hm
    generalize (2 : ℚ) ^ (960 : ℤ) = y at h1 h2
    generalize (2 : ℚ) ^ (970 : ℤ) = z at h2 ⊢
    linarith
  intro o h
  simp only [bufPlainOps, List.mem_cons, List.not_mem_nil, or_false] at h
  rcases h with rfl | rfl | rfl | rfl | rfl
  · exact ⟨7, rfl, hb _ (by norm_num), by decide +kernel⟩
  · exact ⟨2, rfl⟩
  · intro x hx
    simp only [List.mem_cons, List.not_mem_nil, or_false] at hx
    rcases hx with rfl | rfl | rfl
    · exact ⟨1 / 8, rfl, hb _ (by rw [abs_of_pos] <;> norm_num), by decide +kernel⟩
    · exact ⟨3, rfl, hb _ (by norm_num), by decide +kernel⟩
    · exact ⟨3, rfl, hb _ (by norm_num), by decide +kernel⟩
  · exact ⟨1 / 2, rfl⟩
  · exact ⟨-5 / 2, rfl, hb _ (by rw [abs_of_neg] <;> norm_num), by decide +kernel⟩

/-- C129 on that history with capacity 3 and factor 6: three of five items are at most 3, and the item after `⌊5 * 0.3⌋ = 1` others is 1/8. -/
theorem C129_example :
    (∀ x : ℚ, Always (execAll (BufferedDigest.new (TDigest.new k0 invK0 (.fin ((6 : ℕ) : ℚ))) 3) bufPlainOps >>=
        fun b => b.estQuantileAtValue (.fin x)) (fun r => r.1 = (⟨itemsOf bufPlainOps⟩ : LinearDigest ℚ).estQuantileAtValue (.fin x))) ∧
    Always (execAll (BufferedDigest.new (TDigest.new k0 invK0 (.fin ((6 : ℕ) : ℚ))) 3) bufPlainOps >>=
        fun b => b.estValueAtQuantile (.fin (3 / 10))) (fun r => r.1 = .fin (1 / 8)) ∧
    (⟨itemsOf bufPlainOps⟩ : LinearDigest ℚ).estQuantileAtValue (.fin 3) = Ieee.double.rnd (3 / 5) :=
  ⟨fun x => C129_quantile_f64 6 (by norm_num) 3 (by norm_num) bufPlainOps bufPlainOps_number (by decide) (by decide) x,
    by decide +kernel, by decide +kernel⟩

/-- C129 needs fewer items than the factor: with as many the quantile of a value can be another one than a LinearDigest's. -/
theorem C129_full_differs :
    Always (execAll (BufferedDigest.new (TDigest.new k0 invK0 (.fin (4 : ℚ))) 10) [.add (.fin 0), .add (.fin 1), .add (.fin 2), .add (.fin 4)] >>=
      fun b => b.estQuantileAtValue (.fin 1)) (fun r =>
        r.1 ≠ (⟨[.fin 0, .fin 1, .fin 2, .fin 4]⟩ : LinearDigest ℚ).estQuantileAtValue (.fin 1)) := by
  decide +kernel

end F64

section F32
attribute [local instance] f32Fmt f32_mono

/-- C129. `BufferedDigest` with any capacity except 0 around a `TDigest::<f32>` with `k0`, `inv_k0` and a factor `D ≤ 900`: after any history of
queries and of insertions of together at least two and fewer than `D` items (singles of magnitude up to `2^103`) the quantile answered for `x` is
the one a LinearDigest of the same items answers. -/
theorem C129_quantile_f32 (D : Nat) (hD9 : D ≤ 900) (capacity : Nat) (hc : capacity ≠ 0) (ops : List (Op (Fl ℚ)))
    (ho : ∀ o ∈ ops, OpNumber (2 ^ (103 : ℤ)) o) (h2 : 2 ≤ (itemsOf ops).length) (hn : (itemsOf ops).length < D) (x : ℚ) :
    Always (execAll (BufferedDigest.new (TDigest.new k0 invK0 (.fin (D : ℚ))) capacity) ops >>= fun b => b.estQuantileAtValue (.fin x)) (fun r =>
      r.1 = (⟨itemsOf ops⟩ : LinearDigest ℚ).estQuantileAtValue (.fin x)) := by
  refine BufferedDigest.flush_batches (f32_roomy (e := 103) (by norm_num) le_rfl) (by norm_num) _ _ _ capacity hc ops (fun o h => (ho o h).upTo)
    (by omega) (fun b' => do
      let r ← Digest.estQuantileAtValue b'.digest (.fin x)
      return (r.1, { b' with digest := r.2 })) _ ?_
  intro batches hb _
  obtain ⟨hp, he⟩ := plain_of_batches ho hb
  refine (C127_f32 D hD9 hp (by rw [List.length_map]; exact h2) (by rw [List.length_map]; exact hn)).mono ?_
  rintro d ⟨-, h, -⟩
  rw [he] at h
  show Always (((d.estQuantileAtValue (.fin x)) >>= _) >>= _) _
  rw [h x]
  rfl

/-- C129 for values: the answer for `0 ≤ q ≤ 1` is the item with `⌊fl(n q)⌋` items before it in sorted order. -/
theorem C129_value_f32 (D : Nat) (hD9 : D ≤ 900) (capacity : Nat) (hc : capacity ≠ 0) (ops : List (Op (Fl ℚ)))
    (ho : ∀ o ∈ ops, OpNumber (2 ^ (103 : ℤ)) o) (h2 : 2 ≤ (itemsOf ops).length) (hn : (itemsOf ops).length < D) (q : ℚ) (hq0 : 0 ≤ q) (hq1 : q ≤ 1) :
    Always (execAll (BufferedDigest.new (TDigest.new k0 invK0 (.fin (D : ℚ))) capacity) ops >>= fun b => b.estValueAtQuantile (.fin q)) (fun r =>
      ∃ t : ℚ, Ieee.single.rnd ((itemsOf ops).length * q) = .fin t ∧ IsOrderStat (itemsOf ops) (Min.min ⌊t⌋₊ ((itemsOf ops).length - 1)) r.1) := by
  refine BufferedDigest.flush_batches (f32_roomy (e := 103) (by norm_num) le_rfl) (by norm_num) _ _ _ capacity hc ops (fun o h => (ho o h).upTo)
    (by omega) (fun b' => do
      let r ← Digest.estValueAtQuantile b'.digest (.fin q)
      return (r.1, { b' with digest := r.2 })) _ ?_
  intro batches hb _
  obtain ⟨hp, he⟩ := plain_of_batches ho hb
  refine (C127_f32 D hD9 hp (by rw [List.length_map]; exact h2) (by rw [List.length_map]; exact hn)).mono ?_
  rintro d ⟨-, -, h⟩
  obtain ⟨t, v, h3, h4, h5⟩ := h q hq0 hq1
  rw [List.length_map] at h3 h5
  show Always (((d.estValueAtQuantile (.fin q)) >>= _) >>= _) _
  rw [h4]
  refine ⟨t, h3, ?_⟩
  show IsOrderStat (itemsOf ops) _ (.fin v)
  generalize Min.min ⌊t⌋₊ ((itemsOf ops).length - 1) = j at h5 ⊢
  obtain ⟨g1, g2, g3⟩ := h5
  rw [← he]
  refine ⟨List.mem_map_of_mem g1, ?_, ?_⟩
  · rw [List.countP_map]
    simpa only [Function.comp_def, Fl.fin_lt_fin] using g2
  · rw [List.countP_map]
    simpa only [Function.comp_def, Fl.fin_le_fin] using g3

end F32

end AQ

/-
C150, C151, C152: accuracy of TDigests with `k0`, `k1`, `k2` and `k3` in BufferedDigests after any history of calls (src/buffered_digest.rs; over the real numbers).
-/
import Verif.Proofs.BufferedLayers
import Verif.Props.ParTScale

set_option linter.unusedSectionVars false
set_option linter.unusedVariables false

namespace AQ
open Prog Spec

section
variable {K : Type} [Field K] [LinearOrder K] [IsStrictOrderedRing K] [FloorRing K] [FloatFmt K] [FloatFmt.Exact K]

theorem TDigest.Inv.unitView {d : TDigest K} {xs : List (Fl K)} (h : d.Inv (xs.map TDigest.unit)) (hit : ∀ x ∈ xs, Item x) (hne : xs ≠ []) :
    ∃ l a b, TDigest.View d l a b ∧ TDigest.wt l = (xs.length : K) ∧ ∀ p ∈ l, 1 ≤ p.2 := by
  obtain ⟨l, a, b, hv, hwt, hcl⟩ := h.view (ParTDigest.ones_units hit).good (by simpa using hne)
  rw [TDigest.totalW_units] at hwt
  exact ⟨l, a, b, hv, hwt, hcl _ TDigest.one_le_closed (fun c hc => (ParTDigest.ones_units hit c hc).2)⟩

theorem TDigest.Inv.unitQueries {d : TDigest K} {xs : List (Fl K)} (h : d.Inv (xs.map TDigest.unit)) (hit : ∀ x ∈ xs, Item x) (h64 : (xs.length : K) < 2 ^ 64)
    (q : K) : (∃ r, d.estQuantileAtValue (.fin q) = .ret r) ∧ ∃ r, d.estValueAtQuantile (.fin q) = .ret r :=
  h.queries (ParTDigest.ones_units hit).good (fun c hc => (ParTDigest.ones_units hit c hc).2) (by rw [TDigest.totalW_units]; exact h64) q

theorem BufferedDigest.callHistory_state {s i : ScaleFn K} {cf : Fl K} {N : K} {J : Nat → List (Centroid K) → List (Centroid K) → Prop}
    (L : ParTDigest.Layered s i cf N J) (capacity : Nat) (hc : capacity ≠ 0)
    (cs : List (ParTDigest.Call K)) (ho : ∀ o, .op o ∈ cs → OrdinaryOp o) (h64 : ((ParTDigest.itemsOfCalls cs).length : K) < 2 ^ 64)
    (hN : ((ParTDigest.itemsOfCalls cs).length : K) ≤ N) :
    Always (BufferedDigest.callHistory s i cf capacity cs >>= BufferedDigest.flush) (fun b => b.digest.Inv ((ParTDigest.itemsOfCalls cs).map TDigest.unit) ∧
      J (batchesWithin capacity cs) b.digest.centroids ((ParTDigest.itemsOfCalls cs).map TDigest.unit)) :=
  (BufferedDigest.callHistory_flushed L capacity hc cs ho h64 hN).mono (fun b h => h.2)

end

section
variable [FloatFmt ℝ] [FloatFmt.Exact ℝ]

/-- C150. A BufferedDigest of a TDigest made with `k0`, `k1`, `k2` or `k3` such that no more than the fraction `c` of `n` items may go into one centroid, after any history of
insertions, queries and flushes that supplied `n` items: the estimated quantile of `x` is, as a rank, off by at most
`max 1 (c n / 2) + p c n`, where `p` bounds the insertions into the TDigest (`batchesWithin`). -/
theorem C150_quantile (c : ℝ) (s i : ScaleFn ℝ) (cf : Fl ℝ) (capacity : Nat) (hcap : capacity ≠ 0) (cs : List (ParTDigest.Call ℝ))
    (hk : FracScale c (ParTDigest.itemsOfCalls cs).length s i cf) (ho : ∀ o, .op o ∈ cs → OrdinaryOp o) (hne : ParTDigest.itemsOfCalls cs ≠ [])
    (h64 : ((ParTDigest.itemsOfCalls cs).length : ℝ) < 2 ^ 64) (x : ℝ) :
    Always (BufferedDigest.callHistory s i cf capacity cs >>= fun p => p.estQuantileAtValue (.fin x)) (fun r =>
      ∃ e : ℝ, r.1 = .fin e ∧ RankWithin (ParTDigest.itemsOfCalls cs) ((ParTDigest.itemsOfCalls cs).length * e) x
        (Max.max 1 (c * (ParTDigest.itemsOfCalls cs).length / 2) + batchesWithin capacity cs * (c * (ParTDigest.itemsOfCalls cs).length))) := by
  have h1 := one_le_length hne
  have hl := TDigest.fracScale_limit h1 hk
  have hc := TDigest.fracScale_nonneg h1 hk
  have hit := ParTDigest.items_of_calls ho
  refine BufferedDigest.quantile_flushed (BufferedDigest.callHistory_state ((ParTDigest.layered_weight hc hl).and (ParTDigest.layered_near hc hl))
    capacity hcap cs ho h64 le_rfl) ?_
  rintro p ⟨hp, hw, hn⟩
  obtain ⟨l, a, b, hv, hwt, hw1⟩ := hp.unitView (ParTDigest.items_of_calls ho) hne
  rw [TDigest.totalW_units] at hw hn
  obtain ⟨e, h4, h5⟩ := TDigest.Near.query hn (ParTDigest.ones_units hit).good hv (by rw [hwt, TDigest.totalW_units]) (le_max_left _ _)
    (fun e he => TTree.half_frac le_rfl (hw e he)) x
  rw [TDigest.totalW_units, TDigest.unit_eq, TDigest.weightWithin_items hit] at h5
  exact ⟨_, h4, e, rfl, h5⟩

/-- C150 for value queries not right of the middle of the last centroid (see C84). -/
theorem C150_value (c : ℝ) (s i : ScaleFn ℝ) (cf : Fl ℝ) (capacity : Nat) (hcap : capacity ≠ 0) (cs : List (ParTDigest.Call ℝ))
    (hk : FracScale c (ParTDigest.itemsOfCalls cs).length s i cf) (ho : ∀ o, .op o ∈ cs → OrdinaryOp o) (hne : ParTDigest.itemsOfCalls cs ≠ [])
    (h64 : ((ParTDigest.itemsOfCalls cs).length : ℝ) < 2 ^ 64) (q : ℝ) (hq0 : 0 ≤ q) (hq1 : q ≤ 1) :
    Always (BufferedDigest.callHistory s i cf capacity cs >>= fun p => p.estValueAtQuantile (.fin q)) (fun r =>
      ∀ last : Centroid ℝ, r.2.digest.centroids.getLast? = some last →
      ¬ InLastTail ((ParTDigest.itemsOfCalls cs).length : ℝ) last.weight.toK q →
      ∃ v : ℝ, r.1 = .fin v ∧ RankWithin (ParTDigest.itemsOfCalls cs) ((ParTDigest.itemsOfCalls cs).length * q) v
        (Max.max 1 (c * (ParTDigest.itemsOfCalls cs).length / 2) + batchesWithin capacity cs * (c * (ParTDigest.itemsOfCalls cs).length))) := by
  have h1 := one_le_length hne
  have hl := TDigest.fracScale_limit h1 hk
  have hc := TDigest.fracScale_nonneg h1 hk
  have hit := ParTDigest.items_of_calls ho
  refine BufferedDigest.value_flushed (BufferedDigest.callHistory_state ((ParTDigest.layered_weight hc hl).and (ParTDigest.layered_near hc hl))
    capacity hcap cs ho h64 le_rfl) ?_
  rintro p ⟨hp, hw, hn⟩
  obtain ⟨l, a, b, hv, hwt, hw1⟩ := hp.unitView (ParTDigest.items_of_calls ho) hne
  obtain ⟨-, r, hr⟩ := hp.unitQueries (ParTDigest.items_of_calls ho) h64 q
  refine ⟨r, hr, fun last hlast hnt => ?_⟩
  rw [TDigest.totalW_units] at hw hn
  obtain ⟨v, h4, h5⟩ := TDigest.Near.value hn (ParTDigest.ones_units hit).good hv (by rw [hwt, TDigest.totalW_units]) hw1
    (by rw [TDigest.totalW_units]; exact h64) (le_max_left _ _) (fun e he => TTree.half_frac le_rfl (hw e he)) hlast hq0 hq1
    (by rw [TDigest.totalW_units]; exact hnt)
  rw [hr] at h4
  rw [TDigest.totalW_units, TDigest.unit_eq, TDigest.weightWithin_items hit] at h5
  exact ⟨v, by injection h4, h5⟩

/-- The state a query of a digest with `k2` or `k3` sees. -/
theorem BufferedDigest.rel_flushed {r δ : ℝ} {s i : ScaleFn ℝ} (h0 : 0 < δ) (h5 : δ ≤ 10 ^ 5) (capacity : Nat) (hcap : capacity ≠ 0)
    (cs : List (ParTDigest.Call ℝ)) (hk : OddsScale r δ (ParTDigest.itemsOfCalls cs).length s i) (ho : ∀ o, .op o ∈ cs → OrdinaryOp o)
    (hne : ParTDigest.itemsOfCalls cs ≠ []) (h64 : ((ParTDigest.itemsOfCalls cs).length : ℝ) < 2 ^ 64) :
    Always (BufferedDigest.callHistory s i (.fin δ) capacity cs >>= BufferedDigest.flush) (fun p => p.digest.Inv ((ParTDigest.itemsOfCalls cs).map TDigest.unit) ∧
      (∀ a ∈ p.digest.centroids, a.weight ≤ .fin (Max.max 1 ((r - 1) / (r + 1) * (ParTDigest.itemsOfCalls cs).length))) ∧
      ∀ x H e : ℝ, TDigest.lw x p.digest.centroids ≤ (ParTDigest.itemsOfCalls cs).length * e + H →
        (ParTDigest.itemsOfCalls cs).length * e ≤ TDigest.uw x p.digest.centroids + H →
        WeightFactor ((ParTDigest.itemsOfCalls cs).map (fun x => ⟨x, .fin 1⟩)) ((ParTDigest.itemsOfCalls cs).length * e) x (r ^ batchesWithin capacity cs) H) := by
  have h1 := one_le_length hne
  obtain ⟨hr, hl⟩ := oddsScale_limit hk h0 h5 h1
  have hit := ParTDigest.items_of_calls ho
  have hf := TDigest.odds_limitFrac hl hr
  refine (BufferedDigest.callHistory_state ((ParTDigest.layered_weight (div_nonneg (by linarith) (by linarith)) hf).and (ParTDigest.layered_rel (by linarith) hl))
    capacity hcap cs ho h64 le_rfl).mono ?_
  rintro p ⟨hp, hw, hn⟩
  rw [TDigest.totalW_units] at hw
  refine ⟨hp, fun a ha => ?_, fun x H e h3 h4 => ?_⟩
  · have := hw a ha
    obtain ⟨-, w, hw', he'⟩ := hp.good a ha
    rw [he'] at this ⊢
    exact Fl.fin_le_fin.2 this
  · have h6 := hn x
    rw [show 1 + (r - 1) = r by ring] at h6
    rw [← TDigest.unit_eq]
    exact h6.factor (by positivity) (ParTDigest.ones_units hit).good (by rw [hp.weight, TDigest.totalW_units]) h3 h4

/-- C151. A BufferedDigest of a TDigest with `k2` or `k3` and the compression factor `δ`, after any history that supplied `n` items: the rank of `x` that a quantile query answers
is that of the data up to the factor `r^p`, counted from either end, and half the weight of the centroids next to `x`; `r` is the factor of one pass, `p` bounds
the passes. No centroid is heavier than `n (r-1)/(r+1)` (or 1). -/
theorem C151_quantile (r δ : ℝ) (s i : ScaleFn ℝ) (h0 : 0 < δ) (h5 : δ ≤ 10 ^ 5) (capacity : Nat) (hcap : capacity ≠ 0)
    (cs : List (ParTDigest.Call ℝ)) (hk : OddsScale r δ (ParTDigest.itemsOfCalls cs).length s i) (ho : ∀ o, .op o ∈ cs → OrdinaryOp o)
    (hne : ParTDigest.itemsOfCalls cs ≠ []) (h64 : ((ParTDigest.itemsOfCalls cs).length : ℝ) < 2 ^ 64) (x : ℝ) :
    Always (BufferedDigest.callHistory s i (.fin δ) capacity cs >>= fun p => p.estQuantileAtValue (.fin x)) (fun res =>
      (∀ a ∈ res.2.digest.centroids, a.weight ≤ .fin (Max.max 1 ((r - 1) / (r + 1) * (ParTDigest.itemsOfCalls cs).length))) ∧
      ∃ e : ℝ, res.1 = .fin e ∧ ∀ H : ℝ, 1 ≤ H → (∀ a, Beside res.2.digest.centroids (.fin x) a → a.weight ≤ .fin (2 * H)) →
        WeightFactor ((ParTDigest.itemsOfCalls cs).map (fun x => ⟨x, .fin 1⟩)) ((ParTDigest.itemsOfCalls cs).length * e) x (r ^ batchesWithin capacity cs) H) := by
  refine BufferedDigest.quantile_flushed (BufferedDigest.rel_flushed h0 h5 capacity hcap cs hk ho hne h64) ?_
  rintro p ⟨hp, hw, hn⟩
  obtain ⟨l, a, b, hv, hwt, hw1⟩ := hp.unitView (ParTDigest.items_of_calls ho) hne
  obtain ⟨e, h1, h2⟩ := (hv.queries hwt hw1 h64).1 x
  refine ⟨_, h1, hw, e, rfl, fun H hH hb => ?_⟩
  obtain ⟨h3, h4⟩ := h2 H hH hb
  exact hn x H e h3 h4

/-- C151 for value queries not right of the middle of the last centroid (see C84). -/
theorem C151_value (r δ : ℝ) (s i : ScaleFn ℝ) (h0 : 0 < δ) (h5 : δ ≤ 10 ^ 5) (capacity : Nat) (hcap : capacity ≠ 0)
    (cs : List (ParTDigest.Call ℝ)) (hk : OddsScale r δ (ParTDigest.itemsOfCalls cs).length s i) (ho : ∀ o, .op o ∈ cs → OrdinaryOp o)
    (hne : ParTDigest.itemsOfCalls cs ≠ []) (h64 : ((ParTDigest.itemsOfCalls cs).length : ℝ) < 2 ^ 64) (q : ℝ) (hq0 : 0 ≤ q) (hq1 : q ≤ 1) :
    Always (BufferedDigest.callHistory s i (.fin δ) capacity cs >>= fun p => p.estValueAtQuantile (.fin q)) (fun res =>
      ∀ last : Centroid ℝ, res.2.digest.centroids.getLast? = some last →
      ¬ InLastTail ((ParTDigest.itemsOfCalls cs).length : ℝ) last.weight.toK q →
      ∃ v : ℝ, res.1 = .fin v ∧ ∀ H : ℝ, 1 ≤ H → (∀ a, Beside res.2.digest.centroids (.fin v) a → a.weight ≤ .fin (2 * H)) →
        WeightFactor ((ParTDigest.itemsOfCalls cs).map (fun x => ⟨x, .fin 1⟩)) ((ParTDigest.itemsOfCalls cs).length * q) v (r ^ batchesWithin capacity cs) H) := by
  refine BufferedDigest.value_flushed (BufferedDigest.rel_flushed h0 h5 capacity hcap cs hk ho hne h64) ?_
  rintro p ⟨hp, hw, hn⟩
  obtain ⟨l, a, b, hv, hwt, hw1⟩ := hp.unitView (ParTDigest.items_of_calls ho) hne
  obtain ⟨-, res, hr⟩ := hp.unitQueries (ParTDigest.items_of_calls ho) h64 q
  refine ⟨res, hr, fun last hlast hnt => ?_⟩
  obtain ⟨v, h1, h2⟩ := (hv.queries hwt hw1 h64).2 last q hlast hq0 hq1 hnt
  rw [hr] at h1
  refine ⟨v, by injection h1, fun H hH hb => ?_⟩
  obtain ⟨h3, h4⟩ := h2 H hH hb
  exact hn v H q h3 h4

/-- The state a query of a digest with `k1` sees. -/
theorem BufferedDigest.root_flushed {δ : ℝ} (h0 : 0 < δ) (capacity : Nat) (hcap : capacity ≠ 0)
    (cs : List (ParTDigest.Call ℝ)) (ho : ∀ o, .op o ∈ cs → OrdinaryOp o)
    (hne : ParTDigest.itemsOfCalls cs ≠ []) (h64 : ((ParTDigest.itemsOfCalls cs).length : ℝ) < 2 ^ 64) :
    Always (BufferedDigest.callHistory k1 invK1 (.fin δ) capacity cs >>= BufferedDigest.flush) (fun p => p.digest.Inv ((ParTDigest.itemsOfCalls cs).map TDigest.unit) ∧
      (∀ a ∈ p.digest.centroids, a.weight ≤ .fin (Max.max 1 (Real.pi / δ * (ParTDigest.itemsOfCalls cs).length))) ∧
      ∀ x H e : ℝ, TDigest.lw x p.digest.centroids ≤ (ParTDigest.itemsOfCalls cs).length * e + H →
        (ParTDigest.itemsOfCalls cs).length * e ≤ TDigest.uw x p.digest.centroids + H →
        WeightRoot ((ParTDigest.itemsOfCalls cs).map (fun x => ⟨x, .fin 1⟩)) ((ParTDigest.itemsOfCalls cs).length * e) x
          (batchesWithin capacity cs * (Real.pi / δ * √(ParTDigest.itemsOfCalls cs).length)) H) := by
  have h1 := one_le_length hne
  have hit := ParTDigest.items_of_calls ho
  have hβ : 0 ≤ Real.pi / δ := div_nonneg Real.pi_pos.le h0.le
  refine (BufferedDigest.callHistory_state ((ParTDigest.layered_weight hβ (TDigest.k1_limitFrac h0)).and (ParTDigest.layered_root h0))
    capacity hcap cs ho h64 le_rfl).mono ?_
  rintro p ⟨hp, hw, hn⟩
  rw [TDigest.totalW_units] at hw hn
  refine ⟨hp, fun a ha => ?_, fun x H e h3 h4 => ?_⟩
  · have := hw a ha
    obtain ⟨-, w, hw', he'⟩ := hp.good a ha
    rw [he'] at this ⊢
    exact Fl.fin_le_fin.2 this
  · rw [← TDigest.unit_eq]
    exact (hn x).weightRoot (mul_nonneg (Nat.cast_nonneg _) (mul_nonneg hβ (Real.sqrt_nonneg _))) (ParTDigest.ones_units hit).good
      (by rw [hp.weight, TDigest.totalW_units]) h3 h4

/-- C152. A BufferedDigest of a TDigest with `k1` and the compression factor `δ`, after any history that supplied `n` items: the rank of `x` that a quantile query answers is that of
the data up to `p (π/δ) √n` in the square root, counted from either end, and half the weight of the centroids next to `x`, where `p` bounds the insertions into the TDigest. No
centroid is heavier than `π n / δ` (or 1). -/
theorem C152_quantile (δ : ℝ) (h0 : 0 < δ) (capacity : Nat) (hcap : capacity ≠ 0) (cs : List (ParTDigest.Call ℝ))
    (ho : ∀ o, .op o ∈ cs → OrdinaryOp o) (hne : ParTDigest.itemsOfCalls cs ≠ []) (h64 : ((ParTDigest.itemsOfCalls cs).length : ℝ) < 2 ^ 64) (x : ℝ) :
    Always (BufferedDigest.callHistory k1 invK1 (.fin δ) capacity cs >>= fun p => p.estQuantileAtValue (.fin x)) (fun res =>
      (∀ a ∈ res.2.digest.centroids, a.weight ≤ .fin (Max.max 1 (Real.pi / δ * (ParTDigest.itemsOfCalls cs).length))) ∧
      ∃ e : ℝ, res.1 = .fin e ∧ ∀ H : ℝ, 1 ≤ H → (∀ a, Beside res.2.digest.centroids (.fin x) a → a.weight ≤ .fin (2 * H)) →
        WeightRoot ((ParTDigest.itemsOfCalls cs).map (fun x => ⟨x, .fin 1⟩)) ((ParTDigest.itemsOfCalls cs).length * e) x
          (batchesWithin capacity cs * (Real.pi / δ * √(ParTDigest.itemsOfCalls cs).length)) H) := by
  refine BufferedDigest.quantile_flushed (BufferedDigest.root_flushed h0 capacity hcap cs ho hne h64) ?_
  rintro p ⟨hp, hw, hn⟩
  obtain ⟨l, a, b, hv, hwt, hw1⟩ := hp.unitView (ParTDigest.items_of_calls ho) hne
  obtain ⟨e, h1, h2⟩ := (hv.queries hwt hw1 h64).1 x
  refine ⟨_, h1, hw, e, rfl, fun H hH hb => ?_⟩
  obtain ⟨h3, h4⟩ := h2 H hH hb
  exact hn x H e h3 h4

/-- C152 for value queries not right of the middle of the last centroid (see C84). -/
theorem C152_value (δ : ℝ) (h0 : 0 < δ) (capacity : Nat) (hcap : capacity ≠ 0) (cs : List (ParTDigest.Call ℝ))
    (ho : ∀ o, .op o ∈ cs → OrdinaryOp o) (hne : ParTDigest.itemsOfCalls cs ≠ []) (h64 : ((ParTDigest.itemsOfCalls cs).length : ℝ) < 2 ^ 64)
    (q : ℝ) (hq0 : 0 ≤ q) (hq1 : q ≤ 1) :
    Always (BufferedDigest.callHistory k1 invK1 (.fin δ) capacity cs >>= fun p => p.estValueAtQuantile (.fin q)) (fun res =>
      ∀ last : Centroid ℝ, res.2.digest.centroids.getLast? = some last →
      ¬ InLastTail ((ParTDigest.itemsOfCalls cs).length : ℝ) last.weight.toK q →
      ∃ v : ℝ, res.1 = .fin v ∧ ∀ H : ℝ, 1 ≤ H → (∀ a, Beside res.2.digest.centroids (.fin v) a → a.weight ≤ .fin (2 * H)) →
        WeightRoot ((ParTDigest.itemsOfCalls cs).map (fun x => ⟨x, .fin 1⟩)) ((ParTDigest.itemsOfCalls cs).length * q) v
          (batchesWithin capacity cs * (Real.pi / δ * √(ParTDigest.itemsOfCalls cs).length)) H) := by
  refine BufferedDigest.value_flushed (BufferedDigest.root_flushed h0 capacity hcap cs ho hne h64) ?_
  rintro p ⟨hp, hw, hn⟩
  obtain ⟨l, a, b, hv, hwt, hw1⟩ := hp.unitView (ParTDigest.items_of_calls ho) hne
  obtain ⟨-, res, hr⟩ := hp.unitQueries (ParTDigest.items_of_calls ho) h64 q
  refine ⟨res, hr, fun last hlast hnt => ?_⟩
  obtain ⟨v, h1, h2⟩ := (hv.queries hwt hw1 h64).2 last q hlast hq0 hq1 hnt
  rw [hr] at h1
  refine ⟨v, by injection h1, fun H hH hb => ?_⟩
  obtain ⟨h3, h4⟩ := h2 H hH hb
  exact hn v H q h3 h4

end

theorem shardCalls_batches : batchesWithin 999 shardCalls = 3 := by
  unfold batchesWithin
  rw [shardCalls_items, relShard_length]
  rfl

/-- Non-vacuity: with `k1` and `δ = 1000`, after the two insertions and the query every quantile query is off by at most 12 of the 1000 items. -/
theorem C150_example : let _ := realExact; let _ := realExact_exact;
    ∀ x : ℝ, Always (BufferedDigest.callHistory k1 invK1 (.fin (1000 : ℝ)) 999 shardCalls >>= fun p => p.estQuantileAtValue (.fin x)) (fun r =>
      ∃ e : ℝ, r.1 = .fin e ∧ RankWithin (relShard 0 ++ relShard 1) (1000 * e) x 12) := by
  intro i1 i2 x
  have q1 := shardCalls_items
  have q2 := shardCalls_length
  have q3 := shardCalls_batches
  have q4 := shardCalls_ordinary
  have q5 := shardCalls_ne
  generalize shardCalls = cs at q1 q2 q3 q4 q5 ⊢
  have hpi := Real.pi_lt_d2
  have h := C150_quantile (315 / 100000) k1 invK1 (.fin 1000) 999 (by norm_num) cs
    ⟨1000, rfl, by norm_num, Or.inr (Or.inl ⟨rfl, rfl, by linarith⟩)⟩ q4 q5 (by rw [q2]; norm_num) x
  rw [q2, q3, q1] at h
  refine Always.mono h ?_
  rintro r ⟨e, h1, h2, h3⟩
  have hb : Max.max 1 ((315 / 100000 : ℝ) * 1000 / 2) + ((3 : ℕ) : ℝ) * (315 / 100000 * 1000) ≤ 12 := by norm_num
  exact ⟨e, h1, by linarith, by linarith⟩

/-- Non-vacuity: with `k2` and `δ = 1000`, ranks are kept up to the factor 6/5 after the same history. -/
theorem C151_example : let _ := realExact; let _ := realExact_exact;
    ∀ x : ℝ, Always (BufferedDigest.callHistory k2 invK2 (.fin (1000 : ℝ)) 999 shardCalls >>= fun p => p.estQuantileAtValue (.fin x)) (fun res =>
      ∃ e : ℝ, res.1 = .fin e ∧ ∃ F ≤ (6 / 5 : ℝ), ∀ H : ℝ, 1 ≤ H → (∀ a, Beside res.2.digest.centroids (.fin x) a → a.weight ≤ .fin (2 * H)) →
        WeightFactor ((relShard 0 ++ relShard 1).map (fun x => ⟨x, .fin 1⟩)) (1000 * e) x F H) := by
  intro i1 i2 x
  have q1 := shardCalls_items
  have q2 := shardCalls_length
  have q3 := shardCalls_batches
  have q4 := shardCalls_ordinary
  have q5 := shardCalls_ne
  generalize shardCalls = cs at q1 q2 q3 q4 q5 ⊢
  have h := C151_quantile _ 1000 k2 invK2 (by norm_num) (by norm_num) 999 (by norm_num) cs (Or.inl ⟨rfl, rfl, rfl⟩)
    q4 q5 (by rw [q2]; norm_num) x
  rw [q2, q3, q1] at h
  have hr : (10 : ℝ) ^ ((4 * Real.logb 10 ((1000 : ℝ) / 1000) + 24) / 1000) ≤ 53 / 50 := by
    rw [div_self (by norm_num), Real.logb_one, mul_zero, zero_add]
    have h : ((10 : ℝ) ^ ((24 : ℝ) / 1000)) ^ (1000 / 24 : ℝ) ≤ (53 / 50 : ℝ) ^ (1000 / 24 : ℝ) := by
      rw [← Real.rpow_mul (by norm_num)]
      norm_num
      calc (10 : ℝ) ≤ (53 / 50 : ℝ) ^ (40 : ℕ) := by norm_num
        _ = (53 / 50 : ℝ) ^ (40 : ℝ) := by norm_num
        _ ≤ _ := Real.rpow_le_rpow_of_exponent_le (by norm_num) (by norm_num)
    exact (Real.rpow_le_rpow_iff (by positivity) (by norm_num) (by norm_num)).1 h
  have hr0 : 0 ≤ (10 : ℝ) ^ ((4 * Real.logb 10 ((1000 : ℝ) / 1000) + 24) / 1000) := by positivity
  refine Always.mono h ?_
  rintro res ⟨-, e, h1, h2⟩
  refine ⟨e, h1, _, ?_, h2⟩
  calc _ ≤ (53 / 50 : ℝ) ^ 3 := pow_le_pow_left₀ hr0 hr 3
    _ ≤ 6 / 5 := by norm_num

/-- Non-vacuity: with `k1` and `δ = 1000`, square roots of ranks are off by at most 3/10 after the same history. -/
theorem C152_example : let _ := realExact; let _ := realExact_exact;
    ∀ x : ℝ, Always (BufferedDigest.callHistory k1 invK1 (.fin (1000 : ℝ)) 999 shardCalls >>= fun p => p.estQuantileAtValue (.fin x)) (fun res =>
      ∃ e : ℝ, res.1 = .fin e ∧ ∃ F ≤ (3 / 10 : ℝ), ∀ H : ℝ, 1 ≤ H → (∀ a, Beside res.2.digest.centroids (.fin x) a → a.weight ≤ .fin (2 * H)) →
        WeightRoot ((relShard 0 ++ relShard 1).map (fun x => ⟨x, .fin 1⟩)) (1000 * e) x F H) := by
  intro i1 i2 x
  have q1 := shardCalls_items
  have q2 := shardCalls_length
  have q3 := shardCalls_batches
  have q4 := shardCalls_ordinary
  have q5 := shardCalls_ne
  generalize shardCalls = cs at q1 q2 q3 q4 q5 ⊢
  have h := C152_quantile 1000 (by norm_num) 999 (by norm_num) cs
    q4 q5 (by rw [q2]; norm_num) x
  rw [q2, q3, q1] at h
  refine Always.mono h ?_
  rintro res ⟨-, e, h1, h2⟩
  refine ⟨e, h1, _, ?_, h2⟩
  have h1 : √(1000 : ℝ) ≤ 317 / 10 := Real.sqrt_le_iff.2 ⟨by norm_num, by norm_num⟩
  have h2 : Real.pi / 1000 ≤ 315 / 100000 := by have := Real.pi_lt_d2; linarith
  have h3 : Real.pi / 1000 * √(1000 : ℝ) ≤ 315 / 100000 * (317 / 10) := mul_le_mul h2 h1 (Real.sqrt_nonneg _) (by norm_num)
  push_cast
  linarith

end AQ

/-
C142, C143, C144: accuracy of ParTDigests with `k0`, `k1`, `k2` and `k3` after any history of calls (src/t_digest/par_t_digest.rs; over the real numbers).
-/
import Verif.Proofs.ParTScale
import Verif.Props.TDRoot

set_option linter.unusedSectionVars false
set_option linter.unusedVariables false

namespace AQ
open Prog Spec

section
variable {K : Type} [Field K] [LinearOrder K] [IsStrictOrderedRing K] [FloorRing K] [FloatFmt K]
namespace ParTDigest

/-- A query is a flush and a query of the inner digest. -/
theorem quantile_flushed {h : Prog (ParTDigest K)} {x : Fl K} {P : ParTDigest K → Prop} {R : Fl K × ParTDigest K → Prop} (hf : Always (h >>= flush) P)
    (hR : ∀ p, P p → ∃ r, p.digest.estQuantileAtValue x = .ret r ∧ R (r, p)) : Always (h >>= fun p => p.estQuantileAtValue x) R := by
  rw [always_bind] at hf ⊢
  refine hf.mono (fun p hp => ?_)
  unfold estQuantileAtValue
  rw [always_bind]
  refine hp.mono (fun p' hp' => ?_)
  obtain ⟨r, h1, h2⟩ := hR p' hp'
  rw [h1, bind_ret]
  exact h2

theorem value_flushed {h : Prog (ParTDigest K)} {x : Fl K} {P : ParTDigest K → Prop} {R : Fl K × ParTDigest K → Prop} (hf : Always (h >>= flush) P)
    (hR : ∀ p, P p → ∃ r, p.digest.estValueAtQuantile x = .ret r ∧ R (r, p)) : Always (h >>= fun p => p.estValueAtQuantile x) R := by
  rw [always_bind] at hf ⊢
  refine hf.mono (fun p hp => ?_)
  unfold estValueAtQuantile
  rw [always_bind]
  refine hp.mono (fun p' hp' => ?_)
  obtain ⟨r, h1, h2⟩ := hR p' hp'
  rw [h1, bind_ret]
  exact h2

end ParTDigest
end

section
variable [FloatFmt ℝ] [FloatFmt.Exact ℝ]

theorem one_le_length {α : Type} {l : List α} (h : l ≠ []) : (1 : ℝ) ≤ l.length := by
  exact_mod_cast List.length_pos_iff.2 h

/-- C142. A ParTDigest made with `k0`, `k1`, `k2` or `k3` such that no more than the fraction `c` of `n` items may go into one centroid, after any history of
insertions, queries and flushes that supplied `n` items: the estimated quantile of `x` is, as a rank, off by at most
`max 1 (c n / 2) + p c n`, where `p` bounds the passes (`passesOf`). -/
theorem C142_quantile (c : ℝ) (s i : ScaleFn ℝ) (cf : Fl ℝ) (threads capacity : Nat) (ht : threads ≠ 0) (cs : List (ParTDigest.Call ℝ))
    (hk : FracScale c (ParTDigest.itemsOfCalls cs).length s i cf) (ho : ∀ o, .op o ∈ cs → OrdinaryOp o) (hne : ParTDigest.itemsOfCalls cs ≠ [])
    (h64 : ((ParTDigest.itemsOfCalls cs).length : ℝ) < 2 ^ 64) (x : ℝ) :
    Always (ParTDigest.callHistory s i cf threads capacity cs >>= fun p => p.estQuantileAtValue (.fin x)) (fun r =>
      ∃ e : ℝ, r.1 = .fin e ∧ RankWithin (ParTDigest.itemsOfCalls cs) ((ParTDigest.itemsOfCalls cs).length * e) x
        (Max.max 1 (c * (ParTDigest.itemsOfCalls cs).length / 2) + passesOf capacity cs * (c * (ParTDigest.itemsOfCalls cs).length))) := by
  have h1 := one_le_length hne
  have hl := TDigest.fracScale_limit h1 hk
  have hc := TDigest.fracScale_nonneg h1 hk
  have hit := ParTDigest.items_of_calls ho
  refine ParTDigest.quantile_flushed (ParTDigest.callHistory_flushed ((ParTDigest.layered_weight hc hl).and (ParTDigest.layered_near hc hl))
    threads capacity ht cs ho h64 le_rfl) ?_
  rintro p ⟨hp, hw, hn⟩
  obtain ⟨l, a, b, hv, hwt, hw1⟩ := hp.view hne
  rw [TDigest.totalW_units] at hw hn
  obtain ⟨e, h4, h5⟩ := TDigest.Near.query hn (ParTDigest.ones_units hit).good hv (by rw [hwt, TDigest.totalW_units]) (le_max_left _ _)
    (fun e he => TTree.half_frac le_rfl (hw e he)) x
  rw [TDigest.totalW_units, TDigest.unit_eq, TDigest.weightWithin_items hit] at h5
  exact ⟨_, h4, e, rfl, h5⟩

/-- C142 for value queries not right of the middle of the last centroid (see C84). -/
theorem C142_value (c : ℝ) (s i : ScaleFn ℝ) (cf : Fl ℝ) (threads capacity : Nat) (ht : threads ≠ 0) (cs : List (ParTDigest.Call ℝ))
    (hk : FracScale c (ParTDigest.itemsOfCalls cs).length s i cf) (ho : ∀ o, .op o ∈ cs → OrdinaryOp o) (hne : ParTDigest.itemsOfCalls cs ≠ [])
    (h64 : ((ParTDigest.itemsOfCalls cs).length : ℝ) < 2 ^ 64) (q : ℝ) (hq0 : 0 ≤ q) (hq1 : q ≤ 1) :
    Always (ParTDigest.callHistory s i cf threads capacity cs >>= fun p => p.estValueAtQuantile (.fin q)) (fun r =>
      ∀ last : Centroid ℝ, r.2.digest.centroids.getLast? = some last →
      ¬ InLastTail ((ParTDigest.itemsOfCalls cs).length : ℝ) last.weight.toK q →
      ∃ v : ℝ, r.1 = .fin v ∧ RankWithin (ParTDigest.itemsOfCalls cs) ((ParTDigest.itemsOfCalls cs).length * q) v
        (Max.max 1 (c * (ParTDigest.itemsOfCalls cs).length / 2) + passesOf capacity cs * (c * (ParTDigest.itemsOfCalls cs).length))) := by
  have h1 := one_le_length hne
  have hl := TDigest.fracScale_limit h1 hk
  have hc := TDigest.fracScale_nonneg h1 hk
  have hit := ParTDigest.items_of_calls ho
  refine ParTDigest.value_flushed (ParTDigest.callHistory_flushed ((ParTDigest.layered_weight hc hl).and (ParTDigest.layered_near hc hl))
    threads capacity ht cs ho h64 le_rfl) ?_
  rintro p ⟨hp, hw, hn⟩
  obtain ⟨l, a, b, hv, hwt, hw1⟩ := hp.view hne
  obtain ⟨-, r, hr⟩ := hp.queries h64 q
  refine ⟨r, hr, fun last hlast hnt => ?_⟩
  rw [TDigest.totalW_units] at hw hn
  obtain ⟨v, h4, h5⟩ := TDigest.Near.value hn (ParTDigest.ones_units hit).good hv (by rw [hwt, TDigest.totalW_units]) hw1
    (by rw [TDigest.totalW_units]; exact h64) (le_max_left _ _) (fun e he => TTree.half_frac le_rfl (hw e he)) hlast hq0 hq1
    (by rw [TDigest.totalW_units]; exact hnt)
  rw [hr] at h4
  rw [TDigest.totalW_units, TDigest.unit_eq, TDigest.weightWithin_items hit] at h5
  exact ⟨v, by injection h4, h5⟩

/-- The scale functions that keep odds, with the factor `r` of one pass over `W` items and the compression factor `δ`. -/
def Spec.OddsScale (r δ W : ℝ) (s i : ScaleFn ℝ) : Prop :=
  s = k2 ∧ i = invK2 ∧ r = (10 : ℝ) ^ ((4 * Real.logb 10 (W / δ) + 24) / δ) ∨
    s = k3 ∧ i = invK3 ∧ r = (10 : ℝ) ^ ((4 * Real.logb 10 (W / δ) + 21) / δ)

theorem oddsScale_limit {r δ W : ℝ} {s i : ScaleFn ℝ} (h : OddsScale r δ W s i) (h0 : 0 < δ) (h5 : δ ≤ 10 ^ 5) (hW : 1 ≤ W) :
    1 ≤ r ∧ TDigest.LimitRel s i (.fin δ) (r - 1) W := by
  rcases h with ⟨rfl, rfl, hr⟩ | ⟨rfl, rfl, hr⟩
  · rw [hr]
    exact ⟨Real.one_le_rpow (by norm_num) (div_nonneg (norm_pos_of (c := 24) 5 h0 hW (by norm_num) h5).le h0.le), TDigest.k2_limitRel h0 h5 hW⟩
  · rw [hr]
    exact ⟨Real.one_le_rpow (by norm_num) (div_nonneg (norm_pos_of (c := 21) 5 h0 hW (by norm_num) h5).le h0.le), TDigest.k3_limitRel h0 h5 hW⟩

/-- The state a query of a digest with `k2` or `k3` sees. -/
theorem ParTDigest.rel_flushed {r δ : ℝ} {s i : ScaleFn ℝ} (h0 : 0 < δ) (h5 : δ ≤ 10 ^ 5) (threads capacity : Nat) (ht : threads ≠ 0)
    (cs : List (ParTDigest.Call ℝ)) (hk : OddsScale r δ (ParTDigest.itemsOfCalls cs).length s i) (ho : ∀ o, .op o ∈ cs → OrdinaryOp o)
    (hne : ParTDigest.itemsOfCalls cs ≠ []) (h64 : ((ParTDigest.itemsOfCalls cs).length : ℝ) < 2 ^ 64) :
    Always (ParTDigest.callHistory s i (.fin δ) threads capacity cs >>= flush) (fun p => PInv p.digest (itemsOfCalls cs) ∧
      (∀ a ∈ p.digest.centroids, a.weight ≤ .fin (Max.max 1 ((r - 1) / (r + 1) * (ParTDigest.itemsOfCalls cs).length))) ∧
      ∀ x H e : ℝ, TDigest.lw x p.digest.centroids ≤ (ParTDigest.itemsOfCalls cs).length * e + H →
        (ParTDigest.itemsOfCalls cs).length * e ≤ TDigest.uw x p.digest.centroids + H →
        WeightFactor ((ParTDigest.itemsOfCalls cs).map (fun x => ⟨x, .fin 1⟩)) ((ParTDigest.itemsOfCalls cs).length * e) x (r ^ passesOf capacity cs) H) := by
  have h1 := one_le_length hne
  obtain ⟨hr, hl⟩ := oddsScale_limit hk h0 h5 h1
  have hit := ParTDigest.items_of_calls ho
  have hf := TDigest.odds_limitFrac hl hr
  refine (ParTDigest.callHistory_flushed ((layered_weight (div_nonneg (by linarith) (by linarith)) hf).and (layered_rel (by linarith) hl))
    threads capacity ht cs ho h64 le_rfl).mono ?_
  rintro p ⟨hp, hw, hn⟩
  rw [TDigest.totalW_units] at hw
  refine ⟨hp, fun a ha => ?_, fun x H e h3 h4 => ?_⟩
  · have := hw a ha
    obtain ⟨-, w, hw', he'⟩ := hp.good a ha
    rw [he'] at this ⊢
    exact Fl.fin_le_fin.2 this
  · have h6 := hn x
    rw [show 1 + (r - 1) = r by ring] at h6
    rw [← TDigest.unit_eq]
    exact h6.factor (by positivity) (ones_units hit).good (by rw [hp.weight, TDigest.totalW_units]) h3 h4

/-- C143. A ParTDigest with `k2` or `k3` and the compression factor `δ`, after any history that supplied `n` items: the rank of `x` that a quantile query answers
is that of the data up to the factor `r^p`, counted from either end, and half the weight of the centroids next to `x`; `r` is the factor of one pass, `p` bounds
the passes. No centroid is heavier than `n (r-1)/(r+1)` (or 1). -/
theorem C143_quantile (r δ : ℝ) (s i : ScaleFn ℝ) (h0 : 0 < δ) (h5 : δ ≤ 10 ^ 5) (threads capacity : Nat) (ht : threads ≠ 0)
    (cs : List (ParTDigest.Call ℝ)) (hk : OddsScale r δ (ParTDigest.itemsOfCalls cs).length s i) (ho : ∀ o, .op o ∈ cs → OrdinaryOp o)
    (hne : ParTDigest.itemsOfCalls cs ≠ []) (h64 : ((ParTDigest.itemsOfCalls cs).length : ℝ) < 2 ^ 64) (x : ℝ) :
    Always (ParTDigest.callHistory s i (.fin δ) threads capacity cs >>= fun p => p.estQuantileAtValue (.fin x)) (fun res =>
      (∀ a ∈ res.2.digest.centroids, a.weight ≤ .fin (Max.max 1 ((r - 1) / (r + 1) * (ParTDigest.itemsOfCalls cs).length))) ∧
      ∃ e : ℝ, res.1 = .fin e ∧ ∀ H : ℝ, 1 ≤ H → (∀ a, Beside res.2.digest.centroids (.fin x) a → a.weight ≤ .fin (2 * H)) →
        WeightFactor ((ParTDigest.itemsOfCalls cs).map (fun x => ⟨x, .fin 1⟩)) ((ParTDigest.itemsOfCalls cs).length * e) x (r ^ passesOf capacity cs) H) := by
  refine ParTDigest.quantile_flushed (ParTDigest.rel_flushed h0 h5 threads capacity ht cs hk ho hne h64) ?_
  rintro p ⟨hp, hw, hn⟩
  obtain ⟨l, a, b, hv, hwt, hw1⟩ := hp.view hne
  obtain ⟨e, h1, h2⟩ := (hv.queries hwt hw1 h64).1 x
  refine ⟨_, h1, hw, e, rfl, fun H hH hb => ?_⟩
  obtain ⟨h3, h4⟩ := h2 H hH hb
  exact hn x H e h3 h4

/-- C143 for value queries not right of the middle of the last centroid (see C84). -/
theorem C143_value (r δ : ℝ) (s i : ScaleFn ℝ) (h0 : 0 < δ) (h5 : δ ≤ 10 ^ 5) (threads capacity : Nat) (ht : threads ≠ 0)
    (cs : List (ParTDigest.Call ℝ)) (hk : OddsScale r δ (ParTDigest.itemsOfCalls cs).length s i) (ho : ∀ o, .op o ∈ cs → OrdinaryOp o)
    (hne : ParTDigest.itemsOfCalls cs ≠ []) (h64 : ((ParTDigest.itemsOfCalls cs).length : ℝ) < 2 ^ 64) (q : ℝ) (hq0 : 0 ≤ q) (hq1 : q ≤ 1) :
    Always (ParTDigest.callHistory s i (.fin δ) threads capacity cs >>= fun p => p.estValueAtQuantile (.fin q)) (fun res =>
      ∀ last : Centroid ℝ, res.2.digest.centroids.getLast? = some last →
      ¬ InLastTail ((ParTDigest.itemsOfCalls cs).length : ℝ) last.weight.toK q →
      ∃ v : ℝ, res.1 = .fin v ∧ ∀ H : ℝ, 1 ≤ H → (∀ a, Beside res.2.digest.centroids (.fin v) a → a.weight ≤ .fin (2 * H)) →
        WeightFactor ((ParTDigest.itemsOfCalls cs).map (fun x => ⟨x, .fin 1⟩)) ((ParTDigest.itemsOfCalls cs).length * q) v (r ^ passesOf capacity cs) H) := by
  refine ParTDigest.value_flushed (ParTDigest.rel_flushed h0 h5 threads capacity ht cs hk ho hne h64) ?_
  rintro p ⟨hp, hw, hn⟩
  obtain ⟨l, a, b, hv, hwt, hw1⟩ := hp.view hne
  obtain ⟨-, res, hr⟩ := hp.queries h64 q
  refine ⟨res, hr, fun last hlast hnt => ?_⟩
  obtain ⟨v, h1, h2⟩ := (hv.queries hwt hw1 h64).2 last q hlast hq0 hq1 hnt
  rw [hr] at h1
  refine ⟨v, by injection h1, fun H hH hb => ?_⟩
  obtain ⟨h3, h4⟩ := h2 H hH hb
  exact hn v H q h3 h4

/-- The state a query of a digest with `k1` sees. -/
theorem ParTDigest.root_flushed {δ : ℝ} (h0 : 0 < δ) (threads capacity : Nat) (ht : threads ≠ 0)
    (cs : List (ParTDigest.Call ℝ)) (ho : ∀ o, .op o ∈ cs → OrdinaryOp o)
    (hne : ParTDigest.itemsOfCalls cs ≠ []) (h64 : ((ParTDigest.itemsOfCalls cs).length : ℝ) < 2 ^ 64) :
    Always (ParTDigest.callHistory k1 invK1 (.fin δ) threads capacity cs >>= flush) (fun p => PInv p.digest (itemsOfCalls cs) ∧
      (∀ a ∈ p.digest.centroids, a.weight ≤ .fin (Max.max 1 (Real.pi / δ * (ParTDigest.itemsOfCalls cs).length))) ∧
      ∀ x H e : ℝ, TDigest.lw x p.digest.centroids ≤ (ParTDigest.itemsOfCalls cs).length * e + H →
        (ParTDigest.itemsOfCalls cs).length * e ≤ TDigest.uw x p.digest.centroids + H →
        WeightRoot ((ParTDigest.itemsOfCalls cs).map (fun x => ⟨x, .fin 1⟩)) ((ParTDigest.itemsOfCalls cs).length * e) x
          (passesOf capacity cs * (Real.pi / δ * √(ParTDigest.itemsOfCalls cs).length)) H) := by
  have h1 := one_le_length hne
  have hit := ParTDigest.items_of_calls ho
  have hβ : 0 ≤ Real.pi / δ := div_nonneg Real.pi_pos.le h0.le
  refine (ParTDigest.callHistory_flushed ((layered_weight hβ (TDigest.k1_limitFrac h0)).and (layered_root h0))
    threads capacity ht cs ho h64 le_rfl).mono ?_
  rintro p ⟨hp, hw, hn⟩
  rw [TDigest.totalW_units] at hw hn
  refine ⟨hp, fun a ha => ?_, fun x H e h3 h4 => ?_⟩
  · have := hw a ha
    obtain ⟨-, w, hw', he'⟩ := hp.good a ha
    rw [he'] at this ⊢
    exact Fl.fin_le_fin.2 this
  · rw [← TDigest.unit_eq]
    exact (hn x).weightRoot (mul_nonneg (Nat.cast_nonneg _) (mul_nonneg hβ (Real.sqrt_nonneg _))) (ones_units hit).good
      (by rw [hp.weight, TDigest.totalW_units]) h3 h4

/-- C144. A ParTDigest with `k1` and the compression factor `δ`, after any history that supplied `n` items: the rank of `x` that a quantile query answers is that of
the data up to `p (π/δ) √n` in the square root, counted from either end, and half the weight of the centroids next to `x`, where `p` bounds the passes. No
centroid is heavier than `π n / δ` (or 1). -/
theorem C144_quantile (δ : ℝ) (h0 : 0 < δ) (threads capacity : Nat) (ht : threads ≠ 0) (cs : List (ParTDigest.Call ℝ))
    (ho : ∀ o, .op o ∈ cs → OrdinaryOp o) (hne : ParTDigest.itemsOfCalls cs ≠ []) (h64 : ((ParTDigest.itemsOfCalls cs).length : ℝ) < 2 ^ 64) (x : ℝ) :
    Always (ParTDigest.callHistory k1 invK1 (.fin δ) threads capacity cs >>= fun p => p.estQuantileAtValue (.fin x)) (fun res =>
      (∀ a ∈ res.2.digest.centroids, a.weight ≤ .fin (Max.max 1 (Real.pi / δ * (ParTDigest.itemsOfCalls cs).length))) ∧
      ∃ e : ℝ, res.1 = .fin e ∧ ∀ H : ℝ, 1 ≤ H → (∀ a, Beside res.2.digest.centroids (.fin x) a → a.weight ≤ .fin (2 * H)) →
        WeightRoot ((ParTDigest.itemsOfCalls cs).map (fun x => ⟨x, .fin 1⟩)) ((ParTDigest.itemsOfCalls cs).length * e) x
          (passesOf capacity cs * (Real.pi / δ * √(ParTDigest.itemsOfCalls cs).length)) H) := by
  refine ParTDigest.quantile_flushed (ParTDigest.root_flushed h0 threads capacity ht cs ho hne h64) ?_
  rintro p ⟨hp, hw, hn⟩
  obtain ⟨l, a, b, hv, hwt, hw1⟩ := hp.view hne
  obtain ⟨e, h1, h2⟩ := (hv.queries hwt hw1 h64).1 x
  refine ⟨_, h1, hw, e, rfl, fun H hH hb => ?_⟩
  obtain ⟨h3, h4⟩ := h2 H hH hb
  exact hn x H e h3 h4

/-- C144 for value queries not right of the middle of the last centroid (see C84). -/
theorem C144_value (δ : ℝ) (h0 : 0 < δ) (threads capacity : Nat) (ht : threads ≠ 0) (cs : List (ParTDigest.Call ℝ))
    (ho : ∀ o, .op o ∈ cs → OrdinaryOp o) (hne : ParTDigest.itemsOfCalls cs ≠ []) (h64 : ((ParTDigest.itemsOfCalls cs).length : ℝ) < 2 ^ 64)
    (q : ℝ) (hq0 : 0 ≤ q) (hq1 : q ≤ 1) :
    Always (ParTDigest.callHistory k1 invK1 (.fin δ) threads capacity cs >>= fun p => p.estValueAtQuantile (.fin q)) (fun res =>
      ∀ last : Centroid ℝ, res.2.digest.centroids.getLast? = some last →
      ¬ InLastTail ((ParTDigest.itemsOfCalls cs).length : ℝ) last.weight.toK q →
      ∃ v : ℝ, res.1 = .fin v ∧ ∀ H : ℝ, 1 ≤ H → (∀ a, Beside res.2.digest.centroids (.fin v) a → a.weight ≤ .fin (2 * H)) →
        WeightRoot ((ParTDigest.itemsOfCalls cs).map (fun x => ⟨x, .fin 1⟩)) ((ParTDigest.itemsOfCalls cs).length * q) v
          (passesOf capacity cs * (Real.pi / δ * √(ParTDigest.itemsOfCalls cs).length)) H) := by
  refine ParTDigest.value_flushed (ParTDigest.root_flushed h0 threads capacity ht cs ho hne h64) ?_
  rintro p ⟨hp, hw, hn⟩
  obtain ⟨l, a, b, hv, hwt, hw1⟩ := hp.view hne
  obtain ⟨-, res, hr⟩ := hp.queries h64 q
  refine ⟨res, hr, fun last hlast hnt => ?_⟩
  obtain ⟨v, h1, h2⟩ := (hv.queries hwt hw1 h64).2 last q hlast hq0 hq1 hnt
  rw [hr] at h1
  refine ⟨v, by injection h1, fun H hH hb => ?_⟩
  obtain ⟨h3, h4⟩ := h2 H hH hb
  exact hn v H q h3 h4

end

/-- 500 items, a query, 500 more items. -/
noncomputable def shardCalls : List (ParTDigest.Call ℝ) :=
  [.op (.addBuffer (relShard 0)), .op (.quantile (.fin 3)), .op (.addBuffer (relShard 1))]

theorem shardCalls_items : ParTDigest.itemsOfCalls shardCalls = relShard 0 ++ relShard 1 := by
  simp only [shardCalls, ParTDigest.itemsOfCalls, List.flatMap_cons, List.flatMap_nil, Op.items, List.nil_append, List.append_nil]

theorem shardCalls_length : ((ParTDigest.itemsOfCalls shardCalls).length : ℝ) = 1000 := by
  rw [shardCalls_items, relShard_length]; norm_num

theorem shardCalls_passes : passesOf 999 shardCalls = 4 := by
  unfold passesOf
  rw [shardCalls_items, relShard_length]
  rfl

theorem shardCalls_ordinary : let _ := realExact; ∀ o, .op o ∈ shardCalls → OrdinaryOp o := by
  intro i1 o ho
  have hit := relShard_item
  simp only [shardCalls, List.mem_cons, ParTDigest.Call.op.injEq, List.not_mem_nil, or_false] at ho
  rcases ho with rfl | rfl | rfl
  · exact fun x hx => hit x (List.mem_append_left _ hx)
  · exact ⟨_, rfl⟩
  · exact fun x hx => hit x (List.mem_append_right _ hx)

theorem shardCalls_ne : ParTDigest.itemsOfCalls shardCalls ≠ [] := by
  intro h
  have := shardCalls_length
  rw [h] at this
  norm_num at this

/-- Non-vacuity: with `k1` and `δ = 1000`, after the two insertions and the query every quantile query is off by at most 15 of the 1000 items. -/
theorem C142_example : let _ := realExact; let _ := realExact_exact;
    ∀ x : ℝ, Always (ParTDigest.callHistory k1 invK1 (.fin (1000 : ℝ)) 100 999 shardCalls >>= fun p => p.estQuantileAtValue (.fin x)) (fun r =>
      ∃ e : ℝ, r.1 = .fin e ∧ RankWithin (relShard 0 ++ relShard 1) (1000 * e) x 15) := by
  intro i1 i2 x
  have q1 := shardCalls_items
  have q2 := shardCalls_length
  have q3 := shardCalls_passes
  have q4 := shardCalls_ordinary
  have q5 := shardCalls_ne
  generalize shardCalls = cs at q1 q2 q3 q4 q5 ⊢
  have hpi := Real.pi_lt_d2
  have h := C142_quantile (315 / 100000) k1 invK1 (.fin 1000) 100 999 (by norm_num) cs
    ⟨1000, rfl, by norm_num, Or.inr (Or.inl ⟨rfl, rfl, by linarith⟩)⟩ q4 q5 (by rw [q2]; norm_num) x
  rw [q2, q3, q1] at h
  refine Always.mono h ?_
  rintro r ⟨e, h1, h2, h3⟩
  have hb : Max.max 1 ((315 / 100000 : ℝ) * 1000 / 2) + ((4 : ℕ) : ℝ) * (315 / 100000 * 1000) ≤ 15 := by norm_num
  exact ⟨e, h1, by linarith, by linarith⟩

/-- Non-vacuity: with `k2` and `δ = 1000`, ranks are kept up to the factor 13/10 after the same history. -/
theorem C143_example : let _ := realExact; let _ := realExact_exact;
    ∀ x : ℝ, Always (ParTDigest.callHistory k2 invK2 (.fin (1000 : ℝ)) 100 999 shardCalls >>= fun p => p.estQuantileAtValue (.fin x)) (fun res =>
      ∃ e : ℝ, res.1 = .fin e ∧ ∃ F ≤ (13 / 10 : ℝ), ∀ H : ℝ, 1 ≤ H → (∀ a, Beside res.2.digest.centroids (.fin x) a → a.weight ≤ .fin (2 * H)) →
        WeightFactor ((relShard 0 ++ relShard 1).map (fun x => ⟨x, .fin 1⟩)) (1000 * e) x F H) := by
  intro i1 i2 x
  have q1 := shardCalls_items
  have q2 := shardCalls_length
  have q3 := shardCalls_passes
  have q4 := shardCalls_ordinary
  have q5 := shardCalls_ne
  generalize shardCalls = cs at q1 q2 q3 q4 q5 ⊢
  have h := C143_quantile _ 1000 k2 invK2 (by norm_num) (by norm_num) 100 999 (by norm_num) cs (Or.inl ⟨rfl, rfl, rfl⟩)
    q4 q5 (by rw [q2]; norm_num) x
  rw [q2, q3, q1] at h
  have hr : (10 : ℝ) ^ ((4 * Real.logb 10 ((1000 : ℝ) / 1000) + 24) / 1000) ≤ 53 / 50 := by
    rw [div_self (by norm_num), Real.logb_one, mul_zero, zero_add]
    have h : ((10 : ℝ) ^ ((24 : ℝ) / 1000)) ^ (1000 / 24 : ℝ) ≤ (53 / 50 : ℝ) ^ (1000 / 24 : ℝ) := by
      rw [← Real.rpow_mul (by norm_num)]
      norm_num
      calc (10 : ℝ) ≤ (53 / 50 : ℝ) ^ (40 : ℕ) := by norm_num
        _ = (53 / 50 : ℝ) ^ (40 : ℝ) := by norm_num
        _ ≤ _ := Real.rpow_le_rpow_of_exponent_le (by norm_num) (by norm_num)
    exact (Real.rpow_le_rpow_iff (by positivity) (by norm_num) (by norm_num)).1 h
  have hr0 : 0 ≤ (10 : ℝ) ^ ((4 * Real.logb 10 ((1000 : ℝ) / 1000) + 24) / 1000) := by positivity
  refine Always.mono h ?_
  rintro res ⟨-, e, h1, h2⟩
  refine ⟨e, h1, _, ?_, h2⟩
  calc _ ≤ (53 / 50 : ℝ) ^ 4 := pow_le_pow_left₀ hr0 hr 4
    _ ≤ 13 / 10 := by norm_num

/-- Non-vacuity: with `k1` and `δ = 1000`, square roots of ranks are off by at most 2/5 after the same history. -/
theorem C144_example : let _ := realExact; let _ := realExact_exact;
    ∀ x : ℝ, Always (ParTDigest.callHistory k1 invK1 (.fin (1000 : ℝ)) 100 999 shardCalls >>= fun p => p.estQuantileAtValue (.fin x)) (fun res =>
      ∃ e : ℝ, res.1 = .fin e ∧ ∃ F ≤ (2 / 5 : ℝ), ∀ H : ℝ, 1 ≤ H → (∀ a, Beside res.2.digest.centroids (.fin x) a → a.weight ≤ .fin (2 * H)) →
        WeightRoot ((relShard 0 ++ relShard 1).map (fun x => ⟨x, .fin 1⟩)) (1000 * e) x F H) := by
  intro i1 i2 x
  have q1 := shardCalls_items
  have q2 := shardCalls_length
  have q3 := shardCalls_passes
  have q4 := shardCalls_ordinary
  have q5 := shardCalls_ne
  generalize shardCalls = cs at q1 q2 q3 q4 q5 ⊢
  have h := C144_quantile 1000 (by norm_num) 100 999 (by norm_num) cs
    q4 q5 (by rw [q2]; norm_num) x
  rw [q2, q3, q1] at h
  refine Always.mono h ?_
  rintro res ⟨-, e, h1, h2⟩
  refine ⟨e, h1, _, ?_, h2⟩
  have h1 : √(1000 : ℝ) ≤ 317 / 10 := Real.sqrt_le_iff.2 ⟨by norm_num, by norm_num⟩
  have h2 : Real.pi / 1000 ≤ 315 / 100000 := by have := Real.pi_lt_d2; linarith
  have h3 : Real.pi / 1000 * √(1000 : ℝ) ≤ 315 / 100000 * (317 / 10) := mul_le_mul h2 h1 (Real.sqrt_nonneg _) (by norm_num)
  push_cast
  linarith

end AQ

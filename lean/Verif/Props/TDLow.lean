/-
C145, C146: TDigests and ParTDigests with `k2_asym` are accurate towards the lower end (over the real numbers).
-/
import Verif.Proofs.TDLow
import Verif.Props.ParTScale

set_option linter.unusedSectionVars false
set_option linter.unusedVariables false

namespace AQ
open Prog Spec
section
variable {K : Type} [Field K] [LinearOrder K] [IsStrictOrderedRing K] [FloatFmt K]

/-- `r` is the weight below `x`, up to the factor `F` and the summand `H`, counted from the lower end. -/
structure Spec.LowFactor (l : List (Centroid K)) (r x F H : K) : Prop where
  below : weightBelow l (.fin x) ≤ F * (r + H)
  upTo : r ≤ F * weightUpTo l (.fin x) + H

theorem TDigest.LowNear.factor {x F H r : K} {cs sup : List (Centroid K)} (h : TDigest.LowNear x cs sup F) (hF : 0 ≤ F) (hs : ∀ c ∈ sup, Good c)
    (h1 : TDigest.lw x cs ≤ r + H) (h2 : r ≤ TDigest.uw x cs + H) : LowFactor sup r x F H := by
  constructor
  · rw [TDigest.weightBelow_eq_lw x hs]
    exact h.below.trans (mul_le_mul_of_nonneg_left h1 hF)
  · rw [TDigest.weightUpTo_eq_uw x hs]
    linarith [h.upTo]

end

/-- The factor `10^((4·log10(W/2δ) + 24)/2δ)` by which one step of `k2_asym` multiplies the odds of half the quantile. -/
noncomputable def Spec.asymFactor (δ W : ℝ) : ℝ := (10 : ℝ) ^ ((4 * Real.logb 10 (W / (2 * δ)) + 24) / (2 * δ))

section
variable [FloatFmt ℝ] [FloatFmt.Exact ℝ]

/-- What C145 and C146 say about a digest `d` that was given the clusters `sup`, none heavier than `M`, in at most `m` passes over each of them with the
factor `r` per pass: no centroid is heavier than `(r-1)/2` of the weight, ranks are off by at most half of that and the same again for every pass, and counted
from the lower end they are kept up to the factor `r^m` and half the weight of the centroids next to the point. Value queries: not right of the middle of
the last centroid (see C84). -/
def Spec.LowAccurate (sup : List (Centroid ℝ)) (r M : ℝ) (m : Nat) (d : TDigest ℝ) : Prop :=
  (∀ a ∈ d.centroids, a.weight ≤ .fin (Max.max M ((r - 1) / 2 * totalW sup))) ∧
  (∀ x : ℝ, ∃ e : ℝ, d.estQuantileAtValue (.fin x) = .ret (.fin e) ∧
    WeightWithin sup (totalW sup * e) x (Max.max M ((r - 1) / 2 * totalW sup / 2) + m * ((r - 1) / 2 * totalW sup)) ∧
    ∀ H : ℝ, 1 ≤ H → (∀ a, Beside d.centroids (.fin x) a → a.weight ≤ .fin (2 * H)) → LowFactor sup (totalW sup * e) x (r ^ m) H) ∧
  ∀ (last : Centroid ℝ) (q : ℝ), d.centroids.getLast? = some last → 0 ≤ q → q ≤ 1 → ¬ InLastTail (totalW sup) last.weight.toK q →
    ∃ v : ℝ, d.estValueAtQuantile (.fin q) = .ret (.fin v) ∧
      WeightWithin sup (totalW sup * q) v (Max.max M ((r - 1) / 2 * totalW sup / 2) + m * ((r - 1) / 2 * totalW sup)) ∧
      ∀ H : ℝ, 1 ≤ H → (∀ a, Beside d.centroids (.fin v) a → a.weight ≤ .fin (2 * H)) → LowFactor sup (totalW sup * q) v (r ^ m) H

/-- The representation results together. -/
theorem TDigest.lowAccurate {sup : List (Centroid ℝ)} {r M : ℝ} {m : Nat} {d : TDigest ℝ} (hr : 1 ≤ r) (hM : 1 ≤ M) (hs : ∀ c ∈ sup, Good c)
    (hg : ∀ c ∈ d.centroids, Good c) (h64 : totalW sup < 2 ^ 64)
    {l : List (ℝ × ℝ)} {a b : ℝ} (hv : TDigest.View d l a b) (hwt : TDigest.wt l = totalW sup) (hw1 : ∀ p ∈ l, 1 ≤ p.2)
    (hw : ∀ e ∈ d.centroids, e.weight.toK ≤ Max.max M ((r - 1) / 2 * totalW sup))
    (hn : ∀ x, TDigest.Near x d.centroids sup (m * ((r - 1) / 2 * totalW sup))) (hl : ∀ x, TDigest.LowNear x d.centroids sup (r ^ m)) :
    LowAccurate sup r M m d := by
  have hH : ∀ c ∈ d.centroids, c.weight.toK / 2 ≤ Max.max M ((r - 1) / 2 * totalW sup / 2) := fun e he => TTree.half_frac hM (hw e he)
  have h1 : (1 : ℝ) ≤ Max.max M ((r - 1) / 2 * totalW sup / 2) := le_max_of_le_left hM
  obtain ⟨hq, hval⟩ := hv.queries hwt hw1 h64
  refine ⟨fun e he => ?_, fun x => ?_, fun last q hlast h0 h1q ht => ?_⟩
  · have := hw e he
    obtain ⟨-, w, hw', he'⟩ := hg e he
    rw [he'] at this ⊢
    exact Fl.fin_le_fin.2 this
  · obtain ⟨e, e1, e2⟩ := hn |> fun hn => TDigest.Near.query hn hs hv hwt h1 hH x
    obtain ⟨e', e3, e4⟩ := hq x
    rw [e1] at e3
    simp only [Prog.ret.injEq, Fl.fin.injEq] at e3
    subst e3
    refine ⟨e, e1, e2, fun H hH1 hb => ?_⟩
    obtain ⟨h3, h4⟩ := e4 H hH1 hb
    exact (hl x).factor (by positivity) hs h3 h4
  · obtain ⟨v, e1, e2⟩ := TDigest.Near.value hn hs hv hwt hw1 h64 h1 hH hlast h0 h1q ht
    obtain ⟨v', e3, e4⟩ := hval last q hlast h0 h1q ht
    rw [e1] at e3
    simp only [Prog.ret.injEq, Fl.fin.injEq] at e3
    subst e3
    refine ⟨v, e1, e2, fun H hH1 hb => ?_⟩
    obtain ⟨h3, h4⟩ := e4 H hH1 hb
    exact (hl v).factor (by positivity) hs h3 h4

/-- The three representation results for one digest. -/
theorem k2Asym_layered {δ W M : ℝ} (h0 : 0 < δ) (h5 : 2 * δ ≤ 10 ^ 5) (hW : 1 ≤ W) (hM : 1 ≤ M) :
    1 ≤ asymFactor δ W ∧ ParTDigest.Layered k2Asym invK2Asym (.fin δ) W (fun m a sa =>
      (∀ e ∈ a, e.weight.toK ≤ Max.max M ((asymFactor δ W - 1) / 2 * totalW sa)) ∧
      (∀ x, TDigest.Near x a sa (m * ((asymFactor δ W - 1) / 2 * totalW sa))) ∧
      ∀ x, TDigest.LowNear x a sa ((1 + (asymFactor δ W - 1)) ^ m)) := by
  obtain ⟨h1, h2, h3⟩ := TDigest.k2Asym_limitLow h0 h5 hW
  change 1 ≤ asymFactor δ W at h1
  change TDigest.LimitLow _ _ _ (asymFactor δ W - 1) _ at h2
  change TDigest.LimitFrac ((asymFactor δ W - 1) / 2) _ _ _ _ at h3
  have hc : 0 ≤ (asymFactor δ W - 1) / 2 := by linarith
  exact ⟨h1, (ParTDigest.layered_heavy hM hc h3).and ((ParTDigest.layered_near hc h3).and (ParTDigest.layered_low (by linarith) h2))⟩

/-- C145. However digests with `k2_asym` and the compression factor `δ` were filled and merged. -/
theorem C145_k2_asym (δ : ℝ) (h0 : 0 < δ) (h5 : 2 * δ ≤ 10 ^ 5) (t : TTree ℝ) (hk : t.Uniform k2Asym invK2Asym (.fin δ)) (hne : t.supplied ≠ [])
    (hg : ∀ e ∈ t.supplied, Good e ∧ InRange e) (h64 : totalW t.supplied < 2 ^ 64) (M : ℝ) (hM1 : 1 ≤ M)
    (hw : ∀ e ∈ t.supplied, 1 ≤ e.weight.toK ∧ e.weight.toK ≤ M) :
    Always t.run (LowAccurate t.supplied (asymFactor δ (totalW t.supplied)) M t.depth) := by
  have hW := TTree.one_le_totalW hne (fun e he => (hg e he).1) (fun e he => (hw e he).1)
  obtain ⟨hr, L⟩ := k2Asym_layered h0 h5 hW hM1
  refine ((TTree.run_inv t hg).and (TTree.run_layer L M ?_ t hk hg hw le_rfl)).mono ?_
  · intro l ho hlM
    refine ⟨fun e he => le_max_of_le_left (hlM e he), fun x => ?_, fun x => ?_⟩
    · simp [TDigest.Near]
    · rw [pow_zero]; exact TDigest.LowNear.refl _ _
  · rintro d ⟨hi, h1, h2, h3⟩
    obtain ⟨l, a, b, hv, hwt, hcl, -⟩ := hi.view hne
    refine TDigest.lowAccurate hr hM1 (fun e he => (hg e he).1) hi.good h64 hv hwt (hcl _ TDigest.one_le_closed (fun e he => (hw e he).1)) h1 h2 (fun x => ?_)
    have := h3 x
    rwa [show 1 + (asymFactor δ (totalW t.supplied) - 1) = asymFactor δ (totalW t.supplied) by ring] at this

/-- C145 for a history of insertion calls on one digest. -/
theorem C145_history (δ : ℝ) (h0 : 0 < δ) (h5 : 2 * δ ≤ 10 ^ 5) (ops : List (TDigest.TOp ℝ)) (hne : TDigest.supplied ops ≠ [])
    (hg : ∀ e ∈ TDigest.supplied ops, Good e ∧ InRange e) (h64 : totalW (TDigest.supplied ops) < 2 ^ 64) (M : ℝ) (hM1 : 1 ≤ M)
    (hw : ∀ e ∈ TDigest.supplied ops, 1 ≤ e.weight.toK ∧ e.weight.toK ≤ M) :
    Always ((TDigest.new k2Asym invK2Asym (.fin δ)).execOps ops)
      (LowAccurate (TDigest.supplied ops) (asymFactor δ (totalW (TDigest.supplied ops))) M ops.length) := by
  have e1 := TTree.ofOps_supplied ops (.new k2Asym invK2Asym (.fin δ))
  have e2 := TTree.ofOps_depth ops (.new k2Asym invK2Asym (.fin δ))
  have e3 := TTree.run_ofOps ops (.new k2Asym invK2Asym (.fin δ))
  have e4 : (TTree.new k2Asym invK2Asym (.fin δ) : TTree ℝ).supplied = [] := rfl
  have e5 : (TTree.new k2Asym invK2Asym (.fin δ) : TTree ℝ).depth = 0 := rfl
  rw [e4, List.nil_append] at e1
  rw [e5, zero_add] at e2
  have := C145_k2_asym δ h0 h5 (ops.foldl .ins (.new k2Asym invK2Asym (.fin δ))) (TTree.ofOps_uniform ops _ ⟨rfl, rfl, rfl⟩) (by rw [e1]; exact hne)
    (by rw [e1]; exact hg) (by rw [e1]; exact h64) M hM1 (by rw [e1]; exact hw)
  rw [e1, e2, e3] at this
  exact this

/-- C146. A ParTDigest with `k2_asym`, after any history that supplied items: the digest that a query flushes into and asks. -/
theorem C146_state (δ : ℝ) (h0 : 0 < δ) (h5 : 2 * δ ≤ 10 ^ 5) (threads capacity : Nat) (ht : threads ≠ 0) (cs : List (ParTDigest.Call ℝ))
    (ho : ∀ o, .op o ∈ cs → OrdinaryOp o) (hne : ParTDigest.itemsOfCalls cs ≠ []) (h64 : ((ParTDigest.itemsOfCalls cs).length : ℝ) < 2 ^ 64) :
    Always (ParTDigest.callHistory k2Asym invK2Asym (.fin δ) threads capacity cs >>= ParTDigest.flush) (fun p =>
      LowAccurate ((ParTDigest.itemsOfCalls cs).map (fun x => ⟨x, .fin 1⟩)) (asymFactor δ (ParTDigest.itemsOfCalls cs).length) 1 (passesOf capacity cs) p.digest) := by
  have h1 := one_le_length hne
  have hit := ParTDigest.items_of_calls ho
  obtain ⟨hr, L⟩ := k2Asym_layered h0 h5 h1 le_rfl
  refine (ParTDigest.callHistory_flushed L threads capacity ht cs ho h64 le_rfl).mono ?_
  rintro p ⟨hp, hw, hn, hl⟩
  obtain ⟨l, a, b, hv, hwt, hw1⟩ := hp.view hne
  rw [← TDigest.unit_eq]
  refine TDigest.lowAccurate hr le_rfl (ParTDigest.ones_units hit).good hp.good (by rw [TDigest.totalW_units]; exact h64) hv
    (by rw [hwt, TDigest.totalW_units]) hw1 hw hn (fun x => ?_)
  have := hl x
  rwa [show 1 + (asymFactor δ ((ParTDigest.itemsOfCalls cs).length : ℝ) - 1) = asymFactor δ ((ParTDigest.itemsOfCalls cs).length : ℝ) by ring] at this

/-- C146, quantile queries. -/
theorem C146_quantile (δ : ℝ) (h0 : 0 < δ) (h5 : 2 * δ ≤ 10 ^ 5) (threads capacity : Nat) (ht : threads ≠ 0) (cs : List (ParTDigest.Call ℝ))
    (ho : ∀ o, .op o ∈ cs → OrdinaryOp o) (hne : ParTDigest.itemsOfCalls cs ≠ []) (h64 : ((ParTDigest.itemsOfCalls cs).length : ℝ) < 2 ^ 64)
    (r N : ℝ) (hN : N = (ParTDigest.itemsOfCalls cs).length) (hr : r = asymFactor δ N) (x : ℝ) :
    Always (ParTDigest.callHistory k2Asym invK2Asym (.fin δ) threads capacity cs >>= fun p => p.estQuantileAtValue (.fin x)) (fun res =>
      (∀ a ∈ res.2.digest.centroids, a.weight ≤ .fin (Max.max 1 ((r - 1) / 2 * N))) ∧ ∃ e : ℝ, res.1 = .fin e ∧
        RankWithin (ParTDigest.itemsOfCalls cs) (N * e) x (Max.max 1 ((r - 1) / 2 * N / 2) + passesOf capacity cs * ((r - 1) / 2 * N)) ∧
        ∀ H : ℝ, 1 ≤ H → (∀ a, Beside res.2.digest.centroids (.fin x) a → a.weight ≤ .fin (2 * H)) →
          LowFactor ((ParTDigest.itemsOfCalls cs).map (fun x => ⟨x, .fin 1⟩)) (N * e) x (r ^ passesOf capacity cs) H) := by
  subst hr hN
  have hit := ParTDigest.items_of_calls ho
  refine ParTDigest.quantile_flushed (C146_state δ h0 h5 threads capacity ht cs ho hne h64) ?_
  rintro p ⟨h1, h2, -⟩
  rw [TDigest.totalW_items] at h1 h2
  obtain ⟨e, h3, h4, h6⟩ := h2 x
  rw [TDigest.weightWithin_items hit] at h4
  exact ⟨_, h3, h1, e, rfl, h4, h6⟩

/-- C146, value queries. -/
theorem C146_value (δ : ℝ) (h0 : 0 < δ) (h5 : 2 * δ ≤ 10 ^ 5) (threads capacity : Nat) (ht : threads ≠ 0) (cs : List (ParTDigest.Call ℝ))
    (ho : ∀ o, .op o ∈ cs → OrdinaryOp o) (hne : ParTDigest.itemsOfCalls cs ≠ []) (h64 : ((ParTDigest.itemsOfCalls cs).length : ℝ) < 2 ^ 64)
    (r N : ℝ) (hN : N = (ParTDigest.itemsOfCalls cs).length) (hr : r = asymFactor δ N) (q : ℝ) (hq0 : 0 ≤ q) (hq1 : q ≤ 1) :
    Always (ParTDigest.callHistory k2Asym invK2Asym (.fin δ) threads capacity cs >>= fun p => p.estValueAtQuantile (.fin q)) (fun res =>
      ∀ last : Centroid ℝ, res.2.digest.centroids.getLast? = some last → ¬ InLastTail N last.weight.toK q → ∃ v : ℝ, res.1 = .fin v ∧
        RankWithin (ParTDigest.itemsOfCalls cs) (N * q) v (Max.max 1 ((r - 1) / 2 * N / 2) + passesOf capacity cs * ((r - 1) / 2 * N)) ∧
        ∀ H : ℝ, 1 ≤ H → (∀ a, Beside res.2.digest.centroids (.fin v) a → a.weight ≤ .fin (2 * H)) →
          LowFactor ((ParTDigest.itemsOfCalls cs).map (fun x => ⟨x, .fin 1⟩)) (N * q) v (r ^ passesOf capacity cs) H) := by
  subst hr hN
  have hit := ParTDigest.items_of_calls ho
  obtain ⟨-, L⟩ := k2Asym_layered h0 h5 (one_le_length hne) (le_refl (1 : ℝ))
  have hst := (ParTDigest.callHistory_flushed L threads capacity ht cs ho h64 le_rfl).and (C146_state δ h0 h5 threads capacity ht cs ho hne h64).partially
  refine ParTDigest.value_flushed hst ?_
  rintro p ⟨⟨hp, -⟩, h1, -, h2⟩
  obtain ⟨-, res, hr⟩ := hp.queries h64 q
  refine ⟨res, hr, fun last hlast hnt => ?_⟩
  rw [TDigest.totalW_items] at h1 h2
  obtain ⟨v, h3, h4, h6⟩ := h2 last q hlast hq0 hq1 hnt
  rw [TDigest.weightWithin_items hit] at h4
  rw [hr] at h3
  exact ⟨v, by injection h3, h4, h6⟩

end

/-- One step of `k2_asym` with `δ = 500` and 1000 items. -/
theorem asymFactor_le : asymFactor 500 1000 ≤ 53 / 50 := by
  have e : asymFactor 500 1000 = (10 : ℝ) ^ ((24 : ℝ) / 1000) := by
    unfold asymFactor
    rw [show (2 * 500 : ℝ) = 1000 by norm_num, div_self (by norm_num), Real.logb_one, mul_zero, zero_add]
  rw [e]
  have h : ((10 : ℝ) ^ ((24 : ℝ) / 1000)) ^ (1000 / 24 : ℝ) ≤ (53 / 50 : ℝ) ^ (1000 / 24 : ℝ) := by
    rw [← Real.rpow_mul (by norm_num)]
    norm_num
    calc (10 : ℝ) ≤ (53 / 50 : ℝ) ^ (40 : ℕ) := by norm_num
      _ = (53 / 50 : ℝ) ^ (40 : ℝ) := by norm_num
      _ ≤ _ := Real.rpow_le_rpow_of_exponent_le (by norm_num) (by norm_num)
  exact (Real.rpow_le_rpow_iff (by positivity) (by norm_num) (by norm_num)).1 h

/-- Non-vacuity: 1000 items in one batch, `δ = 500`: no centroid is heavier than 30 items, counted from the lower end ranks are kept up to the factor 53/50. -/
theorem C145_example : let _ := realExact; let _ := realExact_exact;
    Always ((TDigest.new k2Asym invK2Asym (.fin (500 : ℝ))).execOps [.addBuffer (relShard 0 ++ relShard 1)]) (fun d =>
      ∃ r ≤ (53 / 50 : ℝ), LowAccurate ((relShard 0 ++ relShard 1).map (fun x => ⟨x, .fin 1⟩)) r 1 1 d) := by
  intro i1 i2
  have hit := relShard_item
  have hlen := relShard_length
  generalize relShard 0 ++ relShard 1 = xs at hit hlen ⊢
  have e : TDigest.supplied [.addBuffer xs] = xs.map (fun x => (⟨x, .fin 1⟩ : Centroid ℝ)) := by simp [TDigest.supplied, TDigest.TOp.supplied]
  have hW : totalW (xs.map (fun x => (⟨x, .fin 1⟩ : Centroid ℝ))) = 1000 := by rw [TDigest.totalW_items, hlen]; norm_num
  have h := C145_history 500 (by norm_num) (by norm_num) [.addBuffer xs] (by
      rw [e]; intro h; rw [h] at hW; simp at hW) (by
      rw [e]
      intro c hc
      obtain ⟨x, hx, rfl⟩ := List.mem_map.1 hc
      exact ⟨⟨(hit x hx).1, 1, zero_lt_one, rfl⟩, (hit x hx).2⟩) (by rw [e, hW]; norm_num) 1 le_rfl (by
      rw [e]
      intro c hc
      obtain ⟨x, hx, rfl⟩ := List.mem_map.1 hc
      exact ⟨le_of_eq rfl, le_of_eq rfl⟩)
  rw [e, hW] at h
  exact Always.mono h (fun d hd => ⟨_, asymFactor_le, hd⟩)

/-- Non-vacuity: two insertions of 500 items with a query in between. -/
theorem C146_example : let _ := realExact; let _ := realExact_exact;
    ∀ x : ℝ, Always (ParTDigest.callHistory k2Asym invK2Asym (.fin (500 : ℝ)) 100 999 shardCalls >>= fun p => p.estQuantileAtValue (.fin x)) (fun res =>
      ∃ e : ℝ, res.1 = .fin e ∧ ∃ F ≤ (13 / 10 : ℝ), ∀ H : ℝ, 1 ≤ H → (∀ a, Beside res.2.digest.centroids (.fin x) a → a.weight ≤ .fin (2 * H)) →
        LowFactor ((relShard 0 ++ relShard 1).map (fun x => ⟨x, .fin 1⟩)) (1000 * e) x F H) := by
  intro i1 i2 x
  have q1 := shardCalls_items
  have q2 := shardCalls_length
  have q3 := shardCalls_passes
  have q4 := shardCalls_ordinary
  have q5 := shardCalls_ne
  generalize shardCalls = cs at q1 q2 q3 q4 q5 ⊢
  have h := C146_quantile 500 (by norm_num) (by norm_num) 100 999 (by norm_num) cs q4 q5 (by rw [q2]; norm_num) _ 1000 q2.symm rfl x
  rw [q3, q1] at h
  refine Always.mono h ?_
  rintro res ⟨-, e, h1, -, h2⟩
  refine ⟨e, h1, _, ?_, h2⟩
  calc _ ≤ (53 / 50 : ℝ) ^ 4 := pow_le_pow_left₀ (by unfold asymFactor; positivity) asymFactor_le 4
    _ ≤ 13 / 10 := by norm_num

end AQ

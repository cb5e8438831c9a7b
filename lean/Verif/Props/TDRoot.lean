/-
C140, C141: with `k1` the error grows like the square root of the distance from the nearer end, after one batch and through any batches and merges
(over the real numbers).
-/
import Verif.Proofs.TDRoot
import Verif.Proofs.TDRootDrift
import Verif.Props.TDFrac
import Mathlib.Analysis.Real.Pi.Bounds

set_option linter.unusedSectionVars false
set_option linter.unusedVariables false

namespace AQ
open Prog Spec

/-- The error bound of C140: `n` items, `D` of them at or beyond the queried point, counted from the nearer end. -/
noncomputable def Spec.rootError (δ n D : ℝ) : ℝ := 3 / 2 * Max.max 1 (2 * (Real.pi / δ) * √(n * D) + 3 * (Real.pi / δ) ^ 2 * n)

section
variable [FloatFmt ℝ] [FloatFmt.Exact ℝ]

/-- C140. After one `add_buffer` call on a new digest with `k1` and the compression factor `δ`: the quantile estimated for any `x` is, as a rank, off by
at most `3/2` times the larger of 1 and `2 (π/δ) √(n D) + 3 (π/δ)² n`, where `D` is the number of items from `x` on to the nearer end; the value found for a
quantile, not right of the middle of the last centroid (see C84), is off by as much. -/
theorem C140_k1 (δ : ℝ) (h0 : 0 < δ) (xs : List (Fl ℝ)) (hne : xs ≠ []) (hg : ∀ x ∈ xs, Item x) (h64 : (xs.length : ℝ) < 2 ^ 64) :
    Always ((TDigest.new k1 invK1 (.fin δ)).addBuffer xs) (fun d =>
      (∀ x : ℝ, ∃ e : ℝ, d.estQuantileAtValue (.fin x) = .ret (.fin e) ∧
        RankWithin xs (xs.length * e) x (rootError δ xs.length (endDistance xs x))) ∧
      ∀ (last : Centroid ℝ) (q : ℝ), d.centroids.getLast? = some last → 0 ≤ q → q ≤ 1 → ¬ InLastTail (xs.length : ℝ) last.weight.toK q →
        ∃ v : ℝ, d.estValueAtQuantile (.fin q) = .ret (.fin v) ∧
          RankWithin xs (xs.length * q) v (rootError δ xs.length (endDistance xs v))) := by
  refine (TDigest.batch_runs k1 invK1 (.fin δ) xs hne hg).mono ?_
  rintro d ⟨runs, a, b, hv, hr, hp, hperm, ha, hb, ham, hbm, hl⟩
  have hlen := TDigest.len_perm hperm
  have hn0 : (0 : ℝ) ≤ xs.length := Nat.cast_nonneg _
  have hτ : 0 ≤ Real.pi / δ * √(xs.length : ℝ) := mul_nonneg (div_nonneg Real.pi_pos.le h0.le) (Real.sqrt_nonneg _)
  have hrel : TDigest.Root (Real.pi / δ * √(xs.length : ℝ)) runs := by
    intro pre r post he h2
    have h3 := hl pre r post he h2
    rw [hlen] at h3
    refine TDigest.k1_run h0 (TDigest.len_nonneg _) (TDigest.one_le_len (hr r (by rw [he]; simp))) (TDigest.len_nonneg _) ?_ h3
    rw [← hlen, he]
    simp only [List.flatten_append, List.flatten_cons, TDigest.len_append]
    ring
  have hdist : ∀ x, endDistance xs x = Min.min (TDigest.les x runs.flatten) (xs.countP (fun y => Fl.le (.fin x) y) : ℝ) := by
    intro x
    unfold endDistance
    rw [TDigest.les_eq hg hperm x]
  have close : ∀ E x, TDigest.Close E x runs → RankWithin xs E x (rootError δ xs.length (endDistance xs x)) := by
    intro E x h
    obtain ⟨h1, h2⟩ := TDigest.Close.root hr hτ hrel h (TDigest.lts_add_ge hg hperm x)
    rw [← hdist] at h1 h2
    have e1 : 3 / 2 * Max.max 1 (2 * (Real.pi / δ * √(xs.length : ℝ)) * √(endDistance xs x) + 3 * (Real.pi / δ * √(xs.length : ℝ)) ^ 2) =
        rootError δ xs.length (endDistance xs x) := by
      unfold rootError
      rw [Real.sqrt_mul hn0, mul_pow, Real.sq_sqrt hn0]
      congr 2
      ring
    rw [e1] at h1 h2
    exact TDigest.rankWithin_of hg hperm h1 h2
  refine ⟨fun x => ?_, fun last q hlast hq0 hq1 ht => ?_⟩
  · obtain ⟨e, h1, h2⟩ := TDigest.batch_quantile hv hr hp ha hb ham hbm x
    rw [hlen] at h2
    exact ⟨e, h1, close _ _ h2⟩
  · have hlst : d.centroids.getLast? = some (TDigest.toC ((runs.map TDigest.mw).getLast hv.ne)) := by
      rw [hv.cs, List.getLast?_map, List.getLast?_eq_some_getLast hv.ne]; rfl
    rw [hlst, Option.some.injEq] at hlast
    subst hlast
    have hW : TDigest.wt (runs.map TDigest.mw) = (xs.length : ℝ) := by rw [TDigest.wt_mw, hlen]
    have hw1 : ∀ p ∈ runs.map TDigest.mw, 1 ≤ p.2 := by
      intro p hp'
      obtain ⟨r, hrm, rfl⟩ := List.mem_map.1 hp'
      exact TDigest.one_le_len (hr r hrm)
    obtain ⟨v, h2, h3⟩ := TDigest.estV_close hv.ne hr hp ha hb ham hbm (t := xs.length * q) (mul_nonneg hn0 hq0)
      (by rw [hlen]; nlinarith) (by
        unfold TDigest.InTail
        rw [hW]
        exact ht)
    refine ⟨v, ?_, close _ _ h3⟩
    rw [TDigest.estValue_eq hv hw1 (by rw [hW]; exact h64), hW, h2]

/-- `r` is the weight below `x`, up to the summand `H` and to `F` in the square root, counted from either end. -/
structure Spec.WeightRoot (l : List (Centroid ℝ)) (r x F H : ℝ) : Prop where
  below : weightBelow l (.fin x) ≤ (√(r + H) + F) ^ 2
  upTo : r ≤ (√(weightUpTo l (.fin x)) + F) ^ 2 + H
  from_ : totalW l - r ≤ (√(weightFrom l (.fin x)) + F) ^ 2 + H
  above : weightAbove l (.fin x) ≤ (√(totalW l - r + H) + F) ^ 2

namespace TDigest

theorem RootLe.sq {A B F : ℝ} (h : RootLe A B F) : A ≤ (√B + F) ^ 2 := by
  by_cases hA : 0 ≤ A
  · rw [← Real.sq_sqrt hA]
    exact pow_le_pow_left₀ (Real.sqrt_nonneg _) h 2
  · exact (le_of_lt (not_le.1 hA)).trans (sq_nonneg _)

theorem RootNear.weightRoot {x F H r : ℝ} {cs sup : List (Centroid ℝ)} (h : RootNear x cs sup F) (hF : 0 ≤ F) (hs : ∀ c ∈ sup, Good c)
    (hW : totalW cs = totalW sup) (h1 : lw x cs ≤ r + H) (h2 : r ≤ uw x cs + H) : WeightRoot sup r x F H := by
  have up : ∀ {A B : ℝ}, A ≤ B → (√A + F) ^ 2 ≤ (√B + F) ^ 2 := by
    intro A B hAB
    have := Real.sqrt_le_sqrt hAB
    exact pow_le_pow_left₀ (by positivity) (by linarith) 2
  constructor
  · rw [weightBelow_eq_lw x hs]
    exact h.below.sq.trans (up h1)
  · rw [weightUpTo_eq_uw x hs]
    linarith [h.upTo.sq]
  · rw [weightFrom_eq x hs]
    have := h.from_.sq
    rw [hW] at this
    linarith
  · rw [weightAbove_eq x hs]
    refine h.above.sq.trans (up ?_)
    rw [hW]
    linarith

end TDigest

/-- C141. However digests with `k1` and compression factors of at least `δ` were filled and merged, with `W` the whole weight: the rank of `x` that a quantile
query answers, as a weight, is that of the data up to `depth * (π/δ) * √W` in the square root, counted from either end, and half the weight of the centroids
next to `x`; the same for the value found for a quantile. No centroid is heavier than `π W / δ` (or a supplied cluster). -/
theorem C141_k1 (δ : ℝ) (h0 : 0 < δ) (t : TTree ℝ) (hk : t.Made (K1AtLeast δ)) (hne : t.supplied ≠ [])
    (hg : ∀ e ∈ t.supplied, Good e ∧ InRange e) (hw : ∀ e ∈ t.supplied, 1 ≤ e.weight.toK) (h64 : totalW t.supplied < 2 ^ 64)
    (M : ℝ) (hM : ∀ e ∈ t.supplied, e.weight.toK ≤ M) :
    Always t.run (fun d =>
      (∀ x : ℝ, ∃ e : ℝ, d.estQuantileAtValue (.fin x) = .ret (.fin e) ∧
        ∀ H : ℝ, 1 ≤ H → (∀ a, Beside d.centroids (.fin x) a → a.weight ≤ .fin (2 * H)) →
          WeightRoot t.supplied (totalW t.supplied * e) x (t.depth * (Real.pi / δ * √(totalW t.supplied))) H) ∧
      (∀ (last : Centroid ℝ) (q : ℝ), d.centroids.getLast? = some last → 0 ≤ q → q ≤ 1 → ¬ InLastTail (totalW t.supplied) last.weight.toK q →
        ∃ v : ℝ, d.estValueAtQuantile (.fin q) = .ret (.fin v) ∧
          ∀ H : ℝ, 1 ≤ H → (∀ a, Beside d.centroids (.fin v) a → a.weight ≤ .fin (2 * H)) →
            WeightRoot t.supplied (totalW t.supplied * q) v (t.depth * (Real.pi / δ * √(totalW t.supplied))) H) ∧
      ∀ a ∈ d.centroids, a.weight ≤ .fin (Max.max M (Real.pi / δ * totalW t.supplied))) := by
  have hβ : 0 ≤ Real.pi / δ := div_nonneg Real.pi_pos.le h0.le
  have hF : (0 : ℝ) ≤ t.depth * (Real.pi / δ * √(totalW t.supplied)) := by positivity
  have hgs : ∀ e ∈ t.supplied, Good e := fun e he => (hg e he).1
  have hl : t.Made (TDigest.LimitFrac (Real.pi / δ) (totalW t.supplied)) := TTree.Made.mono (by
    rintro s i cf ⟨rfl, rfl, δ', rfl, hδ'⟩
    exact (TDigest.k1_limitFrac (lt_of_lt_of_le h0 hδ')).mono (div_le_div_of_nonneg_left Real.pi_pos.le h0 hδ')) t hk
  refine (((TTree.run_inv t hg).and (TTree.run_root h0 t hk hg hw)).and (TTree.run_finv hβ t hl hg hw hM le_rfl)).mono ?_
  rintro d ⟨⟨hi, hd⟩, hdw⟩
  obtain ⟨hq, hv⟩ := hi.queries hne hw h64
  have hW := hi.weight_eq hne
  refine ⟨fun x => ?_, fun last q hlast hq0 hq1 ht => ?_, fun a ha => ?_⟩
  · obtain ⟨e, h1, h2⟩ := hq x
    refine ⟨e, h1, fun H hH hb => ?_⟩
    obtain ⟨h3, h4⟩ := h2 H hH hb
    exact (hd x).weightRoot hF hgs hW h3 h4
  · obtain ⟨v, h1, h2⟩ := hv last q hlast hq0 hq1 ht
    refine ⟨v, h1, fun H hH hb => ?_⟩
    obtain ⟨h3, h4⟩ := h2 H hH hb
    exact (hd v).weightRoot hF hgs hW h3 h4
  · have h1 := hdw.wt a ha
    obtain ⟨-, w, hw0, he⟩ := hi.good a ha
    rw [he] at h1 ⊢
    exact Fl.fin_le_fin.2 h1

/-- C141 for a history of `B` insertion calls on one digest: `B * (π/δ) * √W` in the square root. -/
theorem C141_history_k1 (δ : ℝ) (h0 : 0 < δ) (ops : List (TDigest.TOp ℝ)) (hne : TDigest.supplied ops ≠ [])
    (hg : ∀ e ∈ TDigest.supplied ops, Good e ∧ InRange e) (hw : ∀ e ∈ TDigest.supplied ops, 1 ≤ e.weight.toK)
    (h64 : totalW (TDigest.supplied ops) < 2 ^ 64) :
    Always ((TDigest.new k1 invK1 (.fin δ)).execOps ops) (fun d => ∀ x : ℝ, ∃ e : ℝ, d.estQuantileAtValue (.fin x) = .ret (.fin e) ∧
      ∀ H : ℝ, 1 ≤ H → (∀ a, Beside d.centroids (.fin x) a → a.weight ≤ .fin (2 * H)) →
        WeightRoot (TDigest.supplied ops) (totalW (TDigest.supplied ops) * e) x
          (ops.length * (Real.pi / δ * √(totalW (TDigest.supplied ops)))) H) := by
  have e1 := TTree.ofOps_supplied ops (.new k1 invK1 (.fin δ))
  have e2 := TTree.ofOps_depth ops (.new k1 invK1 (.fin δ))
  have e3 := TTree.run_ofOps ops (.new k1 invK1 (.fin δ))
  have e4 : (TTree.new k1 invK1 (.fin δ) : TTree ℝ).supplied = [] := rfl
  have e5 : (TTree.new k1 invK1 (.fin δ) : TTree ℝ).depth = 0 := rfl
  rw [e4, List.nil_append] at e1
  rw [e5, zero_add] at e2
  have hM : ∀ e ∈ TDigest.supplied ops, e.weight.toK ≤ totalW (TDigest.supplied ops) := by
    intro e he
    have hgs : ∀ e ∈ TDigest.supplied ops, Good e := fun e he => (hg e he).1
    generalize TDigest.supplied ops = l at he hgs
    obtain ⟨s, t, rfl⟩ := List.append_of_mem he
    have n1 := totalW_nonneg (l := s) (fun e he => hgs e (by simp [he]))
    have n2 := totalW_nonneg (l := t) (fun e he => hgs e (by simp [he]))
    rw [totalW_append, totalW_cons]
    linarith
  have := C141_k1 δ h0 (ops.foldl .ins (.new k1 invK1 (.fin δ))) (TTree.ofOps_made ops _ ⟨rfl, rfl, δ, rfl, le_rfl⟩) (by rw [e1]; exact hne)
    (by rw [e1]; exact hg) (by rw [e1]; exact hw) (by rw [e1]; exact h64) _ (by rw [e1]; exact hM)
  rw [e1, e2, e3] at this
  exact Always.mono this (fun d hd => hd.1)

end

theorem relShard_item : let _ := realExact; ∀ x ∈ relShard 0 ++ relShard 1, Item x := by
  intro i1
  have key : ∀ j < 2, ∀ x ∈ relShard j, Item x := by
    intro j hj x hx
    obtain ⟨k, hk, rfl⟩ := List.mem_map.1 hx
    have hk' := List.mem_range.1 hk
    have h1 : ((500 * j + k : ℕ) : ℝ) ≤ 1000 := by exact_mod_cast (by omega : 500 * j + k ≤ 1000)
    have h2 : (1000 : ℝ) ≤ 10 ^ 300 := by
      calc (1000 : ℝ) = 10 ^ 3 := by norm_num
        _ ≤ 10 ^ 300 := pow_le_pow_right₀ (by norm_num) (by norm_num)
    have h3 : (0 : ℝ) ≤ ((500 * j + k : ℕ) : ℝ) := Nat.cast_nonneg _
    refine ⟨⟨_, rfl⟩, ?_, h1.trans h2⟩
    show -((10 : ℝ) ^ 300) ≤ _
    have : (0 : ℝ) ≤ 10 ^ 300 := by positivity
    exact (neg_nonpos.2 this).trans h3
  intro x hx
  rcases List.mem_append.1 hx with hx | hx
  · exact key 0 (by norm_num) x hx
  · exact key 1 (by norm_num) x hx

theorem relShard_length : (relShard 0 ++ relShard 1).length = 1000 := by
  have h : ∀ j, (relShard j).length = 500 := fun j => by rw [relShard, List.length_map, List.length_range]
  rw [List.length_append, h, h]

/-- Non-vacuity: 1000 items in one batch with `δ = 300`. Every quantile query is off by at most 33 items, and by at most 4 among the 10 smallest and the
10 largest items. -/
theorem C140_example : let _ := realExact; let _ := realExact_exact;
    Always ((TDigest.new k1 invK1 (.fin (300 : ℝ))).addBuffer (relShard 0 ++ relShard 1)) (fun d => ∀ x : ℝ, ∃ e : ℝ,
      d.estQuantileAtValue (.fin x) = .ret (.fin e) ∧ RankWithin (relShard 0 ++ relShard 1) (1000 * e) x 33 ∧
      (endDistance (relShard 0 ++ relShard 1) x ≤ 10 → RankWithin (relShard 0 ++ relShard 1) (1000 * e) x 4)) := by
  intro i1 i2
  have hit := relShard_item
  have hlen := relShard_length
  generalize relShard 0 ++ relShard 1 = xs at hit hlen ⊢
  have hl : (xs.length : ℝ) = 1000 := by rw [hlen]; norm_num
  refine Always.mono (C140_k1 300 (by norm_num) xs (by rintro rfl; simp at hlen) hit (by rw [hl]; norm_num)) ?_
  intro d hd x
  obtain ⟨e, h1, h2⟩ := hd.1 x
  have hpi := Real.pi_lt_d2
  have hp0 := Real.pi_pos
  have bound : ∀ D s : ℝ, 0 ≤ s → 1000 * D ≤ s ^ 2 → rootError 300 1000 D ≤ 3 / 2 * Max.max 1 (21 / 1000 * s + 331 / 1000) := by
    intro D s hs hD
    unfold rootError
    have hq : √(1000 * D) ≤ s := Real.sqrt_le_iff.2 ⟨hs, hD⟩
    have hb : Real.pi / 300 ≤ 105 / 10000 := by linarith
    have hb0 : 0 ≤ Real.pi / 300 := by positivity
    have hb2 : (Real.pi / 300) ^ 2 ≤ (105 / 10000) ^ 2 := pow_le_pow_left₀ hb0 hb 2
    have hm : Real.pi / 300 * √(1000 * D) ≤ 105 / 10000 * s := mul_le_mul hb hq (Real.sqrt_nonneg _) (by norm_num)
    have hmax : Max.max 1 (2 * (Real.pi / 300) * √(1000 * D) + 3 * (Real.pi / 300) ^ 2 * 1000) ≤ Max.max 1 (21 / 1000 * s + 331 / 1000) :=
      max_le_max le_rfl (by linarith)
    linarith
  rw [hl] at h2
  have wide : ∀ {a b : ℝ}, a ≤ b → RankWithin xs (1000 * e) x a → RankWithin xs (1000 * e) x b := by
    rintro a b hab ⟨h3, h4⟩
    exact ⟨by linarith, by linarith⟩
  refine ⟨e, h1, wide ?_ h2, fun hD => wide ?_ h2⟩
  · have hD : endDistance xs x ≤ 1000 := by
      refine (min_le_left _ _).trans ?_
      rw [← hl]
      exact Nat.cast_le.2 List.countP_le_length
    refine (bound _ 1000 (by norm_num) (by linarith)).trans ?_
    norm_num
  · refine (bound _ 100 (by norm_num) (by linarith)).trans ?_
    norm_num

/-- Non-vacuity: two shards of 500 items with `k1` and `δ = 300`, merged. Square roots of ranks are off by at most 2/3. -/
theorem C141_example : let _ := realExact; let _ := realExact_exact;
    Always (TTree.shards k1 invK1 (.fin (300 : ℝ)) 1 relShard).run (fun d => ∃ F ≤ (2 / 3 : ℝ), ∀ x : ℝ, ∃ e : ℝ,
      d.estQuantileAtValue (.fin x) = .ret (.fin e) ∧ ∀ H : ℝ, 1 ≤ H → (∀ a, Beside d.centroids (.fin x) a → a.weight ≤ .fin (2 * H)) →
        WeightRoot (TTree.shards k1 invK1 (.fin (300 : ℝ)) 1 relShard).supplied (1000 * e) x F H) := by
  intro i1 i2
  have hsup := TTree.shards_supplied (k1 : ScaleFn ℝ) invK1 (.fin (300 : ℝ)) 1 relShard
  have hdep := TTree.shards_depth (k1 : ScaleFn ℝ) invK1 (.fin (300 : ℝ)) 1 relShard
  have hmade : (TTree.shards k1 invK1 (.fin (300 : ℝ)) 1 relShard).Made (K1AtLeast 300) :=
    TTree.shards_made (P := K1AtLeast 300) ⟨rfl, rfl, 300, rfl, le_rfl⟩ 1 relShard
  generalize TTree.shards k1 invK1 (.fin (300 : ℝ)) 1 relShard = t at hsup hdep hmade ⊢
  have happ : (List.range (2 ^ 1)).flatMap relShard = relShard 0 ++ relShard 1 := by
    rw [show List.range (2 ^ 1) = [0, 1] from rfl, List.flatMap_cons, List.flatMap_cons, List.flatMap_nil, List.append_nil]
  rw [happ] at hsup
  have hW : totalW t.supplied = 1000 := by rw [hsup, TDigest.totalW_items, relShard_length]; norm_num
  have hall : ∀ c ∈ t.supplied, ∃ x, Item x ∧ c = ⟨x, .fin 1⟩ := by
    intro c hc
    rw [hsup] at hc
    obtain ⟨x, hx, rfl⟩ := List.mem_map.1 hc
    exact ⟨x, relShard_item x hx, rfl⟩
  have h := C141_k1 300 (by norm_num) t hmade (by intro h; rw [h] at hW; simp at hW) (by
    intro c hc
    obtain ⟨x, hx, rfl⟩ := hall c hc
    exact ⟨⟨hx.1, 1, zero_lt_one, rfl⟩, hx.2⟩) (by
    intro c hc
    obtain ⟨x, hx, rfl⟩ := hall c hc
    exact le_of_eq rfl) (by rw [hW]; norm_num) 1 (by
    intro c hc
    obtain ⟨x, hx, rfl⟩ := hall c hc
    exact le_of_eq rfl)
  rw [hW, hdep] at h
  refine Always.mono h ?_
  intro d hd
  refine ⟨_, ?_, hd.1⟩
  have h1 : √(1000 : ℝ) ≤ 317 / 10 := Real.sqrt_le_iff.2 ⟨by norm_num, by norm_num⟩
  have h2 : Real.pi / 300 ≤ 105 / 10000 := by have := Real.pi_lt_d2; linarith
  have h3 : Real.pi / 300 * √(1000 : ℝ) ≤ 105 / 10000 * (317 / 10) := mul_le_mul h2 h1 (Real.sqrt_nonneg _) (by norm_num)
  push_cast
  linarith

end AQ

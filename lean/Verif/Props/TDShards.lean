/-
C135: TDigests built separately and merged in any shape.
-/
import Verif.Proofs.TDShards

set_option linter.unusedSectionVars false
set_option linter.unusedVariables false

namespace AQ
open Prog Spec
variable {K : Type} [Field K] [LinearOrder K] [IsStrictOrderedRing K] [FloatFmt K]

/-- C135. Whatever the tree of insertions and merges: nothing panics; the weight and the mass of the digest are those of everything
supplied to any of the digests; the centroids are sorted and lie between `min` and `max`; and these lie between the extremes of
what was supplied. -/
theorem C135_conserved [FloatFmt.Exact K] (t : TTree K) (hg : ∀ c ∈ t.supplied, Good c ∧ InRange c) :
    Always t.run (fun d => d.totalWeight = .fin (totalW t.supplied) ∧ totalMass d.centroids = totalMass t.supplied ∧
      d.centroids.Pairwise (fun a b => a.mean ≤ b.mean) ∧ (∀ c ∈ d.centroids, d.min ≤ c.mean ∧ c.mean ≤ d.max) ∧
      (t.supplied ≠ [] → (∃ c ∈ t.supplied, c.mean ≤ d.min) ∧ (∃ c ∈ t.supplied, d.max ≤ c.mean)) ∧
      (d.centroids = [] ↔ t.supplied = [])) := by
  refine (TTree.run_inv t hg).mono ?_
  rintro d ⟨got, hi, hs⟩
  refine ⟨?_, hi.mass.trans hs.mass, ?_, fun c hc => ⟨hi.min_le c hc, hi.le_max c hc⟩, ?_, hi.empty.trans hs.empty⟩
  · unfold TDigest.totalWeight
    rw [TDigest.weightSum_exact hi.good, hi.weight, hs.weight]
  · refine hi.sorted.imp_of_mem (fun {a b} ha hb hab => ?_)
    obtain ⟨⟨m, hm⟩, -⟩ := hi.good a ha
    obtain ⟨⟨m', hm'⟩, -⟩ := hi.good b hb
    rw [hm, hm'] at hab ⊢
    simpa [Fl.toK] using hab
  · intro hne
    have hgn : got ≠ [] := fun e => hne (hs.empty.1 e)
    have hfin : ∀ c ∈ t.supplied, c.mean = .fin c.mean.toK := by
      intro c hc
      obtain ⟨⟨m, hm⟩, -⟩ := (hg c hc).1
      rw [hm]; rfl
    constructor
    · obtain ⟨c, hc, hmin⟩ := TTree.exists_least t.supplied (fun c => c.mean.toK) hne
      refine ⟨c, hc, ?_⟩
      obtain ⟨⟨e, he, h3⟩, -⟩ := hi.min_eq hgn
      rw [← h3]
      refine hs.lower _ (fun x hx => ?_) e he
      rw [hfin c hc, hfin x hx, Fl.fin_le_fin]
      exact hmin x hx
    · obtain ⟨c, hc, hmax⟩ := TTree.exists_least t.supplied (fun c => -c.mean.toK) hne
      refine ⟨c, hc, ?_⟩
      obtain ⟨⟨e, he, h3⟩, -⟩ := hi.max_eq hgn
      rw [← h3]
      refine hs.upper _ (fun x hx => ?_) e he
      rw [hfin c hc, hfin x hx, Fl.fin_le_fin]
      exact neg_le_neg_iff.1 (hmax x hx)

/-- C135. `count()` of a tree of plain items is the number of items. -/
theorem C135_count [FloorRing K] [FloatFmt.Exact K] (t : TTree K) (hg : ∀ c ∈ t.supplied, Good c ∧ InRange c)
    (hu : ∀ c ∈ t.supplied, c.weight = .fin 1) (hn : t.supplied.length < 2 ^ 64) :
    Always t.run (fun d => d.count = .ret t.supplied.length) := by
  refine (C135_conserved t hg).mono ?_
  rintro d ⟨h, -⟩
  unfold TDigest.count
  rw [h, TTree.totalW_ones hu, TDigest.toUsize_nat hn]
  rfl

/-- C135. Queries on a non-empty merged digest (weights at least 1) do not panic; quantiles are in `[0, 1]`, 0 below and 1 above
everything supplied; the value for quantile 0 is `min`, the one for quantile 1 is `max`. -/
theorem C135_queries [FloatFmt.Exact K] [FloorRing K] (t : TTree K) (hne : t.supplied ≠ []) (hg : ∀ c ∈ t.supplied, Good c ∧ InRange c)
    (hw : ∀ c ∈ t.supplied, 1 ≤ c.weight.toK) (h64 : totalW t.supplied < 2 ^ 64) :
    Always t.run (fun d =>
      (∀ x : K, ∃ p : K, d.estQuantileAtValue (.fin x) = .ret (.fin p) ∧ 0 ≤ p ∧ p ≤ 1 ∧
        ((∀ c ∈ t.supplied, .fin x < c.mean) → p = 0) ∧ ((∀ c ∈ t.supplied, c.mean < .fin x) → p = 1)) ∧
      (∀ q : K, ∃ v, d.estValueAtQuantile (.fin q) = .ret v) ∧
      d.estValueAtQuantile (.fin 0) = .ret d.min ∧ d.estValueAtQuantile (.fin 1) = .ret d.max) := by
  refine ((TTree.run_inv t hg).and (C135_conserved t hg).partially).mono ?_
  rintro d ⟨hi, -, -, -, -, hext, -⟩
  obtain ⟨l, a, b, hv, hwt, hcl, hlo, hhi⟩ := hi.view hne
  have hw1 := hcl _ TDigest.one_le_closed hw
  rw [← hwt] at h64
  obtain ⟨⟨c1, hc1, e1⟩, ⟨c2, hc2, e2⟩⟩ := hext hne
  rw [hv.mn] at e1
  rw [hv.mx] at e2
  refine ⟨fun x => ?_, fun q => ⟨_, TDigest.estValue_eq hv hw1 h64 q⟩, ?_, ?_⟩
  · obtain ⟨p, h1, h2, h3, h4, h5⟩ := TDigest.estQuantile_total hv hw1 x
    refine ⟨p, h1, h2, h3, fun h => h4 ?_, fun h => h5 ?_⟩
    · simpa using lt_of_lt_of_le (h c1 hc1) e1
    · simpa using lt_of_le_of_lt e2 (h c2 hc2)
  · rw [TDigest.estValue_eq hv hw1 h64, mul_zero, hv.mn]
    unfold TDigest.estV
    rw [if_pos zero_lt_one]
  · have h1 := hw1 _ (List.head_mem hv.ne)
    have h2 := TDigest.half_ends_le (fun p hp => zero_lt_one.trans_le (hw1 p hp)) hv.ne
    have h3 := hw1 _ (List.getLast_mem hv.ne)
    have h4 : 1 ≤ TDigest.wt l := by linarith
    rw [TDigest.estValue_eq hv hw1 h64, mul_one, hv.mx]
    unfold TDigest.estV
    rw [if_neg (by linarith), if_neg (by rintro ⟨h5, h6⟩; linarith), if_pos (by linarith)]

/-- C135. With `k0` and compression factors of at least `δ` in all digests: the quantile estimated for any `x` is, as a weight, within
`max M (W / δ) + 2 / δ * passes` of the weight supplied below and up to `x`, where `W` is the whole weight, `M ≥ 1` bounds the weight of a
supplied cluster, and `passes` adds up, over all insertion calls and merges, the weight represented after it. -/
theorem C135_error_k0 [FloatFmt.Exact K] (δ M : K) (hδ : 0 < δ) (hM1 : 1 ≤ M) (t : TTree K) (hk : t.AllK0 δ) (hne : t.supplied ≠ [])
    (hg : ∀ c ∈ t.supplied, Good c ∧ InRange c) (hM : ∀ c ∈ t.supplied, c.weight.toK ≤ M) :
    Always t.run (fun d => ∀ x : K, ∃ e : K, d.estQuantileAtValue (.fin x) = .ret (.fin e) ∧
      WeightWithin t.supplied (totalW t.supplied * e) x (Max.max M (totalW t.supplied / δ) + 2 / δ * t.passes)) := by
  refine ((TTree.run_inv t hg).and (TTree.run_kinv hδ t hk hg hM)).mono ?_
  rintro d ⟨hi, hd⟩ x
  obtain ⟨l, a, b, hv, hwt, -⟩ := hi.view hne
  exact TDigest.Near.query hd.near (fun c hc => (hg c hc).1) hv hwt (le_max_of_le_left hM1) (fun c hc => TTree.half_le hM1 (hd.wt c hc)) x

/-- C135 for value queries, not right of the middle of the last centroid (see C84). -/
theorem C135_value_error_k0 [FloorRing K] [FloatFmt.Exact K] (δ M : K) (hδ : 0 < δ) (hM1 : 1 ≤ M) (t : TTree K) (hk : t.AllK0 δ)
    (hne : t.supplied ≠ []) (hg : ∀ c ∈ t.supplied, Good c ∧ InRange c) (hM : ∀ c ∈ t.supplied, c.weight.toK ≤ M)
    (hw : ∀ c ∈ t.supplied, 1 ≤ c.weight.toK) (h64 : totalW t.supplied < 2 ^ 64) :
    Always t.run (fun d => ∀ (last : Centroid K) (q : K), d.centroids.getLast? = some last → 0 ≤ q → q ≤ 1 →
      ¬ InLastTail (totalW t.supplied) last.weight.toK q →
      ∃ v : K, d.estValueAtQuantile (.fin q) = .ret (.fin v) ∧
        WeightWithin t.supplied (totalW t.supplied * q) v (Max.max M (totalW t.supplied / δ) + 2 / δ * t.passes)) := by
  refine ((TTree.run_inv t hg).and (TTree.run_kinv hδ t hk hg hM)).mono ?_
  rintro d ⟨hi, hd⟩ last q hlast hq0 hq1 ht
  obtain ⟨l, a, b, hv, hwt, hcl, -⟩ := hi.view hne
  exact TDigest.Near.value hd.near (fun c hc => (hg c hc).1) hv hwt (hcl _ TDigest.one_le_closed hw) h64 (le_max_of_le_left hM1)
    (fun c hc => TTree.half_le hM1 (hd.wt c hc)) hlast hq0 hq1 ht

/-- C135, many shards: `2 ^ h` digests with `k0` and the same compression factor, each given one batch of any size, merged in pairs. The error
grows with the logarithm of the number of shards: it is at most `max 1 (n / δ) + (h + 1) * 2 n / δ` items. -/
theorem C135_shards [FloatFmt.Exact K] (δ : K) (hδ : 0 < δ) (h : Nat) (f : Nat → List (Fl K))
    (hne : (List.range (2 ^ h)).flatMap f ≠ []) (hg : ∀ x ∈ (List.range (2 ^ h)).flatMap f, Item x) :
    Always (TTree.shards k0 invK0 (.fin δ) h f).run (fun d => ∀ x : K, ∃ e : K, d.estQuantileAtValue (.fin x) = .ret (.fin e) ∧
      RankWithin ((List.range (2 ^ h)).flatMap f) (((List.range (2 ^ h)).flatMap f).length * e) x
        (Max.max 1 (((List.range (2 ^ h)).flatMap f).length / δ) + (h + 1) * (2 * ((List.range (2 ^ h)).flatMap f).length / δ))) := by
  have hs := TTree.shards_supplied (k0 : ScaleFn K) invK0 (.fin δ) h f
  have hp := TTree.shards_passes (k0 : ScaleFn K) invK0 (.fin δ) h f
  have hgd : ∀ c ∈ (TTree.shards k0 invK0 (.fin δ) h f).supplied, Good c ∧ InRange c := by
    intro c hc
    rw [hs] at hc
    obtain ⟨x, hx, rfl⟩ := List.mem_map.1 hc
    exact ⟨⟨(hg x hx).1, 1, zero_lt_one, rfl⟩, (hg x hx).2⟩
  refine (C135_error_k0 δ 1 hδ le_rfl _ (TTree.shards_allK0 δ h f) (by rw [hs]; simpa using hne) hgd (by
    intro c hc
    rw [hs] at hc
    obtain ⟨x, hx, rfl⟩ := List.mem_map.1 hc
    exact le_of_eq rfl)).mono ?_
  intro d hd x
  obtain ⟨e, h1, h2⟩ := hd x
  refine ⟨e, h1, ?_⟩
  rw [hs, hp, TDigest.totalW_items, TDigest.weightWithin_items hg] at h2
  have e1 : (2 : K) / δ * ((h + 1) * (((List.range (2 ^ h)).flatMap f).length : K)) =
      (h + 1) * (2 * (((List.range (2 ^ h)).flatMap f).length : K) / δ) := by ring
  rw [e1] at h2
  exact h2

/-- C135. With `k0` at the root: fewer than `δ + 1` centroids, whatever was merged into it. -/
theorem C135_size_k0 [FloatFmt.Exact K] (δ : K) (hδ : 0 < δ) (t : TTree K) (hr : t.root = (k0, invK0, .fin δ))
    (hg : ∀ c ∈ t.supplied, Good c ∧ InRange c) (hw : ∀ c ∈ t.supplied, 1 ≤ c.weight.toK) :
    Always t.run (fun d => (d.centroids.length : K) < δ + 1) := by
  refine TTree.run_size (L := fun n => (n : K) < δ + 1) t hg hw (by push_cast; linarith) ?_
  rw [hr]
  intro l hl hh
  exact TDigest.k0_size (TDigest.new k0 invK0 (.fin δ)) δ hδ rfl rfl rfl l (by simp [TDigest.new]) (fun c hc => (hh c hc).good)

section real
variable [FloatFmt ℝ] [FloatFmt.Exact ℝ]

/-- C135. With `k2`, `k2_asym` or `k3` at the root: at most `δ + 3` centroids, whatever was merged into it. -/
theorem C135_size_k2_k3 (δ : ℝ) (h0 : 0 < δ) (t : TTree ℝ)
    (hr : t.root = (k2, invK2, .fin δ) ∧ δ ≤ 10 ^ 6 ∨ t.root = (k2Asym, invK2Asym, .fin δ) ∧ 4 * δ ≤ 10 ^ 6 ∨
      t.root = (k3, invK3, .fin δ) ∧ δ ≤ 10 ^ 5)
    (hg : ∀ c ∈ t.supplied, Good c ∧ InRange c) (hw : ∀ c ∈ t.supplied, 1 ≤ c.weight.toK) :
    Always t.run (fun d => (d.centroids.length : ℝ) ≤ δ + 3) := by
  have hs : ∀ l : List (Centroid ℝ), (∀ c ∈ l, Heavy c) → ∀ c ∈ TDigest.supplied [.addCentroids l], Heavy c := by
    intro l hh c hc
    exact hh c (by simpa [TDigest.supplied, TDigest.TOp.supplied] using hc)
  refine TTree.run_size (L := fun n => (n : ℝ) ≤ δ + 3) t hg hw (by push_cast; linarith) ?_
  rcases hr with ⟨hr, h6⟩ | ⟨hr, h6⟩ | ⟨hr, h6⟩ <;> rw [hr] <;> intro l hl hh
  · exact TDigest.size_of_exec (L := fun n => (n : ℝ) ≤ δ + 3) l (C77_k2_size δ h0 h6 [.addCentroids l] (hs l hh))
  · exact TDigest.size_of_exec (L := fun n => (n : ℝ) ≤ δ + 3) l (C77_k2_asym_size δ h0 h6 [.addCentroids l] (hs l hh))
  · exact TDigest.size_of_exec (L := fun n => (n : ℝ) ≤ δ + 3) l (C78_k3_size δ h0 h6 [.addCentroids l] (hs l hh))

end real

/-- C135 with rounding: with counts up to `N` and limits `A`, `B` whose multiples are exact, nothing panics, the weight is exact, all
centroids, `min` and `max` stay within the limits, quantile queries answer in the unit interval and value queries return. -/
theorem C135_round [FloorRing K] [FloatFmt.Mono K] {N : Nat} {A B : K} (R : Roomy N A B) (h64 : N < 2 ^ 64) (t : TTree K)
    (hs : ∀ c ∈ t.supplied, Within A B c) (hN : totalW t.supplied ≤ N) :
    Always t.run (fun d => d.totalWeight = .fin (totalW t.supplied) ∧ (∀ c ∈ d.centroids, Within A B c) ∧
      (d.centroids = [] ↔ t.supplied = []) ∧
      (t.supplied ≠ [] → .fin A ≤ d.min ∧ d.min ≤ d.max ∧ d.max ≤ .fin B ∧ ∀ v : Fl K, v ≠ .nan →
        Always (d.estQuantileAtValue v) (fun r => ∃ p : K, r = .fin p ∧ 0 ≤ p ∧ p ≤ 1) ∧
        Always (d.estValueAtQuantile v) (fun _ => True))) := by
  refine (TTree.run_rinv R t hs hN).mono ?_
  rintro d ⟨got, h, hg, hW, hE⟩
  have hWd : totalW d.centroids ≤ N := by rw [h.weight, hW]; exact hN
  refine ⟨?_, h.within, h.empty.trans hE, fun hne => ?_⟩
  · rw [← hW, ← h.weight]
    exact TDigest.weightSum_roomy R h.within hWd
  have hgn : got ≠ [] := fun e => hne (hE.1 e)
  have hcn : d.centroids ≠ [] := fun e => hgn (h.empty.1 e)
  obtain ⟨⟨x, hx, hx1, -⟩, ⟨y, hy, hy1, -⟩⟩ := h.range
  refine ⟨by rw [hx, Fl.fin_le_fin]; exact (hx1 hgn).1, ?_, by rw [hy, Fl.fin_le_fin]; exact (hy1 hgn).2, fun v hv => ⟨?_, ?_⟩⟩
  · obtain ⟨c, hc⟩ := List.exists_mem_of_ne_nil _ hgn
    exact (h.limits c hc).1.trans (h.limits c hc).2
  · exact TDigest.quantile_roomy R h.within hcn hWd hx hy (hx1 hgn) (hy1 hgn) hv
  · exact TDigest.value_roomy R h.within hcn hWd h64 hv

section doubles
attribute [local instance] f64Fmt f64_mono

/-- C135 for `f64`: up to `2^52` doubles of magnitude at most `2^970`, in any tree of insertions and merges, any scale functions. -/
theorem C135_f64 (t : TTree ℚ) (hs : ∀ c ∈ t.supplied, ∃ x : ℚ, c = ⟨.fin x, .fin 1⟩ ∧ |x| ≤ 2 ^ 970) (hN : t.supplied.length ≤ 2 ^ 52) :
    Always t.run (fun d => d.count = .ret t.supplied.length ∧ (∀ c ∈ d.centroids, ∃ m : ℚ, c.mean = .fin m ∧ |m| ≤ 2 ^ 970) ∧
      (t.supplied ≠ [] → ∀ v : Fl ℚ, v ≠ .nan →
        Always (d.estQuantileAtValue v) (fun r => ∃ p : ℚ, r = .fin p ∧ 0 ≤ p ∧ p ≤ 1) ∧
        Always (d.estValueAtQuantile v) (fun _ => True))) := by
  have hw := TDigest.within_of_unit hs
  refine (C135_round (f64_roomy (e := 970) (by norm_num) le_rfl) (by norm_num) t hw.1 (by rw [hw.2]; exact_mod_cast hN)).mono ?_
  rintro d ⟨e1, e2, -, e3⟩
  refine ⟨?_, ?_, fun hne => (e3 hne).2.2.2⟩
  · unfold TDigest.count
    rw [e1, hw.2, TDigest.toUsize_nat (by omega)]
    rfl
  · intro c hc
    obtain ⟨m, w, hm, hA, hB, -⟩ := e2 c hc
    exact ⟨m, hm, abs_le.2 ⟨by exact_mod_cast hA, by exact_mod_cast hB⟩⟩

end doubles

section examples
attribute [local instance] ratExact ratExact_exact

/-- Merging loses the extremes: after two items 0 and 2 were put into a digest with `k0` and compression factor 1, and this merged into a new
one, the smallest value is said to be 1, and the item 0 to have no items up to it. -/
def lostTree : TTree ℚ := .merge (.new k0 invK0 (.fin 1)) (.ins (.new k0 invK0 (.fin 1)) (.addBuffer [.fin 0, .fin 2]))

theorem C135_extremes_lost : lostTree.supplied = [⟨.fin 0, .fin 1⟩, ⟨.fin 2, .fin 1⟩] ∧
    Always lostTree.run (fun d => d.min = .fin 1 ∧ d.max = .fin 1 ∧ CanReturn (d.estValueAtQuantile (.fin 0)) (.fin 1) ∧
      CanReturn (d.estQuantileAtValue (.fin (1 / 2))) (.fin 0)) := by
  refine ⟨rfl, by decide +kernel⟩

/-- Four shards of ten items each. -/
def shardData (j : Nat) : List (Fl ℚ) := (List.range 10).map (fun i : ℕ => .fin ((4 * i + j : ℕ) : ℚ))

/-- Non-vacuity: the hypotheses hold, centroids are merged, and the bound is less than the number of items. -/
theorem C135_example : (List.range (2 ^ 2)).flatMap shardData ≠ [] ∧ (∀ x ∈ (List.range (2 ^ 2)).flatMap shardData, Item x) ∧
    (TTree.shards k0 invK0 (.fin 20) 2 shardData).AllK0 (20 : ℚ) ∧ (TTree.shards k0 invK0 (.fin 20) 2 shardData).root = (k0, invK0, .fin (20 : ℚ)) ∧
    Always (TTree.shards k0 invK0 (.fin 20) 2 shardData : TTree ℚ).run (fun d => d.centroids.length < 21 ∧ d.totalWeight = .fin 40) ∧
    Max.max 1 ((((List.range (2 ^ 2)).flatMap shardData).length : ℚ) / 20) +
      (2 + 1) * (2 * (((List.range (2 ^ 2)).flatMap shardData).length : ℚ) / 20) = 14 := by
  refine ⟨by decide +kernel, ?_, TTree.shards_allK0 _ _ _, rfl, by decide +kernel, by decide +kernel⟩
  have h : ∀ x ∈ (List.range (2 ^ 2)).flatMap shardData, x = .fin x.toK ∧ Fl.minValue ≤ x ∧ x ≤ Fl.maxValue := by decide +kernel
  exact fun x hx => ⟨⟨_, (h x hx).1⟩, (h x hx).2⟩

end examples
end AQ

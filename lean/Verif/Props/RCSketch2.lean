/-
Properties C18–C24, C64–C66 (RCSketch2).

`sec` is an arbitrary function giving the truncated section size after `j` divisions; `SecOK sec` says sizes stay at
least 1 and a doubling of the number of sections does not shrink a level's capacity. `realSec k` (exact arithmetic)
satisfies it for `k ≥ 4` (`realSec_ok`).
-/
import Verif.Proofs.RC2Levels
import Verif.Props.RCSketch

set_option linter.unusedSectionVars false
set_option linter.unusedVariables false

namespace AQ
open Spec Prog RCSketch2
variable {K : Type} [Field K] [LinearOrder K] [IsStrictOrderedRing K] [FloatFmt K]

/-- C18. After any history that returns, `count` is the number of supplied items and `sketch_size` the number of
stored items, for any section sizes. -/
theorem C18_count_and_size_exact (sec : Nat → Nat) (k : Nat) (ops : List (InsOp K)) :
    Partially (RCSketch2.runHist sec k ops) (fun s => s.count = (insItems ops).length ∧
      s.sketchSize = (s.buffers.map List.length).sum) := by
  refine (hist2_partially (I := fun _ _ => True) (ok := fun _ _ => True) ⟨fun _ _ _ _ => trivial,
    fun _ _ _ _ _ _ _ => (partially_true _)⟩ k ops (fun _ _ => trivial) trivial).mono ?_
  rintro s ⟨hb, -⟩
  refine ⟨hb.hn, ?_⟩
  rw [hb.size]
  simp [lens, RCSketch2.buffers, Function.comp_def]

/-- C19. Insertion calls never panic (and terminate): fewer than 2^32 non-NaN items in any mix of default and fast
compaction, all coins. -/
theorem C19_insertions_never_panic (sec : Nat → Nat) (hs : SecOK sec) (k : Nat) (ops : List (InsOp K))
    (hm : ∀ o ∈ ops, o.method = .default) (hlen : (insItems ops).length < 2 ^ 32) (hnan : ∀ y ∈ insItems ops, y ≠ .nan) :
    Always (RCSketch2.runHist sec k ops) (fun s => s.count = (insItems ops).length) :=
  ((hist2_always hs (G := (· ≠ .nan)) k ops (fun o ho => by rw [hm o ho]; exact RCSketch.goodFor_default (fun _ h => h))
    hlen hnan).and (C18_count_and_size_exact sec k ops)).mono (fun s h => h.2.1)

/-- C19 with `AverageNeighbour` allowed: binary floating point, items whose double does not overflow. -/
theorem C19_insertions_never_panic_average [FloatFmt.Binary K] (sec : Nat → Nat) (hs : SecOK sec) (k : Nat) (ops : List (InsOp K))
    (hlen : (insItems ops).length < 2 ^ 32) (hfin : ∀ y ∈ insItems ops, y.CanDouble) :
    Always (RCSketch2.runHist sec k ops) (fun s => s.count = (insItems ops).length) :=
  ((hist2_always hs (G := Fl.CanDouble) k ops (fun o _ => RCSketch.goodFor_fin o.method) hlen hfin).and
    (C18_count_and_size_exact sec k ops)).mono (fun s h => h.2.1)

/-- C19 for the section sizes of exact arithmetic: every `k ≥ 4`. -/
theorem C19_insertions_never_panic_real (k : Nat) (hk : 4 ≤ k) (ops : List (InsOp K))
    (hm : ∀ o ∈ ops, o.method = .default) (hlen : (insItems ops).length < 2 ^ 32) (hnan : ∀ y ∈ insItems ops, y ≠ .nan) :
    Always (RCSketch2.runHist (realSec k) k ops) (fun s => s.count = (insItems ops).length) :=
  C19_insertions_never_panic _ (realSec_ok hk) k ops hm hlen hnan

theorem partially_forall {α ι : Type} {p : Prog α} {Q : ι → α → Prop} (h : ∀ i, Partially p (Q i)) :
    Partially p (fun a => ∀ i, Q i a) := by
  induction p with
  | ret a => exact h
  | fail e => trivial
  | flip k ih => exact fun b => ih b (fun i => h i b)

theorem buffers_mem {s : RCSketch2 K} {G : Fl K → Prop} (h : ∀ l ∈ s.levels, ∀ y ∈ l.buf, G y) : ∀ v ∈ s.buffers.flatten, G v := by
  intro v hv
  obtain ⟨b, hb, hv⟩ := List.mem_flatten.1 hv
  obtain ⟨l, hl, rfl⟩ := List.mem_map.1 hb
  exact h l hl v hv

/-- C19, rank queries: with sections of at least two items `interpolate_rank` and `est_quantile_at_value` never panic. -/
theorem C19_rank_queries_never_panic (sec : Nat → Nat) (hs : SecOK sec) (h2 : ∀ j, j ≤ 4 → 2 ≤ sec j) (k : Nat)
    (ops : List (InsOp K)) (hlen : (insItems ops).length < 2 ^ 32) :
    Partially (RCSketch2.runHist sec k ops) (fun s =>
      (∀ x, Always (s.interpolateRank x) (fun _ => True)) ∧ (∀ x, Always (s.estQuantileAtValue x) (fun _ => True))) := by
  refine (levels64 hs h2 k ops hlen).mono ?_
  intro s hL
  have hbl : s.buffers.length = s.levels.length := by simp [RCSketch2.buffers]
  refine ⟨fun x => ?_, fun x => ?_⟩
  · obtain ⟨r, hr⟩ := rankFrom_returns x s.buffers 0 0 (by omega)
    unfold RCSketch2.interpolateRank
    rw [hr]; trivial
  · obtain ⟨r, hr⟩ := rankFrom_returns x s.buffers 0 0 (by omega)
    unfold RCSketch2.estQuantileAtValue estQuantileFrom
    rw [hr]; trivial

/-- C19, value queries: with `k ≥ 32` (sections never below 8) `est_value_at_quantile` never panics on a non-empty sketch
and returns a supplied item for every `q`, NaN included. -/
theorem C19_value_queries_never_panic (sec : Nat → Nat) (hs : SecOK sec) (h2 : ∀ j, j ≤ 4 → 8 ≤ sec j) (h0 : 32 ≤ sec 0) (k : Nat)
    (ops : List (InsOp K))
    (hm : ∀ o ∈ ops, o.method = .default) (hlen : (insItems ops).length < 2 ^ 32) (hnan : ∀ y ∈ insItems ops, y ≠ .nan)
    (hne : insItems ops ≠ []) :
    Always (RCSketch2.runHist sec k ops) (fun s => ∀ q, Always (s.estValueAtQuantile q) (fun v => v ∈ insItems ops)) := by
  have hhead := hist2_partially (head_hist (K := K) hs) k ops (fun _ _ => trivial) ⟨by simp [lvlOK_new], by simp, by simp⟩
  have hmem := hist2_partially (sec := sec) (pres_hist (G := fun y => y ∈ insItems ops)) k ops
    (fun o ho => by rw [hm o ho]; exact RCSketch.pres_default _) (by simp [newLevel])
  refine ((C19_insertions_never_panic sec hs k ops hm hlen hnan).and ((levels31 hs h2 h0 k ops hlen).and (hhead.and hmem))).mono ?_
  rintro s ⟨-, hL, ⟨-, -, -, hh⟩, -, hmem⟩ q
  have hbl : s.buffers.length = s.levels.length := by simp [RCSketch2.buffers]
  have hin := buffers_mem (hmem (fun y hy => hy))
  obtain ⟨l0, ls', he, h0⟩ := hh hne
  have hsne : s.buffers.flatten ≠ [] := by simp [RCSketch2.buffers, he, h0]
  obtain ⟨v, hv⟩ := estValue_returns s.buffers s.count q (by omega) (fun v hv => hnan v (hin v hv)) hsne
  unfold RCSketch2.estValueAtQuantile
  have := estValue_mem s.buffers s.count q
  rw [hv] at this ⊢
  exact hin v this

/-- C20. After every insertion call the number of stored items is below the sketch capacity. -/
theorem C20_stored_below_capacity (sec : Nat → Nat) (hs : SecOK sec) (k : Nat) (ops : List (InsOp K)) :
    Partially (RCSketch2.runHist sec k ops) (fun s => (s.buffers.map List.length).sum < s.capacity sec) := by
  refine (hist2_core hs k ops).mono ?_
  rintro s ⟨-, h⟩
  have e : capacity sec s = caps sec s.levels := rfl
  rw [e]
  simpa [lens, RCSketch2.buffers, Function.comp_def] using h

theorem err_hist (sec : Nat → Nat) {A : Fl K → Prop} : Hist2 (K := K) sec
    (fun _ m => ∀ x, ∀ u out : List (Fl K), u.Pairwise (· ≤ ·) → (∀ y ∈ u, A y) → IsOut m u out →
      (∀ y ∈ out, A y) ∧ rank u x ≤ 2 * rank out x + 1 ∧ 2 * rank out x ≤ rank u x + 1)
    (fun l ls => ls ≠ [] ∧ ((∀ y ∈ l, A y) → (∀ lv ∈ ls, ∀ y ∈ lv.buf, A y) ∧
      ∀ x, Wt (fun b => rank b x) ls ≤ rank l x + comps ls ∧ rank l x ≤ Wt (fun b => rank b x) ls + comps ls)) where
  push l ls xs h := by
    refine ⟨push_ne h.1 xs, fun hA => ?_⟩
    obtain ⟨h1, h2⟩ := h.2 (fun y hy => hA y (by simp [hy]))
    refine ⟨push_good h1 (fun y hy => hA y (by simp [hy])), fun x => ?_⟩
    rw [Wt_push (additive_rank x) h.1, (comps_push ls xs).1, RCSketch.rank_append]
    have := h2 x
    omega
  comp l ls size fast m hm h := by
    by_cases hA : ∀ y ∈ l, A y
    · obtain ⟨h1, h2⟩ := h.2 hA
      have key : Partially (compressFrom sec fast m size none ls) (fun r => ∀ x,
          Wt (fun b => rank b x) r.2 ≤ rank l x + comps r.2 ∧ rank l x ≤ Wt (fun b => rank b x) r.2 + comps r.2) := by
        refine partially_forall (fun x => ?_)
        refine (compressFrom_rank (additive_rank x) (hm x) ls size none (by simpa using h1)).mono ?_
        rintro r ⟨-, h3, h4⟩
        rw [ext_none] at h3 h4
        have := h2 x
        omega
      have hp := compressFrom_pres (sec := sec) (fast := fast) (G := A) (m := m) (fun u out a b c => (hm .nan u out a b c).1) ls size h1
      exact ((compress_ne ls size).and (hp.and key)).mono (fun r hr => ⟨hr.1 h.1, fun _ => hr.2⟩)
    · exact (compress_ne ls size).mono (fun r hr => ⟨hr h.1, fun h => absurd h hA⟩)

theorem Wt_buffers (s : RCSketch2 K) (x : Fl K) : Wt (fun b => rank b x) s.levels = weightedRank s.buffers x := by
  simp [Wt, weightedRank, RCSketch2.buffers, Function.comp_def]

theorem err_query (s : RCSketch2 K) (l : List (Fl K)) (c : Nat)
    (h : ∀ x, Wt (fun b => rank b x) s.levels ≤ rank l x + c ∧ rank l x ≤ Wt (fun b => rank b x) s.levels + c) (x : Fl K)
    (hx : x ≠ .nan) : Partially (s.interpolateRank x) (fun r => r ≤ rank l x + c ∧ rank l x ≤ r + c) := by
  refine (rankFrom_partially hx s.buffers 0 0).mono ?_
  rintro r rfl
  have := h x
  rw [Wt_buffers] at this
  simpa using this

/-- C21. The estimated rank is off by at most `Σ_h 2^h · (compactions of level h)`: any history, coins, section sizes. -/
theorem C21_rank_error_bound (sec : Nat → Nat) (k : Nat) (ops : List (InsOp K)) (hm : ∀ o ∈ ops, o.method = .default) :
    Partially (RCSketch2.runHist sec k ops) (fun s => ∀ x, x ≠ .nan → Partially (s.interpolateRank x) (fun r =>
      r ≤ rank (insItems ops) x + wsum (s.levels.map Level2.compactions) ∧
      rank (insItems ops) x ≤ r + wsum (s.levels.map Level2.compactions))) := by
  refine (hist2_partially (err_hist sec (A := fun _ => True)) k ops ?_ ?_).mono ?_
  · intro o ho x u out hu _ hout
    rw [hm o ho] at hout
    exact ⟨by simp, RCSketch.isOut_rank_default hu hout x⟩
  · simp [Wt, comps, newLevel, wsum, rank]
  · rintro s ⟨-, -, h⟩ x hx
    exact err_query s _ _ (h (by simp)).2 x hx

/-- C21 with either compaction method: binary floating point, items whose double does not overflow. -/
theorem C21_rank_error_bound_any_method [FloatFmt.Binary K] (sec : Nat → Nat) (k : Nat) (ops : List (InsOp K))
    (hfin : ∀ y ∈ insItems ops, y.CanDouble) :
    Partially (RCSketch2.runHist sec k ops) (fun s => ∀ x, x ≠ .nan → Partially (s.interpolateRank x) (fun r =>
      r ≤ rank (insItems ops) x + wsum (s.levels.map Level2.compactions) ∧
      rank (insItems ops) x ≤ r + wsum (s.levels.map Level2.compactions))) := by
  refine (hist2_partially (err_hist sec (A := Fl.CanDouble)) k ops ?_ ?_).mono ?_
  · intro o ho x u out hu hf hout
    exact ⟨(RCSketch.goodFor_fin o.method).2 u out hu hf hout, RCSketch.isOut_rank hu hf hout x⟩
  · simp [Wt, comps, newLevel, wsum, rank]
  · rintro s ⟨-, -, h⟩ x hx
    exact err_query s _ _ (h hfin).2 x hx

/-- C22. With fair coins the expected weighted rank of the stored items is the true rank. -/
theorem C22_rank_unbiased (sec : Nat → Nat) (hs : SecOK sec) (k : Nat) (ops : List (InsOp K))
    (hm : ∀ o ∈ ops, o.method = .default) (hlen : (insItems ops).length < 2 ^ 32) (hnan : ∀ y ∈ insItems ops, y ≠ .nan)
    (x : Fl K) :
    exp (RCSketch2.runHist sec k ops) (fun s => (weightedRank s.buffers x : ℚ)) = rank (insItems ops) x := by
  have hal := (C19_insertions_never_panic sec hs k ops hm hlen hnan).mono (R := fun _ => True) (fun _ _ => trivial)
  have key : ∀ σ : ℚ, σ * (exp (RCSketch2.runHist sec k ops) (fun s => (weightedRank s.buffers x : ℚ)) - rank (insItems ops) x) ≤ 0 := by
    intro σ
    have h := hist2_exp hs (rank_super2 hs x σ) k ops (fun o ho => hm o ho) hlen hnan
    have h0 : σ * ((Wt (fun b => rank b x) [newLevel ([] : List (Fl K))] : ℚ) - rank ([] : List (Fl K)) x) = 0 := by
      simp [Wt, newLevel, wsum, rank]
    rw [h0] at h
    have e : exp (RCSketch2.runHist sec k ops) (fun s => σ * ((Wt (fun b => rank b x) s.levels : ℚ) - rank (insItems ops) x)) =
        σ * (exp (RCSketch2.runHist sec k ops) (fun s => (weightedRank s.buffers x : ℚ)) - rank (insItems ops) x) := by
      rw [exp_mul_left]
      have : (fun s : RCSketch2 K => (Wt (fun b => rank b x) s.levels : ℚ) - rank (insItems ops) x) =
          (fun s => (weightedRank s.buffers x : ℚ) + (-(rank (insItems ops) x : ℚ))) := by
        funext s; rw [Wt_buffers, sub_eq_add_neg]
      rw [this, exp_add, exp_const hal, sub_eq_add_neg]
    rw [← e]; exact h
  have h1 := key 1
  have h2 := key (-1)
  linarith

/-- C22 in terms of the API: insertions, then `interpolate_rank` (sections of at least two items, so that there are at
most 64 levels). -/
theorem C22_interpolate_rank_unbiased (sec : Nat → Nat) (hs : SecOK sec) (h2 : ∀ j, j ≤ 4 → 2 ≤ sec j) (k : Nat)
    (ops : List (InsOp K))
    (hm : ∀ o ∈ ops, o.method = .default) (hlen : (insItems ops).length < 2 ^ 32) (hnan : ∀ y ∈ insItems ops, y ≠ .nan)
    (x : Fl K) (hx : x ≠ .nan) :
    exp (RCSketch2.runHist sec k ops >>= fun s => s.interpolateRank x) (fun r => (r : ℚ)) = rank (insItems ops) x := by
  rw [exp_bind, ← C22_rank_unbiased sec hs k ops hm hlen hnan x]
  apply exp_congr
  refine (levels64 hs h2 k ops hlen).mono ?_
  intro s hL
  unfold RCSketch2.interpolateRank
  rw [rankFrom_eq hx _ _ _ (by simp [RCSketch2.buffers]; exact hL)]
  simp

/-- C23. Ranks up to half the capacity of a new level (`3 · section size`) are exact, whatever the coins. -/
theorem C23_low_ranks_exact (sec : Nat → Nat) (hs : SecOK sec) (k : Nat) (ops : List (InsOp K))
    (hm : ∀ o ∈ ops, o.method = .default) (x : Fl K) (hx : x ≠ .nan) (hP : rank (insItems ops) x ≤ 3 * sec 0) :
    Partially (RCSketch2.runHist sec k ops) (fun s => Partially (s.interpolateRank x) (fun r => r = rank (insItems ops) x)) := by
  refine (hist2_partially (low_hist hs (A := fun _ => True) x) k ops ?_ ?_).mono ?_
  · intro o ho u out hu _ hout
    rw [hm o ho] at hout
    exact ⟨by simp, RCSketch.isOut_rank_default hu hout x⟩
  · intro _
    refine ⟨by simp [lvlOK_new], by simp, fun _ => ⟨_, _, rfl, by simp [newLevel], by simp⟩⟩
  · rintro s ⟨-, h⟩
    obtain ⟨-, -, h⟩ := h (by simp)
    obtain ⟨l0, ls', he, h1, h2⟩ := h hP
    refine (rankFrom_partially hx s.buffers 0 0).mono ?_
    rintro r rfl
    rw [← Wt_buffers, he, Wt_cons, h1]
    have : Wt (fun b => rank b x) ls' = 0 := by
      clear he
      induction ls' with
      | nil => rfl
      | cons a l ih => rw [Wt_cons, h2 a (by simp), ih (fun l hl => h2 l (by simp [hl]))]
    rw [this]; simp

/-- C24. Quantile estimates are monotone in the value, on every sketch state. -/
theorem C24_quantile_monotone [FloatFmt.Mono K] (s : RCSketch2 K) (hc : 1 ≤ s.count)
    (hf : ∃ c : K, FloatFmt.rnd (s.count : K) = .fin c) (x y : Fl K) (hy : y ≠ .nan) (hxy : x ≤ y) :
    Partially (s.interpolateRank x) (fun r => Partially (s.interpolateRank y) (fun r' => r ≤ r')) ∧
    Partially (s.estQuantileAtValue x) (fun r => Partially (s.estQuantileAtValue y) (fun r' => r ≤ r')) := by
  have hx : x ≠ .nan := by rintro rfl; exact hy (le_antisymm (Fl.le_nan _) hxy)
  constructor
  · refine (rankFrom_partially hx s.buffers 0 0).mono ?_
    rintro r rfl
    refine (rankFrom_partially hy s.buffers 0 0).mono ?_
    rintro r rfl
    simpa using weightedRank_mono s.buffers hxy
  · refine (estQuantile_partially hx s.buffers s.count).mono ?_
    rintro r rfl
    refine (estQuantile_partially hy s.buffers s.count).mono ?_
    rintro r rfl
    exact quantile_div_mono hc hf (weightedRank_mono s.buffers hxy)

/-- C24. Value estimates are monotone in `q`, on every sketch state. -/
theorem C24_value_monotone [FloatFmt.Mono K] (s : RCSketch2 K) (hc : 1 ≤ s.count)
    (hf : ∃ c : K, FloatFmt.rnd (s.count : K) = .fin c) (q q' : Fl K) (h : q ≤ q') :
    Partially (s.estValueAtQuantile q) (fun v => Partially (s.estValueAtQuantile q') (fun v' => v ≤ v')) :=
  estValue_mono s.buffers hc hf h

/-- C24. With default compaction a value estimate is one of the supplied items. -/
theorem C24_value_is_input (sec : Nat → Nat) (k : Nat) (ops : List (InsOp K)) (hm : ∀ o ∈ ops, o.method = .default) (q : Fl K) :
    Partially (RCSketch2.runHist sec k ops) (fun s => Partially (s.estValueAtQuantile q) (fun v => v ∈ insItems ops)) := by
  refine (hist2_partially (sec := sec) (pres_hist (G := fun y => y ∈ insItems ops)) k ops
    (fun o ho => by rw [hm o ho]; exact RCSketch.pres_default _) (by simp [newLevel])).mono ?_
  rintro s ⟨-, hmem⟩
  refine (estValue_mem s.buffers s.count q).mono ?_
  intro v hv
  exact buffers_mem (hmem (fun y hy => hy)) v hv

/-- C65. `add_buffer(xs)` after any history is the same program, coin for coin, as `add` for every item in turn. -/
theorem C65_add_buffer_is_repeated_add (sec : Nat → Nat) (hs : SecOK sec) (k : Nat) (ops : List (InsOp K)) (xs : List (Fl K)) :
    Partially (RCSketch2.runHist sec k ops) (fun s => s.addBuffer sec xs = s.addEach sec xs) :=
  (hist2_core hs k ops).mono (fun s h => addBuffer_eq hs h.1 h.2 xs)

/-- C66. The mean squared rank error is at most the expected `Σ_h 4^h · (compactions of level h)`. -/
theorem C66_variance_by_compactions (sec : Nat → Nat) (hs : SecOK sec) (k : Nat) (ops : List (InsOp K))
    (hm : ∀ o ∈ ops, o.method = .default) (hlen : (insItems ops).length < 2 ^ 32) (hnan : ∀ y ∈ insItems ops, y ≠ .nan)
    (x : Fl K) :
    exp (RCSketch2.runHist sec k ops) (fun s => ((weightedRank s.buffers x : ℚ) - rank (insItems ops) x) ^ 2) ≤
      exp (RCSketch2.runHist sec k ops) (fun s => (wsum4 (s.levels.map Level2.compactions) : ℚ)) := by
  have h := hist2_exp hs (var_super2 hs x) k ops (fun o ho => hm o ho) hlen hnan
  have h0 : ((Wt (fun b => rank b x) [newLevel ([] : List (Fl K))] : ℚ) - rank ([] : List (Fl K)) x) ^ 2 -
      comps4 [newLevel ([] : List (Fl K))] = 0 := by
    simp [Wt, newLevel, wsum, rank, comps4, wsum4]
  rw [h0] at h
  have e : (fun s : RCSketch2 K => ((Wt (fun b => rank b x) s.levels : ℚ) - rank (insItems ops) x) ^ 2 - comps4 s.levels) =
      (fun s => ((weightedRank s.buffers x : ℚ) - rank (insItems ops) x) ^ 2 +
        (-1) * (wsum4 (s.levels.map Level2.compactions) : ℚ)) := by
    funext s; rw [Wt_buffers, sub_eq_add_neg, neg_one_mul]; rfl
  rw [e, exp_add, exp_mul_left] at h
  linarith

/-- C66. The same for the answer of `interpolate_rank`, for section sizes of at least 2. -/
theorem C66_interpolate_rank_error (sec : Nat → Nat) (hs : SecOK sec) (h2 : ∀ j, j ≤ 4 → 2 ≤ sec j) (k : Nat) (ops : List (InsOp K))
    (hm : ∀ o ∈ ops, o.method = .default) (hlen : (insItems ops).length < 2 ^ 32) (hnan : ∀ y ∈ insItems ops, y ≠ .nan)
    (x : Fl K) (hx : x ≠ .nan) :
    exp (RCSketch2.runHist sec k ops >>= fun s => s.interpolateRank x) (fun r => ((r : ℚ) - rank (insItems ops) x) ^ 2) ≤
      exp (RCSketch2.runHist sec k ops) (fun s => (wsum4 (s.levels.map Level2.compactions) : ℚ)) := by
  refine le_trans (le_of_eq ?_) (C66_variance_by_compactions sec hs k ops hm hlen hnan x)
  rw [exp_bind]
  apply exp_congr
  refine (levels64 hs h2 k ops hlen).mono ?_
  intro s hL
  unfold RCSketch2.interpolateRank
  rw [rankFrom_eq hx _ _ _ (by simp [RCSketch2.buffers]; exact hL)]
  simp

theorem rank_nan (l : List (Fl K)) : rank l .nan = l.length := by
  unfold rank
  rw [List.countP_eq_length]
  intro y _
  simp [Fl.le_nan]

theorem weightedRank_nan (L : List (List (Fl K))) : weightedRank L .nan = wsum (L.map List.length) := by
  unfold weightedRank
  congr 1
  apply List.map_congr_left
  intro b _
  exact rank_nan b

/-- C64 (partial; exact conservation is false, see `C64_weight_not_conserved`): the stored weight is off by at most
`Σ_h 2^h · (compactions of level h)`. -/
theorem C64_weight_error_partial (sec : Nat → Nat) (k : Nat) (ops : List (InsOp K)) (hm : ∀ o ∈ ops, o.method = .default) :
    Partially (RCSketch2.runHist sec k ops) (fun s =>
      wsum (s.buffers.map List.length) ≤ (insItems ops).length + wsum (s.levels.map Level2.compactions) ∧
      (insItems ops).length ≤ wsum (s.buffers.map List.length) + wsum (s.levels.map Level2.compactions)) := by
  refine (hist2_partially (err_hist sec (A := fun _ => True)) k ops ?_ ?_).mono ?_
  · intro o ho x u out hu _ hout
    rw [hm o ho] at hout
    exact ⟨by simp, RCSketch.isOut_rank_default hu hout x⟩
  · simp [Wt, comps, newLevel, wsum, rank]
  · rintro s ⟨-, -, h⟩
    have := (h (by simp)).2 .nan
    rw [Wt_buffers, weightedRank_nan, rank_nan] at this
    exact this

/-- C64 (partial): the expected stored weight is the number of items. -/
theorem C64_expected_weight_partial (sec : Nat → Nat) (hs : SecOK sec) (k : Nat) (ops : List (InsOp K))
    (hm : ∀ o ∈ ops, o.method = .default) (hlen : (insItems ops).length < 2 ^ 32) (hnan : ∀ y ∈ insItems ops, y ≠ .nan) :
    exp (RCSketch2.runHist sec k ops) (fun s => (wsum (s.buffers.map List.length) : ℚ)) = (insItems ops).length := by
  have := C22_rank_unbiased sec hs k ops hm hlen hnan .nan
  rw [rank_nan] at this
  rw [← this]
  apply exp_congr
  exact (partially_true _).mono (fun s _ => by rw [weightedRank_nan])

/-! ### C60: NaN -/

/-- C60. Compacting a level that holds a NaN and another value panics. -/
theorem C60_rc2_compact_nan_panics (l : Level2 K) (ci : Nat) (m : CompactionMethod) (h2 : 2 ≤ l.buf.length) (hn : .nan ∈ l.buf) :
    Panics (compactBuffer l ci m) := by
  have e : compactBuffer l ci m = .fail .unwrap := by
    unfold compactBuffer
    rw [show sortFl l.buf = .fail .unwrap from sortByKey_nan id l.buf h2 ⟨_, hn, rfl⟩]
    rfl
  rw [e]; simp [Panics]

/-- C60. A value query on a sketch holding a NaN and another value panics. -/
theorem C60_rc2_value_nan_panics (s : RCSketch2 K) (q : Fl K) (h2 : 2 ≤ s.buffers.flatten.length) (hn : .nan ∈ s.buffers.flatten) :
    Panics (s.estValueAtQuantile q) := estValue_nan s.buffers s.count q h2 hn

/-! Concrete cases. -/
section examples
attribute [local instance] ratExact
attribute [local instance] ratExact_exact

/-- C64 fails: the stored weight of an `RCSketch2` is not the number of items. With `k = 1` six items leave weight 5
or 7, and the quantile reported at the maximum is 5/6 or 7/6. -/
theorem C64_weight_not_conserved :
    (∃ s, CanReturn (RCSketch2.runHist (realSec 1) 1 [.addBuffer (upTo 6)]) s ∧ wsum (s.buffers.map List.length) = 7 ∧
      Always (s.estQuantileAtValue (.fin 5)) (fun r => r = .fin (7 / 6))) ∧
    (∃ s, CanReturn (RCSketch2.runHist (realSec 1) 1 [.addBuffer (upTo 6)]) s ∧ wsum (s.buffers.map List.length) = 5 ∧
      Always (s.estQuantileAtValue (.fin 5)) (fun r => r = .fin (5 / 6))) := by
  refine ⟨⟨⟨[⟨[.fin 0, .fin 1, .fin 2, .fin 3, .fin 4], 1, 3, 0, 1, [[.fin 5]]⟩, ⟨[.fin 5], 0, 3, 0, 0, []⟩], 6, 1, 6⟩, ?_, ?_, ?_⟩,
    ⟨⟨[⟨[.fin 0, .fin 1, .fin 2, .fin 3, .fin 4], 1, 3, 0, 1, [[.fin 5]]⟩, ⟨[], 0, 3, 0, 0, []⟩], 5, 1, 6⟩, ?_, ?_, ?_⟩⟩ <;> decide +kernel

/-- C64 also for `k` within the range of C19: `k = 4`, 50 items, weight 49 or 51. -/
theorem C64_weight_not_conserved_large_k :
    (RCSketch2.runHist (realSec 4) 4 [.addBuffer (upTo 50)] >>= fun s => .ret (wsum (s.buffers.map List.length))).run [false, false] =
      .ok 51 := by decide +kernel

/-- The assumptions on section sizes are needed: with `k = 1` the section size drops to 0 when a level has been compacted
four times, that level's capacity becomes 0, the stored items exceed the total capacity and the next loop iteration of
`insert_batch` fails its capacity assertion. 19 items suffice (all coins `true`). -/
theorem C19_k1_panics : (RCSketch2.runHist (realSec 1) 1 [.addBuffer (upTo 19)]).run (List.replicate 20 true) =
    .error .explicit := by decide +kernel

example : SecOK (realSec 4) := realSec_ok (le_refl 4)
example : ∀ j, j ≤ 4 → 2 ≤ realSec 8 j := by decide +kernel
example : (∀ j, j ≤ 4 → 8 ≤ realSec 32 j) ∧ 32 ≤ realSec 32 0 := by decide +kernel
def rc2Hist : List (InsOp ℚ) := [.add (.fin 20), .addBuffer (upTo 30), .addBufferFast (upTo 7)]
example : Always (RCSketch2.runHist (realSec 4) 4 rc2Hist) (fun s => s.count = 38 ∧ s.levels.length = 2 ∧
    s.levels.map Level2.compactions = [1, 0]) := by decide +kernel
example : (RCSketch2.runHist (realSec 4) 4 rc2Hist).run [false] ≠ (RCSketch2.runHist (realSec 4) 4 rc2Hist).run [true] := by
  decide +kernel
example : rank (insItems rc2Hist) (.fin 3) = 8 := by decide +kernel
example : (insItems rc2Hist).length = 38 := by decide +kernel
example : (.nan : Fl ℚ) ∈ (RCSketch2.mk [⟨[.nan, .fin (1:ℚ)], 0, 3, 0, 0, []⟩] 2 4 2).buffers.flatten := by decide +kernel
end examples
end AQ

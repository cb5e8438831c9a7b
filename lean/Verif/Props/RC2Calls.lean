/-
Property C134: the public calls of `RCSketch2` beside the `Digest` trait (`insert`, `insert_batch`, `compress`, `grow`,
`update_sections`), in any order and mixed with insertion calls.
-/
import Verif.Proofs.RC2Calls
import Verif.Props.RCSketch2

set_option linter.unusedSectionVars false
set_option linter.unusedVariables false

namespace AQ
open Spec Prog RCSketch2
variable {K : Type} [Field K] [LinearOrder K] [IsStrictOrderedRing K] [FloatFmt K]

theorem okCall_default {c : Call2 K} (h : ∀ m, c.method? = some m → m = .default) : okCall (fun _ m => m = .default) c := by
  cases c with
  | ins o => exact h _ rfl
  | insert x f m => exact h _ rfl
  | insertBatch xs f m => exact h _ rfl
  | compress f m => exact h _ rfl
  | grow => trivial
  | updateSections i => trivial

theorem okCall_true (c : Call2 K) : okCall (fun _ _ => True) c := by cases c <;> trivial

/-- C134. `count` is the number of items supplied by counting calls; `sketch_size` is the number of stored items, which stays
below the capacity. -/
theorem C134_count_and_size (sec : Nat → Nat) (hs : SecOK sec) (k : Nat) (cs : List (Call2 K)) :
    Partially (RCSketch2.runCalls sec k cs) (fun s => s.count = (cs.map Call2.counted).sum ∧
      s.sketchSize = (s.buffers.map List.length).sum ∧ (s.buffers.map List.length).sum < s.capacity sec) := by
  refine (calls_partially hs (I := fun _ _ => True) (ok := fun _ _ => True) ⟨fun _ _ _ _ => trivial,
    fun _ _ _ _ _ _ _ => (partially_true _)⟩ (fun _ _ _ => trivial) k cs (fun c _ => okCall_true c) trivial).mono ?_
  intro s h
  have e : lens s.levels = (s.buffers.map List.length).sum := by simp [lens, RCSketch2.buffers, Function.comp_def]
  have e2 : capacity sec s = caps sec s.levels := rfl
  rw [e2, ← e]
  exact ⟨h.book.hn, h.book.size, h.lt⟩

/-- C134. `update_sections(h)` never changes a sketch between calls: it returns it as it is, or panics when there is no
level `h`. -/
theorem C134_update_sections_idle (sec : Nat → Nat) (hs : SecOK sec) (k : Nat) (cs : List (Call2 K)) :
    Partially (RCSketch2.runCalls sec k cs) (fun s => ∀ h, (h < s.buffers.length → s.updateSectionsAt h = .ret s) ∧
      (s.buffers.length ≤ h → s.updateSectionsAt h = .fail .oob)) := by
  refine (calls_partially hs (I := fun _ _ => True) (ok := fun _ _ => True) ⟨fun _ _ _ _ => trivial,
    fun _ _ _ _ _ _ _ => (partially_true _)⟩ (fun _ _ _ => trivial) k cs (fun c _ => okCall_true c) trivial).mono ?_
  intro s h i
  have e : s.buffers.length = s.levels.length := by simp [RCSketch2.buffers]
  rw [e]
  exact updateSectionsAt_noop h.core.lvl i

/-- C134. No mix of public calls panics: fewer than 2^32 non-NaN items, default or fast compaction, `update_sections` only
for levels that exist. -/
theorem C134_never_panics (sec : Nat → Nat) (hs : SecOK sec) (k : Nat) (cs : List (Call2 K))
    (hm : ∀ c ∈ cs, ∀ m, c.method? = some m → m = .default) (hr : Call2.InRange 1 cs)
    (hlen : (Call2.allItems cs).length < 2 ^ 32) (hnan : ∀ y ∈ Call2.allItems cs, y ≠ .nan) :
    Always (RCSketch2.runCalls sec k cs) (fun s => s.count = (cs.map Call2.counted).sum) :=
  ((calls_always hs (G := (· ≠ .nan)) k cs (fun c hc => okCall_mono (fun f m h => by rw [h]; exact RCSketch.goodFor_default (fun _ h => h))
    (okCall_default (hm c hc))) hr hlen hnan).and (C134_count_and_size sec hs k cs)).mono (fun s h => h.2.1)

/-- C134 with `AverageNeighbour` allowed: binary floating point, items whose double does not overflow. -/
theorem C134_never_panics_average [FloatFmt.Binary K] (sec : Nat → Nat) (hs : SecOK sec) (k : Nat) (cs : List (Call2 K))
    (hr : Call2.InRange 1 cs) (hlen : (Call2.allItems cs).length < 2 ^ 32) (hfin : ∀ y ∈ Call2.allItems cs, y.CanDouble) :
    Always (RCSketch2.runCalls sec k cs) (fun s => s.count = (cs.map Call2.counted).sum) :=
  ((calls_always hs (G := Fl.CanDouble) k cs (fun c hc => okCall_mono (fun f m h => RCSketch.goodFor_fin m)
    (okCall_true c)) hr hlen hfin).and (C134_count_and_size sec hs k cs)).mono (fun s h => h.2.1)

/-- C134. With sections of at least two items and fewer than 2^32 items there are at most 50 levels plus one for every `grow`
call. -/
theorem C134_levels (sec : Nat → Nat) (hs : SecOK sec) (h2 : ∀ j, j ≤ 4 → 2 ≤ sec j) (k : Nat) (cs : List (Call2 K))
    (hlen : (Call2.allItems cs).length < 2 ^ 32) :
    Partially (RCSketch2.runCalls sec k cs) (fun s => s.buffers.length ≤ 50 + Call2.grows cs) := by
  refine (calls_levels (p := 2) (q := 3) (c := 12) (M := 49) hs ?_ ?_ (by norm_num) (by norm_num) cs ?_ k).mono ?_
  · intro j hj u hu; have := h2 j hj; omega
  · have := h2 0 (by omega); omega
  · calc (Call2.allItems cs).length * 2 ^ 49 ≤ 2 ^ 32 * 2 ^ 49 := Nat.mul_le_mul_right _ hlen.le
      _ < 12 * 3 ^ 49 := by norm_num
  · intro s h
    simpa [RCSketch2.buffers] using h

/-- C134. Rank queries do not panic unless `grow` was called more than 14 times. -/
theorem C134_rank_queries_never_panic (sec : Nat → Nat) (hs : SecOK sec) (h2 : ∀ j, j ≤ 4 → 2 ≤ sec j) (k : Nat)
    (cs : List (Call2 K)) (hlen : (Call2.allItems cs).length < 2 ^ 32) (hg : Call2.grows cs ≤ 14) :
    Partially (RCSketch2.runCalls sec k cs) (fun s =>
      (∀ x, Always (s.interpolateRank x) (fun _ => True)) ∧ (∀ x, Always (s.estQuantileAtValue x) (fun _ => True))) := by
  refine (C134_levels sec hs h2 k cs hlen).mono ?_
  intro s hL
  refine ⟨fun x => ?_, fun x => ?_⟩
  · obtain ⟨r, hr⟩ := rankFrom_returns x s.buffers 0 0 (by omega)
    unfold RCSketch2.interpolateRank
    rw [hr]; trivial
  · obtain ⟨r, hr⟩ := rankFrom_returns x s.buffers 0 0 (by omega)
    unfold RCSketch2.estQuantileAtValue estQuantileFrom
    rw [hr]; trivial

theorem rankFrom_many (x : Fl K) (L : List (List (Fl K))) : ∀ (i acc : Nat), i ≤ 64 → 64 < i + L.length →
    rankFrom x i acc L = .fail .overflow := by
  induction L with
  | nil => intro i acc h1 h2; simp at h2; omega
  | cons b L ih =>
    intro i acc h1 h2
    rw [rankFrom]
    split
    · exact ih _ _ (by omega) (by simp only [List.length_cons] at h2; omega)
    · rfl

/-- C134. The number of `grow` calls matters: after 64 of them, on whatever sketch, every rank query panics. -/
theorem C134_grow_breaks_rank_queries (sec : Nat → Nat) (k : Nat) (x : Fl K) :
    Always (RCSketch2.runCalls sec k (List.replicate 64 (Call2.grow (K := K)))) (fun s =>
      s.interpolateRank x = .fail .overflow ∧ s.estQuantileAtValue x = .fail .overflow) := by
  have key : ∀ (j : Nat) (s : RCSketch2 K), Always (RCSketch2.execCalls sec s (List.replicate j (Call2.grow (K := K))))
      (fun s' => s'.levels.length = s.levels.length + j) := by
    intro j
    induction j with
    | zero => intro s; simp [RCSketch2.execCalls]
    | succ j ih =>
      intro s
      rw [List.replicate_succ, RCSketch2.execCalls]
      change Always (RCSketch2.execCalls sec s.grow _) _
      refine (ih s.grow).mono ?_
      intro s' h
      rw [h]; simp [RCSketch2.grow]; omega
  refine (key 64 (RCSketch2.new k)).mono ?_
  intro s h
  have hl : 64 < 0 + s.buffers.length := by simp only [RCSketch2.buffers, List.length_map, h]; simp [RCSketch2.new]
  refine ⟨rankFrom_many x _ 0 0 (by omega) hl, ?_⟩
  unfold RCSketch2.estQuantileAtValue estQuantileFrom
  rw [rankFrom_many x _ 0 0 (by omega) hl]; rfl

theorem err_grow {A : Fl K → Prop} (l : List (Fl K)) (ls : List (Level2 K))
    (h : ls ≠ [] ∧ ((∀ y ∈ l, A y) → (∀ lv ∈ ls, ∀ y ∈ lv.buf, A y) ∧
      ∀ x, Wt (fun b => rank b x) ls ≤ rank l x + comps ls ∧ rank l x ≤ Wt (fun b => rank b x) ls + comps ls)) :
    ls ++ [newLevel []] ≠ [] ∧ ((∀ y ∈ l, A y) → (∀ lv ∈ ls ++ [newLevel []], ∀ y ∈ lv.buf, A y) ∧
      ∀ x, Wt (fun b => rank b x) (ls ++ [newLevel []]) ≤ rank l x + comps (ls ++ [newLevel []]) ∧
        rank l x ≤ Wt (fun b => rank b x) (ls ++ [newLevel []]) + comps (ls ++ [newLevel []])) := by
  refine ⟨by simp, fun hA => ⟨good_grow (h.2 hA).1, fun x => ?_⟩⟩
  rw [Wt_grow (by simp [rank]), (comps_grow ls).1]
  exact (h.2 hA).2 x

/-- C134. The error bound of C21 survives any mix of public calls: the reported rank is off by at most
`Σ_h 2^h · (compactions of level h)`. -/
theorem C134_rank_error_bound (sec : Nat → Nat) (hs : SecOK sec) (k : Nat) (cs : List (Call2 K))
    (hm : ∀ c ∈ cs, ∀ m, c.method? = some m → m = .default) :
    Partially (RCSketch2.runCalls sec k cs) (fun s => ∀ x, x ≠ .nan → Partially (s.interpolateRank x) (fun r =>
      r ≤ rank (Call2.allItems cs) x + wsum (s.levels.map Level2.compactions) ∧
      rank (Call2.allItems cs) x ≤ r + wsum (s.levels.map Level2.compactions))) := by
  refine (calls_partially hs (err_hist sec (A := fun _ => True)) err_grow k cs ?_ ?_).mono ?_
  · intro c hc
    refine okCall_mono ?_ (okCall_default (hm c hc))
    intro f m h x u out hu _ hout
    subst h
    exact ⟨by simp, RCSketch.isOut_rank_default hu hout x⟩
  · simp [Wt, comps, newLevel, wsum, rank]
  · intro s h x hx
    exact err_query s _ _ (h.inv.2 (by simp)).2 x hx

/-- C134. Any mix of public calls leaves the weighted rank unbiased. -/
theorem C134_rank_unbiased (sec : Nat → Nat) (hs : SecOK sec) (k : Nat) (cs : List (Call2 K))
    (hm : ∀ c ∈ cs, ∀ m, c.method? = some m → m = .default) (hr : Call2.InRange 1 cs)
    (hlen : (Call2.allItems cs).length < 2 ^ 32) (hnan : ∀ y ∈ Call2.allItems cs, y ≠ .nan) (x : Fl K) :
    exp (RCSketch2.runCalls sec k cs) (fun s => (weightedRank s.buffers x : ℚ)) = rank (Call2.allItems cs) x := by
  have hal := (C134_never_panics sec hs k cs hm hr hlen hnan).mono (R := fun _ => True) (fun _ _ => trivial)
  have key : ∀ σ : ℚ, σ * (exp (RCSketch2.runCalls sec k cs) (fun s => (weightedRank s.buffers x : ℚ)) -
      rank (Call2.allItems cs) x) ≤ 0 := by
    intro σ
    have h := calls_exp hs (rank_super2 hs x σ) (fun l ls => by rw [Wt_grow (by simp [rank])]) k cs
      (fun c hc => okCall_default (hm c hc)) hr hlen hnan
    have h0 : σ * ((Wt (fun b => rank b x) [newLevel ([] : List (Fl K))] : ℚ) - rank ([] : List (Fl K)) x) = 0 := by
      simp [Wt, newLevel, wsum, rank]
    rw [h0] at h
    have e : exp (RCSketch2.runCalls sec k cs) (fun s => σ * ((Wt (fun b => rank b x) s.levels : ℚ) - rank (Call2.allItems cs) x)) =
        σ * (exp (RCSketch2.runCalls sec k cs) (fun s => (weightedRank s.buffers x : ℚ)) - rank (Call2.allItems cs) x) := by
      rw [exp_mul_left]
      have : (fun s : RCSketch2 K => (Wt (fun b => rank b x) s.levels : ℚ) - rank (Call2.allItems cs) x) =
          (fun s => (weightedRank s.buffers x : ℚ) + (-(rank (Call2.allItems cs) x : ℚ))) := by
        funext s; rw [Wt_buffers, sub_eq_add_neg]
      rw [this, exp_add, exp_const hal, sub_eq_add_neg]
    rw [← e]; exact h
  have h1 := key 1
  have h2 := key (-1)
  linarith

/-- C134. Its mean squared error is at most the expected `Σ_h 4^h · (compactions of level h)`. -/
theorem C134_mean_squared_error (sec : Nat → Nat) (hs : SecOK sec) (k : Nat) (cs : List (Call2 K))
    (hm : ∀ c ∈ cs, ∀ m, c.method? = some m → m = .default) (hr : Call2.InRange 1 cs)
    (hlen : (Call2.allItems cs).length < 2 ^ 32) (hnan : ∀ y ∈ Call2.allItems cs, y ≠ .nan) (x : Fl K) :
    exp (RCSketch2.runCalls sec k cs) (fun s => ((weightedRank s.buffers x : ℚ) - rank (Call2.allItems cs) x) ^ 2) ≤
      exp (RCSketch2.runCalls sec k cs) (fun s => (wsum4 (s.levels.map Level2.compactions) : ℚ)) := by
  have h := calls_exp hs (var_super2 hs x) (fun l ls => by rw [Wt_grow (by simp [rank]), (comps_grow ls).2]) k cs
    (fun c hc => okCall_default (hm c hc)) hr hlen hnan
  have h0 : ((Wt (fun b => rank b x) [newLevel ([] : List (Fl K))] : ℚ) - rank ([] : List (Fl K)) x) ^ 2 -
      comps4 [newLevel ([] : List (Fl K))] = 0 := by
    simp [Wt, newLevel, wsum, rank, comps4, wsum4]
  rw [h0] at h
  have e : (fun s : RCSketch2 K => ((Wt (fun b => rank b x) s.levels : ℚ) - rank (Call2.allItems cs) x) ^ 2 - comps4 s.levels) =
      (fun s => ((weightedRank s.buffers x : ℚ) - rank (Call2.allItems cs) x) ^ 2 +
        (-1) * (wsum4 (s.levels.map Level2.compactions) : ℚ)) := by
    funext s; rw [Wt_buffers, sub_eq_add_neg, neg_one_mul]; rfl
  rw [e, exp_add, exp_mul_left] at h
  linarith

theorem exp_calls_interpolate (sec : Nat → Nat) (hs : SecOK sec) (h2 : ∀ j, j ≤ 4 → 2 ≤ sec j) (k : Nat) (cs : List (Call2 K))
    (hlen : (Call2.allItems cs).length < 2 ^ 32) (hg : Call2.grows cs ≤ 14) {x : Fl K} (hx : x ≠ .nan) (f : ℚ → ℚ) :
    exp (RCSketch2.runCalls sec k cs >>= fun s => s.interpolateRank x) (fun r => f r) =
      exp (RCSketch2.runCalls sec k cs) (fun s => f (weightedRank s.buffers x)) := by
  rw [exp_bind]
  refine exp_congr ((C134_levels sec hs h2 k cs hlen).mono (fun s hL => ?_))
  have e : s.interpolateRank x = .ret (weightedRank s.buffers x) := by
    unfold RCSketch2.interpolateRank
    rw [rankFrom_eq hx s.buffers 0 0 (by omega)]
    simp
  rw [e]
  rfl

/-- C134. `interpolate_rank` is unbiased after any mix of public calls with at most 14 `grow` calls. -/
theorem C134_interpolate_unbiased (sec : Nat → Nat) (hs : SecOK sec) (h2 : ∀ j, j ≤ 4 → 2 ≤ sec j) (k : Nat) (cs : List (Call2 K))
    (hm : ∀ c ∈ cs, ∀ m, c.method? = some m → m = .default) (hr : Call2.InRange 1 cs) (hg : Call2.grows cs ≤ 14)
    (hlen : (Call2.allItems cs).length < 2 ^ 32) (hnan : ∀ y ∈ Call2.allItems cs, y ≠ .nan) (x : Fl K) (hx : x ≠ .nan) :
    exp (RCSketch2.runCalls sec k cs >>= fun s => s.interpolateRank x) (fun r => (r : ℚ)) = rank (Call2.allItems cs) x := by
  rw [exp_calls_interpolate sec hs h2 k cs hlen hg hx (fun r => r)]
  exact C134_rank_unbiased sec hs k cs hm hr hlen hnan x

/-- C134. The mean squared error of `interpolate_rank`. -/
theorem C134_interpolate_squared_error (sec : Nat → Nat) (hs : SecOK sec) (h2 : ∀ j, j ≤ 4 → 2 ≤ sec j) (k : Nat) (cs : List (Call2 K))
    (hm : ∀ c ∈ cs, ∀ m, c.method? = some m → m = .default) (hr : Call2.InRange 1 cs) (hg : Call2.grows cs ≤ 14)
    (hlen : (Call2.allItems cs).length < 2 ^ 32) (hnan : ∀ y ∈ Call2.allItems cs, y ≠ .nan) (x : Fl K) (hx : x ≠ .nan) :
    exp (RCSketch2.runCalls sec k cs >>= fun s => s.interpolateRank x) (fun r => ((r : ℚ) - rank (Call2.allItems cs) x) ^ 2) ≤
      exp (RCSketch2.runCalls sec k cs) (fun s => (wsum4 (s.levels.map Level2.compactions) : ℚ)) := by
  rw [exp_calls_interpolate sec hs h2 k cs hlen hg hx (fun r => (r - rank (Call2.allItems cs) x) ^ 2)]
  exact C134_mean_squared_error sec hs k cs hm hr hlen hnan x

/-- C134. Ranks up to half the capacity of a new level stay exact under any mix of public calls. -/
theorem C134_low_ranks_exact (sec : Nat → Nat) (hs : SecOK sec) (k : Nat) (cs : List (Call2 K))
    (hm : ∀ c ∈ cs, ∀ m, c.method? = some m → m = .default) (x : Fl K) (hx : x ≠ .nan)
    (hP : rank (Call2.allItems cs) x ≤ 3 * sec 0) :
    Partially (RCSketch2.runCalls sec k cs) (fun s => Partially (s.interpolateRank x) (fun r => r = rank (Call2.allItems cs) x)) := by
  refine (calls_partially hs (low_hist hs (A := fun _ => True) x) ?_ k cs ?_ ?_).mono ?_
  · intro l ls h hA
    obtain ⟨h1, h2, h3⟩ := h hA
    refine ⟨lvl_grow h1, good_grow h2, fun hP => ?_⟩
    obtain ⟨l0, ls', rfl, h4, h5⟩ := h3 hP
    refine ⟨l0, ls' ++ [newLevel []], rfl, h4, ?_⟩
    intro lv hlv
    rcases List.mem_append.1 hlv with hlv | hlv
    · exact h5 lv hlv
    · simp at hlv; subst hlv; simp [newLevel, rank]
  · intro c hc
    refine okCall_mono ?_ (okCall_default (hm c hc))
    intro f m h u out hu _ hout
    subst h
    exact ⟨by simp, RCSketch.isOut_rank_default hu hout x⟩
  · intro _
    refine ⟨by simp [lvlOK_new], by simp, fun _ => ⟨_, _, rfl, by simp [newLevel], by simp⟩⟩
  · intro s hst
    obtain ⟨-, -, h⟩ := hst.inv (by simp)
    obtain ⟨l0, ls', he, h1, h2⟩ := h hP
    refine (rankFrom_partially hx s.buffers 0 0).mono ?_
    rintro r rfl
    rw [← Wt_buffers, he, Wt_cons, h1]
    have : Wt (fun b => rank b x) ls' = 0 := by
      clear he
      induction ls' with
      | nil => rfl
      | cons a l ih => rw [Wt_cons, h2 a (by simp), ih (fun l hl => h2 l (by simp [hl]))]
    rw [this]; simp

/-! Concrete cases. -/
section examples
attribute [local instance] ratExact
attribute [local instance] ratExact_exact

/-- A mix of all six kinds of calls. -/
def calls2 : List (Call2 ℚ) := [.ins (.addBuffer (upTo 30)), .compress false .default, .grow, .updateSections 1,
  .insert (.fin 3) true .default, .insertBatch (upTo 20) false .default, .compress true .default]

/-- 51 items supplied, 30 of them counted; the last `compress` compacts the first level, which has reached its own capacity
though the sketch as a whole has not. -/
theorem C134_example : Always (RCSketch2.runCalls (realSec 4) 4 calls2) (fun s => s.count = 30 ∧ s.buffers.length = 3 ∧
    s.levels.map Level2.compactions = [3, 0, 0]) ∧ (Call2.allItems calls2).length = 51 ∧ Call2.InRange 1 calls2 := by
  refine ⟨by decide +kernel, by decide +kernel, ?_⟩
  simp [calls2, Call2.InRange]
end examples
end AQ

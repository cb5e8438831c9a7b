/-
Properties C83 and C84: the error of quantile and value queries after one batch, in exact arithmetic.
-/
import Mathlib.Tactic.Linarith
import Mathlib.Tactic.FieldSimp
import Verif.Proofs.TDAccuracy2

set_option linter.unusedSectionVars false
set_option linter.unusedVariables false

namespace AQ
open Prog Spec
variable {K : Type} [Field K] [LinearOrder K] [IsStrictOrderedRing K] [FloatFmt K]
namespace TDigest

theorem countP_toK {xs : List (Fl K)} (h : ∀ x ∈ xs, Item x) (f : Fl K → Bool) (g : K → Bool)
    (hfg : ∀ y, f (.fin y) = g y) : xs.countP f = (xs.map Fl.toK).countP g := by
  rw [List.countP_map]
  apply List.countP_congr
  intro x hx
  obtain ⟨y, rfl⟩ := (h x hx).1
  simp [hfg, Fl.toK]

theorem rankWithin_of {xs : List (Fl K)} (h : ∀ x ∈ xs, Item x) {l : List K} (hp : l.Perm (xs.map Fl.toK)) {r x err : K}
    (h1 : lts x l ≤ r + err) (h2 : r ≤ les x l + err) : RankWithin xs r x err := by
  unfold RankWithin
  rw [countP_toK h (fun y => Fl.lt y (.fin x)) (fun y => y < x) (fun y => by simp),
    countP_toK h (fun y => Fl.le y (.fin x)) (fun y => y ≤ x) (fun y => by simp), ← hp.countP_eq, ← hp.countP_eq]
  exact ⟨h1, h2⟩

theorem Close.within {E x M : K} {runs : List (List K)} (h : Close E x runs) (hM : ∀ r ∈ runs, len r ≤ M) (h0 : 0 ≤ M) :
    lts x runs.flatten ≤ E + 3 / 2 * M ∧ E ≤ les x runs.flatten + 3 / 2 * M := by
  rcases h with ⟨h1, h2⟩ | ⟨pre, mid, post, m, he, -, ⟨r, hr, hm⟩, -, -, h1, h2⟩
  · constructor <;> linarith
  · have := hM r (by rw [he]; simp [hr])
    subst hm
    constructor <;> linarith

/-- The answer of a quantile query. -/
theorem batch_quantile [FloatFmt.Exact K] {d : TDigest K} {runs : List (List K)} {a b : K} (hv : View d (runs.map mw) a b)
    (hr : ∀ r ∈ runs, r ≠ []) (hp : runs.flatten.Pairwise (· ≤ ·)) (ha : a ∈ runs.flatten) (hb : b ∈ runs.flatten)
    (ham : ∀ y ∈ runs.flatten, a ≤ y) (hbm : ∀ y ∈ runs.flatten, y ≤ b) (x : K) :
    ∃ e, d.estQuantileAtValue (.fin x) = .ret (.fin e) ∧ Close (len runs.flatten * e) x runs := by
  by_cases h2 : 2 ≤ (runs.map mw).length
  · exact ⟨_, estQuantile_eq hv h2 x, estQ_close hv.ne hr hp ha hb ham hbm x⟩
  · obtain ⟨r, rfl⟩ : ∃ r, runs = [r] := by
      match runs, hv.ne, h2 with
      | [r], _, _ => exact ⟨r, rfl⟩
      | _ :: _ :: _, _, h => simp at h
    refine ⟨_, estQuantile_single hv x, ?_⟩
    simp only [List.flatten_cons, List.flatten_nil, List.append_nil] at *
    split
    · left
      rename_i h
      simp only [List.flatten_cons, List.flatten_nil, List.append_nil]
      rw [lts_zero (fun y hy => h.le.trans (ham y hy)), mul_zero]
      exact ⟨le_refl _, les_nonneg _ _⟩
    · split
      · left
        rename_i h
        simp only [List.flatten_cons, List.flatten_nil, List.append_nil]
        rw [les_all (fun y hy => (hbm y hy).trans h.le), mul_one]
        exact ⟨lts_le_len _ _, le_refl _⟩
      · rename_i h1 h3
        have := len_nonneg r
        exact close_one ⟨a, ha, not_lt.1 h1⟩ ⟨b, hb, not_lt.1 h3⟩ (by simp) (by linarith) (by linarith)

theorem batch_weight [FloatFmt.Exact K] {d : TDigest K} {runs : List (List K)} {a b : K} (hv : View d (runs.map mw) a b) {M : K}
    (hM : ∀ c ∈ d.centroids, c.weight.toK ≤ M) : ∀ r ∈ runs, len r ≤ M := by
  intro r hr
  exact hM (toC (mw r)) (by rw [hv.cs]; exact List.mem_map.2 ⟨mw r, List.mem_map.2 ⟨r, hr, rfl⟩, rfl⟩)

theorem len_perm {l : List K} {xs : List (Fl K)} (hp : l.Perm (xs.map Fl.toK)) : len l = (xs.length : K) := by
  unfold len; rw [hp.length_eq, List.length_map]

/-- `k0`: every centroid of a batch weighs at most `max 1 (2 n / δ)`. -/
theorem batch_weight_k0 [FloatFmt.Exact K] {δ : K} (hδ : 0 < δ) {runs : List (List K)} (hr : ∀ r ∈ runs, r ≠ [])
    (h : ∀ pre r post, runs = pre ++ r :: post → 2 ≤ r.length →
        Fl.le (.fin (len r)) (sizeLimit (k0 : ScaleFn K) invK0 (.fin δ) (len runs.flatten) (len pre.flatten)) = true) :
    ∀ r ∈ runs, len r ≤ Max.max 1 (2 * len runs.flatten / δ) := by
  intro r hm
  by_cases h2 : 2 ≤ r.length
  · obtain ⟨pre, post, he⟩ := List.append_of_mem hm
    have h3 := h pre r post he h2
    have hn : len runs.flatten ≠ 0 := by
      have h4 := one_le_len (hr r hm)
      have h5 : len r ≤ len runs.flatten := by
        rw [he]
        simp only [List.flatten_append, List.flatten_cons, len_append]
        have := len_nonneg pre.flatten
        have := len_nonneg post.flatten
        linarith
      linarith
    rw [sizeLimit_k0 hδ.ne' hn, Fl.le_fin] at h3
    exact le_max_of_le_right (of_decide_eq_true h3)
  · refine le_max_of_le_left ?_
    unfold len
    exact_mod_cast (by omega : r.length ≤ 1)

end TDigest

/-- C83. After one `add_buffer` call on a new digest, with any scale functions, the quantile estimated for any `x` is, as a
rank, at most one and a half times the heaviest centroid away from the true rank of `x`. -/
theorem C83_quantile_error [FloatFmt.Exact K] (s i : ScaleFn K) (cf : Fl K) (xs : List (Fl K)) (hne : xs ≠ [])
    (hg : ∀ x ∈ xs, Item x) :
    Always ((TDigest.new s i cf).addBuffer xs) (fun d => ∀ M : K, (∀ c ∈ d.centroids, c.weight.toK ≤ M) → ∀ x : K,
      ∃ e : K, d.estQuantileAtValue (.fin x) = .ret (.fin e) ∧ RankWithin xs (xs.length * e) x (3 / 2 * M)) := by
  refine (TDigest.batch_runs s i cf xs hne hg).mono ?_
  rintro d ⟨runs, a, b, hv, hr, hp, hperm, ha, hb, ham, hbm, -⟩ M hM x
  obtain ⟨e, h1, h2⟩ := TDigest.batch_quantile hv hr hp ha hb ham hbm x
  have hM' := TDigest.batch_weight hv hM
  rw [TDigest.len_perm hperm] at h2
  obtain ⟨r, hrm⟩ := List.exists_mem_of_ne_nil runs (fun h => hv.ne (by simp [h]))
  obtain ⟨h3, h4⟩ := TDigest.Close.within h2 hM' ((TDigest.len_nonneg r).trans (hM' r hrm))
  exact ⟨e, h1, TDigest.rankWithin_of hg hperm h3 h4⟩

/-- C83 with the scale function `k0`: the error is at most `3 / δ` (as a quantile), or one and a half items if that is more. -/
theorem C83_quantile_error_k0 [FloatFmt.Exact K] (δ : K) (hδ : 0 < δ) (xs : List (Fl K)) (hne : xs ≠ [])
    (hg : ∀ x ∈ xs, Item x) :
    Always ((TDigest.new k0 invK0 (.fin δ)).addBuffer xs) (fun d => ∀ x : K,
      ∃ e : K, d.estQuantileAtValue (.fin x) = .ret (.fin e) ∧
        RankWithin xs (xs.length * e) x (Max.max (3 / 2) (3 / δ * xs.length))) := by
  refine (TDigest.batch_runs k0 invK0 (.fin δ) xs hne hg).mono ?_
  rintro d ⟨runs, a, b, hv, hr, hp, hperm, ha, hb, ham, hbm, hlim⟩ x
  obtain ⟨e, h1, h2⟩ := TDigest.batch_quantile hv hr hp ha hb ham hbm x
  have hM' := TDigest.batch_weight_k0 hδ hr hlim
  obtain ⟨h3, h4⟩ := TDigest.Close.within h2 hM' (le_max_of_le_left zero_le_one)
  have e1 : (3 / 2 : K) * Max.max 1 (2 * TDigest.len runs.flatten / δ) = Max.max (3 / 2) (3 / δ * xs.length) := by
    rw [← TDigest.len_perm hperm, mul_max_of_nonneg _ _ (by norm_num)]
    congr 1
    · ring
    · ring
  rw [e1, TDigest.len_perm hperm] at h3 h4
  exact ⟨e, h1, TDigest.rankWithin_of hg hperm h3 h4⟩

/-- C84, partial: after one `add_buffer` call on a new digest the value estimated for the quantile `q` has, as a rank, an error
of at most one and a half times the heaviest centroid, unless `q` lies right of the middle of the last centroid.
Without the exception the statement is false: `C84_value_error_tail`. -/
theorem C84_value_error_partial [FloorRing K] [FloatFmt.Exact K] (s i : ScaleFn K) (cf : Fl K) (xs : List (Fl K)) (hne : xs ≠ [])
    (hg : ∀ x ∈ xs, Item x) (h64 : (xs.length : K) < 2 ^ 64) :
    Always ((TDigest.new s i cf).addBuffer xs) (fun d => ∀ M : K, (∀ c ∈ d.centroids, c.weight.toK ≤ M) →
      ∀ (last : Centroid K) (q : K), d.centroids.getLast? = some last → 0 ≤ q → q ≤ 1 →
      ¬ InLastTail (xs.length : K) last.weight.toK q →
      ∃ v : K, d.estValueAtQuantile (.fin q) = .ret (.fin v) ∧ RankWithin xs (xs.length * q) v (3 / 2 * M)) := by
  refine (TDigest.batch_runs s i cf xs hne hg).mono ?_
  rintro d ⟨runs, a, b, hv, hr, hp, hperm, ha, hb, ham, hbm, -⟩ M hM last q hlast h0 h1 ht
  have hlst : d.centroids.getLast? = some (TDigest.toC ((runs.map TDigest.mw).getLast hv.ne)) := by
    rw [hv.cs, List.getLast?_map, List.getLast?_eq_some_getLast hv.ne]; rfl
  rw [hlst, Option.some.injEq] at hlast
  subst hlast
  have hW : TDigest.wt (runs.map TDigest.mw) = (xs.length : K) := by rw [TDigest.wt_mw, TDigest.len_perm hperm]
  have hl := TDigest.len_perm hperm
  have hn0 : (0 : K) ≤ xs.length := Nat.cast_nonneg _
  have hw1 : ∀ p ∈ runs.map TDigest.mw, 1 ≤ p.2 := by
    intro p hp'
    obtain ⟨r, hrm, rfl⟩ := List.mem_map.1 hp'
    exact TDigest.one_le_len (hr r hrm)
  have hM' := TDigest.batch_weight hv hM
  obtain ⟨r, hrm⟩ := List.exists_mem_of_ne_nil runs (fun h => hv.ne (by simp [h]))
  obtain ⟨v, h2, h3⟩ := TDigest.estV_close hv.ne hr hp ha hb ham hbm (t := xs.length * q) (mul_nonneg hn0 h0)
    (by rw [hl]; nlinarith) (by unfold TDigest.InTail; rw [hW]; exact ht)
  obtain ⟨h4, h5⟩ := TDigest.Close.within h3 hM' ((TDigest.len_nonneg r).trans (hM' r hrm))
  refine ⟨v, ?_, TDigest.rankWithin_of hg hperm h4 h5⟩
  rw [TDigest.estValue_eq hv hw1 (by rw [hW]; exact h64), hW, h2]

attribute [local instance] ratExact ratExact_exact

/-- Sixteen items within 0.015 of 0, in one batch. -/
def tailData : List (Fl ℚ) := (List.range 16).map (fun i : ℕ => .fin ((i : ℚ) / 1000))

/-- C84 is false without the exception: no centroid weighs more than 4, but the value estimated for the quantile 14/16 is below
every item, an error of 14 ranks. -/
theorem C84_value_error_tail :
    Always ((TDigest.new k0 invK0 (.fin 8) : TDigest ℚ).addBuffer tailData)
      (fun d => (∀ c ∈ d.centroids, c.weight.toK ≤ 4) ∧
        Always (d.estValueAtQuantile (.fin (14 / 16))) (fun v => ∀ x ∈ tailData, Fl.lt v x = true)) := by decide +kernel

/-- Non-vacuity: a batch meeting the hypotheses of C83 and C84 whose items are merged. -/
example : tailData ≠ [] ∧ (∀ x ∈ tailData, Item x) ∧
    Always ((TDigest.new k0 invK0 (.fin 8) : TDigest ℚ).addBuffer tailData) (fun d => d.centroids.length = 4) := by
  refine ⟨by decide +kernel, ?_, by decide +kernel⟩
  have h : ∀ x ∈ tailData, Fl.minValue ≤ x ∧ x ≤ Fl.maxValue := by decide +kernel
  intro x hx
  refine ⟨?_, h x hx⟩
  obtain ⟨i, -, rfl⟩ := List.mem_map.1 hx
  exact ⟨_, rfl⟩

end AQ

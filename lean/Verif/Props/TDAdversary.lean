/-
Property C85: what remains of the accuracy of a `k0` digest when the items do not come in one batch.
-/
import Mathlib.Tactic.Linarith
import Mathlib.Tactic.FieldSimp
import Mathlib.Algebra.Order.Archimedean.Basic
import Verif.Proofs.TDAdversary
import Verif.Props.TDAccuracy

set_option linter.unusedSectionVars false
set_option linter.unusedVariables false

namespace AQ
open Prog Spec
variable {K : Type} [Field K] [LinearOrder K] [IsStrictOrderedRing K] [FloatFmt K]
namespace TDigest

theorem supplied_adds (ys : List K) : supplied (adds ys) = ys.map (fun y => (⟨.fin y, .fin 1⟩ : Centroid K)) := by
  unfold supplied adds
  induction ys with
  | nil => rfl
  | cons y ys ih => simp only [List.map_cons, List.flatMap_cons, ih]; rfl

/-- The queries at the end of the attack. -/
theorem Adv.queries [FloorRing K] [FloatFmt.Exact K] {δ L n0 : K} {d : TDigest K} {ys : List K} {m u : K} (hδ : 4 ≤ δ)
    (hmax : (2 : K) ≤ FloatFmt.maxVal) (hne : ys ≠ []) (hx : (TDigest.new k0 invK0 (.fin δ)).execOps (adds ys) = .ret d)
    (h : Adv δ L n0 d ys m u) (hn : δ ≤ len ys) (hlt : les m ys < len ys) :
    (∃ x e : K, d.estQuantileAtValue (.fin x) = .ret (.fin e) ∧ 1 - 1 / δ ≤ e ∧ les x ys = les m ys) ∧
    (len ys < 2 ^ 64 → ∀ q : K, 0 ≤ q → q < 1 - 1 / δ →
      ∃ v : K, d.estValueAtQuantile (.fin q) = .ret (.fin v) ∧ les v ys ≤ les m ys) := by
  have hδ0 : 0 < δ := by linarith
  have hn0 : 0 < len ys := by linarith
  have hsn : supplied (adds ys) ≠ [] := by rw [supplied_adds]; simpa using hne
  have hrv := reach_view (k0 : ScaleFn K) invK0 (.fin δ) (adds ys) hsn (by
    intro c hc
    rw [supplied_adds] at hc
    obtain ⟨y, hy, rfl⟩ := List.mem_map.1 hc
    obtain ⟨h0, h2⟩ := h.range.1 y hy
    refine ⟨⟨⟨_, rfl⟩, 1, zero_lt_one, rfl⟩, ?_, ?_⟩
    · show -FloatFmt.maxVal ≤ y
      linarith
    · show y ≤ FloatFmt.maxVal
      linarith)
  rw [hx] at hrv
  obtain ⟨hi, l, a, b, hv, hwt, hcl⟩ := hrv
  have hW : wt l = len ys := by
    rw [← totalW_toC, ← hv.cs, h.total]
  obtain ⟨front, f, z, hcs, hzm, -⟩ := h.phase
  have hlast : l.getLast hv.ne = (m, z.weight.toK) := by
    have h1 : d.centroids.getLast? = some (toC (l.getLast hv.ne)) := by
      rw [hv.cs, List.getLast?_map, List.getLast?_eq_some_getLast hv.ne]; rfl
    rw [hcs] at h1
    have h2 : z = toC (l.getLast hv.ne) := by simpa using h1
    have h3 : (Fl.fin (l.getLast hv.ne).1 : Fl K) = .fin m := by rw [← hzm, h2]; rfl
    have h4 : (l.getLast hv.ne).2 = z.weight.toK := by rw [h2]; rfl
    rw [← h4]
    injection h3 with h3
    rw [← h3]
  have hlen2 : 2 ≤ l.length := by
    have : d.centroids.length = l.length := by rw [hv.cs, List.length_map]
    rw [← this, hcs]; simp
  have hw1 : ∀ p ∈ l, 1 ≤ p.2 := by
    apply hcl (fun w => 1 ≤ w) (fun a b ha hb => by linarith)
    intro c hc
    rw [supplied_adds] at hc
    obtain ⟨y, hy, rfl⟩ := List.mem_map.1 hc
    exact le_refl _
  have hzw : z.weight.toK / 2 ≤ len ys / δ := by
    have := h.weight z (by rw [hcs]; simp)
    have h2 : Max.max 1 (2 * len ys / δ) = 2 * len ys / δ := by
      apply max_eq_right
      rw [le_div_iff₀ hδ0]; linarith
    rw [h2] at this
    have e : 2 * len ys / δ = 2 * (len ys / δ) := by ring
    linarith
  have hnd : 1 ≤ len ys / δ := by rw [le_div_iff₀ hδ0]; linarith
  -- an item at least `u`
  obtain ⟨y0, hy0, hy0u⟩ : ∃ y ∈ ys, u ≤ y := by
    by_contra hcon
    push Not at hcon
    have : les m ys = len ys := les_all (fun y hy => (h.sep y hy).resolve_right (not_le.2 (hcon y hy)))
    linarith
  have hub : u ≤ b := by
    have h1 := (hi.max_eq hsn).2 ⟨.fin y0, .fin 1⟩ (by rw [supplied_adds]; exact List.mem_map.2 ⟨y0, hy0, rfl⟩)
    rw [hv.mx] at h1
    have : y0 ≤ b := by simpa using h1
    linarith
  have hhead : (l.head hv.ne).1 ≤ m := by
    have := getLast_mono hv.sorted hv.ne _ (List.head_mem hv.ne)
    rw [hlast] at this
    exact this
  have halo := hv.lo _ (List.head_mem hv.ne)
  have hgap := h.gap
  constructor
  · set x := (m + u) / 2 with hxd
    have h1 : m < x := by rw [hxd]; linarith
    have h2 : x < u := by rw [hxd]; linarith
    refine ⟨x, _, estQuantile_eq hv hlen2 x, ?_, les_same h.sep h1.le h2⟩
    unfold estQ
    rw [if_neg (by linarith), if_neg (by linarith), if_neg (by linarith), hlast, if_pos h1, if_neg (by linarith), hW]
    have hbm : 0 < b - m := by linarith
    have hf0 : 0 ≤ (b - x) / (b - m) := div_nonneg (by linarith) hbm.le
    have hf1 : (b - x) / (b - m) ≤ 1 := (div_le_one hbm).2 (by linarith)
    have : (1 + (b - x) / (b - m) * (z.weight.toK / 2 - 1)) / len ys ≤ 1 / δ := by
      rw [div_le_iff₀ hn0]
      have e : 1 / δ * len ys = len ys / δ := by ring
      rw [e]
      have h3 : z.weight.toK / 2 - 1 ≤ len ys / δ - 1 := by linarith
      have h4 := mul_le_mul_of_nonneg_left h3 hf0
      have h5 := mul_le_of_le_one_left (by linarith : 0 ≤ len ys / δ - 1) hf1
      linarith
    linarith
  · intro h64 q hq0 hq1
    have ht : len ys * q < len ys - len ys / δ := by
      have := mul_lt_mul_of_pos_left hq1 hn0
      have e : len ys * (1 - 1 / δ) = len ys - len ys / δ := by ring
      linarith
    have key : ∃ v, estV l hv.ne a b (len ys * q) = .fin v ∧ v ≤ m := by
      unfold estV
      rw [hlast, hW]
      split
      · exact ⟨a, rfl, by linarith⟩
      · rename_i h1
        split
        · rename_i h2
          exact ⟨_, rfl, (left_value halo (not_lt.1 h1) h2.2).2.trans hhead⟩
        · rw [if_neg (by linarith), if_neg (by rintro ⟨-, h3⟩; linarith)]
          refine ⟨_, rfl, ?_⟩
          have := (vLoop_mem (len ys * q) l ((l.head hv.ne).2 / 2) hv.ne hv.sorted).2
          rw [hlast] at this
          exact this
    obtain ⟨v, h1, h2⟩ := key
    refine ⟨v, ?_, ?_⟩
    · rw [estValue_eq hv hw1 (by rw [hW]; exact h64), hW, h1]
    · unfold les
      exact_mod_cast List.countP_mono_left (fun y hy h3 => by
        simp only [decide_eq_true_eq] at h3 ⊢; linarith)

end TDigest

/-- C85 is false for histories of single `add` calls: with `k0`, any compression factor of at least 4 and any `ε > 0`, for every
large enough `n` there are `n` items whose insertion one by one leaves a digest which
* estimates the quantile of some `x` to be at least `1 - 1/δ` although at most `ε·n` items are `≤ x`, and
* answers every value query for a quantile below `1 - 1/δ` (the median, say) with a value among the lowest `ε·n` items. -/
theorem C85_adds_no_accuracy [FloorRing K] [FloatFmt.Exact K] (hmax : (2 : K) ≤ FloatFmt.maxVal) (δ ε : K) (hδ : 4 ≤ δ)
    (hε : 0 < ε) : ∃ N : ℕ, ∀ n : ℕ, N ≤ n → ∃ ys : List (Fl K), ys.length = n ∧
      (∀ y ∈ ys, Fl.le (.fin 0) y = true ∧ Fl.le y (.fin 2) = true) ∧
      Always ((TDigest.new k0 invK0 (.fin δ)).execOps (ys.map TDigest.TOp.add)) (fun d =>
        (∃ x e : K, d.estQuantileAtValue (.fin x) = .ret (.fin e) ∧ 1 - 1 / δ ≤ e ∧
          (ys.countP (fun y => Fl.le y (.fin x)) : K) ≤ ε * n) ∧
        ((n : K) < 2 ^ 64 → ∀ q : K, 0 ≤ q → q < 1 - 1 / δ → ∃ v : K, d.estValueAtQuantile (.fin q) = .ret (.fin v) ∧
          (ys.countP (fun y => Fl.le y (.fin v)) : K) ≤ ε * n)) := by
  have : Archimedean K := FloorRing.archimedean K
  have hδ0 : 0 < δ := by linarith
  set η := Min.min ε (1 / 2) with hη
  have hη0 : 0 < η := lt_min hε (by norm_num)
  have hη1 : η ≤ 1 / 2 := min_le_right _ _
  have hηε : η ≤ ε := min_le_left _ _
  set L : K := 4 / η with hLd
  have hL : 1 ≤ L := by rw [hLd, le_div_iff₀ hη0]; linarith
  obtain ⟨n1, hn1⟩ := exists_nat_ge (δ * (L + 1))
  set n0 := n1 + 2 with hn0d
  have hn0 : L + 1 ≤ 2 * (n0 : K) / δ := by
    rw [le_div_iff₀ hδ0, hn0d]
    push_cast
    have : (0 : K) ≤ n1 := Nat.cast_nonneg _
    linarith
  obtain ⟨N1, hN1⟩ := exists_nat_ge (2 * ((n0 : K) + 2) / η + δ)
  refine ⟨N1 + 2, fun n hn => ?_⟩
  obtain ⟨d, ys, m, u, hlen, hx, hadv⟩ := TDigest.adv_run (L := L) (n0 := n0) hδ hL (by omega) hn0 (n - 2)
  have hlenn : ys.length = n := by omega
  have hlenK : TDigest.len ys = (n : K) := by unfold TDigest.len; rw [hlenn]
  have hnN : (N1 : K) ≤ n := by exact_mod_cast (by omega : N1 ≤ n)
  have hnn : 2 * ((n0 : K) + 2) / η + δ ≤ n := hN1.trans hnN
  have hq : 0 ≤ 2 * ((n0 : K) + 2) / η := by positivity
  have hnpos : (0 : K) < n := by linarith
  have hcount : TDigest.les m ys ≤ η * n := by
    obtain ⟨front, f, l, hcs, -, hph⟩ := hadv.phase
    have hl0 : 0 < l.weight.toK := (hadv.good l (by rw [hcs]; simp)).weight_pos
    have h1 : L * TDigest.les m ys ≤ L * n0 + 2 * n + 2 * L := by
      rw [hlenK] at hph
      rcases hph with ⟨-, -, h⟩ | ⟨-, h⟩ <;> linarith
    have h2 : 2 * ((n0 : K) + 2) ≤ η * n := by
      have : 2 * ((n0 : K) + 2) / η ≤ n := by linarith
      rw [div_le_iff₀ hη0] at this
      linarith
    have h3 : L * η = 4 := by rw [hLd]; field_simp
    have h4 : L * TDigest.les m ys ≤ L * (η * n) := by
      have e : L * (η * n) = 4 * n := by rw [← mul_assoc, h3]
      have h5 : L * (2 * ((n0 : K) + 2)) ≤ L * (η * n) := mul_le_mul_of_nonneg_left h2 (by linarith)
      rw [e] at h5 ⊢
      linarith
    exact le_of_mul_le_mul_left h4 (by linarith)
  have hlt : TDigest.les m ys < TDigest.len ys := by
    rw [hlenK]
    have : η * n ≤ 1 / 2 * n := mul_le_mul_of_nonneg_right hη1 hnpos.le
    linarith
  have hlε : η * (n : K) ≤ ε * n := mul_le_mul_of_nonneg_right hηε hnpos.le
  have hne : ys ≠ [] := by rintro rfl; simp at hlen
  obtain ⟨⟨x, e, q1, q2, q3⟩, q4⟩ := hadv.queries hδ hmax hne hx (by rw [hlenK]; linarith) hlt
  have hcnt : ∀ v : K, ((ys.map Fl.fin).countP (fun y => Fl.le y (.fin v)) : K) = TDigest.les v ys := by
    intro v
    rw [List.countP_map]
    unfold TDigest.les
    congr 1
  refine ⟨ys.map Fl.fin, by simpa using hlenn, ?_, ?_⟩
  · intro y hy
    obtain ⟨z, hz, rfl⟩ := List.mem_map.1 hy
    have := hadv.range.1 z hz
    simpa using this
  · have e1 : (ys.map Fl.fin).map TDigest.TOp.add = TDigest.adds ys := by
      unfold TDigest.adds; rw [List.map_map]; rfl
    rw [e1, hx]
    refine ⟨⟨x, e, q1, q2, ?_⟩, ?_⟩
    · rw [hcnt, q3]; linarith
    · intro h64 q hq0 hq1
      obtain ⟨v, r1, r2⟩ := q4 (by rw [hlenK]; exact h64) q hq0 hq1
      exact ⟨v, r1, by rw [hcnt]; linarith⟩

attribute [local instance] ratExact ratExact_exact

/-- Non-vacuity: the statement at the compression factor 100 and `ε = 1/1000`; the median of the `n` items is estimated by one of
the lowest `n / 1000`. -/
example : ∃ N : ℕ, ∀ n : ℕ, N ≤ n → n < 2 ^ 64 → ∃ ys : List (Fl ℚ), ys.length = n ∧
    Always ((TDigest.new k0 invK0 (.fin 100) : TDigest ℚ).execOps (ys.map TDigest.TOp.add)) (fun d =>
      ∃ v : ℚ, d.estValueAtQuantile (.fin (1 / 2)) = .ret (.fin v) ∧
        (ys.countP (fun y => Fl.le y (.fin v)) : ℚ) ≤ 1 / 1000 * n) := by
  obtain ⟨N, hN⟩ := C85_adds_no_accuracy (K := ℚ) (by decide +kernel) 100 (1 / 1000) (by norm_num) (by norm_num)
  refine ⟨N, fun n hn h64 => ?_⟩
  obtain ⟨ys, h1, -, h2⟩ := hN n hn
  exact ⟨ys, h1, h2.mono fun d h => h.2 (by exact_mod_cast h64) (1 / 2) (by norm_num) (by norm_num)⟩

end AQ

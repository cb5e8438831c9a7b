/-
C127: a TDigest that has not merged any items is exact, in floating point.
-/
import Verif.Proofs.TDPlain
import Verif.Props.TDRoundSize

set_option linter.unusedSectionVars false
set_option linter.unusedVariables false

namespace AQ
open Prog Spec
variable {K : Type} [Field K] [LinearOrder K] [IsStrictOrderedRing K] [FloatFmt K]

/-- The items a digest was given: numbers of the format, between `A` and `B`, each with weight 1. -/
structure PlainItems (A B : K) (ops : List (TDigest.TOp K)) (xs : List K) : Prop where
  items : TDigest.supplied ops = xs.map (fun x => ⟨.fin x, .fin 1⟩)
  numbers : ∀ x ∈ xs, FloatFmt.rnd x = .fin x
  within : ∀ x ∈ xs, A ≤ x ∧ x ≤ B

namespace TDigest

theorem totalW_one : ∀ xs : List K, totalW (xs.map one) = (xs.length : K)
  | [] => by simp
  | a :: l => by rw [List.map_cons, totalW_cons, totalW_one l]; simp [one, Fl.toK, add_comm]

theorem within_one {A B : K} {xs : List K} (h : ∀ x ∈ xs, A ≤ x ∧ x ≤ B) : ∀ c ∈ xs.map one, Within A B c := by
  intro c hc
  obtain ⟨y, hy, rfl⟩ := List.mem_map.1 hc
  exact ⟨y, 1, rfl, (h y hy).1, (h y hy).2, by simp [one], le_rfl⟩

theorem reach_plain [FloatFmt.Mono K] {A B : K} {N : Nat} (R : Roomy N A B) (s i : ScaleFn K) (cf : Fl K) {ops : List (TOp K)} {xs : List K}
    (h : PlainItems A B ops xs) (hN : xs.length ≤ N) :
    Always ((new s i cf).execOps ops) (fun d => RInv A B d (xs.map one) ∧ Plain d xs) := by
  have hs : supplied ops = xs.map one := h.items
  refine (execOps_rinv R ops _ [] (new_rinv A B s i cf) (by simp) (by rw [hs]; exact within_one h.within)
    (by rw [List.nil_append, hs, totalW_one]; exact_mod_cast hN)).and (execOps_plain ops _ [] xs (new_plain s i cf) hs ?_) |>.mono ?_
  · intro x hx
    rw [List.nil_append] at hx
    exact ⟨h.numbers x hx, R.range.1.trans (h.within x hx).1, (h.within x hx).2.trans R.range.2.2⟩
  · intro d h2
    rw [hs] at h2
    exact h2

theorem midK_eq_midRank {l xs : List K} (hp : l.Perm xs) (x : K) : midRank (xs.map Fl.fin) (.fin x) = midK l x := by
  unfold midRank midK
  have c1 : (xs.map Fl.fin).countP (fun y => Fl.lt y (.fin x)) = l.countP (fun y => y < x) := by
    rw [hp.countP_eq, List.countP_map]
    apply List.countP_congr
    intro p hp
    simp [Function.comp]
  have c2 : (xs.map Fl.fin).countP (fun y => Fl.feq y (.fin x)) = l.countP (fun y => y = x) := by
    rw [hp.countP_eq, List.countP_map]
    apply List.countP_congr
    intro p hp
    simp [Function.comp]
  rw [c1, c2]

end TDigest

/-- C127. As long as no two items have been merged (as many centroids as items) a digest of at least two items gives, in floating point, the
same quantile estimate as a LinearDigest of the same items, bit for bit and for every value; any scale function. -/
theorem C127_quantile_round [FloatFmt.Mono K] [FloorRing K] {A B : K} {N : Nat} (R : Roomy N A B) (s i : ScaleFn K) (cf : Fl K)
    {ops : List (TDigest.TOp K)} {xs : List K} (h : PlainItems A B ops xs) (h2 : 2 ≤ xs.length) (hN : xs.length ≤ N) :
    Always ((TDigest.new s i cf).execOps ops) (fun d => d.centroids.length = xs.length → ∀ x : K,
      d.estQuantileAtValue (.fin x) = .ret ((⟨xs.map .fin⟩ : LinearDigest K).estQuantileAtValue (.fin x))) := by
  refine (TDigest.reach_plain R s i cf h hN).mono ?_
  rintro d ⟨-, -, hp⟩ hlen x
  obtain ⟨l, p1, p2, p3, p4, p5⟩ := hp hlen
  have hl := p1.length_eq
  rw [TDigest.estQuantile_plain R p2 p3 p4 p5 (fun y hy => h.within y (p1.mem_iff.1 hy)) (by omega) (by omega)]
  rw [LinearDigest.estQuantile_eq _ _ (by
    show xs.map Fl.fin ≠ []
    intro e
    rw [List.map_eq_nil_iff] at e
    subst e
    simp at h2) (by
    intro m hm
    simp only [List.length_map] at hm
    exact R.counts m (by omega)) FloatFmt.Mono.rnd_one FloatFmt.Mono.rnd_two]
  simp only [List.length_map]
  rw [TDigest.midK_eq_midRank p1, hl]

/-- C127. As long as no two items have been merged, the value at quantile `q` is an item: the one with `⌊fl(n q)⌋` items before it in sorted order
(the last one if there is none). -/
theorem C127_value_round [FloatFmt.Mono K] [FloorRing K] {A B : K} {N : Nat} (R : Roomy N A B) (hN64 : N < 2 ^ 64) (hd : CloseExact K N) (s i : ScaleFn K) (cf : Fl K)
    {ops : List (TDigest.TOp K)} {xs : List K} (h : PlainItems A B ops xs) (h0 : xs ≠ []) (hN : xs.length ≤ N) {q t : K}
    (hq : FloatFmt.rnd ((xs.length : K) * q) = .fin t) (ht : FloatFmt.rnd t = .fin t) :
    Always ((TDigest.new s i cf).execOps ops) (fun d => d.centroids.length = xs.length → ∃ v : K,
      d.estValueAtQuantile (.fin q) = .ret (.fin v) ∧ IsOrderStat xs (Min.min ⌊t⌋₊ (xs.length - 1)) v) := by
  refine (TDigest.reach_plain R s i cf h hN).mono ?_
  rintro d ⟨-, -, hp⟩ hlen
  obtain ⟨l, p1, p2, p3, p4, p5⟩ := hp hlen
  have hl := p1.length_eq
  have hpos : 0 < xs.length := List.length_pos_of_ne_nil h0
  have key := TDigest.estValue_plain R hN64 hd p3 p4 p5 (fun y hy => h.within y (p1.mem_iff.1 hy)) (by omega) (by omega) (q := q) (t := t)
    (by rw [hl]; exact hq) ht
  refine ⟨_, key, ?_⟩
  rw [← isOrderStat_perm p1, ← hl]
  exact isOrderStat_getElem p2 _

/-- If every centroid of a digest of weight-1 items has weight 1, no items have been merged. -/
theorem TDigest.length_of_units {A B : K} {d : TDigest K} {xs : List K} (h : TDigest.RInv A B d (xs.map TDigest.one))
    (hw : ∀ c ∈ d.centroids, c.weight = .fin 1) : d.centroids.length = xs.length := by
  have h1 := h.weight
  rw [TDigest.totalW_one] at h1
  have : ∀ l : List (Centroid K), (∀ c ∈ l, c.weight = .fin 1) → totalW l = (l.length : K) := by
    intro l
    induction l with
    | nil => simp
    | cons a l ih =>
      intro hl
      rw [totalW_cons, ih (fun c hc => hl c (by simp [hc])), hl a (by simp)]
      simp [Fl.toK, add_comm]
  rw [this _ hw] at h1
  exact_mod_cast h1

/-- C127. With `k0` nothing is merged while `n (2/δ + 40u) < 2`. -/
theorem C127_unmerged_round [FloatFmt.Mono K] {A B : K} {N : Nat} (R : Roomy N A B) {u η Rm δ : K} (E : RelErr u η Rm) (hηu : η ≤ u)
    (hu : u ≤ 1 / 2 ^ 10) (hδ : 1 ≤ δ) (hR1 : 12 * δ ≤ Rm) (hR2 : 12 * (N : K) ≤ Rm) {ops : List (TDigest.TOp K)} {xs : List K}
    (h : PlainItems A B ops xs) (hN : xs.length ≤ N) (hn : (xs.length : K) * (2 / δ + 40 * u) < 2) :
    Always ((TDigest.new k0 invK0 (.fin δ)).execOps ops) (fun d => d.centroids.length = xs.length) := by
  have hs : TDigest.supplied ops = xs.map TDigest.one := h.items
  refine ((TDigest.reach_plain R k0 invK0 (.fin δ) h hN).and (TDigest.execOps_k0Size (M0 := 1) R E hηu hu hδ hR1 hR2 ops _ []
    (TDigest.new_rinv A B k0 invK0 (.fin δ)) (TDigest.new_k0Size E.u_nonneg hu hδ) (by simp) (by rw [hs]; exact TDigest.within_one h.within)
    (by
      rw [hs]
      intro c hc
      obtain ⟨y, hy, rfl⟩ := List.mem_map.1 hc
      exact le_rfl) (by rw [List.nil_append, hs, TDigest.totalW_one]; exact_mod_cast hN)).partially).mono ?_
  rintro d ⟨⟨h1, -⟩, h2⟩
  refine TDigest.length_of_units h1 ?_
  intro c hc
  obtain ⟨w, hw, hle⟩ := h2.weights c hc
  rw [List.nil_append, hs, TDigest.totalW_one] at hle
  have hlt : (w : K) < 2 := lt_of_le_of_lt hle (max_lt (by norm_num) hn)
  have hw2 : w < 2 := by exact_mod_cast hlt
  obtain ⟨m, w', -, -, -, h5, h6⟩ := h1.within c hc
  rw [hw] at h5 ⊢
  have : w = 1 := by
    have := Fl.fin.inj h5
    have : w = w' := by exact_mod_cast this
    omega
  rw [this, Nat.cast_one]

section F64
attribute [local instance] f64Fmt f64_mono

/-- C127. `TDigest::<f64>::new(&k0, &inv_k0, D)`, `D ≤ 10^7`, with at least two and fewer than `D` items of magnitude up to `2^970`, inserted in any
way: the quantile estimates are those of a LinearDigest, and the value at `0 ≤ q ≤ 1` is the item with `⌊fl(n q)⌋` items before it. -/
theorem C127_f64 (D : Nat) (hD7 : D ≤ 10 ^ 7) {ops : List (TDigest.TOp ℚ)} {xs : List ℚ}
    (h : PlainItems (-2 ^ (970 : ℤ)) (2 ^ (970 : ℤ)) ops xs) (h2 : 2 ≤ xs.length) (hn : xs.length < D) :
    Always ((TDigest.new k0 invK0 (.fin (D : ℚ))).execOps ops) (fun d => d.count = .ret xs.length ∧ (∀ x : ℚ,
      d.estQuantileAtValue (.fin x) = .ret ((⟨xs.map .fin⟩ : LinearDigest ℚ).estQuantileAtValue (.fin x))) ∧
      ∀ q : ℚ, 0 ≤ q → q ≤ 1 → ∃ t v : ℚ, Ieee.double.rnd (xs.length * q) = .fin t ∧
        d.estValueAtQuantile (.fin q) = .ret (.fin v) ∧ IsOrderStat xs (Min.min ⌊t⌋₊ (xs.length - 1)) v) := by
  have hDq : (D : ℚ) ≤ 10 ^ 7 := by exact_mod_cast hD7
  have hnD : (xs.length : ℚ) + 1 ≤ D := by exact_mod_cast hn
  have h2q : (2 : ℚ) ≤ xs.length := by exact_mod_cast h2
  have hD0 : (0 : ℚ) < D := by linarith
  have hN : xs.length ≤ 2 ^ 52 := by omega
  have R := f64_roomy (e := 970) (by norm_num) le_rfl
  have hmax : (12 * 2 ^ 52 : ℚ) ≤ Ieee.double.max := by decide +kernel
  have hlen := C127_unmerged_round R f64_relErr (by decide +kernel) (by decide +kernel) (δ := (D : ℚ)) (by linarith) (by linarith)
    (by push_cast; linarith) h hN (by
      have e : (2 : ℚ) ^ (-53 : ℤ) = 1 / 2 ^ 53 := by decide +kernel
      rw [e]
      have e1 : (xs.length : ℚ) * (2 / D) ≤ 2 - 2 / D := by
        rw [mul_div_assoc', div_le_iff₀ hD0, sub_mul, div_mul_cancel₀ _ hD0.ne']
        linarith
      have e2 : (2 : ℚ) / 10 ^ 7 ≤ 2 / D := div_le_div_of_nonneg_left (by norm_num) hD0 hDq
      have e3 : (xs.length : ℚ) ≤ 10 ^ 7 := by linarith
      nlinarith)
  have hq := fun q (h0 : 0 ≤ q) (h1 : q ≤ 1) => show ∃ t, Ieee.double.rnd ((xs.length : ℚ) * q) = .fin t ∧ Ieee.double.rnd t = .fin t by
    obtain ⟨t, ht, -⟩ := f64_relErr.near ((xs.length : ℚ) * q) (by
      rw [abs_of_nonneg (by positivity)]
      have : (xs.length : ℚ) * q ≤ xs.length * 1 := mul_le_mul_of_nonneg_left h1 (by positivity)
      linarith)
    exact ⟨t, ht, f64_binary.rnd_idem _ _ ht⟩
  have hv : Partially ((TDigest.new k0 invK0 (.fin (D : ℚ))).execOps ops) (fun d => d.centroids.length = xs.length → ∀ q : ℚ, 0 ≤ q → q ≤ 1 →
      ∃ t v : ℚ, Ieee.double.rnd (xs.length * q) = .fin t ∧
        d.estValueAtQuantile (.fin q) = .ret (.fin v) ∧ IsOrderStat xs (Min.min ⌊t⌋₊ (xs.length - 1)) v) := by
    rw [partially_iff]
    intro d hd hl q h0 h1
    obtain ⟨t, h3, h4⟩ := hq q h0 h1
    have := (C127_value_round R (by norm_num) (f64_closeExact _) k0 invK0 (.fin (D : ℚ)) h (by rintro rfl; simp at h2) hN h3 h4).partially
    rw [partially_iff] at this
    obtain ⟨v, h5, h6⟩ := this d hd hl
    exact ⟨t, v, h3, h5, h6⟩
  have hcnt : Partially ((TDigest.new k0 invK0 (.fin (D : ℚ))).execOps ops) (fun d => d.centroids.length = xs.length → d.count = .ret xs.length) := by
    refine ((TDigest.reach_plain R k0 invK0 (.fin (D : ℚ)) h hN).mono ?_).partially
    rintro d ⟨-, -, hp⟩ hl
    obtain ⟨l, p1, p2, p3, p4, p5⟩ := hp hl
    unfold TDigest.count
    rw [TDigest.totalWeight_plain R p3 (fun y hy => h.within y (p1.mem_iff.1 hy)) (by rw [p1.length_eq]; exact hN),
      TDigest.toUsize_nat (by rw [p1.length_eq]; omega), p1.length_eq]
    rfl
  refine (((hlen.and (C127_quantile_round R k0 invK0 (.fin (D : ℚ)) h h2 hN).partially).and hv).and hcnt).mono ?_
  rintro d ⟨⟨⟨h1, h3⟩, h4⟩, h5⟩
  exact ⟨h5 h1, h3 h1, h4 h1⟩

/-- Five doubles with a repeated one, inserted in three calls, and compression factor 6. -/
def plainOps : List (TDigest.TOp ℚ) := [.addBuffer [.fin 7, .fin (1 / 8)], .add (.fin 3), .addBuffer [.fin 3, .fin (-5 / 2)]]

theorem plainOps_items : PlainItems (-2 ^ (970 : ℤ)) (2 ^ (970 : ℤ)) plainOps [7, 1 / 8, 3, 3, -5 / 2] := by
  refine ⟨by decide +kernel, by decide +kernel, ?_⟩
  intro x hx
  have h1 : (2 : ℚ) ^ (3 : ℤ) ≤ 2 ^ (970 : ℤ) := zpow_le_zpow_right₀ (by norm_num) (by norm_num)
  have h2 : -8 ≤ x ∧ x ≤ 8 := by
    simp only [List.mem_cons, List.not_mem_nil, or_false] at hx
    rcases hx with rfl | rfl | rfl | rfl | rfl <;> norm_num
  generalize (2 : ℚ) ^ (970 : ℤ) = X at *
  norm_num at h1
  constructor <;> linarith

/-- The theorem for that digest. The repeated item has quantile `(2 + 2/2)/5`, the value at 0.7 is the item at place `⌊3.5⌋`. -/
theorem C127_example :
    Always ((TDigest.new k0 invK0 (.fin ((6 : ℕ) : ℚ))).execOps plainOps) (fun d => ∀ x : ℚ,
      d.estQuantileAtValue (.fin x) = .ret ((⟨[7, 1 / 8, 3, 3, -5 / 2].map .fin⟩ : LinearDigest ℚ).estQuantileAtValue (.fin x))) ∧
    Always ((TDigest.new k0 invK0 (.fin ((6 : ℕ) : ℚ))).execOps plainOps) (fun d =>
      CanReturn (d.estQuantileAtValue (.fin 3)) (Ieee.double.rnd (3 / 5)) ∧ CanReturn (d.estValueAtQuantile (.fin (7 / 10))) (.fin 3)) :=
  ⟨(C127_f64 6 (by norm_num) plainOps_items (by simp) (by simp)).mono (fun d h => h.2.1), by decide +kernel⟩

/-- C127. The value is not always that of a LinearDigest, which rounds `n q` to the nearest place instead of down: 0, 1, 2, 3 at 0.4. -/
theorem C127_value_not_linear :
    Always ((TDigest.new k0 invK0 (.fin (6 : ℚ))).execOps [.addBuffer [.fin 3, .fin 1], .add (.fin 0), .add (.fin 2)]) (fun d =>
      d.centroids.length = 4 ∧ CanReturn (d.estValueAtQuantile (.fin (2 / 5))) (.fin 1)) ∧
    Always ((⟨[.fin 3, .fin 1, .fin 0, .fin 2]⟩ : LinearDigest ℚ).estValueAtQuantile (.fin (2 / 5))) (fun r => r.1 = .fin 2) := by
  decide +kernel

/-- C127. With as many items as the compression factor, items can be merged, and the quantile is no longer that of a LinearDigest. -/
theorem C127_merged_differs :
    Always ((TDigest.new k0 invK0 (.fin (4 : ℚ))).execOps [.addBuffer [.fin 0, .fin 1, .fin 2, .fin 4]]) (fun d =>
      d.centroids.length < 4 ∧
      ¬ CanReturn (d.estQuantileAtValue (.fin 1)) ((⟨[.fin 0, .fin 1, .fin 2, .fin 4]⟩ : LinearDigest ℚ).estQuantileAtValue (.fin 1))) := by
  decide +kernel

end F64

section F32
attribute [local instance] f32Fmt f32_mono

/-- C127. `TDigest::<f32>::new(&k0, &inv_k0, D)`, `D ≤ 900`, with at least two and fewer than `D` items of magnitude up to `2^103`, inserted in any
way: the quantile estimates are those of a LinearDigest, and the value at `0 ≤ q ≤ 1` is the item with `⌊fl(n q)⌋` items before it. -/
theorem C127_f32 (D : Nat) (hD9 : D ≤ 900) {ops : List (TDigest.TOp ℚ)} {xs : List ℚ}
    (h : PlainItems (-2 ^ (103 : ℤ)) (2 ^ (103 : ℤ)) ops xs) (h2 : 2 ≤ xs.length) (hn : xs.length < D) :
    Always ((TDigest.new k0 invK0 (.fin (D : ℚ))).execOps ops) (fun d => d.count = .ret xs.length ∧ (∀ x : ℚ,
      d.estQuantileAtValue (.fin x) = .ret ((⟨xs.map .fin⟩ : LinearDigest ℚ).estQuantileAtValue (.fin x))) ∧
      ∀ q : ℚ, 0 ≤ q → q ≤ 1 → ∃ t v : ℚ, Ieee.single.rnd (xs.length * q) = .fin t ∧
        d.estValueAtQuantile (.fin q) = .ret (.fin v) ∧ IsOrderStat xs (Min.min ⌊t⌋₊ (xs.length - 1)) v) := by
  have hDq : (D : ℚ) ≤ 900 := by exact_mod_cast hD9
  have hnD : (xs.length : ℚ) + 1 ≤ D := by exact_mod_cast hn
  have h2q : (2 : ℚ) ≤ xs.length := by exact_mod_cast h2
  have hD0 : (0 : ℚ) < D := by linarith
  have hN : xs.length ≤ 2 ^ 23 := by omega
  have R := f32_roomy (e := 103) (by norm_num) le_rfl
  have hmax : (12 * 2 ^ 23 : ℚ) ≤ Ieee.single.max := by decide +kernel
  have hlen := C127_unmerged_round R f32_relErr (by decide +kernel) (by decide +kernel) (δ := (D : ℚ)) (by linarith) (by linarith)
    (by push_cast; linarith) h hN (by
      have e : (2 : ℚ) ^ (-24 : ℤ) = 1 / 2 ^ 24 := by decide +kernel
      rw [e]
      have e1 : (xs.length : ℚ) * (2 / D) ≤ 2 - 2 / D := by
        rw [mul_div_assoc', div_le_iff₀ hD0, sub_mul, div_mul_cancel₀ _ hD0.ne']
        linarith
      have e2 : (2 : ℚ) / 900 ≤ 2 / D := div_le_div_of_nonneg_left (by norm_num) hD0 hDq
      have e3 : (xs.length : ℚ) ≤ 900 := by linarith
      nlinarith)
  have hq := fun q (h0 : 0 ≤ q) (h1 : q ≤ 1) => show ∃ t, Ieee.single.rnd ((xs.length : ℚ) * q) = .fin t ∧ Ieee.single.rnd t = .fin t by
    obtain ⟨t, ht, -⟩ := f32_relErr.near ((xs.length : ℚ) * q) (by
      rw [abs_of_nonneg (by positivity)]
      have : (xs.length : ℚ) * q ≤ xs.length * 1 := mul_le_mul_of_nonneg_left h1 (by positivity)
      linarith)
    exact ⟨t, ht, f32_binary.rnd_idem _ _ ht⟩
  have hv : Partially ((TDigest.new k0 invK0 (.fin (D : ℚ))).execOps ops) (fun d => d.centroids.length = xs.length → ∀ q : ℚ, 0 ≤ q → q ≤ 1 →
      ∃ t v : ℚ, Ieee.single.rnd (xs.length * q) = .fin t ∧
        d.estValueAtQuantile (.fin q) = .ret (.fin v) ∧ IsOrderStat xs (Min.min ⌊t⌋₊ (xs.length - 1)) v) := by
    rw [partially_iff]
    intro d hd hl q h0 h1
    obtain ⟨t, h3, h4⟩ := hq q h0 h1
    have := (C127_value_round R (by norm_num) (f32_closeExact _) k0 invK0 (.fin (D : ℚ)) h (by rintro rfl; simp at h2) hN h3 h4).partially
    rw [partially_iff] at this
    obtain ⟨v, h5, h6⟩ := this d hd hl
    exact ⟨t, v, h3, h5, h6⟩
  have hcnt : Partially ((TDigest.new k0 invK0 (.fin (D : ℚ))).execOps ops) (fun d => d.centroids.length = xs.length → d.count = .ret xs.length) := by
    refine ((TDigest.reach_plain R k0 invK0 (.fin (D : ℚ)) h hN).mono ?_).partially
    rintro d ⟨-, -, hp⟩ hl
    obtain ⟨l, p1, p2, p3, p4, p5⟩ := hp hl
    unfold TDigest.count
    rw [TDigest.totalWeight_plain R p3 (fun y hy => h.within y (p1.mem_iff.1 hy)) (by rw [p1.length_eq]; exact hN),
      TDigest.toUsize_nat (by rw [p1.length_eq]; omega), p1.length_eq]
    rfl
  refine (((hlen.and (C127_quantile_round R k0 invK0 (.fin (D : ℚ)) h h2 hN).partially).and hv).and hcnt).mono ?_
  rintro d ⟨⟨⟨h1, h3⟩, h4⟩, h5⟩
  exact ⟨h5 h1, h3 h1, h4 h1⟩

end F32
end AQ

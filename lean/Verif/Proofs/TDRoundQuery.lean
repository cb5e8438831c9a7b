/-
TDigest queries in rounding arithmetic.
-/
import Verif.Proofs.TDRound
import Verif.Proofs.TDQuery

set_option linter.unusedSectionVars false
set_option linter.unusedVariables false

namespace AQ
open Prog Spec
variable {K : Type} [Field K] [LinearOrder K] [IsStrictOrderedRing K] [FloatFmt K]

namespace Spec

/-- A non-negative number rounded below a number that does not overflow. -/
theorem rnd_nonneg [FloatFmt.Mono K] {x u w : K} (h0 : 0 ≤ x) (h1 : x ≤ u) (hu : FloatFmt.rnd u = .fin w) :
    ∃ y, FloatFmt.rnd x = .fin y ∧ 0 ≤ y ∧ y ≤ w := by
  have a := FloatFmt.Mono.rnd_mono 0 x h0
  have b := FloatFmt.Mono.rnd_mono x u h1
  rw [FloatFmt.Mono.rnd_zero] at a
  rw [hu] at b
  cases hx : FloatFmt.rnd x with
  | nan => exact absurd hx (FloatFmt.Mono.rnd_ne_nan x)
  | ninf => rw [hx] at a; exact absurd a (Fl.fin_not_le_ninf 0)
  | pinf => rw [hx] at b; exact absurd b (Fl.pinf_not_le_fin w)
  | fin y =>
    rw [hx] at a b
    exact ⟨y, rfl, Fl.fin_le_fin.1 a, Fl.fin_le_fin.1 b⟩

/-- A proper fraction stays one. -/
theorem div_unit [FloatFmt.Mono K] {x w : K} (hw : 0 < w) (h0 : 0 ≤ x) (h1 : x ≤ w) :
    ∃ y, (.fin x / .fin w : Fl K) = .fin y ∧ 0 ≤ y ∧ y ≤ 1 := by
  rw [Fl.div_fin_of_ne _ hw.ne']
  exact rnd_between FloatFmt.Mono.rnd_zero FloatFmt.Mono.rnd_one (div_nonneg h0 hw.le) ((div_le_one hw).2 h1)

/-- One minus a number of the unit interval. -/
theorem one_sub_unit [FloatFmt.Mono K] {x : K} (h0 : 0 ≤ x) (h1 : x ≤ 1) :
    ∃ y, (Fl.lit 1 - .fin x : Fl K) = .fin y ∧ 0 ≤ y ∧ y ≤ 1 := by
  rw [TDigest.lit_one, Fl.sub_fin]
  exact rnd_between FloatFmt.Mono.rnd_zero FloatFmt.Mono.rnd_one (by linarith) (by linarith)

theorem lit_half [FloatFmt.Mono K] : (Fl.lit (1 / 2) : Fl K) = .fin (1 / 2) := FloatFmt.Mono.rnd_half
theorem lit_two [FloatFmt.Mono K] : (Fl.lit 2 : Fl K) = .fin 2 := FloatFmt.Mono.rnd_two
theorem lit_zero [FloatFmt.Mono K] : (Fl.lit 0 : Fl K) = .fin 0 := FloatFmt.Mono.rnd_zero

theorem ExactCounts.addHalf {N : Nat} (h : ExactCounts K N) {a b : Nat} (hab : a + b ≤ 2 * N) :
    (.fin ((a : K) / 2) + .fin ((b : K) / 2) : Fl K) = .fin (((a + b : ℕ) : K) / 2) := by
  rw [Fl.add_fin, ← add_div, ← Nat.cast_add]
  exact h _ hab

theorem ExactCounts.subHalf {N : Nat} (h : ExactCounts K N) {a b : Nat} (hba : b ≤ a) (ha : a ≤ 2 * N) :
    (.fin ((a : K) / 2) - .fin ((b : K) / 2) : Fl K) = .fin (((a - b : ℕ) : K) / 2) := by
  rw [Fl.sub_fin, ← sub_div, ← Nat.cast_sub hba]
  exact h _ (by omega)

theorem ExactCounts.halve [FloatFmt.Mono K] {N : Nat} (h : ExactCounts K N) {a : Nat} (ha : a ≤ 2 * N) :
    (.fin (a : K) / Fl.lit 2 : Fl K) = .fin ((a : K) / 2) := by
  rw [lit_two, Fl.div_fin_of_ne _ two_ne_zero]
  exact h _ ha

theorem ExactCounts.addNat {N : Nat} (h : ExactCounts K N) {a b : Nat} (hab : a + b ≤ N) :
    (.fin (a : K) + .fin (b : K) : Fl K) = .fin ((a + b : ℕ) : K) := by
  rw [Fl.add_fin, ← Nat.cast_add]
  exact h.rnd_nat hab

theorem nat_half (a : Nat) : ((2 * a : ℕ) : K) / 2 = a := by push_cast; field_simp

end Spec

namespace TDigest

/-- A result in the unit interval. -/
def Unit01 (r : Fl K) : Prop := ∃ y : K, r = .fin y ∧ 0 ≤ y ∧ y ≤ 1

theorem unit_div [FloatFmt.Mono K] {x : K} {W : Nat} (hW : 1 ≤ W) (h0 : 0 ≤ x) (h1 : x ≤ W) :
    Unit01 (.fin x / .fin (W : K) : Fl K) :=
  div_unit (by exact_mod_cast hW) h0 h1

theorem Unit01.sub [FloatFmt.Mono K] {r : Fl K} (h : Unit01 r) : Unit01 (Fl.lit 1 - r) := by
  obtain ⟨y, rfl, h0, h1⟩ := h
  exact one_sub_unit h0 h1

theorem equalWeight_roomy {A B : K} {N : Nat} (R : Roomy N A B) (item : Fl K) : ∀ (cs : List (Centroid K)) (a : Nat),
    (∀ c ∈ cs, Within A B c) → (a : K) + totalW cs ≤ N →
    ∃ b : Nat, equalWeight item (.fin (a : K)) cs = .fin (b : K) ∧ (b : K) ≤ a + totalW cs
  | [], a, _, _ => ⟨a, rfl, by simp⟩
  | c :: cs, a, h, hN => by
    have hcs : ∀ d ∈ cs, Within A B d := fun d hd => h d (by simp [hd])
    obtain ⟨w, hw, w1⟩ := (h c (by simp)).nat
    obtain ⟨n, hn, -⟩ := totalW_nat hcs
    have hcw : c.weight.toK = (w : K) := by rw [hw]; rfl
    rw [totalW_cons, hcw] at hN ⊢
    have hN' : a + (w + n) ≤ N := by rw [hn] at hN; exact_mod_cast hN
    unfold equalWeight
    split
    · rw [hw, R.counts.addNat (by omega)]
      obtain ⟨b, h1, h2⟩ := equalWeight_roomy R item cs (a + w) hcs (by push_cast; rw [add_assoc]; exact hN)
      exact ⟨b, h1, by push_cast at h2; rw [← add_assoc]; exact h2⟩
    · refine ⟨a, rfl, ?_⟩
      have h1 : (0 : K) ≤ w := by positivity
      have h2 : (0 : K) ≤ n := by positivity
      rw [hn]; linarith

theorem fl_feq_nat (a b : Nat) : Fl.feq (.fin (a : K)) (.fin (b : K)) = decide (a = b) := by
  simp

theorem between_roomy [FloatFmt.Mono K] {A B : K} {N : Nat} (R : Roomy N A B) {x : K} {c n : Centroid K} {wsf W : Nat}
    (hc : Within A B c) (hn : Within A B n) (h1 : c.mean ≤ .fin x) (h2 : .fin x < n.mean)
    (hw : (wsf : K) + c.weight.toK + n.weight.toK ≤ W) (hW : W ≤ N) : Unit01 (between (.fin x) (.fin (wsf : K)) (.fin (W : K)) c n) := by
  obtain ⟨m1, w1, hm1, a1, b1, hw1, o1⟩ := hc
  obtain ⟨m2, w2, hm2, a2, b2, hw2, o2⟩ := hn
  rw [hw1, hw2] at hw
  simp only [Fl.toK] at hw
  have hw' : wsf + w1 + w2 ≤ W := by exact_mod_cast hw
  rw [hm1] at h1
  rw [hm2] at h2
  have h1' : m1 ≤ x := Fl.fin_le_fin.1 h1
  have h2' : x < m2 := Fl.fin_lt_fin.1 h2
  obtain ⟨wd, hwd⟩ := R.width
  obtain ⟨y, hy, y0, -⟩ := rnd_nonneg (x := m2 - m1) (by linarith) (by linarith) hwd
  obtain ⟨z, hz, z0, hzy⟩ := rnd_nonneg (x := x - m1) (by linarith) (show x - m1 ≤ m2 - m1 by linarith) hy
  have e1 : (1 : K) = ((1 : ℕ) : K) := by simp
  have f1 : ∀ a : Nat, Fl.feq (.fin (a : K)) (Fl.lit 1) = decide (a = 1) := by
    intro a; rw [lit_one, e1, fl_feq_nat]
  have edw : (.fin (w1 : K) + .fin (w2 : K)) / Fl.lit 2 = (.fin (((w1 + w2 : ℕ) : K) / 2) : Fl K) := by
    rw [R.counts.addNat (by omega), R.counts.halve (by omega)]
  have hwsf : (.fin (wsf : K) : Fl K) = .fin (((2 * wsf : ℕ) : K) / 2) := by rw [nat_half]
  unfold between
  rw [hm1, hm2, hw1, hw2, Fl.sub_fin, Fl.sub_fin, hy, hz, edw, f1, f1, lit_zero, lit_half, Fl.lt_fin]
  by_cases hy0 : 0 < y
  · simp only [decide_eq_true hy0, if_true]
    by_cases hboth : w1 = 1 ∧ w2 = 1
    · obtain ⟨rfl, rfl⟩ := hboth
      simp only [decide_true, Bool.and_self, if_true]
      rw [lit_one, e1, R.counts.addNat (by omega)]
      exact unit_div (by omega) (by positivity) (by exact_mod_cast (by omega))
    · have hb : (decide (w1 = 1) && decide (w2 = 1)) = false := by
        rw [Bool.and_eq_false_iff, decide_eq_false_iff_not, decide_eq_false_iff_not]; omega
      simp only [hb, Bool.false_eq_true, if_false]
      -- the two corrections, in halves
      obtain ⟨lk, rk, hle, hre, hlk, hrk, hcap⟩ : ∃ lk rk : Nat,
          (if decide (w1 = 1) = true then (.fin (1 / 2) : Fl K) else .fin 0) = .fin ((lk : K) / 2) ∧
          (if decide (w1 = 1) = true then (.fin 0 : Fl K) else if decide (w2 = 1) = true then .fin (1 / 2) else .fin 0)
            = .fin ((rk : K) / 2) ∧ lk + rk ≤ 1 ∧ rk ≤ 1 ∧ 2 ≤ w2 + rk := by
        by_cases ha : w1 = 1
        · refine ⟨1, 0, ?_, ?_, by omega, by omega, by omega⟩ <;> simp [ha]
        · by_cases hb2 : w2 = 1
          · refine ⟨0, 1, ?_, ?_, by omega, by omega, by omega⟩ <;> simp [ha, hb2]
          · refine ⟨0, 0, ?_, ?_, by omega, by omega, by omega⟩ <;> simp [ha, hb2]
      rw [hle, hre, R.counts.subHalf (by omega) (by omega), R.counts.subHalf (by omega) (by omega), R.counts.halve (by omega), hwsf,
        R.counts.addHalf (by omega), R.counts.addHalf (by omega), Fl.mul_fin]
      set k := w1 + w2 - lk - rk with hk
      have hsc := R.scaled k (by omega) (m2 - m1) y (by linarith) (by linarith) hy
      have hp1 : (k : K) / 2 * z ≤ k / 2 * y := mul_le_mul_of_nonneg_left hzy (by positivity)
      obtain ⟨p, hp, p0, p1⟩ : ∃ p, FloatFmt.rnd ((k : K) / 2 * z) = .fin p ∧ 0 ≤ p ∧ p ≤ (k / 2 + 1) * y := by
        obtain ⟨v, hv⟩ : ∃ v, FloatFmt.rnd ((k : K) / 2 * y) = .fin v := by
          have h0 := FloatFmt.Mono.rnd_mono (0 : K) (k / 2 * y) (by positivity)
          rw [FloatFmt.Mono.rnd_zero] at h0
          cases hv : FloatFmt.rnd ((k : K) / 2 * y) with
          | nan => exact absurd hv (FloatFmt.Mono.rnd_ne_nan _)
          | ninf => rw [hv] at h0; exact absurd h0 (Fl.fin_not_le_ninf 0)
          | pinf => rw [hv] at hsc; exact absurd hsc (Fl.pinf_not_le_fin _)
          | fin v => exact ⟨v, rfl⟩
        obtain ⟨p, hp, p0, p1⟩ := rnd_nonneg (by positivity) hp1 hv
        rw [hv, Fl.fin_le_fin] at hsc
        exact ⟨p, hp, p0, p1.trans hsc⟩
      rw [hp, Fl.div_fin_of_ne _ hy0.ne']
      have hex := R.counts (k + 2) (by omega)
      have ek : ((k + 2 : ℕ) : K) / 2 = k / 2 + 1 := by push_cast; field_simp
      obtain ⟨q, hq, q0, q1⟩ := rnd_between (x := p / y) FloatFmt.Mono.rnd_zero hex (by positivity)
        (by rw [ek, div_le_iff₀ hy0]; exact p1)
      rw [hq, Fl.add_fin]
      have hfin := R.counts (2 * wsf + w1 + lk + (k + 2)) (by omega)
      have hsum : ((2 * wsf + w1 + lk + (k + 2) : ℕ) : K) / 2 = ((2 * wsf + w1 + lk : ℕ) : K) / 2 + ((k + 2 : ℕ) : K) / 2 := by
        rw [← add_div, ← Nat.cast_add]
      obtain ⟨t, ht, t0, t1⟩ := rnd_between (x := ((2 * wsf + w1 + lk : ℕ) : K) / 2 + q) FloatFmt.Mono.rnd_zero hfin (by positivity)
        (by rw [hsum]; linarith)
      rw [ht]
      refine unit_div (by omega) t0 (t1.trans ?_)
      rw [div_le_iff₀ (by norm_num)]
      exact_mod_cast (by omega : 2 * wsf + w1 + lk + (k + 2) ≤ W * 2)
  · simp only [decide_eq_false hy0, Bool.false_eq_true, if_false]
    rw [hwsf, R.counts.addHalf (by omega)]
    refine unit_div (by omega) (by positivity) ?_
    rw [div_le_iff₀ (by norm_num)]
    exact_mod_cast (by omega : 2 * wsf + (w1 + w2) ≤ W * 2)

/-- The loop over neighbouring centroids answers with a number of the unit interval, or ends at a last centroid not above the
item. -/
theorem quantileLoop_roomy [FloatFmt.Mono K] {A B : K} {N : Nat} (R : Roomy N A B) {x : K} {W : Nat} (hW : W ≤ N) :
    ∀ (cs : List (Centroid K)) (hne : cs ≠ []) (wsf : Nat), (∀ c ∈ cs, Within A B c) → (wsf : K) + totalW cs ≤ W →
      (cs.head hne).mean ≤ .fin x →
      match quantileLoop (.fin x) (.fin (W : K)) (.fin (wsf : K)) cs with
      | .inl r => Unit01 r
      | .inr w => (∃ n : Nat, w = .fin (n : K) ∧ n ≤ W) ∧ (cs.getLast hne).mean ≤ .fin x
  | [], hne, _, _, _, _ => absurd rfl hne
  | [c], _, wsf, hcs, hN, hx => by
    have h0 := totalW_nonneg' hcs
    refine ⟨⟨wsf, rfl, ?_⟩, hx⟩
    have : (wsf : K) ≤ W := by linarith
    exact_mod_cast this
  | c :: n :: rest, _, wsf, hcs, hN, hx => by
    have hr : ∀ d ∈ n :: rest, Within A B d := fun d hd => hcs d (by simp only [List.mem_cons] at hd ⊢; tauto)
    obtain ⟨w, hw, w1⟩ := (hcs c (by simp)).nat
    obtain ⟨k, hk, hkl⟩ := totalW_nat hr
    have hcw : c.weight.toK = (w : K) := by rw [hw]; rfl
    have hN2 : wsf + (w + k) ≤ W := by
      rw [totalW_cons, hcw, hk] at hN; exact_mod_cast hN
    have hWpos : 1 ≤ W := by omega
    simp only [List.head_cons] at hx
    unfold quantileLoop
    by_cases he : Fl.feq c.mean (.fin x) = true
    · simp only [he, if_true]
      obtain ⟨b, hb, hb2⟩ := equalWeight_roomy R (.fin x) (c :: n :: rest) 0 hcs (by
        rw [totalW_cons, hcw, hk]; push_cast; rw [zero_add]; exact_mod_cast (by omega : w + k ≤ N))
      rw [Nat.cast_zero] at hb
      have hb3 : b ≤ w + k := by
        rw [totalW_cons, hcw, hk] at hb2; push_cast at hb2; rw [zero_add] at hb2; exact_mod_cast hb2
      rw [lit_zero, hb]
      cases hcc : (Fl.feq c.weight (.fin (b : K)) && Fl.feq (.fin (b : K)) (Fl.lit 1)) with
      | true =>
        simp only [if_true]
        exact unit_div hWpos (by positivity) (by exact_mod_cast (by omega))
      | false =>
        simp only [Bool.false_eq_true, if_false]
        rw [R.counts.halve (by omega), show (.fin (wsf : K) : Fl K) = .fin (((2 * wsf : ℕ) : K) / 2) by rw [nat_half],
          R.counts.addHalf (by omega)]
        refine unit_div hWpos (by positivity) ?_
        rw [div_le_iff₀ (by norm_num)]
        exact_mod_cast (by omega : 2 * wsf + b ≤ W * 2)
    · simp only [he, Bool.false_eq_true, if_false]
      by_cases hb : (Fl.le c.mean (.fin x) && Fl.lt (.fin x) n.mean) = true
      · simp only [hb, if_true]
        rw [Bool.and_eq_true] at hb
        obtain ⟨m2, w2, hm2, -, -, hw2, o2⟩ := hr n (by simp)
        have hlt : (.fin x : Fl K) < n.mean := by
          have := hb.2
          rw [hm2, Fl.lt_fin, decide_eq_true_eq] at this
          rw [hm2]; exact Fl.fin_lt_fin.2 this
        refine between_roomy R (hcs c (by simp)) (hr n (by simp)) hx hlt ?_ hW
        have h0 := totalW_nonneg' (l := rest) (fun d hd => hr d (by simp [hd]))
        rw [totalW_cons, totalW_cons] at hN
        linarith
      · simp only [hb, Bool.false_eq_true, if_false]
        have hle : n.mean ≤ .fin x := by
          obtain ⟨m1, -, hm1, -⟩ := hcs c (by simp)
          obtain ⟨m2, -, hm2, -⟩ := hr n (by simp)
          rw [hm1] at hx hb
          rw [hm2, Fl.le_fin, Fl.lt_fin] at hb
          rw [hm2, Fl.fin_le_fin]
          rw [Fl.fin_le_fin] at hx
          simp only [hx, decide_true, Bool.true_and, decide_eq_true_eq] at hb
          exact not_lt.1 hb
        rw [hw, R.counts.addNat (by omega)]
        have := quantileLoop_roomy R hW (n :: rest) (by simp) (wsf + w) hr (by
          rw [hk]; exact_mod_cast (by omega : wsf + w + k ≤ W)) (by simpa using hle)
        simpa using this
where
  totalW_nonneg' {l : List (Centroid K)} (h : ∀ c ∈ l, Within A B c) : 0 ≤ totalW l := by
    obtain ⟨n, hn, -⟩ := totalW_nat h
    rw [hn]; positivity

end TDigest
end AQ

namespace AQ
open Prog Spec
variable {K : Type} [Field K] [LinearOrder K] [IsStrictOrderedRing K] [FloatFmt K]
namespace TDigest

/-- The formula for the outer halves of the end centroids: `u` is the distance of the item to the limit, `v` that of the mean. -/
theorem tail_roomy [FloatFmt.Mono K] {A B : K} {N : Nat} (R : Roomy N A B) {u v : K} {w W : Nat} (hv : 0 < v) (h0 : 0 ≤ u) (h1 : u ≤ v)
    (hw : 1 ≤ w) (hwW : w ≤ W) (hW : W ≤ N) :
    Unit01 ((Fl.lit 1 + .fin u / .fin v * (.fin (w : K) / Fl.lit 2 - Fl.lit 1)) / .fin (W : K) : Fl K) := by
  obtain ⟨r, hr, r0, r1⟩ := div_unit hv h0 h1
  rw [hr, R.counts.halve (by omega), lit_one, Fl.sub_fin]
  rcases Nat.lt_or_ge w 2 with h2 | h2
  · have : w = 1 := by omega
    subst this
    have e : ((1 : ℕ) : K) / 2 - 1 = -(1 / 2) := by norm_num
    rw [e, R.negHalf, Fl.mul_fin]
    obtain ⟨p, hp, p0, p1⟩ := rnd_between (x := r * -(1 / 2)) R.negHalf FloatFmt.Mono.rnd_zero (by linarith) (by linarith)
    rw [hp, Fl.add_fin]
    obtain ⟨q, hq, q0, q1⟩ := rnd_between (x := 1 + p) FloatFmt.Mono.rnd_half FloatFmt.Mono.rnd_one (by linarith) (by linarith)
    rw [hq]
    refine unit_div (by omega) (by linarith) (q1.trans ?_)
    exact_mod_cast hwW
  · have e : (w : K) / 2 - 1 = ((w - 2 : ℕ) : K) / 2 := by
      rw [Nat.cast_sub h2]; push_cast; field_simp
    have ex := R.counts (w - 2) (by omega)
    rw [e, ex, Fl.mul_fin]
    have hg0 : (0 : K) ≤ ((w - 2 : ℕ) : K) / 2 := by positivity
    obtain ⟨p, hp, p0, p1⟩ := rnd_between (x := r * (((w - 2 : ℕ) : K) / 2)) FloatFmt.Mono.rnd_zero ex (by positivity)
      (by nlinarith)
    rw [hp, Fl.add_fin]
    have ex2 := R.counts w (by omega)
    rw [← e] at p1
    obtain ⟨q, hq, q0, q1⟩ := rnd_between (x := 1 + p) FloatFmt.Mono.rnd_one ex2 (by linarith) (by linarith)
    rw [hq]
    refine unit_div (by omega) (by linarith) (q1.trans ?_)
    rw [div_le_iff₀ (by norm_num)]
    exact_mod_cast (by omega : w ≤ W * 2)

/-- Quantile queries on any non-empty digest within range answer with a number of the unit interval. -/
theorem quantile_roomy [FloatFmt.Mono K] {A B : K} {N : Nat} (R : Roomy N A B) {d : TDigest K} (hcs : ∀ c ∈ d.centroids, Within A B c)
    (hne : d.centroids ≠ []) (hN : totalW d.centroids ≤ N) {a b : K} (hmin : d.min = .fin a) (hmax : d.max = .fin b)
    (hA : A ≤ a ∧ a ≤ B) (hB : A ≤ b ∧ b ≤ B) {v : Fl K} (hv : v ≠ .nan) :
    Always (d.estQuantileAtValue v) Unit01 := by
  have u0 : Unit01 (Fl.lit 0 : Fl K) := ⟨0, lit_zero, le_rfl, zero_le_one⟩
  have u1 : Unit01 (Fl.lit 1 : Fl K) := ⟨1, lit_one, zero_le_one, le_rfl⟩
  have uh : Unit01 (Fl.lit (1 / 2) : Fl K) := ⟨1 / 2, lit_half, by norm_num, by norm_num⟩
  have htot : d.totalWeight = .fin (totalW d.centroids) := weightSum_roomy R hcs hN
  obtain ⟨W, hW, hlen⟩ := totalW_nat hcs
  have hWN : W ≤ N := by rw [hW] at hN; exact_mod_cast hN
  obtain ⟨wd, hwd⟩ := R.width
  rw [hW] at htot
  unfold estQuantileAtValue
  split
  · rename_i h; exact absurd h hne
  · -- a single centroid
    simp only [hmin, hmax]
    cases v with
    | nan => exact absurd rfl hv
    | ninf => simp only [Fl.lt]; simp; exact u0
    | pinf =>
      have h1 : Fl.lt (.pinf) (.fin a : Fl K) = false := by simp [Fl.lt]
      have h2 : Fl.lt (.fin b : Fl K) .pinf = true := by simp [Fl.lt]; exact not_le.1 (Fl.pinf_not_le_fin b)
      simp only [h1, h2, Bool.false_eq_true, if_false, if_true]
      exact u1
    | fin x =>
      rw [Fl.lt_fin, Fl.lt_fin]
      by_cases hx1 : x < a
      · simp only [decide_eq_true hx1, if_true]; exact u0
      · simp only [decide_eq_false hx1, Bool.false_eq_true, if_false]
        by_cases hx2 : b < x
        · simp only [decide_eq_true hx2, if_true]; exact u1
        · simp only [decide_eq_false hx2, Bool.false_eq_true, if_false]
          rw [not_lt] at hx1 hx2
          obtain ⟨y, hy, y0, -⟩ := rnd_nonneg (x := b - a) (by linarith) (by linarith) hwd
          obtain ⟨z, hz, z0, z1⟩ := rnd_nonneg (x := x - a) (by linarith) (show x - a ≤ b - a by linarith) hy
          rw [Fl.sub_fin, Fl.sub_fin, hy, hz, Fl.le_fin, if_pos (by simpa using z1)]
          exact uh
  · rename_i first second rest hd
    have hcs' : ∀ c ∈ first :: second :: rest, Within A B c := by rw [← hd]; exact hcs
    have hW' : totalW (first :: second :: rest) = (W : K) := by rw [← hd]; exact hW
    have hlen' : 2 ≤ W := by
      rw [hd] at hlen; simp only [List.length_cons] at hlen; omega
    have hle : ∀ c ∈ first :: second :: rest, ∀ w : Nat, c.weight = .fin (w : K) → w ≤ W := by
      intro c hc w hw
      have h1 : c.weight.toK ≤ totalW (first :: second :: rest) := by
        obtain ⟨s, t, hst⟩ := List.append_of_mem hc
        rw [hst, totalW_append, totalW_cons]
        obtain ⟨n1, hn1, -⟩ := totalW_nat (l := s) (fun d hd => hcs' d (by rw [hst]; simp [hd]))
        obtain ⟨n2, hn2, -⟩ := totalW_nat (l := t) (fun d hd => hcs' d (by rw [hst]; simp [hd]))
        rw [hn1, hn2]
        have : (0 : K) ≤ n1 := by positivity
        have : (0 : K) ≤ n2 := by positivity
        linarith
      rw [hw, hW'] at h1
      simp only [Fl.toK] at h1
      exact_mod_cast h1
    have uhalf : Unit01 (Fl.lit (1 / 2) / .fin (W : K) : Fl K) := by
      rw [lit_half]
      refine unit_div (by omega) (by norm_num) ?_
      have : ((2 : ℕ) : K) ≤ W := Nat.cast_le.2 hlen'
      push_cast at this
      linarith
    simp only [hmin, hmax, htot]
    generalize hl : (first :: second :: rest).getLast (by simp) = last
    have hlmem : last ∈ first :: second :: rest := by rw [← hl]; exact List.getLast_mem _
    obtain ⟨mf, wf, hmf, f1, f2, hwf, f3⟩ := hcs' first (by simp)
    obtain ⟨ml, wl, hml, l1, l2, hwl, l3⟩ := hcs' last hlmem
    have hwfW := hle first (by simp) wf hwf
    have hwlW := hle last hlmem wl hwl
    cases v with
    | nan => exact absurd rfl hv
    | ninf => simp only [Fl.lt]; simp; exact u0
    | pinf =>
      have h1 : Fl.lt (.pinf) (.fin a : Fl K) = false := by simp [Fl.lt]
      have h2 : Fl.lt (.fin b : Fl K) .pinf = true := by simp [Fl.lt]; exact not_le.1 (Fl.pinf_not_le_fin b)
      simp only [h1, h2, Bool.false_eq_true, if_false, if_true]
      exact u1
    | fin x =>
      rw [Fl.lt_fin, Fl.lt_fin, hmf, hml, hwf, hwl, Fl.lt_fin, Fl.lt_fin]
      by_cases hx1 : x < a
      · simp only [decide_eq_true hx1, if_true]; exact u0
      · simp only [decide_eq_false hx1, Bool.false_eq_true, if_false]
        by_cases hx2 : b < x
        · simp only [decide_eq_true hx2, if_true]; exact u1
        · simp only [decide_eq_false hx2, Bool.false_eq_true, if_false]
          rw [not_lt] at hx1 hx2
          by_cases hx3 : x < mf
          · simp only [decide_eq_true hx3, if_true]
            obtain ⟨y, hy, y0, -⟩ := rnd_nonneg (x := mf - a) (by linarith) (by linarith) hwd
            obtain ⟨z, hz, z0, z1⟩ := rnd_nonneg (x := x - a) (by linarith) (show x - a ≤ mf - a by linarith) hy
            rw [Fl.sub_fin, Fl.sub_fin, hy, hz, lit_zero, Fl.lt_fin]
            by_cases hy0 : 0 < y
            · simp only [decide_eq_true hy0, if_true]
              split
              · exact uhalf
              · exact tail_roomy R hy0 z0 z1 f3 hwfW hWN
            · simp only [decide_eq_false hy0, Bool.false_eq_true, if_false]
              exact ⟨0, rfl, le_rfl, zero_le_one⟩
          · simp only [decide_eq_false hx3, Bool.false_eq_true, if_false]
            by_cases hx4 : ml < x
            · simp only [decide_eq_true hx4, if_true]
              obtain ⟨y, hy, y0, -⟩ := rnd_nonneg (x := b - ml) (by linarith) (by linarith) hwd
              obtain ⟨z, hz, z0, z1⟩ := rnd_nonneg (x := b - x) (by linarith) (show b - x ≤ b - ml by linarith) hy
              rw [Fl.sub_fin, Fl.sub_fin, hy, hz, lit_zero, Fl.lt_fin]
              by_cases hy0 : 0 < y
              · simp only [decide_eq_true hy0, if_true]
                split
                · exact uhalf.sub
                · exact (tail_roomy R hy0 z0 z1 l3 hwlW hWN).sub
              · simp only [decide_eq_false hy0, Bool.false_eq_true, if_false]
                exact u1
            · simp only [decide_eq_false hx4, Bool.false_eq_true, if_false]
              rw [not_lt] at hx3 hx4
              have hq := quantileLoop_roomy R hWN (first :: second :: rest) (by simp) 0 (x := x) hcs'
                (by rw [hW']; simp) (by rw [List.head_cons, hmf]; exact Fl.fin_le_fin.2 hx3)
              rw [Nat.cast_zero] at hq
              rw [lit_zero]
              cases hres : quantileLoop (.fin x) (.fin (W : K)) (.fin 0) (first :: second :: rest) with
              | inl r => rw [hres] at hq; exact hq
              | inr w =>
                rw [hres] at hq
                obtain ⟨⟨n, rfl, hn⟩, hlast⟩ := hq
                rw [hl, hml, Fl.fin_le_fin] at hlast
                have : x = ml := le_antisymm hx4 hlast
                subst this
                simp only [Fl.feq_fin, decide_true, if_true]
                split
                · exact unit_div (by omega) (by positivity) (by exact_mod_cast hn)
                · exact uhalf.sub

/-- The search of a value query never leaves the list of centroids: `cw` is the weight left of the middle of centroid `i`, the
target is at least that. -/
theorem valueLoop_roomy [FloatFmt.Mono K] {A B : K} {N : Nat} (R : Roomy N A B) {cs : List (Centroid K)}
    (hcs : ∀ c ∈ cs, Within A B c) (hN : totalW cs ≤ N) {t : K} {lw : Nat}
    (hlast : ∀ c, cs.getLast? = some c → c.weight = .fin (lw : K)) (ht : t < totalW cs - lw / 2) :
    ∀ (steps i k : Nat), i < cs.length → ((k : K) / 2 = totalW (cs.take i) + ((cs[i]?.map (fun c => c.weight.toK)).getD 0) / 2) →
      (k : K) / 2 ≤ t → Always (valueLoop cs (.fin t) steps i (.fin ((k : K) / 2))) (fun _ => True)
  | 0, i, k, _, _, _ => trivial
  | steps + 1, i, k, hi, hk, hkt => by
    have hci : cs[i] ∈ cs := List.getElem_mem hi
    obtain ⟨w1, hw1, o1⟩ := (hcs _ hci).nat
    have e1 : idx cs i = .ret cs[i] := by unfold idx; rw [List.getElem?_eq_getElem hi]
    have hk' : (k : K) / 2 = totalW (cs.take i) + (w1 : K) / 2 := by
      rw [hk, List.getElem?_eq_getElem hi]; simp [hw1, Fl.toK]
    obtain ⟨n, hn, -⟩ := totalW_nat (l := cs.take i) (fun c hc => hcs c (List.mem_of_mem_take hc))
    have hdrop : ∀ j (hj : j < cs.length), totalW cs = totalW (cs.take j) + (cs[j]).weight.toK + totalW (cs.drop (j + 1)) := by
      intro j hj
      conv_lhs => rw [← List.take_append_drop j cs, List.drop_eq_getElem_cons hj]
      rw [totalW_append, totalW_cons, ← add_assoc]
    -- there is a next centroid
    have hnext : i + 1 < cs.length := by
      by_contra hcon
      have hi' : i = cs.length - 1 := by omega
      have hl : cs.getLast? = some cs[i] := by
        rw [List.getLast?_eq_getElem?, ← hi', List.getElem?_eq_getElem hi]
      have := hlast _ hl
      rw [hw1, Fl.fin.injEq] at this
      have h2 := hdrop i hi
      rw [List.drop_eq_nil_of_le (by omega), totalW_nil, add_zero, hw1] at h2
      simp only [Fl.toK] at h2
      rw [← this, h2] at ht
      linarith
    have hcn : cs[i + 1] ∈ cs := List.getElem_mem hnext
    obtain ⟨w2, hw2, o2⟩ := (hcs _ hcn).nat
    have e2 : idx cs (i + 1) = .ret cs[i + 1] := by unfold idx; rw [List.getElem?_eq_getElem hnext]
    have htake : totalW (cs.take (i + 1)) = totalW (cs.take i) + w1 := by
      rw [List.take_succ_eq_append_getElem hi, totalW_append, totalW_cons, totalW_nil, hw1]; simp [Fl.toK]
    obtain ⟨n2, hn2, -⟩ := totalW_nat (l := cs.drop (i + 1 + 1)) (fun c hc => hcs c (List.mem_of_mem_drop hc))
    have hsum : n + w1 + w2 + n2 ≤ N := by
      have h2 := hdrop (i + 1) hnext
      rw [htake, hn, hn2, hw2] at h2
      simp only [Fl.toK] at h2
      rw [h2] at hN
      exact_mod_cast hN
    have hkn : k = 2 * n + w1 := by
      rw [hn] at hk'
      have : (k : K) = ((2 * n + w1 : ℕ) : K) := by
        push_cast
        linarith [hk', show (k : K) = 2 * ((k : K) / 2) by ring, show 2 * ((n : K) + (w1 : K) / 2) = 2 * n + w1 by ring]
      exact_mod_cast this
    unfold valueLoop
    rw [e1, bind_ret, e2, bind_ret]
    simp only [hw1, hw2]
    rw [R.counts.addNat (by omega), R.counts.halve (by omega), R.counts.addHalf (by omega)]
    split
    · split
      · trivial
      · split
        · trivial
        · trivial
    · rename_i hlt
      rw [Fl.lt_fin, decide_eq_true_eq, not_lt] at hlt
      refine valueLoop_roomy R hcs hN hlast ht steps (i + 1) _ hnext ?_ hlt
      rw [htake, List.getElem?_eq_getElem hnext, hn, hkn]
      simp only [Option.map_some, Option.getD_some, hw2, Fl.toK]
      push_cast
      ring

section
variable [FloorRing K]

theorem toUsize_nat {W : Nat} (h : W < 2 ^ 64) : Fl.toUsize (.fin (W : K)) = some W := by
  unfold Fl.toUsize
  have : (W : K) < ((2 ^ 64 : ℕ) : K) := Nat.cast_lt.2 h
  rw [Nat.cast_pow, Nat.cast_ofNat] at this
  have h0 : (0 : K) ≤ W := by positivity
  show (if -1 < (W : K) ∧ (W : K) < 2 ^ 64 then some ⌊(W : K)⌋₊ else none) = some W
  rw [if_pos ⟨by linarith, this⟩, Nat.floor_natCast]

/-- Searching for NaN runs off the end of the list. -/
theorem valueLoop_nan (cs : List (Centroid K)) : ∀ (steps i : Nat) (cw : Fl K), i < cs.length → cs.length ≤ i + steps →
    Panics (valueLoop cs .nan steps i cw)
  | 0, i, cw, h1, h2 => by omega
  | steps + 1, i, cw, h1, h2 => by
    unfold valueLoop
    have e1 : idx cs i = .ret cs[i] := by unfold idx; rw [List.getElem?_eq_getElem h1]
    rw [e1, bind_ret]
    by_cases h3 : i + 1 < cs.length
    · have e2 : idx cs (i + 1) = .ret cs[i + 1] := by unfold idx; rw [List.getElem?_eq_getElem h3]
      rw [e2, bind_ret]
      simp only [Fl.lt_nan_left, Bool.false_eq_true, if_false]
      exact valueLoop_nan cs steps (i + 1) _ h3 (by omega)
    · have e2 : idx cs (i + 1) = .fail .oob := by unfold idx; rw [List.getElem?_eq_none (by omega)]
      rw [e2]
      show Err.oob ≠ Err.fuel
      simp

theorem panics_bind {α β : Type} {p : Prog α} (f : α → Prog β) (h : Panics p) : Panics (p >>= f) := by
  induction p with
  | ret a => exact absurd h (by simp [Panics])
  | fail e => exact h
  | flip g ih => exact fun b => ih b (h b)

/-- Value queries for NaN panic. -/
theorem value_nan [FloatFmt.Mono K] {A B : K} {N : Nat} (R : Roomy N A B) {d : TDigest K} (hcs : ∀ c ∈ d.centroids, Within A B c)
    (hne : d.centroids ≠ []) (hN : totalW d.centroids ≤ N) (h64 : N < 2 ^ 64) : Panics (d.estValueAtQuantile .nan) := by
  have htot : d.totalWeight = .fin (totalW d.centroids) := weightSum_roomy R hcs hN
  obtain ⟨W, hW, hlen⟩ := totalW_nat hcs
  have hWN : W ≤ N := by rw [hW] at hN; exact_mod_cast hN
  unfold estValueAtQuantile
  simp only [htot, hW, Fl.mul_nan, Fl.sub_nan, Fl.lt_nan_left, Fl.lt_nan_right, Fl.le_nan_left, Bool.and_false, Bool.false_eq_true, if_false]
  obtain ⟨first, rest, hd⟩ : ∃ f r, d.centroids = f :: r := by
    cases h : d.centroids with
    | nil => exact absurd h hne
    | cons f r => exact ⟨f, r, rfl⟩
  have e0 : idx d.centroids 0 = .ret first := by rw [hd]; rfl
  obtain ⟨last, hlast⟩ : ∃ l, d.centroids.getLast? = some l := ⟨_, List.getLast?_eq_some_getLast hne⟩
  have el : unwrap d.centroids.getLast? = .ret last := by rw [hlast]; rfl
  rw [e0, bind_ret, el, bind_ret, toUsize_nat (by omega), show unwrap (some W) = (.ret W : Prog Nat) from rfl, bind_ret]
  have hlen0 : 0 < d.centroids.length := List.length_pos_iff.2 hne
  exact panics_bind _ (valueLoop_nan d.centroids W 0 _ hlen0 (by omega))

/-- The extreme quantiles. -/
theorem value_ends [FloatFmt.Mono K] {A B : K} {N : Nat} (R : Roomy N A B) {d : TDigest K} (hcs : ∀ c ∈ d.centroids, Within A B c)
    (hne : d.centroids ≠ []) (hN : totalW d.centroids ≤ N) :
    d.estValueAtQuantile (.fin 0) = .ret d.min ∧ d.estValueAtQuantile (.fin 1) = .ret d.max := by
  have htot : d.totalWeight = .fin (totalW d.centroids) := weightSum_roomy R hcs hN
  obtain ⟨W, hW, hlen⟩ := totalW_nat hcs
  have hWN : W ≤ N := by rw [hW] at hN; exact_mod_cast hN
  have hW1 : 1 ≤ W := by
    have : d.centroids.length ≠ 0 := by simpa using hne
    omega
  have hWpos : (1 : K) ≤ W := by exact_mod_cast hW1
  constructor
  · unfold estValueAtQuantile
    simp only [htot, hW]
    rw [Fl.mul_fin, mul_zero, FloatFmt.Mono.rnd_zero, lit_one, Fl.lt_fin, if_pos (by simp)]
  · unfold estValueAtQuantile
    simp only [htot, hW]
    rw [Fl.mul_fin, mul_one, R.counts.rnd_nat hWN, lit_one, Fl.lt_fin, if_neg (by rw [decide_eq_true_eq]; exact not_lt.2 hWpos)]
    obtain ⟨first, rest, hd⟩ : ∃ f r, d.centroids = f :: r := by
      cases h : d.centroids with
      | nil => exact absurd h hne
      | cons f r => exact ⟨f, r, rfl⟩
    have e0 : idx d.centroids 0 = .ret first := by rw [hd]; rfl
    obtain ⟨wf, hwf, f3⟩ := (hcs first (by rw [hd]; simp)).nat
    have hwfW : wf ≤ W := by
      have h1 := hW
      rw [hd, totalW_cons, hwf] at h1
      obtain ⟨n2, hn2, -⟩ := totalW_nat (l := rest) (fun d' hd' => hcs d' (by rw [hd]; simp [hd']))
      rw [hn2] at h1
      simp only [Fl.toK] at h1
      have : wf + n2 = W := by exact_mod_cast h1
      omega
    have h2 : (wf : K) / 2 ≤ W := by
      have : (wf : K) ≤ W := by exact_mod_cast hwfW
      linarith
    rw [e0, bind_ret, hwf, R.counts.halve (by omega), Fl.lt_fin _ ((wf : K) / 2), decide_eq_false (not_lt.2 h2), Bool.and_false,
      if_neg (by simp), Fl.sub_fin, show (W : K) - 1 = ((W - 1 : ℕ) : K) by rw [Nat.cast_sub hW1]; simp,
      R.counts.rnd_nat (by omega), Fl.lt_fin, if_pos]
    simp only [decide_eq_true_eq]
    exact_mod_cast (by omega : W - 1 < W)

/-- Value queries never panic on a non-empty digest within range. -/
theorem value_roomy [FloatFmt.Mono K] {A B : K} {N : Nat} (R : Roomy N A B) {d : TDigest K} (hcs : ∀ c ∈ d.centroids, Within A B c)
    (hne : d.centroids ≠ []) (hN : totalW d.centroids ≤ N) (h64 : N < 2 ^ 64) {q : Fl K} (hq : q ≠ .nan) :
    Always (d.estValueAtQuantile q) (fun _ => True) := by
  have htot : d.totalWeight = .fin (totalW d.centroids) := weightSum_roomy R hcs hN
  obtain ⟨W, hW, hlen⟩ := totalW_nat hcs
  have hWN : W ≤ N := by rw [hW] at hN; exact_mod_cast hN
  have hW1 : 1 ≤ W := by
    have : d.centroids.length ≠ 0 := by simpa using hne
    omega
  have hWpos : (0 : K) < W := by exact_mod_cast hW1
  unfold estValueAtQuantile
  simp only [htot, hW]
  -- the target is not NaN
  have htn : (.fin (W : K) * q : Fl K) ≠ .nan := by
    cases q with
    | nan => exact absurd rfl hq
    | ninf =>
      show Fl.signInf (-(W : K)) ≠ _
      unfold Fl.signInf
      rw [if_neg (by linarith), if_pos (by linarith)]
      simp
    | pinf =>
      show Fl.signInf (W : K) ≠ _
      unfold Fl.signInf
      rw [if_pos hWpos]
      simp
    | fin x => rw [Fl.mul_fin]; exact FloatFmt.Mono.rnd_ne_nan _
  generalize (.fin (W : K) * q : Fl K) = target at htn
  split
  · trivial
  rename_i hlt1
  obtain ⟨first, rest, hd⟩ : ∃ f r, d.centroids = f :: r := by
    cases h : d.centroids with
    | nil => exact absurd h hne
    | cons f r => exact ⟨f, r, rfl⟩
  have e0 : idx d.centroids 0 = .ret first := by rw [hd]; rfl
  rw [e0, bind_ret]
  obtain ⟨wf, hwf, f3⟩ := (hcs first (by rw [hd]; simp)).nat
  rw [hwf]
  split
  · trivial
  rename_i hlt2
  have hsub : (.fin (W : K) - Fl.lit 1 : Fl K) = .fin ((W - 1 : ℕ) : K) := by
    rw [lit_one, Fl.sub_fin, show (W : K) - 1 = ((W - 1 : ℕ) : K) by rw [Nat.cast_sub hW1]; simp]
    exact R.counts.rnd_nat (by omega)
  rw [hsub]
  split
  · trivial
  rename_i hlt3
  -- the target is a number
  obtain ⟨t, rfl, ht1, ht2⟩ : ∃ t, target = .fin t ∧ 1 ≤ t ∧ t ≤ ((W - 1 : ℕ) : K) := by
    cases target with
    | nan => exact absurd rfl htn
    | ninf => rw [lit_one] at hlt1; exact absurd (by simp [Fl.lt]; exact not_le.1 (Fl.fin_not_le_ninf _)) hlt1
    | pinf => exact absurd (by simp [Fl.lt]; exact not_le.1 (Fl.pinf_not_le_fin _)) hlt3
    | fin t =>
      rw [lit_one, Fl.lt_fin, decide_eq_true_eq, not_lt] at hlt1
      rw [Fl.lt_fin, decide_eq_true_eq, not_lt] at hlt3
      exact ⟨t, rfl, hlt1, hlt3⟩
  have ht2' : t ≤ W - 1 := by rw [Nat.cast_sub hW1] at ht2; simpa using ht2
  obtain ⟨last, hlast⟩ : ∃ l, d.centroids.getLast? = some l := ⟨_, List.getLast?_eq_some_getLast hne⟩
  have el : unwrap d.centroids.getLast? = .ret last := by rw [hlast]; rfl
  rw [el, bind_ret]
  have hlmem : last ∈ d.centroids := List.mem_of_getLast? hlast
  obtain ⟨wl, hwl, l3⟩ := (hcs last hlmem).nat
  have hwlW : wl ≤ W := by
    obtain ⟨s, tt, hst⟩ := List.append_of_mem hlmem
    have h1 := hW
    rw [hst, totalW_append, totalW_cons, hwl] at h1
    obtain ⟨n1, hn1, -⟩ := totalW_nat (l := s) (fun d' hd' => hcs d' (by rw [hst]; simp [hd']))
    obtain ⟨n2, hn2, -⟩ := totalW_nat (l := tt) (fun d' hd' => hcs d' (by rw [hst]; simp [hd']))
    rw [hn1, hn2] at h1
    simp only [Fl.toK] at h1
    have : n1 + (wl + n2) = W := by exact_mod_cast h1
    omega
  rw [hwl]
  split
  · trivial
  rename_i hlt4
  rw [toUsize_nat (show W < 2 ^ 64 by omega)]
  show Always (_ >>= _) _
  rw [show unwrap (some W) = (.ret W : Prog Nat) from rfl, bind_ret, always_bind]
  have hwfW : wf ≤ W := by
    have h1 := hW
    rw [hd, totalW_cons, hwf] at h1
    obtain ⟨n2, hn2, -⟩ := totalW_nat (l := rest) (fun d' hd' => hcs d' (by rw [hd]; simp [hd']))
    rw [hn2] at h1
    simp only [Fl.toK] at h1
    have : wf + n2 = W := by exact_mod_cast h1
    omega
  have f1 : ∀ a : Nat, 1 < a → Fl.lt (Fl.lit 1) (.fin (a : K)) = true := by
    intro a ha
    rw [lit_one, Fl.lt_fin]
    have : ((1 : ℕ) : K) < a := Nat.cast_lt.2 ha
    simpa using this
  rw [R.counts.halve (by omega)] at hlt2 hlt4
  -- the target is right of the middle of the first and left of the middle of the last centroid
  have hlo : (wf : K) / 2 ≤ t := by
    rcases Nat.lt_or_ge 1 wf with h1 | h1
    · rw [f1 wf h1, Bool.true_and, Fl.lt_fin, decide_eq_true_eq, not_lt] at hlt2
      exact hlt2
    · have : wf = 1 := by omega
      subst this
      push_cast
      linarith
  have hhi : t < totalW d.centroids - wl / 2 := by
    rw [hW]
    rcases Nat.lt_or_ge 1 wl with h1 | h1
    · by_contra hcon
      rw [not_lt] at hcon
      apply hlt4
      rw [f1 wl h1, Bool.true_and, Fl.sub_fin]
      have h2 := FloatFmt.Mono.rnd_mono ((W : K) - t) ((wl : K) / 2) (by linarith)
      rw [R.counts wl (by omega)] at h2
      have h3 := FloatFmt.Mono.rnd_ne_nan ((W : K) - t)
      rw [Fl.le_eq h3 (by simp)]
      simpa using h2
    · have : wl = 1 := by omega
      subst this
      push_cast
      linarith
  rw [R.counts.halve (by omega)]
  have hlen0 : 0 < d.centroids.length := List.length_pos_iff.2 hne
  refine (valueLoop_roomy R hcs hN (lw := wl) (by intro c hc; rw [hlast] at hc; cases hc; exact hwl) hhi W 0 wf hlen0 ?_ hlo).mono ?_
  · rw [hd]; simp [hwf, Fl.toK]
  · intro r _
    cases r with
    | none => trivial
    | some v => trivial

end

end TDigest
end AQ

/-
Rank error of TDigest quantile queries in rounding arithmetic.
-/
import Verif.Proofs.TDRoundRuns
import Verif.Proofs.TDRoundQuery
import Verif.Proofs.TDRoundCluster

set_option linter.unusedSectionVars false
set_option linter.unusedVariables false

namespace AQ
open Prog Spec
variable {K : Type} [Field K] [LinearOrder K] [IsStrictOrderedRing K] [FloatFmt K]

namespace TDigest

/-- A rank between `lo` and `hi`, divided by the total weight. -/
def Spans (W : Nat) (lo hi : K) (r : Fl K) : Prop := ∃ t : K, r = .fin t / .fin (W : K) ∧ lo ≤ t ∧ t ≤ hi

/-- The answer between two neighbouring centroids lies within the ranks they cover. -/
theorem between_span [FloatFmt.Mono K] {A B : K} {N : Nat} (R : Roomy N A B) {x : K} {c n : Centroid K} {wsf W : Nat}
    (hc : Within A B c) (hn : Within A B n) (h1 : c.mean ≤ .fin x) (h2 : .fin x < n.mean)
    (hw : (wsf : K) + c.weight.toK + n.weight.toK ≤ W) (hW : W ≤ N) :
    Spans W (wsf : K) ((wsf : K) + c.weight.toK + n.weight.toK) (between (.fin x) (.fin (wsf : K)) (.fin (W : K)) c n) := by
  obtain ⟨m1, w1, hm1, a1, b1, hw1, o1⟩ := hc
  obtain ⟨m2, w2, hm2, a2, b2, hw2, o2⟩ := hn
  have ew1 : c.weight.toK = (w1 : K) := by rw [hw1]; rfl
  have ew2 : n.weight.toK = (w2 : K) := by rw [hw2]; rfl
  rw [ew1, ew2] at hw ⊢
  have hw' : wsf + w1 + w2 ≤ W := by exact_mod_cast hw
  rw [hm1] at h1
  rw [hm2] at h2
  have h1' : m1 ≤ x := Fl.fin_le_fin.1 h1
  have h2' : x < m2 := Fl.fin_lt_fin.1 h2
  obtain ⟨wd, hwd⟩ := R.width
  obtain ⟨y, hy, y0, -⟩ := rnd_nonneg (x := m2 - m1) (by linarith) (by linarith) hwd
  obtain ⟨z, hz, z0, hzy⟩ := rnd_nonneg (x := x - m1) (by linarith) (show x - m1 ≤ m2 - m1 by linarith) hy
  have e1 : (1 : K) = ((1 : ℕ) : K) := by simp
  have f1 : ∀ a : Nat, Fl.feq (.fin (a : K)) (Fl.lit 1) = decide (a = 1) := by
    intro a; rw [lit_one, e1, fl_feq_nat]
  have edw : (.fin (w1 : K) + .fin (w2 : K)) / Fl.lit 2 = (.fin (((w1 + w2 : ℕ) : K) / 2) : Fl K) := by
    rw [R.counts.addNat (by omega), R.counts.halve (by omega)]
  have hwsf : (.fin (wsf : K) : Fl K) = .fin (((2 * wsf : ℕ) : K) / 2) := by rw [nat_half]
  have hw1K : (1 : K) ≤ w1 := by exact_mod_cast o1
  have hw2K : (1 : K) ≤ w2 := by exact_mod_cast o2
  unfold between
  rw [hm1, hm2, hw1, hw2, Fl.sub_fin, Fl.sub_fin, hy, hz, edw, f1, f1, lit_zero, lit_half, Fl.lt_fin]
  by_cases hy0 : 0 < y
  · simp only [decide_eq_true hy0, if_true]
    by_cases hboth : w1 = 1 ∧ w2 = 1
    · obtain ⟨rfl, rfl⟩ := hboth
      simp only [decide_true, Bool.and_self, if_true]
      rw [lit_one, e1, R.counts.addNat (by omega)]
      refine ⟨_, rfl, ?_, ?_⟩ <;> push_cast <;> linarith
    · have hb : (decide (w1 = 1) && decide (w2 = 1)) = false := by
        rw [Bool.and_eq_false_iff, decide_eq_false_iff_not, decide_eq_false_iff_not]; omega
      simp only [hb, Bool.false_eq_true, if_false]
      -- the two corrections, in halves
      obtain ⟨lk, rk, hle, hre, hlk, hrk, hcap⟩ : ∃ lk rk : Nat,
          (if decide (w1 = 1) = true then (.fin (1 / 2) : Fl K) else .fin 0) = .fin ((lk : K) / 2) ∧
          (if decide (w1 = 1) = true then (.fin 0 : Fl K) else if decide (w2 = 1) = true then .fin (1 / 2) else .fin 0)
            = .fin ((rk : K) / 2) ∧ lk + rk ≤ 1 ∧ rk ≤ 1 ∧ 2 ≤ w2 + rk := by
        by_cases ha : w1 = 1
        · refine ⟨1, 0, ?_, ?_, by omega, by omega, by omega⟩ <;> simp [ha]
        · by_cases hb2 : w2 = 1
          · refine ⟨0, 1, ?_, ?_, by omega, by omega, by omega⟩ <;> simp [ha, hb2]
          · refine ⟨0, 0, ?_, ?_, by omega, by omega, by omega⟩ <;> simp [ha, hb2]
      rw [hle, hre, R.counts.subHalf (by omega) (by omega), R.counts.subHalf (by omega) (by omega), R.counts.halve (by omega), hwsf,
        R.counts.addHalf (by omega), R.counts.addHalf (by omega), Fl.mul_fin]
      set k := w1 + w2 - lk - rk with hk
      have hsc := R.scaled k (by omega) (m2 - m1) y (by linarith) (by linarith) hy
      have hp1 : (k : K) / 2 * z ≤ k / 2 * y := mul_le_mul_of_nonneg_left hzy (by positivity)
      obtain ⟨p, hp, p0, p1⟩ : ∃ p, FloatFmt.rnd ((k : K) / 2 * z) = .fin p ∧ 0 ≤ p ∧ p ≤ (k / 2 + 1) * y := by
        obtain ⟨v, hv⟩ : ∃ v, FloatFmt.rnd ((k : K) / 2 * y) = .fin v := by
          have h0 := FloatFmt.Mono.rnd_mono (0 : K) (k / 2 * y) (by positivity)
          rw [FloatFmt.Mono.rnd_zero] at h0
          cases hv : FloatFmt.rnd ((k : K) / 2 * y) with
          | nan => exact absurd hv (FloatFmt.Mono.rnd_ne_nan _)
          | ninf => rw [hv] at h0; exact absurd h0 (Fl.fin_not_le_ninf 0)
          | pinf => rw [hv] at hsc; exact absurd hsc (Fl.pinf_not_le_fin _)
          | fin v => exact ⟨v, rfl⟩
        obtain ⟨p, hp, p0, p1⟩ := rnd_nonneg (by positivity) hp1 hv
        rw [hv, Fl.fin_le_fin] at hsc
        exact ⟨p, hp, p0, p1.trans hsc⟩
      rw [hp, Fl.div_fin_of_ne _ hy0.ne']
      have hex := R.counts (k + 2) (by omega)
      have ek : ((k + 2 : ℕ) : K) / 2 = k / 2 + 1 := by push_cast; field_simp
      obtain ⟨q, hq, q0, q1⟩ := rnd_between (x := p / y) FloatFmt.Mono.rnd_zero hex (by positivity)
        (by rw [ek, div_le_iff₀ hy0]; exact p1)
      rw [hq, Fl.add_fin]
      have hlow := R.counts (2 * wsf + w1 + lk) (by omega)
      have hfin := R.counts (2 * wsf + w1 + lk + (k + 2)) (by omega)
      have hsum : ((2 * wsf + w1 + lk + (k + 2) : ℕ) : K) / 2 = ((2 * wsf + w1 + lk : ℕ) : K) / 2 + ((k + 2 : ℕ) : K) / 2 := by
        rw [← add_div, ← Nat.cast_add]
      obtain ⟨t, ht, t0, t1⟩ := rnd_between (x := ((2 * wsf + w1 + lk : ℕ) : K) / 2 + q) hlow hfin (by linarith)
        (by rw [hsum]; linarith)
      rw [ht]
      refine ⟨t, rfl, le_trans ?_ t0, t1.trans ?_⟩
      · rw [le_div_iff₀ (by norm_num)]
        exact_mod_cast (by omega : wsf * 2 ≤ 2 * wsf + w1 + lk)
      · rw [div_le_iff₀ (by norm_num)]
        exact_mod_cast (by omega : 2 * wsf + w1 + lk + (k + 2) ≤ (wsf + w1 + w2) * 2)
  · simp only [decide_eq_false hy0, Bool.false_eq_true, if_false]
    rw [hwsf, R.counts.addHalf (by omega)]
    refine ⟨_, rfl, ?_, ?_⟩
    · rw [le_div_iff₀ (by norm_num)]
      exact_mod_cast (by omega : wsf * 2 ≤ 2 * wsf + (w1 + w2))
    · rw [div_le_iff₀ (by norm_num)]
      exact_mod_cast (by omega : 2 * wsf + (w1 + w2) ≤ (wsf + w1 + w2) * 2)

/-- The weight of the centroids at the item, up to the first elsewhere. -/
theorem equalWeight_span {A B : K} {N : Nat} (R : Roomy N A B) (x : K) : ∀ (cs : List (Centroid K)) (a : Nat), (∀ c ∈ cs, Within A B c) → (a : K) + totalW cs ≤ N →
    ∃ (b : Nat) (E s : List (Centroid K)), equalWeight (.fin x) (.fin (a : K)) cs = .fin (b : K) ∧ cs = E ++ s ∧ (∀ e ∈ E, e.mean.toK = x) ∧
      (b : K) = a + totalW E ∧ (E = [] → ∀ c ∈ cs.head?, Fl.feq c.mean (.fin x) = false)
  | [], a, _, _ => ⟨a, [], [], rfl, rfl, by simp, by simp, by simp⟩
  | c :: cs, a, h, hN => by
    have hcs : ∀ d ∈ cs, Within A B d := fun d hd => h d (by simp [hd])
    obtain ⟨m, w, hm, -, -, hw, w1⟩ := h c (by simp)
    obtain ⟨n, hn, -⟩ := totalW_nat hcs
    have hcw : c.weight.toK = (w : K) := by rw [hw]; rfl
    rw [totalW_cons, hcw] at hN
    have hN' : a + (w + n) ≤ N := by rw [hn] at hN; exact_mod_cast hN
    unfold equalWeight
    split
    next he =>
      rw [hw, R.counts.addNat (by omega)]
      obtain ⟨b, E, s, h1, h2, h3, h4, -⟩ := equalWeight_span R x cs (a + w) hcs (by push_cast; rw [add_assoc]; exact hN)
      refine ⟨b, c :: E, s, h1, by rw [h2]; rfl, ?_, ?_, by simp⟩
      · intro e hee
        rcases List.mem_cons.1 hee with rfl | hee
        · rw [hm, Fl.feq_fin, decide_eq_true_eq] at he
          rw [hm]; exact he
        · exact h3 e hee
      · rw [h4, totalW_cons, hcw]; push_cast; ring
    next he =>
      exact ⟨a, [], c :: cs, rfl, rfl, by simp, by simp, by simpa using he⟩

/-- The loop over neighbouring centroids: where the answer lies among the centroids. -/
theorem quantileLoop_span [FloatFmt.Mono K] {A B : K} {N : Nat} (R : Roomy N A B) {x M : K} {W : Nat} (hW : W ≤ N) :
    ∀ (cs : List (Centroid K)) (hne : cs ≠ []) (wsf : Nat), (∀ c ∈ cs, Within A B c) → (wsf : K) + totalW cs ≤ W →
      (∀ c ∈ cs, c.weight.toK ≤ M) → (cs.head hne).mean ≤ .fin x →
      match quantileLoop (.fin x) (.fin (W : K)) (.fin (wsf : K)) cs with
      | .inl r => ∃ t : K, r = .fin t / .fin (W : K) ∧ 0 ≤ t ∧ t ≤ W ∧
          (∃ p o s, cs = p ++ o :: s ∧ o.mean.toK ≤ x ∧ t ≤ wsf + totalW p + 2 * M) ∧
          (∃ p o s, cs = p ++ o :: s ∧ x ≤ o.mean.toK ∧ wsf + totalW p + o.weight.toK ≤ t + 2 * M)
      | .inr w => (∃ n : Nat, w = .fin (n : K) ∧ (n : K) + (cs.getLast hne).weight.toK = wsf + totalW cs) ∧ (cs.getLast hne).mean ≤ .fin x
  | [], hne, _, _, _, _, _ => absurd rfl hne
  | [c], _, wsf, hcs, hN, hM, hx => by
    refine ⟨⟨wsf, rfl, ?_⟩, hx⟩
    simp [totalW_cons]
  | c :: n :: rest, _, wsf, hcs, hN, hM, hx => by
    have hr : ∀ d ∈ n :: rest, Within A B d := fun d hd => hcs d (by simp only [List.mem_cons] at hd ⊢; tauto)
    have hMr : ∀ d ∈ n :: rest, d.weight.toK ≤ M := fun d hd => hM d (by simp only [List.mem_cons] at hd ⊢; tauto)
    obtain ⟨w, hw, w1⟩ := (hcs c (by simp)).nat
    obtain ⟨k, hk, hkl⟩ := totalW_nat hr
    have hcw : c.weight.toK = (w : K) := by rw [hw]; rfl
    have hN2 : wsf + (w + k) ≤ W := by
      rw [totalW_cons, hcw, hk] at hN; exact_mod_cast hN
    have hWpos : 1 ≤ W := by omega
    have hwM : (w : K) ≤ M := by rw [← hcw]; exact hM c (by simp)
    have hw1K : (1 : K) ≤ w := by exact_mod_cast w1
    have hwsf0 : (0 : K) ≤ wsf := by positivity
    simp only [List.head_cons] at hx
    unfold quantileLoop
    by_cases he : Fl.feq c.mean (.fin x) = true
    · simp only [he, if_true]
      obtain ⟨b, E, s, hb, hEs, hE, hbE, hEne⟩ := equalWeight_span R x (c :: n :: rest) 0 hcs (by
        rw [totalW_cons, hcw, hk]; push_cast; rw [zero_add]; exact_mod_cast (by omega : w + k ≤ N))
      have hE0 : E ≠ [] := by
        intro e
        have := hEne e c (by simp)
        rw [he] at this; simp at this
      rw [Nat.cast_zero] at hb hbE
      rw [zero_add] at hbE
      have hEw : ∀ d ∈ E, Within A B d := fun d hd => hcs d (by rw [hEs]; simp [hd])
      have hsw : ∀ d ∈ s, Within A B d := fun d hd => hcs d (by rw [hEs]; simp [hd])
      obtain ⟨ks, hks, -⟩ := totalW_nat hsw
      have hb3 : b ≤ w + k := by
        have h1 : totalW (c :: n :: rest) = totalW E + totalW s := by rw [hEs, totalW_append]
        rw [totalW_cons, hcw, hk, ← hbE, hks] at h1
        have : w + k = b + ks := by exact_mod_cast h1
        omega
      rw [lit_zero, hb]
      have hb0 : (0 : K) ≤ b := by positivity
      -- last centroid at the item
      obtain ⟨E', o, hE'⟩ : ∃ E' o, E = E' ++ [o] := ⟨E.dropLast, E.getLast hE0, (List.dropLast_append_getLast hE0).symm⟩
      have hup : ∀ t : K, t ≤ wsf + (b : K) / 2 → ∃ p o s, c :: n :: rest = p ++ o :: s ∧ o.mean.toK ≤ x ∧ t ≤ wsf + totalW p + 2 * M := by
        intro t ht
        refine ⟨E', o, s, by rw [hEs, hE']; simp, (hE o (by rw [hE']; simp)).le, ?_⟩
        have hoM : o.weight.toK ≤ M := hM o (by rw [hEs, hE']; simp)
        obtain ⟨kE, hkE, -⟩ := totalW_nat (l := E') (fun d hd => hEw d (by rw [hE']; simp [hd]))
        have h0 : 0 ≤ totalW E' := by rw [hkE]; positivity
        have : (b : K) = totalW E' + o.weight.toK := by rw [hbE, hE', totalW_append, totalW_cons, totalW_nil, add_zero]
        linarith
      have hdown : ∀ t : K, wsf ≤ t → ∃ p o s, c :: n :: rest = p ++ o :: s ∧ x ≤ o.mean.toK ∧ wsf + totalW p + o.weight.toK ≤ t + 2 * M := by
        intro t ht
        refine ⟨[], c, n :: rest, rfl, ?_, ?_⟩
        · have : c ∈ E := by
            cases E with
            | nil => exact absurd rfl hE0
            | cons e E => simp only [List.cons_append, List.cons.injEq] at hEs; simp [hEs.1]
          exact (hE c this).ge
        · rw [totalW_nil, hcw]; linarith
      have hbW : (wsf : K) + (b : K) / 2 ≤ W := by
        have : (b : K) ≤ 2 * (W - wsf) := by
          have h3 : b + 2 * wsf ≤ 2 * W := by omega
          have : (b : K) + 2 * wsf ≤ 2 * W := by exact_mod_cast h3
          linarith
        linarith
      cases hcc : (Fl.feq c.weight (.fin (b : K)) && Fl.feq (.fin (b : K)) (Fl.lit 1)) with
      | true =>
        simp only [if_true]
        exact ⟨wsf, rfl, hwsf0, by linarith, hup _ (by linarith), hdown _ le_rfl⟩
      | false =>
        simp only [Bool.false_eq_true, if_false]
        rw [R.counts.halve (by omega), show (.fin (wsf : K) : Fl K) = .fin (((2 * wsf : ℕ) : K) / 2) by rw [nat_half],
          R.counts.addHalf (by omega)]
        have e : ((2 * wsf + b : ℕ) : K) / 2 = wsf + (b : K) / 2 := by push_cast; ring
        rw [e]
        exact ⟨_, rfl, by linarith, hbW, hup _ le_rfl, hdown _ (by linarith)⟩
    · simp only [he, Bool.false_eq_true, if_false]
      by_cases hb : (Fl.le c.mean (.fin x) && Fl.lt (.fin x) n.mean) = true
      · simp only [hb, if_true]
        rw [Bool.and_eq_true] at hb
        obtain ⟨m1, w1', hm1, -, -, -, -⟩ := hcs c (by simp)
        obtain ⟨m2, w2, hm2, -, -, hw2, o2⟩ := hr n (by simp)
        have hlt : (.fin x : Fl K) < n.mean := by
          have := hb.2
          rw [hm2, Fl.lt_fin, decide_eq_true_eq] at this
          rw [hm2]; exact Fl.fin_lt_fin.2 this
        have h0 : 0 ≤ totalW rest := by
          obtain ⟨kk, hkk, -⟩ := totalW_nat (l := rest) (fun d hd => hr d (by simp [hd]))
          rw [hkk]; positivity
        rw [totalW_cons, totalW_cons] at hN
        have hW2 : (wsf : K) + c.weight.toK + n.weight.toK ≤ W := by linarith
        obtain ⟨t, ht, t0, t1⟩ := between_span R (hcs c (by simp)) (hr n (by simp)) hx hlt hW2 hW
        have hMc := hM c (by simp)
        have hMn := hM n (by simp)
        have hlt' : x < m2 := by rw [hm2] at hlt; exact Fl.fin_lt_fin.1 hlt
        refine ⟨t, ht, by linarith, by linarith, ⟨[], c, n :: rest, rfl, ?_, ?_⟩, ⟨[c], n, rest, rfl, ?_, ?_⟩⟩
        · rw [hm1] at hx ⊢; exact Fl.fin_le_fin.1 hx
        · rw [totalW_nil]; linarith
        · rw [hm2]; exact hlt'.le
        · rw [totalW_cons, totalW_nil]; linarith
      · simp only [hb, Bool.false_eq_true, if_false]
        have hle : n.mean ≤ .fin x := by
          obtain ⟨m1, -, hm1, -⟩ := hcs c (by simp)
          obtain ⟨m2, -, hm2, -⟩ := hr n (by simp)
          rw [hm1] at hx hb
          rw [hm2, Fl.le_fin, Fl.lt_fin] at hb
          rw [hm2, Fl.fin_le_fin]
          rw [Fl.fin_le_fin] at hx
          simp only [hx, decide_true, Bool.true_and, decide_eq_true_eq] at hb
          exact not_lt.1 hb
        rw [hw, R.counts.addNat (by omega)]
        have ih := quantileLoop_span R hW (n :: rest) (by simp) (wsf + w) hr (by
          rw [hk]; exact_mod_cast (by omega : wsf + w + k ≤ W)) hMr (by simpa using hle)
        have ec : ((wsf + w : ℕ) : K) = wsf + c.weight.toK := by rw [hcw]; push_cast; rfl
        cases hres : quantileLoop (.fin x) (.fin (W : K)) (.fin ((wsf + w : ℕ) : K)) (n :: rest) with
        | inl r =>
          rw [hres] at ih
          obtain ⟨t, h1, h2, h3, ⟨p, o, s, hp, hp1, hp2⟩, ⟨p', o', s', hp', hp1', hp2'⟩⟩ := ih
          rw [ec] at hp2 hp2'
          refine ⟨t, h1, h2, h3, ⟨c :: p, o, s, by rw [hp]; rfl, hp1, ?_⟩, ⟨c :: p', o', s', by rw [hp']; rfl, hp1', ?_⟩⟩
          · rw [totalW_cons]; linarith
          · rw [totalW_cons]; linarith
        | inr v =>
          rw [hres] at ih
          obtain ⟨⟨m, h1, h2⟩, h3⟩ := ih
          refine ⟨⟨m, h1, ?_⟩, by simpa using h3⟩
          rw [List.getLast_cons (by simp), h2, ec, totalW_cons c]
          ring

/-- The formula for the outer halves of the end centroids. -/
theorem tail_span [FloatFmt.Mono K] {A B : K} {N : Nat} (R : Roomy N A B) {u v : K} {w W : Nat} (hv : 0 < v) (h0 : 0 ≤ u) (h1 : u ≤ v)
    (hw : 1 ≤ w) (hwW : w ≤ W) (hW : W ≤ N) :
    Spans W (0 : K) (w : K) ((Fl.lit 1 + .fin u / .fin v * (.fin (w : K) / Fl.lit 2 - Fl.lit 1)) / .fin (W : K) : Fl K) := by
  obtain ⟨r, hr, r0, r1⟩ := div_unit hv h0 h1
  have hw1 : (1 : K) ≤ w := by exact_mod_cast hw
  rw [hr, R.counts.halve (by omega), lit_one, Fl.sub_fin]
  rcases Nat.lt_or_ge w 2 with h2 | h2
  · have : w = 1 := by omega
    subst this
    have e : ((1 : ℕ) : K) / 2 - 1 = -(1 / 2) := by norm_num
    rw [e, R.negHalf, Fl.mul_fin]
    obtain ⟨p, hp, p0, p1⟩ := rnd_between (x := r * -(1 / 2)) R.negHalf FloatFmt.Mono.rnd_zero (by linarith) (by linarith)
    rw [hp, Fl.add_fin]
    obtain ⟨q, hq, q0, q1⟩ := rnd_between (x := 1 + p) FloatFmt.Mono.rnd_half FloatFmt.Mono.rnd_one (by linarith) (by linarith)
    rw [hq]
    exact ⟨q, rfl, by linarith, by linarith⟩
  · have e : (w : K) / 2 - 1 = ((w - 2 : ℕ) : K) / 2 := by
      rw [Nat.cast_sub h2]; push_cast; field_simp
    have ex := R.counts (w - 2) (by omega)
    rw [e, ex, Fl.mul_fin]
    have hg0 : (0 : K) ≤ ((w - 2 : ℕ) : K) / 2 := by positivity
    obtain ⟨p, hp, p0, p1⟩ := rnd_between (x := r * (((w - 2 : ℕ) : K) / 2)) FloatFmt.Mono.rnd_zero ex (by positivity)
      (by nlinarith)
    rw [hp, Fl.add_fin]
    have ex2 := R.counts w (by omega)
    rw [← e] at p1
    obtain ⟨q, hq, q0, q1⟩ := rnd_between (x := 1 + p) FloatFmt.Mono.rnd_one ex2 (by linarith) (by linarith)
    rw [hq]
    exact ⟨q, rfl, by linarith, by linarith⟩

/-- Dividing a rank by the total weight. -/
theorem span_div {u η Rm : K} (E : RelErr u η Rm) (hR : 1 ≤ Rm) {W : Nat} (hW : 1 ≤ W) {lo hi : K} {r : Fl K} (h : Spans W lo hi r) (h0 : 0 ≤ lo) (h1 : hi ≤ W) :
    ∃ y : K, r = .fin y ∧ lo ≤ y * W + (u + η) * W ∧ y * W ≤ hi + (u + η) * W := by
  obtain ⟨t, rfl, t0, t1⟩ := h
  have hpos : (0 : K) < W := by exact_mod_cast hW
  have a0 : 0 ≤ t / W := div_nonneg (by linarith) hpos.le
  have a1 : t / W ≤ 1 := (div_le_one hpos).2 (by linarith)
  obtain ⟨y, hy, ey⟩ := E.near (t / W) (by rw [abs_of_nonneg a0]; linarith)
  rw [abs_of_nonneg a0] at ey
  have ey' : |y - t / W| ≤ u + η := ey.trans (by have := mul_le_mul_of_nonneg_left a1 E.u_nonneg; linarith)
  obtain ⟨e1, e2⟩ := abs_le.1 ey'
  have et : t / W * W = t := div_mul_cancel₀ _ hpos.ne'
  have k1 := mul_le_mul_of_nonneg_right e1 hpos.le
  have k2 := mul_le_mul_of_nonneg_right e2 hpos.le
  rw [sub_mul, et] at k1 k2
  exact ⟨y, by rw [Fl.div_fin_of_ne _ hpos.ne', hy], by linarith, by linarith⟩

/-- One minus such a quotient. -/
theorem span_one_sub {u η Rm : K} [FloatFmt.Mono K] (E : RelErr u η Rm) (hR : 1 ≤ Rm) {W : Nat} (hW : 1 ≤ W) {hi : K} {r : Fl K} (h : Spans W 0 hi r) (h1 : hi ≤ W) :
    ∃ y : K, (Fl.lit 1 - r : Fl K) = .fin y ∧ (W : K) ≤ y * W + hi + 2 * (u + η) * W := by
  obtain ⟨z, hz, -, z1⟩ := span_div E hR hW h le_rfl h1
  have hpos : (0 : K) < W := by exact_mod_cast hW
  obtain ⟨t, ht, t0, t1⟩ := h
  obtain ⟨z', hz', z0, z2⟩ := div_unit hpos t0 (t1.trans h1)
  have : z = z' := by rw [← ht, hz] at hz'; injection hz'
  subst this
  have a : |1 - z| ≤ 1 := abs_le.2 ⟨by linarith, by linarith⟩
  obtain ⟨y, hy, ey⟩ := E.near (1 - z) (a.trans hR)
  have ey' : |y - (1 - z)| ≤ u + η := ey.trans (by have := mul_le_mul_of_nonneg_left a E.u_nonneg; linarith)
  obtain ⟨e1, -⟩ := abs_le.1 ey'
  have k1 := mul_le_mul_of_nonneg_right e1 hpos.le
  rw [sub_mul, sub_mul, one_mul] at k1
  exact ⟨y, by rw [hz, lit_one, Fl.sub_fin, hy], by linarith⟩

/-- Where the answer `y` of a query for `x` lies: outside the data it is exact; otherwise its rank is at most `D` above the weight of the centroids
before one not above `x`, and at most `D` below that of the centroids up to one not below `x`. -/
def Located (cs : List (Centroid K)) (a b x y D : K) : Prop :=
  (x < a ∧ y = 0) ∨ (b < x ∧ y = 1) ∨
  ((y * totalW cs ≤ D ∨ ∃ p o s, cs = p ++ o :: s ∧ o.mean.toK ≤ x ∧ y * totalW cs ≤ totalW p + D) ∧
    (totalW cs ≤ y * totalW cs + D ∨ ∃ p o s, cs = p ++ o :: s ∧ x ≤ o.mean.toK ∧ totalW p + o.weight.toK ≤ y * totalW cs + D))

theorem quantile_span [FloatFmt.Mono K] {A B : K} {N : Nat} (R : Roomy N A B) {u η Rm : K} (E : RelErr u η Rm) (hR1 : 1 ≤ Rm) {d : TDigest K}
    (hcs : ∀ c ∈ d.centroids, Within A B c) (hne : d.centroids ≠ []) (hN : totalW d.centroids ≤ N) {a b M : K} (hmin : d.min = .fin a) (hmax : d.max = .fin b)
    (hA : A ≤ a ∧ a ≤ B) (hB : A ≤ b ∧ b ≤ B) (hM : ∀ c ∈ d.centroids, c.weight.toK ≤ M) (x : K) :
    ∃ y : K, d.estQuantileAtValue (.fin x) = .ret (.fin y) ∧ Located d.centroids a b x y (2 * M + 2 * (u + η) * totalW d.centroids) := by
  have htot : d.totalWeight = .fin (totalW d.centroids) := weightSum_roomy R hcs hN
  obtain ⟨W, hW, hlen⟩ := totalW_nat hcs
  have hWN : W ≤ N := by rw [hW] at hN; exact_mod_cast hN
  obtain ⟨wd, hwd⟩ := R.width
  have hu := E.u_nonneg
  have hη := E.eta_nonneg
  have hM1 : 1 ≤ M := by
    obtain ⟨c, hc⟩ := List.exists_mem_of_ne_nil _ hne
    obtain ⟨w, hw, w1⟩ := (hcs c hc).nat
    have h1 : (w : K) ≤ M := by have := hM c hc; rw [hw] at this; exact this
    have h2 : (1 : K) ≤ w := by exact_mod_cast w1
    exact h2.trans h1
  have hW0 : (0 : K) ≤ W := by positivity
  have hρ : 0 ≤ (u + η) * W := by positivity
  rw [hW] at htot
  unfold Located
  rw [hW]
  unfold estQuantileAtValue
  split
  · rename_i h; exact absurd h hne
  · -- a single centroid
    rename_i c hd
    have hWM : (W : K) ≤ M := by
      have := hM c (by rw [hd]; simp)
      rw [hd, totalW_cons, totalW_nil, add_zero] at hW
      rw [← hW]; exact this
    simp only [hmin, hmax]
    rw [Fl.lt_fin, Fl.lt_fin]
    by_cases hx1 : x < a
    · simp only [decide_eq_true hx1, if_true]
      exact ⟨0, by rw [lit_zero], .inl ⟨hx1, rfl⟩⟩
    · simp only [decide_eq_false hx1, Bool.false_eq_true, if_false]
      by_cases hx2 : b < x
      · simp only [decide_eq_true hx2, if_true]
        exact ⟨1, by rw [lit_one], .inr (.inl ⟨hx2, rfl⟩)⟩
      · simp only [decide_eq_false hx2, Bool.false_eq_true, if_false]
        rw [not_lt] at hx1 hx2
        obtain ⟨y, hy, y0, -⟩ := rnd_nonneg (x := b - a) (by linarith) (by linarith) hwd
        obtain ⟨z, hz, z0, z1⟩ := rnd_nonneg (x := x - a) (by linarith) (show x - a ≤ b - a by linarith) hy
        rw [Fl.sub_fin, Fl.sub_fin, hy, hz, Fl.le_fin, if_pos (by simpa using z1)]
        exact ⟨1 / 2, by rw [lit_half], .inr (.inr ⟨.inl (by linarith), .inl (by linarith)⟩)⟩
  · rename_i first second rest hd
    rw [hd] at hM ⊢
    have hcs' : ∀ c ∈ first :: second :: rest, Within A B c := by rw [← hd]; exact hcs
    have hW' : totalW (first :: second :: rest) = (W : K) := by rw [← hd]; exact hW
    have hlen' : 2 ≤ W := by
      rw [hd] at hlen; simp only [List.length_cons] at hlen; omega
    have hWK : (2 : K) ≤ W := by exact_mod_cast hlen'
    have hle : ∀ c ∈ first :: second :: rest, ∀ w : Nat, c.weight = .fin (w : K) → w ≤ W := by
      intro c hc w hw
      have h1 : c.weight.toK ≤ totalW (first :: second :: rest) := by
        obtain ⟨s, t, hst⟩ := List.append_of_mem hc
        rw [hst, totalW_append, totalW_cons]
        obtain ⟨n1, hn1, -⟩ := totalW_nat (l := s) (fun d hd => hcs' d (by rw [hst]; simp [hd]))
        obtain ⟨n2, hn2, -⟩ := totalW_nat (l := t) (fun d hd => hcs' d (by rw [hst]; simp [hd]))
        rw [hn1, hn2]
        have : (0 : K) ≤ n1 := by positivity
        have : (0 : K) ≤ n2 := by positivity
        linarith
      rw [hw, hW'] at h1
      simp only [Fl.toK] at h1
      exact_mod_cast h1
    have uhalf : Spans W (0 : K) 1 (Fl.lit (1 / 2) / .fin (W : K) : Fl K) := ⟨1 / 2, by rw [lit_half], by norm_num, by norm_num⟩
    simp only [hmin, hmax, htot]
    generalize hl : (first :: second :: rest).getLast (by simp) = last
    have hlmem : last ∈ first :: second :: rest := by rw [← hl]; exact List.getLast_mem _
    obtain ⟨mf, wf, hmf, f1, f2, hwf, f3⟩ := hcs' first (by simp)
    obtain ⟨ml, wl, hml, l1, l2, hwl, l3⟩ := hcs' last hlmem
    have hwfW := hle first (by simp) wf hwf
    have hwlW := hle last hlmem wl hwl
    have hwfM : (wf : K) ≤ M := by have := hM first (by simp); rw [hwf] at this; exact this
    have hwlM : (wl : K) ≤ M := by have := hM last hlmem; rw [hwl] at this; exact this
    have hwlK : (wl : K) ≤ W := by exact_mod_cast hwlW
    have hwfK : (wf : K) ≤ W := by exact_mod_cast hwfW
    obtain ⟨pl, hpl⟩ : ∃ pl, first :: second :: rest = pl ++ [last] :=
      ⟨(first :: second :: rest).dropLast, by rw [← hl]; exact (List.dropLast_append_getLast _).symm⟩
    have hplW : totalW pl + wl = W := by
      rw [← hW', hpl, totalW_append, totalW_cons, totalW_nil, add_zero, hwl]; rfl
    -- an answer of the form `1 - r` above the last mean
    have upper : ∀ y : K, ml ≤ x → y * W ≤ W → (W : K) ≤ y * W + (2 * M + 2 * (u + η) * W) →
        ((y * W ≤ 2 * M + 2 * (u + η) * W ∨ ∃ p o s, first :: second :: rest = p ++ o :: s ∧ o.mean.toK ≤ x ∧ y * W ≤ totalW p + (2 * M + 2 * (u + η) * W)) ∧
        ((W : K) ≤ y * W + (2 * M + 2 * (u + η) * W) ∨ ∃ p o s, first :: second :: rest = p ++ o :: s ∧ x ≤ o.mean.toK ∧
          totalW p + o.weight.toK ≤ y * W + (2 * M + 2 * (u + η) * W))) := by
      intro y hx h1 h2
      refine ⟨.inr ⟨pl, last, [], hpl, by rw [hml]; exact hx, by linarith⟩, .inl h2⟩
    rw [Fl.lt_fin, Fl.lt_fin, hmf, hml, hwf, hwl, Fl.lt_fin, Fl.lt_fin]
    by_cases hx1 : x < a
    · simp only [decide_eq_true hx1, if_true]
      exact ⟨0, by rw [lit_zero], .inl ⟨hx1, rfl⟩⟩
    · simp only [decide_eq_false hx1, Bool.false_eq_true, if_false]
      by_cases hx2 : b < x
      · simp only [decide_eq_true hx2, if_true]
        exact ⟨1, by rw [lit_one], .inr (.inl ⟨hx2, rfl⟩)⟩
      · simp only [decide_eq_false hx2, Bool.false_eq_true, if_false]
        rw [not_lt] at hx1 hx2
        by_cases hx3 : x < mf
        · simp only [decide_eq_true hx3, if_true]
          -- below the first mean
          have lower : ∀ r : Fl K, Spans W 0 (M : K) r → (∃ t : K, r = .fin t / .fin (W : K) ∧ 0 ≤ t ∧ t ≤ W) → ∃ y : K, (Prog.ret r : Prog (Fl K)) = .ret (.fin y) ∧
              ((x < a ∧ y = 0) ∨ (b < x ∧ y = 1) ∨
                ((y * W ≤ 2 * M + 2 * (u + η) * W ∨ ∃ p o s, first :: second :: rest = p ++ o :: s ∧ o.mean.toK ≤ x ∧ y * W ≤ totalW p + (2 * M + 2 * (u + η) * W)) ∧
                ((W : K) ≤ y * W + (2 * M + 2 * (u + η) * W) ∨ ∃ p o s, first :: second :: rest = p ++ o :: s ∧ x ≤ o.mean.toK ∧
                  totalW p + o.weight.toK ≤ y * W + (2 * M + 2 * (u + η) * W)))) := by
            rintro r ⟨t, ht, t0, t1⟩ ⟨t', ht', t0', t1'⟩
            have hpos : (0 : K) < W := by linarith
            obtain ⟨t2, e2, h20, h2W⟩ : ∃ t2 : K, r = .fin t2 / .fin (W : K) ∧ 0 ≤ t2 ∧ t2 ≤ W := ⟨t', ht', t0', t1'⟩
            obtain ⟨y, hy, y0, y1⟩ := div_unit hpos h20 h2W
            rw [← e2] at hy
            refine ⟨y, by rw [hy], .inr (.inr ⟨.inl ?_, .inr ⟨[], first, second :: rest, rfl, by rw [hmf]; exact hx3.le, ?_⟩⟩)⟩
            · by_cases hMW : M ≤ W
              · obtain ⟨z, hz, -, z1⟩ := span_div E hR1 (by omega) ⟨t, ht, t0, t1⟩ le_rfl hMW
                have : y = z := by rw [hz] at hy; injection hy.symm
                rw [this]; linarith
              · have : y * W ≤ 1 * W := mul_le_mul_of_nonneg_right y1 hW0
                linarith [not_le.1 hMW]
            · have : 0 ≤ y * W := mul_nonneg y0 hW0
              have e : first.weight.toK = (wf : K) := by rw [hwf]; rfl
              rw [totalW_nil, e]; linarith
          obtain ⟨y, hy, y0, -⟩ := rnd_nonneg (x := mf - a) (by linarith) (by linarith) hwd
          obtain ⟨z, hz, z0, z1⟩ := rnd_nonneg (x := x - a) (by linarith) (show x - a ≤ mf - a by linarith) hy
          rw [Fl.sub_fin, Fl.sub_fin, hy, hz, lit_zero, Fl.lt_fin]
          by_cases hy0 : 0 < y
          · simp only [decide_eq_true hy0, if_true]
            split
            · obtain ⟨t, e, t0, t1⟩ := uhalf
              exact lower _ ⟨t, e, t0, by linarith⟩ ⟨t, e, t0, by linarith⟩
            · obtain ⟨t, e, t0, t1⟩ := tail_span R hy0 z0 z1 f3 hwfW hWN
              exact lower _ ⟨t, e, t0, by linarith⟩ ⟨t, e, t0, by linarith⟩
          · simp only [decide_eq_false hy0, Bool.false_eq_true, if_false]
            refine lower _ ⟨0, ?_, le_rfl, by linarith⟩ ⟨0, ?_, le_rfl, by linarith⟩ <;>
              rw [Fl.div_fin_of_ne _ (by linarith : (W : K) ≠ 0), zero_div, FloatFmt.Mono.rnd_zero]
        · simp only [decide_eq_false hx3, Bool.false_eq_true, if_false]
          have sub_case : ∀ (r : Fl K) (h : K), ml ≤ x → Spans W 0 h r → h ≤ M → h ≤ W → ∃ y : K, (Prog.ret (Fl.lit 1 - r) : Prog (Fl K)) = .ret (.fin y) ∧
              ((x < a ∧ y = 0) ∨ (b < x ∧ y = 1) ∨
                ((y * W ≤ 2 * M + 2 * (u + η) * W ∨ ∃ p o s, first :: second :: rest = p ++ o :: s ∧ o.mean.toK ≤ x ∧ y * W ≤ totalW p + (2 * M + 2 * (u + η) * W)) ∧
                ((W : K) ≤ y * W + (2 * M + 2 * (u + η) * W) ∨ ∃ p o s, first :: second :: rest = p ++ o :: s ∧ x ≤ o.mean.toK ∧
                  totalW p + o.weight.toK ≤ y * W + (2 * M + 2 * (u + η) * W)))) := by
            intro r h hmx hr hhM hhW
            obtain ⟨y, hy, y1⟩ := span_one_sub E hR1 (by omega) hr hhW
            obtain ⟨t, ht, t0, t1⟩ := hr
            obtain ⟨z, hz, z0, z2⟩ := div_unit (show (0 : K) < W by linarith) t0 (t1.trans hhW)
            obtain ⟨y', hy', -, y2⟩ := one_sub_unit z0 z2
            rw [← hz, ← ht, hy] at hy'
            have : y = y' := by injection hy'
            subst this
            have := mul_le_mul_of_nonneg_right y2 hW0
            exact ⟨y, by rw [hy], .inr (.inr (upper y hmx (by linarith) (by linarith)))⟩
          by_cases hx4 : ml < x
          · simp only [decide_eq_true hx4, if_true]
            obtain ⟨y, hy, y0, -⟩ := rnd_nonneg (x := b - ml) (by linarith) (by linarith) hwd
            obtain ⟨z, hz, z0, z1⟩ := rnd_nonneg (x := b - x) (by linarith) (show b - x ≤ b - ml by linarith) hy
            rw [Fl.sub_fin, Fl.sub_fin, hy, hz, lit_zero, Fl.lt_fin]
            by_cases hy0 : 0 < y
            · simp only [decide_eq_true hy0, if_true]
              split
              · exact sub_case _ 1 hx4.le uhalf hM1 (by linarith)
              · exact sub_case _ wl hx4.le (tail_span R hy0 z0 z1 l3 hwlW hWN) hwlM hwlK
            · simp only [decide_eq_false hy0, Bool.false_eq_true, if_false]
              exact ⟨1, by rw [lit_one], .inr (.inr (upper 1 hx4.le (by linarith) (by linarith)))⟩
          · simp only [decide_eq_false hx4, Bool.false_eq_true, if_false]
            rw [not_lt] at hx3 hx4
            have hq := quantileLoop_span R (M := M) hWN (first :: second :: rest) (by simp) 0 (x := x) hcs'
              (by rw [hW']; simp) hM (by rw [List.head_cons, hmf]; exact Fl.fin_le_fin.2 hx3)
            rw [Nat.cast_zero] at hq
            rw [lit_zero]
            cases hres : quantileLoop (.fin x) (.fin (W : K)) (.fin 0) (first :: second :: rest) with
            | inl r =>
              rw [hres] at hq
              obtain ⟨t, ht, t0, t1, ⟨p, o, s, e1, e2, e3⟩, ⟨p', o', s', e1', e2', e3'⟩⟩ := hq
              obtain ⟨y, hy, y1, y2⟩ := span_div E hR1 (W := W) (by omega) ⟨t, ht, le_rfl, le_rfl⟩ t0 t1
              exact ⟨y, by rw [hy], .inr (.inr ⟨.inr ⟨p, o, s, e1, e2, by linarith⟩, .inr ⟨p', o', s', e1', e2', by linarith⟩⟩)⟩
            | inr w =>
              rw [hres] at hq
              obtain ⟨⟨n, rfl, hn⟩, hlast⟩ := hq
              rw [hl, hwl, hW', zero_add] at hn
              rw [hl, hml, Fl.fin_le_fin] at hlast
              have hn' : (n : K) + wl = W := hn
              have hwl0 : (0 : K) ≤ wl := by positivity
              have : x = ml := le_antisymm hx4 hlast
              subst this
              simp only [Fl.feq_fin, decide_true, if_true]
              split
              · obtain ⟨y, hy, y1, y2⟩ := span_div E hR1 (W := W) (by omega) (r := (.fin (n : K) / .fin (W : K) : Fl K)) ⟨n, rfl, le_rfl, le_rfl⟩
                  (by positivity) (by linarith)
                obtain ⟨y', hy', -, y3⟩ := div_unit (x := (n : K)) (w := W) (by linarith) (by positivity) (by linarith)
                have : y = y' := by rw [hy] at hy'; injection hy'
                subst this
                have := mul_le_mul_of_nonneg_right y3 hW0
                exact ⟨y, by rw [hy], .inr (.inr (upper y le_rfl (by linarith) (by linarith)))⟩
              · exact sub_case _ 1 le_rfl uhalf hM1 (by linarith)

/-- `O` stands for the data `all` up to `k` passes, each of which moves values by `κ (M + 1)` and ranks by `M`. -/
def NearBy (κ M : K) (k : Nat) (O all : List (Centroid K)) : Prop :=
  ∀ x : K, uw x O ≤ uw (x + k * (κ * (M + 1))) all + k * M ∧ lw (x - k * (κ * (M + 1))) all ≤ lw x O + k * M

theorem uw_mono {x y : K} (h : x ≤ y) : ∀ {l : List (Centroid K)}, (∀ c ∈ l, Good c) → uw x l ≤ uw y l
  | [], _ => by simp
  | c :: l, hg => by
    rw [uw_cons, uw_cons]
    have ih := uw_mono h (l := l) (fun d hd => hg d (by simp [hd]))
    have := (hg c (by simp)).weight_pos
    split
    · rw [if_pos (by linarith)]; linarith
    · split <;> linarith

theorem lw_mono {x y : K} (h : x ≤ y) : ∀ {l : List (Centroid K)}, (∀ c ∈ l, Good c) → lw x l ≤ lw y l
  | [], _ => by simp
  | c :: l, hg => by
    rw [lw_cons, lw_cons]
    have ih := lw_mono h (l := l) (fun d hd => hg d (by simp [hd]))
    have := (hg c (by simp)).weight_pos
    split
    · rw [if_pos (by linarith)]; linarith
    · split <;> linarith

/-- Adding a batch to both sides. -/
theorem NearBy.batch {κ M : K} {k : Nat} {O all b S : List (Centroid K)} (h : NearBy κ M k O all) (hκ : 0 ≤ κ) (hM : 0 ≤ M) (hb : ∀ c ∈ b, Good c)
    (hp : S.Perm (b ++ O)) : NearBy κ M k S (all ++ b) := by
  intro x
  obtain ⟨h1, h2⟩ := h x
  have he : 0 ≤ (k : K) * (κ * (M + 1)) := by positivity
  have h3 := uw_mono (show x ≤ x + k * (κ * (M + 1)) by linarith) hb
  have h4 := lw_mono (show x - k * (κ * (M + 1)) ≤ x by linarith) hb
  rw [uw_perm x hp, lw_perm x hp, uw_append, uw_append, lw_append, lw_append]
  constructor <;> linarith

/-- One more pass. -/
theorem NearBy.pass {κ M : K} {k : Nat} {O S all : List (Centroid K)} (h : NearBy κ M k S all) (hκ : 0 ≤ κ) (hM : 0 ≤ M) (hr : Runs κ S O)
    (hg : ∀ c ∈ S, Good c) (hO : ∀ o ∈ O, o.weight.toK ≤ M) : NearBy κ M (k + 1) O all := by
  intro x
  have h1 := hr.uw_le hκ hM hg hO (x := x)
  have h2 := hr.lw_le hκ hM hg hO (x := x)
  have h3 := (h (x + κ * (M + 1))).1
  have h4 := (h (x - κ * (M + 1))).2
  have e1 : x + ((k + 1 : ℕ) : K) * (κ * (M + 1)) = x + κ * (M + 1) + k * (κ * (M + 1)) := by push_cast; ring
  have e2 : x - ((k + 1 : ℕ) : K) * (κ * (M + 1)) = x - κ * (M + 1) - k * (κ * (M + 1)) := by push_cast; ring
  rw [e1, e2]
  push_cast
  constructor <;> linarith

/-- What `k` insertion calls keep about ranks. -/
structure RankInv (κ : K) (k : Nat) (d : TDigest K) (all : List (Centroid K)) : Prop where
  near : ∀ M : K, 0 ≤ M → (∀ c ∈ d.centroids, c.weight.toK ≤ M) → NearBy κ M k d.centroids all
  last : d.centroids ≠ [] → ∃ S k', k' + 1 ≤ k ∧ Runs κ S d.centroids ∧ (∀ c ∈ S, Good c) ∧
    ∀ M : K, 0 ≤ M → (∀ c ∈ d.centroids, c.weight.toK ≤ M) → NearBy κ M k' S all

theorem NearBy.mono {κ M : K} {k k' : Nat} {O all : List (Centroid K)} (h : NearBy κ M k O all) (hκ : 0 ≤ κ) (hM : 0 ≤ M) (hk : k ≤ k')
    (hg : ∀ c ∈ all, Good c) : NearBy κ M k' O all := by
  intro x
  obtain ⟨h1, h2⟩ := h x
  have hkK : (k : K) ≤ k' := by exact_mod_cast hk
  have e1 : (k : K) * (κ * (M + 1)) ≤ k' * (κ * (M + 1)) := mul_le_mul_of_nonneg_right hkK (by positivity)
  have e2 : (k : K) * M ≤ k' * M := mul_le_mul_of_nonneg_right hkK hM
  have h3 := uw_mono (show x + k * (κ * (M + 1)) ≤ x + k' * (κ * (M + 1)) by linarith) hg
  have h4 := lw_mono (show x - k' * (κ * (M + 1)) ≤ x - k * (κ * (M + 1)) by linarith) hg
  constructor <;> linarith

theorem new_rankInv (κ : K) (s i : ScaleFn K) (cf : Fl K) : RankInv κ 0 (TDigest.new s i cf) [] where
  near := by intro M _ _ x; simp [new]
  last := by simp [new]

theorem addCentroidBuffer_rankInv [FloatFmt.Mono K] {A B : K} {N : Nat} (R : Roomy N A B) {u η Rm X : K} (E : RelErr u η Rm) (hA : -X ≤ A) (hB : B ≤ X)
    (hXR : X * N ≤ Rm) {k : Nat} {d : TDigest K} {all : List (Centroid K)} (h : RInv A B d all) (hk : RankInv (u * X + η) k d all)
    (hall : ∀ c ∈ all, Within A B c) (b : List (Centroid K)) (hb : ∀ c ∈ b, Within A B c) (hN : totalW (all ++ b) ≤ N) :
    Always (d.addCentroidBuffer b) (fun d' => RankInv (u * X + η) (k + 1) d' (all ++ b)) := by
  have hX0 : 0 ≤ X := by have := R.range.2.1; linarith
  have hκ : 0 ≤ u * X + η := add_nonneg (mul_nonneg E.u_nonneg hX0) E.eta_nonneg
  have hg : ∀ c ∈ b ++ d.centroids, Within A B c := by
    intro c hc
    rcases List.mem_append.1 hc with hc | hc
    · exact hb c hc
    · exact h.within c hc
  unfold addCentroidBuffer
  rw [always_bind]
  refine (sortUnstable_spec Centroid.mean _ (fun c hc => (hg c hc).mean_ne_nan)).mono ?_
  rintro l ⟨h1, h2⟩
  have hW : totalW l = totalW (all ++ b) := by
    rw [totalW_perm h1, totalW_append, totalW_append, h.weight, add_comm]
  cases l with
  | nil =>
    have e := h1.nil_eq
    obtain ⟨e1, e2⟩ := List.append_eq_nil_iff.1 e.symm
    subst e1
    rw [List.append_nil]
    refine ⟨fun M hM hO => (hk.near M hM hO).mono hκ hM (by omega) (fun c hc => (hall c hc).good), ?_⟩
    intro hne
    exact absurd e2 hne
  | cons c cs =>
    have hl : ∀ a ∈ c :: cs, Within A B a := fun a ha => hg a (h1.mem_iff.1 ha)
    obtain ⟨m, w, hm, m1, m2, hw, w1⟩ := hl c (by simp)
    have hcs : ∀ a ∈ cs, Within A B a := fun a ha => hl a (by simp [ha])
    obtain ⟨n, hn, -⟩ := totalW_nat hcs
    have hcw : c.weight.toK = (w : K) := by rw [hw]; rfl
    have hcm : c.mean.toK = m := by rw [hm]; rfl
    have hN2 : (w : K) + totalW cs ≤ N := by
      rw [← hcw, ← totalW_cons, hW]; exact hN
    have hN' : w + n ≤ N := by rw [hn] at hN2; exact_mod_cast hN2
    have hwpos : (0 : K) ≤ w := by positivity
    obtain ⟨p, hp, p1, p2⟩ := rnd_between (x := m * w) (R.lo w (by omega)) (R.hi w (by omega))
      (mul_le_mul_of_nonneg_right m1 hwpos) (mul_le_mul_of_nonneg_right m2 hwpos)
    have eP : c.mean * c.weight = .fin p := by rw [hm, hw, Fl.mul_fin, hp]
    obtain ⟨q1, q2⟩ := abs_le.1 (prodErr E hA hB hXR hX0 w1 (by omega) m1 m2 hp)
    have hbase : u * X * w + η ≤ (u * X + η) * (w * w) := by
      have hw1 : (1 : K) ≤ w := by exact_mod_cast w1
      have e1 : (w : K) ≤ w * w := by nlinarith
      have e2 : (1 : K) ≤ w * w := by nlinarith
      have h3 := mul_le_mul_of_nonneg_left e1 (mul_nonneg E.u_nonneg hX0)
      have h4 := mul_le_mul_of_nonneg_left e2 E.eta_nonneg
      linarith
    obtain ⟨rs, hr, hf⟩ := mergeLoop_clusters R E hA hB hXR (d.wLimit (weightSum (c :: cs))) cs (Fl.lit 0) (d.wLimit (weightSum (c :: cs)) (Fl.lit 0))
      w p [c] (by simp) (by rw [totalW_cons, hcw, totalW_nil, add_zero]) w1 p1 p2 ⟨c, by simp, by rw [hcm]; linarith⟩
      ⟨c, by simp, by rw [hcm]; linarith⟩ hcs hN2
    have ecs : (d.mergeSorted (c :: cs)).centroids = mergeLoop (d.wLimit (weightSum (c :: cs))) (Fl.lit 0)
        (d.wLimit (weightSum (c :: cs)) (Fl.lit 0)) (.fin (w : K)) (.fin p) cs := by
      show mergeLoop _ _ _ c.weight (c.mean * c.weight) cs = _
      rw [eP, hw]
    rw [← ecs] at hf
    have hgood : ∀ a ∈ c :: cs, Good a := fun a ha => (hl a ha).good
    have hruns : Runs (u * X + η) (c :: cs) (d.mergeSorted (c :: cs)).centroids := by
      refine ⟨?_, rs, hr, hf⟩
      refine h2.imp_of_mem ?_
      intro a a' ha ha' hle
      obtain ⟨ma, -, ea, -⟩ := hl a ha
      obtain ⟨ma', -, ea', -⟩ := hl a' ha'
      rw [ea, ea'] at hle ⊢
      exact Fl.fin_le_fin.1 hle
    have hS : ∀ M : K, 0 ≤ M → (∀ a ∈ (d.mergeSorted (c :: cs)).centroids, a.weight.toK ≤ M) → NearBy (u * X + η) M k (c :: cs) (all ++ b) := by
      intro M hM hO
      have hSM := hruns.grow hgood hO
      exact (hk.near M hM (fun a ha => hSM a (h1.mem_iff.2 (by simp [ha])))).batch hκ hM (fun a ha => (hb a ha).good) h1
    show RankInv (u * X + η) (k + 1) (d.mergeSorted (c :: cs)) (all ++ b)
    exact ⟨fun M hM hO => (hS M hM hO).pass hκ hM hruns hgood hO, fun _ => ⟨c :: cs, k, le_rfl, hruns, hgood, hS⟩⟩

theorem execOps_rankInv [FloatFmt.Mono K] {A B : K} {N : Nat} (R : Roomy N A B) {u η Rm X : K} (E : RelErr u η Rm) (hA : -X ≤ A) (hB : B ≤ X)
    (hXR : X * N ≤ Rm) : ∀ (ops : List (TOp K)) (k : Nat) (d : TDigest K) (all : List (Centroid K)), RInv A B d all → RankInv (u * X + η) k d all →
    (∀ c ∈ all, Within A B c) → (∀ c ∈ supplied ops, Within A B c) → totalW (all ++ supplied ops) ≤ N →
    Always (d.execOps ops) (fun d' => RInv A B d' (all ++ supplied ops) ∧ RankInv (u * X + η) (k + ops.length) d' (all ++ supplied ops))
  | [], k, d, all, h, hk, _, _, _ => by
    simp only [execOps, supplied, List.flatMap_nil, List.append_nil, List.length_nil, Nat.add_zero]
    exact ⟨h, hk⟩
  | o :: os, k, d, all, h, hk, hall, hs, hN => by
    have e : supplied (o :: os) = o.supplied ++ supplied os := by simp [supplied]
    rw [e, ← List.append_assoc] at hN ⊢
    rw [e] at hs
    have ho : ∀ c ∈ o.supplied, Within A B c := fun c hc => hs c (by simp [hc])
    have hos : ∀ c ∈ supplied os, Within A B c := fun c hc => hs c (by simp [hc])
    have h1 : totalW (all ++ o.supplied) ≤ N := by
      refine le_trans ?_ hN
      rw [totalW_append _ (supplied os)]
      obtain ⟨n, hn, -⟩ := totalW_nat hos
      rw [hn]
      have : (0 : K) ≤ n := by positivity
      linarith
    unfold execOps
    rw [always_bind, TOp.exec_eq]
    refine ((addCentroidBuffer_rinv R h hall o.supplied ho h1).and
      (addCentroidBuffer_rankInv R E hA hB hXR h hk hall o.supplied ho h1).partially).mono ?_
    rintro d' ⟨g1, g2⟩
    have := execOps_rankInv R E hA hB hXR os (k + 1) d' (all ++ o.supplied) g1 g2
      (fun c hc => by rcases List.mem_append.1 hc with hc | hc; exacts [hall c hc, ho c hc]) hos hN
    rw [List.length_cons, show k + (os.length + 1) = k + 1 + os.length by omega]
    exact this

/-- The answer of a quantile query after `k` insertion calls. -/
theorem RankInv.query [FloatFmt.Mono K] {A B : K} {N : Nat} (R : Roomy N A B) {u η Rm κ : K} (E : RelErr u η Rm) (hR1 : 1 ≤ Rm) (hκ : 0 ≤ κ)
    {k : Nat} {d : TDigest K} {all : List (Centroid K)} (h : RInv A B d all) (hk : RankInv κ k d all) (hall : ∀ c ∈ all, Within A B c) (hne : all ≠ [])
    (hN : totalW all ≤ N) {M : K} (hM : ∀ c ∈ d.centroids, c.weight.toK ≤ M) (x : K) :
    ∃ y : K, d.estQuantileAtValue (.fin x) = .ret (.fin y) ∧
      lw (x - k * (κ * (M + 1))) all ≤ y * totalW all + ((k + 1) * M + 2 * (u + η) * totalW all) ∧
      y * totalW all ≤ uw (x + k * (κ * (M + 1))) all + ((k + 1) * M + 2 * (u + η) * totalW all) := by
  have hcne : d.centroids ≠ [] := fun e => hne (h.empty.1 e)
  have hM0 : 0 ≤ M := by
    obtain ⟨c, hc⟩ := List.exists_mem_of_ne_nil _ hcne
    exact ((h.within c hc).good).weight_pos.le.trans (hM c hc)
  have hgall : ∀ c ∈ all, Good c := fun c hc => (hall c hc).good
  obtain ⟨⟨a, ha, ha1, -⟩, ⟨b, hb, hb1, -⟩⟩ := h.range
  obtain ⟨y, hy, hloc⟩ := quantile_span R E hR1 h.within hcne (by rw [h.weight]; exact hN) ha hb (ha1 hne) (hb1 hne) hM x
  rw [h.weight] at hloc
  obtain ⟨S, k', hk', hruns, hgS, hS⟩ := hk.last hcne
  have hS := hS M hM0 hM
  have hW0 : 0 ≤ totalW all := by
    obtain ⟨n, hn, -⟩ := totalW_nat hall
    rw [hn]; positivity
  have hρ : 0 ≤ (u + η) * totalW all := mul_nonneg (add_nonneg E.u_nonneg E.eta_nonneg) hW0
  have hkK : (k' : K) + 1 ≤ k := by exact_mod_cast hk'
  have hkM : ((k' : K) + 1) * M ≤ k * M := mul_le_mul_of_nonneg_right hkK hM0
  have hk0 : (0 : K) ≤ k := by positivity
  have hkM0 : 0 ≤ (k : K) * M := by positivity
  have hk'M0 : 0 ≤ (k' : K) * M := by positivity
  have he : 0 ≤ κ * (M + 1) := by positivity
  have hke : ((k' : K) + 1) * (κ * (M + 1)) ≤ k * (κ * (M + 1)) := mul_le_mul_of_nonneg_right hkK he
  have hke0 : 0 ≤ (k : K) * (κ * (M + 1)) := by positivity
  have hlwT := lw_range (x := x - k * (κ * (M + 1))) hgall
  have huwT := uw_range (x := x + k * (κ * (M + 1))) hgall
  have htS : totalW S = totalW all := by rw [hruns.total, h.weight]
  have hup : uw (x + κ * (M + 1)) S ≤ uw (x + k * (κ * (M + 1))) all + k' * M := by
    refine (hS (x + κ * (M + 1))).1.trans ?_
    have := uw_mono (show x + κ * (M + 1) + k' * (κ * (M + 1)) ≤ x + k * (κ * (M + 1)) by linarith) hgall
    linarith
  have hdn : lw (x - k * (κ * (M + 1))) all ≤ lw (x - κ * (M + 1)) S + k' * M := by
    refine le_trans ?_ (hS (x - κ * (M + 1))).2
    exact lw_mono (show x - k * (κ * (M + 1)) ≤ x - κ * (M + 1) - k' * (κ * (M + 1)) by linarith) hgall
  refine ⟨y, hy, ?_⟩
  rcases hloc with ⟨hxa, rfl⟩ | ⟨hbx, rfl⟩ | ⟨h1, h2⟩
  · have hz : lw (x - k * (κ * (M + 1))) all = 0 := by
      refine lw_zero (fun c hc => ?_)
      have := (h.limits c hc).1
      obtain ⟨mc, -, emc, -⟩ := hall c hc
      rw [ha, emc, Fl.fin_le_fin] at this
      rw [emc]
      show x - k * (κ * (M + 1)) ≤ mc
      linarith
    rw [hz]
    constructor <;> linarith
  · have hf : uw (x + k * (κ * (M + 1))) all = totalW all := by
      refine uw_full (fun c hc => ?_)
      have := (h.limits c hc).2
      obtain ⟨mc, -, emc, -⟩ := hall c hc
      rw [hb, emc, Fl.fin_le_fin] at this
      rw [emc]
      show mc ≤ x + k * (κ * (M + 1))
      linarith
    rw [hf]
    constructor <;> linarith
  · rw [h.weight] at h1 h2
    constructor
    · rcases h2 with h2 | ⟨p, o, s, e1, e2, e3⟩
      · linarith
      · rw [e1] at hruns hM
        have := hruns.suffix_ge hκ hgS hM e2
        linarith
    · rcases h1 with h1 | ⟨p, o, s, e1, e2, e3⟩
      · linarith
      · rw [e1] at hruns hM
        have := hruns.prefix_le hκ hgS hM e2
        linarith

end TDigest
end AQ

/-
Accuracy of TDigest value queries in an arithmetic with small relative error.
-/
import Verif.Proofs.TDRoundRank
import Verif.Props.Linear

set_option linter.unusedSectionVars false
set_option linter.unusedVariables false

namespace AQ
open Prog Spec
variable {K : Type} [Field K] [LinearOrder K] [IsStrictOrderedRing K] [FloatFmt K]

namespace TDigest

/-- Where the rank `T` lies among the centroids: at most `D` above the weight before a centroid not above `x` and at most `D` below the weight up
to a centroid not below `x`. -/
def Placed (cs : List (Centroid K)) (W x T D : K) : Prop :=
  (T ≤ D ∨ ∃ p o s, cs = p ++ o :: s ∧ o.mean.toK ≤ x ∧ T ≤ totalW p + D) ∧
    (W ≤ T + D ∨ ∃ p o s, cs = p ++ o :: s ∧ x ≤ o.mean.toK ∧ totalW p + o.weight.toK ≤ T + D)

/-- A placed rank is a rank of the data, up to the passes. -/
theorem RankInv.place {A B κ : K} (hκ : 0 ≤ κ) {k : Nat} {d : TDigest K} {all : List (Centroid K)} (h : RInv A B d all) (hk : RankInv κ k d all)
    (hall : ∀ c ∈ all, Within A B c) (hne : all ≠ []) {M : K} (hM : ∀ c ∈ d.centroids, c.weight.toK ≤ M) {x T D : K}
    (hT0 : 0 ≤ T) (hT1 : T ≤ totalW all) (hD : M ≤ D) (hp : Placed d.centroids (totalW all) x T D) :
    lw (x - k * (κ * (M + 1))) all ≤ T + ((k : K) * M + (D - M)) ∧ T ≤ uw (x + k * (κ * (M + 1))) all + ((k : K) * M + (D - M)) := by
  have hcne : d.centroids ≠ [] := fun e => hne (h.empty.1 e)
  have hM0 : 0 ≤ M := by
    obtain ⟨c, hc⟩ := List.exists_mem_of_ne_nil _ hcne
    exact ((h.within c hc).good).weight_pos.le.trans (hM c hc)
  have hgall : ∀ c ∈ all, Good c := fun c hc => (hall c hc).good
  obtain ⟨S, k', hk', hruns, hgS, hS⟩ := hk.last hcne
  have hS := hS M hM0 hM
  have hkK : (k' : K) + 1 ≤ k := by exact_mod_cast hk'
  have hkM : ((k' : K) + 1) * M ≤ k * M := mul_le_mul_of_nonneg_right hkK hM0
  have hk'M0 : 0 ≤ (k' : K) * M := by positivity
  have he : 0 ≤ κ * (M + 1) := by positivity
  have hke : ((k' : K) + 1) * (κ * (M + 1)) ≤ k * (κ * (M + 1)) := mul_le_mul_of_nonneg_right hkK he
  have hlwT := lw_range (x := x - k * (κ * (M + 1))) hgall
  have huwT := uw_range (x := x + k * (κ * (M + 1))) hgall
  have hup : uw (x + κ * (M + 1)) S ≤ uw (x + k * (κ * (M + 1))) all + k' * M := by
    refine (hS (x + κ * (M + 1))).1.trans ?_
    have := uw_mono (show x + κ * (M + 1) + k' * (κ * (M + 1)) ≤ x + k * (κ * (M + 1)) by linarith) hgall
    linarith
  have hdn : lw (x - k * (κ * (M + 1))) all ≤ lw (x - κ * (M + 1)) S + k' * M := by
    refine le_trans ?_ (hS (x - κ * (M + 1))).2
    exact lw_mono (show x - k * (κ * (M + 1)) ≤ x - κ * (M + 1) - k' * (κ * (M + 1)) by linarith) hgall
  obtain ⟨h1, h2⟩ := hp
  constructor
  · rcases h2 with h2 | ⟨p, o, s, e1, e2, e3⟩
    · linarith
    · rw [e1] at hruns hM
      have := hruns.suffix_ge hκ hgS hM e2
      linarith
  · rcases h1 with h1 | ⟨p, o, s, e1, e2, e3⟩
    · linarith
    · rw [e1] at hruns hM
      have := hruns.prefix_le hκ hgS hM e2
      linarith

section
variable [FloorRing K]

/-- The loop finds two neighbours around the target and answers between their means. -/
theorem valueLoop_pick [FloatFmt.Mono K] {A B : K} {N : Nat} (R : Roomy N A B) {cs : List (Centroid K)}
    (hcs : ∀ c ∈ cs, Within A B c) (hN : totalW cs ≤ N) {t : K} {lw : Nat}
    (hlast : ∀ c, cs.getLast? = some c → c.weight = .fin (lw : K)) (ht : t < totalW cs - lw / 2) :
    ∀ (steps i k : Nat), i < cs.length → cs.length ≤ steps + i →
      ((k : K) / 2 = totalW (cs.take i) + ((cs[i]?.map (fun c => c.weight.toK)).getD 0) / 2) →
      (k : K) / 2 ≤ t → ∃ (v : K) (p s : List (Centroid K)) (c n : Centroid K),
        valueLoop cs (.fin t) steps i (.fin ((k : K) / 2)) = .ret (some (.fin v)) ∧ cs = p ++ c :: n :: s ∧
        totalW p + c.weight.toK / 2 ≤ t ∧ t < totalW p + c.weight.toK + n.weight.toK / 2 ∧
        (c.mean.toK ≤ v ∧ v ≤ n.mean.toK ∨ n.mean.toK ≤ v ∧ v ≤ c.mean.toK)
  | 0, i, k, h1, h2, _, _ => by omega
  | steps + 1, i, k, hi, hsteps, hk, hkt => by
    have hci : cs[i] ∈ cs := List.getElem_mem hi
    obtain ⟨m1, w1, hm1, -, -, hw1, o1⟩ := hcs _ hci
    have e1 : idx cs i = .ret cs[i] := by unfold idx; rw [List.getElem?_eq_getElem hi]
    have hk' : (k : K) / 2 = totalW (cs.take i) + (w1 : K) / 2 := by
      rw [hk, List.getElem?_eq_getElem hi]; simp [hw1, Fl.toK]
    obtain ⟨n, hn, -⟩ := totalW_nat (l := cs.take i) (fun c hc => hcs c (List.mem_of_mem_take hc))
    have hdrop : ∀ j (hj : j < cs.length), totalW cs = totalW (cs.take j) + (cs[j]).weight.toK + totalW (cs.drop (j + 1)) := by
      intro j hj
      conv_lhs => rw [← List.take_append_drop j cs, List.drop_eq_getElem_cons hj]
      rw [totalW_append, totalW_cons, ← add_assoc]
    -- there is a next centroid
    have hnext : i + 1 < cs.length := by
      by_contra hcon
      have hi' : i = cs.length - 1 := by omega
      have hl : cs.getLast? = some cs[i] := by
        rw [List.getLast?_eq_getElem?, ← hi', List.getElem?_eq_getElem hi]
      have := hlast _ hl
      rw [hw1, Fl.fin.injEq] at this
      have h2 := hdrop i hi
      rw [List.drop_eq_nil_of_le (by omega), totalW_nil, add_zero, hw1] at h2
      simp only [Fl.toK] at h2
      rw [← this, h2] at ht
      linarith
    have hcn : cs[i + 1] ∈ cs := List.getElem_mem hnext
    obtain ⟨m2, w2, hm2, -, -, hw2, o2⟩ := hcs _ hcn
    have e2 : idx cs (i + 1) = .ret cs[i + 1] := by unfold idx; rw [List.getElem?_eq_getElem hnext]
    have htake : totalW (cs.take (i + 1)) = totalW (cs.take i) + w1 := by
      rw [List.take_succ_eq_append_getElem hi, totalW_append, totalW_cons, totalW_nil, hw1]; simp [Fl.toK]
    obtain ⟨n2, hn2, -⟩ := totalW_nat (l := cs.drop (i + 1 + 1)) (fun c hc => hcs c (List.mem_of_mem_drop hc))
    have hsum : n + w1 + w2 + n2 ≤ N := by
      have h2 := hdrop (i + 1) hnext
      rw [htake, hn, hn2, hw2] at h2
      simp only [Fl.toK] at h2
      rw [h2] at hN
      exact_mod_cast hN
    have hkn : k = 2 * n + w1 := by
      rw [hn] at hk'
      have : (k : K) = ((2 * n + w1 : ℕ) : K) := by
        push_cast
        linarith [hk', show (k : K) = 2 * ((k : K) / 2) by ring, show 2 * ((n : K) + (w1 : K) / 2) = 2 * n + w1 by ring]
      exact_mod_cast this
    have hsplit : cs = cs.take i ++ cs[i] :: cs[i + 1] :: cs.drop (i + 1 + 1) := by
      conv_lhs => rw [← List.take_append_drop i cs, List.drop_eq_getElem_cons hi, List.drop_eq_getElem_cons hnext]
    have em1 : (cs[i]).mean.toK = m1 := by rw [hm1]; rfl
    have em2 : (cs[i + 1]).mean.toK = m2 := by rw [hm2]; rfl
    have ew1 : (cs[i]).weight.toK = (w1 : K) := by rw [hw1]; rfl
    have ew2 : (cs[i + 1]).weight.toK = (w2 : K) := by rw [hw2]; rfl
    unfold valueLoop
    rw [e1, bind_ret, e2, bind_ret]
    simp only [hw1, hw2, hm1, hm2]
    rw [R.counts.addNat (by omega), R.counts.halve (by omega), R.counts.addHalf (by omega)]
    by_cases hlt : Fl.lt (.fin t) (.fin (((k + (w1 + w2) : ℕ) : K) / 2)) = true
    · rw [if_pos hlt]
      rw [Fl.lt_fin, decide_eq_true_eq] at hlt
      have hlt' : t < totalW (cs.take i) + w1 + (w2 : K) / 2 := by
        push_cast at hlt
        linarith
      have hge : totalW (cs.take i) + (w1 : K) / 2 ≤ t := by linarith
      -- the answer lies between the two means
      have key : ∀ v : K, (m1 ≤ v ∧ v ≤ m2 ∨ m2 ≤ v ∧ v ≤ m1) → ∃ (v' : K) (p s : List (Centroid K)) (c n : Centroid K),
          (.ret (some (.fin v)) : Prog (Option (Fl K))) = .ret (some (.fin v')) ∧ cs = p ++ c :: n :: s ∧
          totalW p + c.weight.toK / 2 ≤ t ∧ t < totalW p + c.weight.toK + n.weight.toK / 2 ∧
          (c.mean.toK ≤ v' ∧ v' ≤ n.mean.toK ∨ n.mean.toK ≤ v' ∧ v' ≤ c.mean.toK) := by
        intro v hv
        refine ⟨v, cs.take i, cs.drop (i + 1 + 1), cs[i], cs[i + 1], rfl, hsplit, ?_, ?_, ?_⟩
        · rw [ew1]; exact hge
        · rw [ew1, ew2]; exact hlt'
        · rw [em1, em2]; exact hv
      split
      · exact key m1 (by rcases le_total m1 m2 with h | h; exacts [Or.inl ⟨le_rfl, h⟩, Or.inr ⟨h, le_rfl⟩])
      · split
        · exact key m2 (by rcases le_total m1 m2 with h | h; exacts [Or.inl ⟨h, le_rfl⟩, Or.inr ⟨le_rfl, h⟩])
        · have hwa := C04_weighted_average_bounds (.fin m1 : Fl K) (.fin (((k + (w1 + w2) : ℕ) : K) / 2) - .fin t - Fl.lit (1 / 2)) (.fin m2)
            (.fin t - .fin ((k : K) / 2) - Fl.lit (1 / 2)) (by simp) (by simp)
          generalize weightedAverage (.fin m1 : Fl K) (.fin (((k + (w1 + w2) : ℕ) : K) / 2) - .fin t - Fl.lit (1 / 2)) (.fin m2)
            (.fin t - .fin ((k : K) / 2) - Fl.lit (1 / 2)) = r at hwa ⊢
          obtain ⟨r1, r2, r3⟩ := hwa
          obtain ⟨v, rfl⟩ : ∃ v, r = .fin v := by
            rcases le_total (.fin m1 : Fl K) (.fin m2) with h | h
            · rw [min_eq_left h] at r1
              rw [max_eq_right h] at r2
              cases r with
              | nan => exact absurd rfl r3
              | ninf => exact absurd r1 (Fl.fin_not_le_ninf _)
              | pinf => exact absurd r2 (Fl.pinf_not_le_fin _)
              | fin v => exact ⟨v, rfl⟩
            · rw [min_eq_right h] at r1
              rw [max_eq_left h] at r2
              cases r with
              | nan => exact absurd rfl r3
              | ninf => exact absurd r1 (Fl.fin_not_le_ninf _)
              | pinf => exact absurd r2 (Fl.pinf_not_le_fin _)
              | fin v => exact ⟨v, rfl⟩
          refine key v ?_
          rcases le_total (.fin m1 : Fl K) (.fin m2) with h | h
          · rw [min_eq_left h] at r1
            rw [max_eq_right h] at r2
            exact Or.inl ⟨Fl.fin_le_fin.1 r1, Fl.fin_le_fin.1 r2⟩
          · rw [min_eq_right h] at r1
            rw [max_eq_left h] at r2
            exact Or.inr ⟨Fl.fin_le_fin.1 r1, Fl.fin_le_fin.1 r2⟩
    · rw [if_neg hlt]
      rw [Fl.lt_fin, decide_eq_true_eq, not_lt] at hlt
      refine valueLoop_pick R hcs hN hlast ht steps (i + 1) _ hnext (by omega) ?_ hlt
      rw [htake, List.getElem?_eq_getElem hnext, hn, hkn]
      simp only [Option.map_some, Option.getD_some, hw2, Fl.toK]
      push_cast
      ring

/-- Where the answer of a value query lies, except near the outer half of the last centroid. -/
theorem value_span [FloatFmt.Mono K] {A B : K} {N : Nat} (R : Roomy N A B) {u η Rm X : K} (E : RelErr u η Rm) (hu : u ≤ 1 / 2) (hA : -X ≤ A) (hB : B ≤ X)
    (hX : 8 * (X + η) ≤ Rm) (hNR : (N : K) ≤ Rm) (h64 : N < 2 ^ 64) {d : TDigest K}
    (hcs : ∀ c ∈ d.centroids, Within A B c) (hne : d.centroids ≠ []) (hN : totalW d.centroids ≤ N) {a b M : K} (hmin : d.min = .fin a) (hmax : d.max = .fin b)
    (ha : A ≤ a ∧ a ≤ B) (hM : ∀ c ∈ d.centroids, c.weight.toK ≤ M) {q : K} (hq0 : 0 ≤ q) (hq1 : q ≤ 1) {last : Centroid K}
    (hlast : d.centroids.getLast? = some last) {D : K} (hD : D = 2 * M + 2 * (u + η) * totalW d.centroids)
    (htail : ¬ (totalW d.centroids - last.weight.toK / 2 - 2 * (u + η) * totalW d.centroids ≤ totalW d.centroids * q ∧
      totalW d.centroids * q ≤ totalW d.centroids - 1 + 2 * (u + η) * totalW d.centroids)) :
    ∃ v : K, d.estValueAtQuantile (.fin q) = .ret (.fin v) ∧
      ((v ≤ a + 12 * (u * X + η) ∧ totalW d.centroids * q ≤ D) ∨ (v = b ∧ totalW d.centroids ≤ totalW d.centroids * q + D) ∨
        ∃ v' : K, |v - v'| ≤ 12 * (u * X + η) ∧ Placed d.centroids (totalW d.centroids) v' (totalW d.centroids * q) D) := by
  have hu0 := E.u_nonneg
  have hη0 := E.eta_nonneg
  have hX0 : 0 ≤ X := by linarith [ha.1, ha.2]
  have hκ : 0 ≤ u * X + η := by positivity
  have htot : d.totalWeight = .fin (totalW d.centroids) := weightSum_roomy R hcs hN
  obtain ⟨W, hW, hlen⟩ := totalW_nat hcs
  have hWN : W ≤ N := by rw [hW] at hN; exact_mod_cast hN
  have hW1 : 1 ≤ W := by
    have : d.centroids.length ≠ 0 := by simpa using hne
    omega
  have hW1K : (1 : K) ≤ W := by exact_mod_cast hW1
  have hWNK : (W : K) ≤ N := by exact_mod_cast hWN
  have hWpos : (0 : K) < W := by linarith
  rw [hW] at htail hD ⊢
  -- the target
  have hTq0 : 0 ≤ (W : K) * q := by positivity
  have hTq1 : (W : K) * q ≤ W := by
    calc (W : K) * q ≤ W * 1 := mul_le_mul_of_nonneg_left hq1 hWpos.le
      _ = W := mul_one _
  obtain ⟨t, ht, et⟩ := E.near ((W : K) * q) (by rw [abs_of_nonneg hTq0]; linarith)
  rw [abs_of_nonneg hTq0] at et
  obtain ⟨et1, et2⟩ := abs_le.1 et
  have hρ0 : 0 ≤ (u + η) * (W : K) := by positivity
  have hsl2 : ∀ z : K, 0 ≤ z → z ≤ W → u * z + η ≤ (u + η) * W := by
    intro z z0 z1
    have h1 := mul_le_mul_of_nonneg_left z1 hu0
    have h2 : η * 1 ≤ η * W := mul_le_mul_of_nonneg_left hW1K hη0
    calc u * z + η ≤ u * W + η * W := by linarith
      _ = (u + η) * W := by ring
  have hsl := hsl2 _ hTq0 hTq1
  have eρ : 2 * (u + η) * (W : K) = 2 * ((u + η) * W) := by ring
  rw [eρ] at hD htail
  generalize (u + η) * (W : K) = ρ at hsl hsl2 hρ0 hD htail
  obtain ⟨first, rest, hd⟩ : ∃ f r, d.centroids = f :: r := by
    cases h : d.centroids with
    | nil => exact absurd h hne
    | cons f r => exact ⟨f, r, rfl⟩
  obtain ⟨mf, wf, hmf, f1, f2, hwf, f3⟩ := hcs first (by rw [hd]; simp)
  have hM1 : 1 ≤ M := by
    have := hM first (by rw [hd]; simp)
    rw [hwf] at this
    have h1 : (1 : K) ≤ wf := by exact_mod_cast f3
    exact h1.trans this
  have hwfM : (wf : K) ≤ M := by
    have := hM first (by rw [hd]; simp)
    rw [hwf] at this
    exact this
  unfold estValueAtQuantile
  simp only [htot, hW]
  rw [Fl.mul_fin, ht]
  by_cases hlt1 : t < 1
  · rw [if_pos (by rw [lit_one, Fl.lt_fin]; simpa using hlt1), hmin]
    exact ⟨a, rfl, Or.inl ⟨by linarith, by linarith⟩⟩
  rw [if_neg (by rw [lit_one, Fl.lt_fin]; simpa using hlt1)]
  have ht1 := not_lt.1 hlt1
  have e0 : idx d.centroids 0 = .ret first := by rw [hd]; rfl
  rw [e0, bind_ret]
  have hwfW : wf ≤ W := by
    have h1 := hW
    rw [hd, totalW_cons, hwf] at h1
    obtain ⟨n2, hn2, -⟩ := totalW_nat (l := rest) (fun d' hd' => hcs d' (by rw [hd]; simp [hd']))
    rw [hn2] at h1
    simp only [Fl.toK] at h1
    have : wf + n2 = W := by exact_mod_cast h1
    omega
  have g1 : ∀ a : Nat, Fl.lt (Fl.lit 1) (.fin (a : K)) = decide (1 < a) := by
    intro a
    rw [lit_one, Fl.lt_fin]
    have : ((1 : ℕ) : K) < a ↔ 1 < a := Nat.cast_lt
    simp
  rw [hwf, R.counts.halve (by omega), g1 wf, Fl.lt_fin]
  by_cases hlt2 : 1 < wf ∧ t < (wf : K) / 2
  · -- the outer half of the first centroid
    rw [if_pos (by simpa using hlt2)]
    have hwf3 : 3 ≤ wf := by
      have h1 : (1 : K) < (wf : K) / 2 := ht1.trans_lt hlt2.2
      have h2 : ((2 : ℕ) : K) < wf := by push_cast; linarith
      have := Nat.cast_lt.1 h2
      omega
    have ehalf : (.fin ((wf : K) / 2) - Fl.lit 1 : Fl K) = .fin (((wf - 2 : ℕ) : K) / 2) := by
      rw [lit_one, show (1 : K) = ((2 : ℕ) : K) / 2 by norm_num]
      exact R.counts.subHalf (by omega) (by omega)
    have ew : ((wf - 2 : ℕ) : K) / 2 = (wf : K) / 2 - 1 := by rw [Nat.cast_sub (by omega)]; push_cast; ring
    have hwpos : (0 : K) < ((wf - 2 : ℕ) : K) / 2 := by rw [ew]; linarith [hlt2.2]
    -- the fraction
    obtain ⟨z, hz, z0, z1⟩ := rnd_between (x := t - 1) FloatFmt.Mono.rnd_zero (R.counts (wf - 2) (by omega)) (by linarith) (by rw [ew]; linarith [hlt2.2])
    obtain ⟨r, hr, r0, r1⟩ := div_unit hwpos z0 z1
    -- the distance of the mean from the minimum
    have hma : |mf - a| ≤ 2 * X := abs_le.2 ⟨by linarith [ha.2], by linarith [ha.1]⟩
    obtain ⟨g, hg, eg⟩ := E.near (mf - a) (by linarith)
    have hgu : u * |mf - a| + η ≤ 2 * (u * X) + η := by
      have := mul_le_mul_of_nonneg_left hma hu0
      linarith
    have huX : u * X ≤ X / 2 := by
      have := mul_le_mul_of_nonneg_right hu hX0
      linarith
    have hgabs : |g| ≤ 3 * X + η := by
      have h1 : |g| ≤ |mf - a| + |g - (mf - a)| := by
        have := abs_add_le (mf - a) (g - (mf - a))
        rwa [add_sub_cancel] at this
      linarith
    have hrg : |r * g| ≤ |g| := by
      rw [abs_mul, abs_of_nonneg r0]
      calc r * |g| ≤ 1 * |g| := mul_le_mul_of_nonneg_right r1 (abs_nonneg _)
        _ = |g| := one_mul _
    obtain ⟨f, hf, ef⟩ := E.near (r * g) (by linarith)
    have hfu : u * |r * g| + η ≤ 3 * (u * X) + u * η + η := by
      have h1 : u * |r * g| ≤ u * (3 * X + η) := mul_le_mul_of_nonneg_left (hrg.trans hgabs) hu0
      have : u * (3 * X + η) = 3 * (u * X) + u * η := by ring
      linarith
    have huη : u * η ≤ η / 2 := by
      have := mul_le_mul_of_nonneg_right hu hη0
      linarith
    have hfabs : |f| ≤ 5 * X + 3 * η := by
      have h1 : |f| ≤ |r * g| + |f - r * g| := by
        have := abs_add_le (r * g) (f - r * g)
        rwa [add_sub_cancel] at this
      linarith
    have haX : |a| ≤ X := abs_le.2 ⟨by linarith [ha.1], by linarith [ha.2]⟩
    have haf : |a + f| ≤ 6 * X + 3 * η := (abs_add_le a f).trans (by linarith)
    obtain ⟨v, hv, ev⟩ := E.near (a + f) (by linarith)
    have hvu : u * |a + f| + η ≤ 6 * (u * X) + 3 * (u * η) + η := by
      have h1 : u * |a + f| ≤ u * (6 * X + 3 * η) := mul_le_mul_of_nonneg_left haf hu0
      have : u * (6 * X + 3 * η) = 6 * (u * X) + 3 * (u * η) := by ring
      linarith
    have hrgle : r * g ≤ Max.max 0 (mf - a) + (2 * (u * X) + η) := by
      have h1 : g ≤ mf - a + (2 * (u * X) + η) := by linarith [(abs_le.1 eg).2]
      have h2 : g ≤ Max.max 0 (mf - a) + (2 * (u * X) + η) := h1.trans (by linarith [le_max_right 0 (mf - a)])
      rcases le_total 0 g with h3 | h3
      · calc r * g ≤ 1 * g := mul_le_mul_of_nonneg_right r1 h3
          _ ≤ _ := by rw [one_mul]; exact h2
      · have h4 : r * g ≤ 0 := mul_nonpos_of_nonneg_of_nonpos r0 h3
        have h5 := le_max_left 0 (mf - a)
        have : 0 ≤ u * X := by positivity
        linarith
    have hvle : v ≤ a + Max.max 0 (mf - a) + 12 * (u * X + η) := by
      have h1 := (abs_le.1 ev).2
      have h2 := (abs_le.1 ef).2
      have : 0 ≤ u * X := by positivity
      linarith
    have hwfT : (W : K) * q ≤ D := by
      have := hlt2.2
      linarith
    refine ⟨v, ?_, ?_⟩
    · rw [ehalf, hmin, hmf, lit_one, Fl.sub_fin, hz, hr, Fl.sub_fin, hg, Fl.mul_fin, hf, Fl.add_fin, hv]
    · rcases le_total (mf - a) 0 with h0 | h0
      · rw [max_eq_left h0] at hvle
        exact Or.inl ⟨by linarith, hwfT⟩
      · rw [max_eq_right h0] at hvle
        right; right
        refine ⟨Min.min v mf, ?_, Or.inl hwfT, Or.inr ⟨[], first, rest, hd, ?_, ?_⟩⟩
        · rcases le_total v mf with h | h
          · rw [min_eq_left h, sub_self, abs_zero]; linarith
          · rw [min_eq_right h, abs_of_nonneg (by linarith)]; linarith
        · rw [hmf]; exact min_le_right _ _
        · rw [hwf, totalW_nil]
          show 0 + (wf : K) ≤ _
          linarith
  rw [if_neg (by simpa using hlt2)]
  have hsub : (.fin (W : K) - Fl.lit 1 : Fl K) = .fin ((W - 1 : ℕ) : K) := by
    rw [lit_one, Fl.sub_fin, show (W : K) - 1 = ((W - 1 : ℕ) : K) by rw [Nat.cast_sub hW1]; simp]
    exact R.counts.rnd_nat (by omega)
  have eW1 : ((W - 1 : ℕ) : K) = W - 1 := by rw [Nat.cast_sub hW1]; simp
  rw [hsub, eW1, Fl.lt_fin]
  by_cases hlt3 : (W : K) - 1 < t
  · rw [if_pos (by simpa using hlt3), hmax]
    exact ⟨b, rfl, Or.inr (Or.inl ⟨rfl, by linarith⟩)⟩
  rw [if_neg (by simpa using hlt3)]
  have ht2 := not_lt.1 hlt3
  have el : unwrap d.centroids.getLast? = .ret last := by rw [hlast]; rfl
  rw [el, bind_ret]
  have hlmem : last ∈ d.centroids := List.mem_of_getLast? hlast
  obtain ⟨wl, hwl, l3⟩ := (hcs last hlmem).nat
  have ewl : last.weight.toK = (wl : K) := by rw [hwl]; rfl
  have hwlW : wl ≤ W := by
    obtain ⟨s, tt, hst⟩ := List.append_of_mem hlmem
    have h1 := hW
    rw [hst, totalW_append, totalW_cons, hwl] at h1
    obtain ⟨n1, hn1, -⟩ := totalW_nat (l := s) (fun d' hd' => hcs d' (by rw [hst]; simp [hd']))
    obtain ⟨n2, hn2, -⟩ := totalW_nat (l := tt) (fun d' hd' => hcs d' (by rw [hst]; simp [hd']))
    rw [hn1, hn2] at h1
    simp only [Fl.toK] at h1
    have : n1 + (wl + n2) = W := by exact_mod_cast h1
    omega
  rw [ewl] at htail
  -- the target is left of the middle of the last centroid
  have hhi : t < (W : K) - wl / 2 := by
    rcases Nat.lt_or_ge 1 wl with h1 | h1
    · by_contra hcon
      rw [not_lt] at hcon
      exact htail ⟨by linarith, by linarith⟩
    · have : wl = 1 := by omega
      subst this
      push_cast
      linarith
  have hno : ¬ (1 < wl ∧ Fl.le (.fin (W : K) - .fin t) (.fin ((wl : K) / 2)) = true) := by
    rintro ⟨h1, h2⟩
    obtain ⟨z, hz, ez⟩ := E.near ((W : K) - t) (by rw [abs_of_nonneg (by linarith)]; linarith)
    rw [Fl.sub_fin, hz, Fl.le_fin, decide_eq_true_eq] at h2
    rw [abs_of_nonneg (show 0 ≤ (W : K) - t by linarith)] at ez
    have h3 : u * ((W : K) - t) + η ≤ ρ := hsl2 _ (by linarith) (by linarith)
    have h4 := (abs_le.1 ez).1
    exact htail ⟨by linarith, by linarith⟩
  rw [hwl, R.counts.halve (by omega), g1 wl, if_neg (by simpa using hno), toUsize_nat (show W < 2 ^ 64 by omega)]
  rw [show unwrap (some W) = (.ret W : Prog Nat) from rfl, bind_ret]
  have hlo : (wf : K) / 2 ≤ t := by
    rcases Nat.lt_or_ge 1 wf with h1 | h1
    · exact not_lt.1 (fun h => hlt2 ⟨h1, h⟩)
    · have : wf = 1 := by omega
      subst this
      push_cast
      linarith
  have hlen0 : 0 < d.centroids.length := List.length_pos_iff.2 hne
  obtain ⟨v, p, s, c, n, hv, hsp, t1, t2, hm⟩ := valueLoop_pick R hcs hN (lw := wl) (by intro c hc; rw [hlast] at hc; cases hc; exact hwl)
    (by rw [hW]; exact hhi) W 0 wf hlen0 (by omega) (by rw [hd]; simp [hwf, Fl.toK]) hlo
  rw [hv, bind_ret]
  have hcM := hM c (by rw [hsp]; simp)
  have hnM := hM n (by rw [hsp]; simp)
  have hcp := ((hcs c (by rw [hsp]; simp)).good).weight_pos
  have hnp := ((hcs n (by rw [hsp]; simp)).good).weight_pos
  have hsp2 : d.centroids = (p ++ [c]) ++ n :: s := by rw [hsp]; simp
  have htp : totalW (p ++ [c]) = totalW p + c.weight.toK := by rw [totalW_append, totalW_cons, totalW_nil, add_zero]
  refine ⟨v, rfl, Or.inr (Or.inr ⟨v, by rw [sub_self, abs_zero]; linarith, ?_, ?_⟩)⟩
  · rcases hm with ⟨h1, h2⟩ | ⟨h1, h2⟩
    · exact Or.inr ⟨p, c, n :: s, hsp, h1, by linarith⟩
    · exact Or.inr ⟨p ++ [c], n, s, hsp2, h1, by rw [htp]; linarith⟩
  · rcases hm with ⟨h1, h2⟩ | ⟨h1, h2⟩
    · exact Or.inr ⟨p ++ [c], n, s, hsp2, h2, by rw [htp]; linarith⟩
    · exact Or.inr ⟨p, c, n :: s, hsp, h2, by linarith⟩

/-- The answer of a value query after `k` insertion calls, away from the outer half of the last centroid. -/
theorem RankInv.value [FloatFmt.Mono K] {A B : K} {N : Nat} (R : Roomy N A B) {u η Rm X : K} (E : RelErr u η Rm) (hu : u ≤ 1 / 2) (hA : -X ≤ A) (hB : B ≤ X)
    (hX : 8 * (X + η) ≤ Rm) (hNR : (N : K) ≤ Rm) (h64 : N < 2 ^ 64)
    {k : Nat} {d : TDigest K} {all : List (Centroid K)} (h : RInv A B d all) (hk : RankInv (u * X + η) k d all) (hall : ∀ c ∈ all, Within A B c) (hne : all ≠ [])
    (hN : totalW all ≤ N) {M : K} (hM : ∀ c ∈ d.centroids, c.weight.toK ≤ M) {q : K} (hq0 : 0 ≤ q) (hq1 : q ≤ 1) {last : Centroid K}
    (hlast : d.centroids.getLast? = some last)
    (htail : ¬ (totalW all - last.weight.toK / 2 - 2 * (u + η) * totalW all ≤ totalW all * q ∧ totalW all * q ≤ totalW all - 1 + 2 * (u + η) * totalW all)) :
    ∃ v : K, d.estValueAtQuantile (.fin q) = .ret (.fin v) ∧
      lw (v - (k * ((u * X + η) * (M + 1)) + 12 * (u * X + η))) all ≤ totalW all * q + ((k + 1) * M + 2 * (u + η) * totalW all) ∧
      totalW all * q ≤ uw (v + (k * ((u * X + η) * (M + 1)) + 12 * (u * X + η))) all + ((k + 1) * M + 2 * (u + η) * totalW all) := by
  have hcne : d.centroids ≠ [] := fun e => hne (h.empty.1 e)
  have hM0 : 0 ≤ M := by
    obtain ⟨c, hc⟩ := List.exists_mem_of_ne_nil _ hcne
    exact ((h.within c hc).good).weight_pos.le.trans (hM c hc)
  have hgall : ∀ c ∈ all, Good c := fun c hc => (hall c hc).good
  obtain ⟨⟨a, ha, ha1, -⟩, ⟨b, hb, hb1, -⟩⟩ := h.range
  have hX0 : 0 ≤ X := by linarith [(ha1 hne).1, (ha1 hne).2]
  have hκ : 0 ≤ u * X + η := add_nonneg (mul_nonneg E.u_nonneg hX0) E.eta_nonneg
  have hW0 : 0 ≤ totalW all := by
    obtain ⟨n, hn, -⟩ := totalW_nat hall
    rw [hn]; positivity
  have hρ : 0 ≤ (u + η) * totalW all := mul_nonneg (add_nonneg E.u_nonneg E.eta_nonneg) hW0
  have hkM0 : 0 ≤ (k : K) * M := by positivity
  have hT0 : 0 ≤ totalW all * q := mul_nonneg hW0 hq0
  have hT1 : totalW all * q ≤ totalW all := by
    calc totalW all * q ≤ totalW all * 1 := mul_le_mul_of_nonneg_left hq1 hW0
      _ = totalW all := mul_one _
  obtain ⟨v, hv, hcase⟩ := value_span R E hu hA hB hX hNR h64 h.within hcne (by rw [h.weight]; exact hN) ha hb (ha1 hne) hM hq0 hq1 hlast rfl
    (by rw [h.weight]; exact htail)
  rw [h.weight] at hcase
  have hs0 : 0 ≤ (k : K) * ((u * X + η) * (M + 1)) := by positivity
  refine ⟨v, hv, ?_⟩
  rcases hcase with ⟨h1, h2⟩ | ⟨rfl, h2⟩ | ⟨v', hv', h2⟩
  · have hz : lw (v - (k * ((u * X + η) * (M + 1)) + 12 * (u * X + η))) all = 0 := by
      refine lw_zero (fun c hc => ?_)
      have := (h.limits c hc).1
      obtain ⟨mc, -, emc, -⟩ := hall c hc
      rw [ha, emc, Fl.fin_le_fin] at this
      rw [emc]
      show v - (k * ((u * X + η) * (M + 1)) + 12 * (u * X + η)) ≤ mc
      linarith
    rw [hz]
    refine ⟨by linarith, ?_⟩
    rcases eq_or_ne k 0 with rfl | hk0
    · exact absurd (hk.last hcne) (by rintro ⟨S, k', hk', -⟩; omega)
    · have hk1 : (1 : K) ≤ k := by exact_mod_cast Nat.one_le_iff_ne_zero.2 hk0
      have := mul_le_mul_of_nonneg_right hk1 hM0
      have := (uw_range (x := v + (k * ((u * X + η) * (M + 1)) + 12 * (u * X + η))) hgall).1
      linarith
  · have hf : uw (v + (k * ((u * X + η) * (M + 1)) + 12 * (u * X + η))) all = totalW all := by
      refine uw_full (fun c hc => ?_)
      have := (h.limits c hc).2
      obtain ⟨mc, -, emc, -⟩ := hall c hc
      rw [hb, emc, Fl.fin_le_fin] at this
      rw [emc]
      show mc ≤ v + (k * ((u * X + η) * (M + 1)) + 12 * (u * X + η))
      linarith
    rw [hf]
    refine ⟨?_, by linarith⟩
    rcases eq_or_ne k 0 with rfl | hk0
    · exact absurd (hk.last hcne) (by rintro ⟨S, k', hk', -⟩; omega)
    · have hk1 : (1 : K) ≤ k := by exact_mod_cast Nat.one_le_iff_ne_zero.2 hk0
      have := mul_le_mul_of_nonneg_right hk1 hM0
      have := (lw_range (x := v - (k * ((u * X + η) * (M + 1)) + 12 * (u * X + η))) hgall).2
      linarith
  · obtain ⟨l1, l2⟩ := RankInv.place hκ h hk hall hne hM hT0 hT1 (by linarith) h2
    obtain ⟨v1, v2⟩ := abs_le.1 hv'
    have m1 := lw_mono (show v - (k * ((u * X + η) * (M + 1)) + 12 * (u * X + η)) ≤ v' - k * ((u * X + η) * (M + 1)) by linarith) hgall
    have m2 := uw_mono (show v' + k * ((u * X + η) * (M + 1)) ≤ v + (k * ((u * X + η) * (M + 1)) + 12 * (u * X + η)) by linarith) hgall
    constructor <;> linarith

end
end TDigest
end AQ

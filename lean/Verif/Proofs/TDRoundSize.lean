/-
Size of a TDigest with the uniform scale function in rounding arithmetic.
-/
import Verif.Proofs.TDRound
import Verif.Proofs.F64Error
import Verif.Model.ScaleK0

set_option linter.unusedSectionVars false
set_option linter.unusedVariables false

namespace AQ
open Prog Spec
variable {K : Type} [Field K] [LinearOrder K] [IsStrictOrderedRing K] [FloatFmt K]

namespace TDigest

/-- Two neighbouring clusters of the merge loop weigh more than the smallest size limit `G`, and none more than the largest, except
single centroids. -/
theorem mergeLoop_size {N n : Nat} (hc : ExactCounts K N) (hn : n ≤ N) {G H M : K} {limit : Fl K → Fl K} (hHM : H ≤ M)
    (hlim : ∀ w0 : Nat, w0 ≤ n → ∃ y : K, limit (.fin (w0 : K)) - .fin (w0 : K) = .fin y ∧ G ≤ y ∧ y ≤ H) :
    ∀ (cs : List (Centroid K)) (w0 mw : Nat) (y : K) (ms : Fl K), (∀ c ∈ cs, ∃ w : Nat, c.weight = .fin (w : K) ∧ (w : K) ≤ M) →
      ((w0 + mw : ℕ) : K) + totalW cs = n → G ≤ y → y ≤ H → (mw : K) ≤ M →
      (((mergeLoop limit (.fin (w0 : K)) (.fin y) (.fin (mw : K)) ms cs).length : K) - 1) * G ≤ mw + 2 * totalW cs ∧
      ∀ c ∈ mergeLoop limit (.fin (w0 : K)) (.fin y) (.fin (mw : K)) ms cs, ∃ w : Nat, c.weight = .fin (w : K) ∧ (w : K) ≤ M
  | [], w0, mw, y, ms, _, _, _, _, hm => by
    unfold mergeLoop
    refine ⟨?_, ?_⟩
    · simp [totalW_nil]
    · intro c hc
      rw [List.mem_singleton] at hc
      subst hc
      exact ⟨mw, rfl, hm⟩
  | c :: cs, w0, mw, y, ms, hcs, ht, hG, hH, hm => by
    have hcs' : ∀ d ∈ cs, ∃ w : Nat, d.weight = .fin (w : K) ∧ (w : K) ≤ M := fun d hd => hcs d (by simp [hd])
    obtain ⟨w, hw, hwM⟩ := hcs c (by simp)
    have hcw : c.weight.toK = (w : K) := by rw [hw]; rfl
    have htn : ∀ l : List (Centroid K), (∀ d ∈ l, ∃ w : Nat, d.weight = .fin (w : K) ∧ (w : K) ≤ M) → ∃ t : Nat, totalW l = (t : K) := by
      intro l
      induction l with
      | nil => intro _; exact ⟨0, by simp⟩
      | cons a l ih =>
        intro h
        obtain ⟨t, ht⟩ := ih (fun d hd => h d (by simp [hd]))
        obtain ⟨v, hv, -⟩ := h a (by simp)
        exact ⟨v + t, by rw [totalW_cons, ht, hv]; simp [Fl.toK]⟩
    obtain ⟨t, htt⟩ := htn cs hcs'
    rw [totalW_cons, hcw, htt] at ht
    have ht' : w0 + mw + (w + t) = n := by exact_mod_cast ht
    have eW : (.fin (mw : K) : Fl K) + .fin (w : K) = .fin ((mw + w : ℕ) : K) := by
      rw [Fl.add_fin, ← Nat.cast_add]
      exact hc.rnd_nat (by omega)
    have e0 : (.fin (w0 : K) : Fl K) + .fin (mw : K) = .fin ((w0 + mw : ℕ) : K) := by
      rw [Fl.add_fin, ← Nat.cast_add]
      exact hc.rnd_nat (by omega)
    unfold mergeLoop
    simp only []
    rw [hw, eW, e0]
    split
    next hle =>
      have hle : ((mw + w : ℕ) : K) ≤ y := by simpa [Fl.le_fin] using hle
      obtain ⟨r1, r2⟩ := mergeLoop_size hc hn hHM hlim cs w0 (mw + w) y (ms + c.mean * .fin (w : K)) hcs'
        (by rw [htt]; exact_mod_cast (by omega : w0 + (mw + w) + t = n)) hG hH (hle.trans (hH.trans hHM))
      refine ⟨r1.trans ?_, r2⟩
      rw [totalW_cons, hcw]
      have : (0 : K) ≤ w := by positivity
      push_cast
      linarith
    next hle =>
      have hle : ¬ ((mw + w : ℕ) : K) ≤ y := by simpa [Fl.le_fin] using hle
      obtain ⟨y', hy', g1, g2⟩ := hlim (w0 + mw) (by omega)
      rw [hy']
      obtain ⟨r1, r2⟩ := mergeLoop_size hc hn hHM hlim cs (w0 + mw) w y' (c.mean * .fin (w : K)) hcs'
        (by rw [htt]; exact_mod_cast (by omega : w0 + mw + w + t = n)) g1 g2 hwM
      refine ⟨?_, ?_⟩
      · rw [List.length_cons, totalW_cons, hcw]
        have := not_le.1 hle
        push_cast at this ⊢
        have e : ((((mergeLoop limit (.fin ((w0 : K) + mw)) (.fin y') (.fin (w : K)) (c.mean * .fin (w : K)) cs).length : K) + 1 - 1) * G) =
          (((mergeLoop limit (.fin ((w0 : K) + mw)) (.fin y') (.fin (w : K)) (c.mean * .fin (w : K)) cs).length : K) - 1) * G + G := by ring
        rw [e]
        push_cast at r1
        linarith
      · intro d hd
        rcases List.mem_cons.1 hd with rfl | hd
        · exact ⟨mw, rfl, hm⟩
        · exact r2 d hd

/-- The size limit under `k0` as computed: `2n/δ` up to `40 u n`. -/
theorem sizeLimit_k0_round {u η R : K} (E : RelErr u η R) (hηu : η ≤ u) (hu : u ≤ 1 / 2 ^ 10) {δ : K} (hδ : 1 ≤ δ) {N n w0 : Nat}
    (hN : ExactCounts K N) (hn1 : 1 ≤ n) (hn : n ≤ N) (hw : w0 ≤ n) (hR1 : 12 * δ ≤ R) (hR2 : 12 * (N : K) ≤ R) (h1 : FloatFmt.rnd (1 : K) = .fin 1)
    (h2 : FloatFmt.rnd (2 : K) = .fin 2) :
    ∃ L y : K, invK0 (k0 (.fin (w0 : K) / .fin (n : K)) (.fin δ) (.fin (n : K)) + Fl.lit 1) (.fin δ) (.fin (n : K)) * .fin (n : K) = .fin L ∧
      (Fl.fin L : Fl K) - .fin (w0 : K) = .fin y ∧ |L - (w0 + 2 * n / δ)| ≤ 40 * u * n ∧ |y - 2 * n / δ| ≤ 40 * u * n := by
  have hu0 := E.u_nonneg
  have hδ0 : (0 : K) < δ := by linarith
  have hnK : (1 : K) ≤ n := by exact_mod_cast hn1
  have hnN : (n : K) ≤ N := by exact_mod_cast hn
  have hwn : (w0 : K) ≤ n := by exact_mod_cast hw
  have hw0 : (0 : K) ≤ w0 := by positivity
  have hR : 12 * (n : K) ≤ R := by linarith
  have hR12 : 12 ≤ R := by linarith
  -- rounding with both errors in `u`
  have near : ∀ x B : K, 0 ≤ B → |x| ≤ B → B ≤ R → ∃ y : K, FloatFmt.rnd x = .fin y ∧ |y - x| ≤ u * (B + 1) := by
    intro x B _ hx hB
    obtain ⟨y, hy, hyx⟩ := E.near x (hx.trans hB)
    refine ⟨y, hy, hyx.trans ?_⟩
    have : u * |x| ≤ u * B := mul_le_mul_of_nonneg_left hx hu0
    linarith
  have hud : u * 1 ≤ u * δ := mul_le_mul_of_nonneg_left hδ hu0
  have hun : u * 1 ≤ u * n := mul_le_mul_of_nonneg_left hnK hu0
  have hud10 : u * δ ≤ δ / 2 ^ 10 := by
    have := mul_le_mul_of_nonneg_right hu hδ0.le
    linarith
  have hun10 : u * n ≤ n / 2 ^ 10 := by
    have := mul_le_mul_of_nonneg_right hu (show (0 : K) ≤ n by positivity)
    linarith
  set Q : K := w0 / n with hQ
  have hnpos : (0 : K) < n := by linarith
  have hQ0 : 0 ≤ Q := div_nonneg hw0 hnpos.le
  have hQ1 : Q ≤ 1 := (div_le_one hnpos).2 hwn
  have hQn : Q * n = w0 := div_mul_cancel₀ _ hnpos.ne'
  have hd2 : 2 / δ ≤ 2 := by rw [div_le_iff₀ hδ0]; linarith
  have hd0 : 0 < 2 / δ := by positivity
  -- q
  obtain ⟨q, hq, eq⟩ := near Q 1 zero_le_one (abs_le.2 ⟨by linarith, hQ1⟩) (by linarith)
  obtain ⟨q1, q2⟩ := abs_le.1 eq
  have hqd : |q * δ - Q * δ| ≤ 2 * (u * δ) := by
    rw [← sub_mul, abs_mul, abs_of_pos hδ0]
    have := mul_le_mul_of_nonneg_right eq hδ0.le
    linarith
  obtain ⟨d1, d2⟩ := abs_le.1 hqd
  have hQd : 0 ≤ Q * δ := mul_nonneg hQ0 hδ0.le
  have hQd1 : Q * δ ≤ δ := by
    have := mul_le_mul_of_nonneg_right hQ1 hδ0.le
    linarith
  -- q * δ
  obtain ⟨a, ha, ea⟩ := near (q * δ) (2 * δ) (by linarith) (abs_le.2 ⟨by linarith, by linarith⟩) (by linarith)
  rw [show u * (2 * δ + 1) = 2 * (u * δ) + u by ring] at ea
  obtain ⟨a1, a2⟩ := abs_le.1 ea
  -- / 2
  obtain ⟨b, hb, eb⟩ := near (a / 2) (2 * δ) (by linarith) (abs_le.2 ⟨by linarith, by linarith⟩) (by linarith)
  rw [show u * (2 * δ + 1) = 2 * (u * δ) + u by ring] at eb
  obtain ⟨b1, b2⟩ := abs_le.1 eb
  -- + 1
  obtain ⟨t, ht, et⟩ := near (b + 1) (2 * δ) (by linarith) (abs_le.2 ⟨by linarith, by linarith⟩) (by linarith)
  rw [show u * (2 * δ + 1) = 2 * (u * δ) + u by ring] at et
  obtain ⟨t1, t2⟩ := abs_le.1 et
  -- * 2
  obtain ⟨c, hc, ec⟩ := near (t * 2) (4 * δ) (by linarith) (abs_le.2 ⟨by linarith, by linarith⟩) (by linarith)
  rw [show u * (4 * δ + 1) = 4 * (u * δ) + u by ring] at ec
  obtain ⟨c1, c2⟩ := abs_le.1 ec
  -- / δ
  have hcd : |c / δ - (Q + 2 / δ)| ≤ 22 * u := by
    have e : c / δ - (Q + 2 / δ) = (c - (Q * δ + 2)) / δ := by field_simp
    rw [e, abs_div, abs_of_pos hδ0, div_le_iff₀ hδ0]
    exact abs_le.2 ⟨by linarith, by linarith⟩
  obtain ⟨e1, e2⟩ := abs_le.1 hcd
  have hu4 : u * 1 ≤ 1 / 2 ^ 10 := by linarith
  obtain ⟨i, hi, ei⟩ := near (c / δ) 4 (by norm_num) (abs_le.2 ⟨by linarith, by linarith⟩) (by linarith)
  obtain ⟨i1, i2⟩ := abs_le.1 ei
  -- * n
  have hin : |i * n - (w0 + 2 * n / δ)| ≤ 27 * (u * n) := by
    have e : i * n - (w0 + 2 * n / δ) = (i - (Q + 2 / δ)) * n := by rw [← hQn]; ring
    rw [e, abs_mul, abs_of_pos hnpos]
    have : |i - (Q + 2 / δ)| ≤ 27 * u := abs_le.2 ⟨by linarith, by linarith⟩
    have := mul_le_mul_of_nonneg_right this hnpos.le
    linarith
  obtain ⟨n1, n2⟩ := abs_le.1 hin
  have h2n : 2 * (n : K) / δ ≤ 2 * n := by
    rw [div_le_iff₀ hδ0]
    have := mul_le_mul_of_nonneg_left hδ (show (0 : K) ≤ 2 * n by linarith)
    linarith
  have h2n0 : 0 ≤ 2 * (n : K) / δ := by positivity
  obtain ⟨L, hL, eL⟩ := near (i * n) (4 * n) (by linarith) (abs_le.2 ⟨by linarith, by linarith⟩) (by linarith)
  rw [show u * (4 * (n : K) + 1) = 4 * (u * n) + u by ring] at eL
  obtain ⟨l1, l2⟩ := abs_le.1 eL
  -- - w0
  obtain ⟨y, hy, ey⟩ := near (L - w0) (3 * n) (by linarith) (abs_le.2 ⟨by linarith, by linarith⟩) (by linarith)
  rw [show u * (3 * (n : K) + 1) = 3 * (u * n) + u by ring] at ey
  obtain ⟨y1, y2⟩ := abs_le.1 ey
  refine ⟨L, y, ?_, ?_, abs_le.2 ⟨by linarith, by linarith⟩, abs_le.2 ⟨by linarith, by linarith⟩⟩
  · unfold invK0 k0
    rw [show (Fl.lit 1 : Fl K) = .fin 1 from h1, show (Fl.lit 2 : Fl K) = .fin 2 from h2,
      Fl.div_fin_of_ne _ hnpos.ne', hq, Fl.mul_fin, ha, Fl.div_fin_of_ne _ two_ne_zero, hb, Fl.add_fin, ht, Fl.mul_fin, hc,
      Fl.div_fin_of_ne _ hδ0.ne', hi, Fl.mul_fin, hL]
  · rw [Fl.sub_fin, hy]

/-- What a digest with `k0` keeps about its size; `n` is its total weight, `M0` the largest weight supplied. -/
structure K0Size (u δ M0 : K) (d : TDigest K) (n : K) : Prop where
  scale : d.scaleFunc = k0
  inv : d.inverseScaleFunc = invK0
  factor : d.compressFactor = .fin δ
  size : ((d.centroids.length : K) - 1) * (2 / δ - 40 * u) < 2
  weights : ∀ c ∈ d.centroids, ∃ w : Nat, c.weight = .fin (w : K) ∧ (w : K) ≤ Max.max M0 (n * (2 / δ + 40 * u))

theorem addCentroidBuffer_k0Size [FloatFmt.Mono K] {A B : K} {N : Nat} (R : Roomy N A B) {u η Rm δ M0 : K} (E : RelErr u η Rm) (hηu : η ≤ u)
    (hu : u ≤ 1 / 2 ^ 10) (hδ : 1 ≤ δ) (hR1 : 12 * δ ≤ Rm) (hR2 : 12 * (N : K) ≤ Rm) {d : TDigest K} {all : List (Centroid K)}
    (h : RInv A B d all) (hz : K0Size u δ M0 d (totalW all)) (hall : ∀ c ∈ all, Within A B c) (b : List (Centroid K)) (hb : ∀ c ∈ b, Within A B c)
    (hbM : ∀ c ∈ b, c.weight ≤ .fin M0) (hN : totalW (all ++ b) ≤ N) :
    Always (d.addCentroidBuffer b) (fun d' => K0Size u δ M0 d' (totalW (all ++ b))) := by
  have hu0 := E.u_nonneg
  have hδ0 : (0 : K) < δ := by linarith
  have hg : ∀ c ∈ b ++ d.centroids, Within A B c := by
    intro c hc
    rcases List.mem_append.1 hc with hc | hc
    · exact hb c hc
    · exact h.within c hc
  unfold addCentroidBuffer
  rw [always_bind]
  refine (sortUnstable_spec Centroid.mean _ (fun c hc => (hg c hc).mean_ne_nan)).mono ?_
  rintro l ⟨h1, h2⟩
  have hW : totalW l = totalW (all ++ b) := by
    rw [totalW_perm h1, totalW_append, totalW_append, h.weight, add_comm]
  cases l with
  | nil =>
    have e := h1.nil_eq
    obtain ⟨e1, e2⟩ := List.append_eq_nil_iff.1 e.symm
    subst e1
    rw [List.append_nil]
    exact hz
  | cons c cs =>
    have hl : ∀ a ∈ c :: cs, Within A B a := fun a ha => hg a (h1.mem_iff.1 ha)
    obtain ⟨n, hn, hnl⟩ := totalW_nat hl
    have hnN : n ≤ N := by rw [← hW, hn] at hN; exact_mod_cast hN
    have hn1 : 1 ≤ n := le_trans (by simp) hnl
    have hnK : (0 : K) < n := by exact_mod_cast hn1
    have hsum : weightSum (c :: cs) = .fin (n : K) := by
      rw [weightSum_roomy R hl (by rw [hn]; exact_mod_cast hnN), hn]
    have hall0 : 0 ≤ totalW b ∧ totalW all ≤ n := by
      obtain ⟨nb, e1, -⟩ := totalW_nat hb
      obtain ⟨na, e2, -⟩ := totalW_nat hall
      rw [hW, totalW_append] at hn
      refine ⟨by rw [e1]; positivity, ?_⟩
      have : 0 ≤ totalW b := by rw [e1]; positivity
      linarith
    set M : K := Max.max M0 ((n : K) * (2 / δ + 40 * u)) with hM
    have hwM : ∀ a ∈ c :: cs, ∃ w : Nat, a.weight = .fin (w : K) ∧ (w : K) ≤ M := by
      intro a ha
      rcases List.mem_append.1 (h1.mem_iff.1 ha) with ha | ha
      · obtain ⟨w, hw, -⟩ := (hb a ha).nat
        have := hbM a ha
        rw [hw, Fl.fin_le_fin] at this
        exact ⟨w, hw, this.trans (le_max_left _ _)⟩
      · obtain ⟨w, hw, hwle⟩ := hz.weights a ha
        refine ⟨w, hw, hwle.trans (max_le_max le_rfl ?_)⟩
        have : 0 ≤ 2 / δ + 40 * u := by positivity
        exact mul_le_mul_of_nonneg_right hall0.2 this
    have key : ∀ w0 : Nat, w0 ≤ n → ∃ L y : K, d.wLimit (.fin (n : K)) (.fin (w0 : K)) = .fin L ∧
        (Fl.fin L : Fl K) - .fin (w0 : K) = .fin y ∧ |L - (w0 + 2 * n / δ)| ≤ 40 * u * n ∧ |y - 2 * n / δ| ≤ 40 * u * n := by
      intro w0 hw0
      unfold wLimit
      rw [hz.scale, hz.inv, hz.factor]
      exact sizeLimit_k0_round E hηu hu hδ R.counts hn1 hnN hw0 hR1 hR2 FloatFmt.Mono.rnd_one FloatFmt.Mono.rnd_two
    have eG : (n : K) * (2 / δ - 40 * u) = 2 * n / δ - 40 * u * n := by ring
    have eH : (n : K) * (2 / δ + 40 * u) = 2 * n / δ + 40 * u * n := by ring
    obtain ⟨L0, -, hL0, -, b0, -⟩ := key 0 (Nat.zero_le _)
    rw [Nat.cast_zero, zero_add] at b0
    rw [Nat.cast_zero] at hL0
    obtain ⟨w, hw, hwle⟩ := hwM c (by simp)
    have hcw : c.weight.toK = (w : K) := by rw [hw]; rfl
    have hw1 : (1 : K) ≤ w := by
      obtain ⟨w', hw', hw1⟩ := (hl c (by simp)).nat
      rw [hw] at hw'
      have : (w : K) = w' := by injection hw'
      rw [this]; exact_mod_cast hw1
    have hn' : (w : K) + totalW cs = n := by rw [← hn, totalW_cons, hcw]
    have := mergeLoop_size R.counts hnN (G := n * (2 / δ - 40 * u)) (H := n * (2 / δ + 40 * u)) (M := M)
      (limit := d.wLimit (.fin (n : K))) (le_max_right _ _)
      (fun w0 hw0 => by
        obtain ⟨L, y, k1, k2, k3, k4⟩ := key w0 hw0
        obtain ⟨k5, k6⟩ := abs_le.1 k4
        exact ⟨y, by rw [k1, k2], by rw [eG]; linarith, by rw [eH]; linarith⟩)
      cs 0 w L0 (c.mean * c.weight) (fun a ha => hwM a (by simp [ha])) (by push_cast; rw [zero_add]; exact hn')
      (by rw [eG]; linarith [(abs_le.1 b0).1]) (by rw [eH]; linarith [(abs_le.1 b0).2]) hwle
    rw [Nat.cast_zero] at this
    obtain ⟨r1, r2⟩ := this
    have ecs : (d.mergeSorted (c :: cs)).centroids = mergeLoop (d.wLimit (.fin (n : K))) (.fin (0 : K))
        (.fin L0) (.fin (w : K)) (c.mean * c.weight) cs := by
      show mergeLoop (d.wLimit (weightSum (c :: cs))) (Fl.lit 0) (d.wLimit (weightSum (c :: cs)) (Fl.lit 0)) c.weight (c.mean * c.weight) cs = _
      rw [hsum, show (Fl.lit 0 : Fl K) = .fin 0 from FloatFmt.Mono.rnd_zero, hL0, hw]
    show K0Size u δ M0 (d.mergeSorted (c :: cs)) (totalW (all ++ b))
    rw [← hW, hn]
    refine ⟨hz.scale, hz.inv, hz.factor, ?_, ?_⟩
    · rw [ecs]
      have e : (((mergeLoop (d.wLimit (.fin (n : K))) (.fin (0 : K)) (.fin L0) (.fin (w : K)) (c.mean * c.weight) cs).length : K) - 1) *
          ((n : K) * (2 / δ - 40 * u)) = n * ((((mergeLoop (d.wLimit (.fin (n : K))) (.fin (0 : K)) (.fin L0) (.fin (w : K)) (c.mean * c.weight) cs).length : K) - 1) *
          (2 / δ - 40 * u)) := by ring
      rw [e] at r1
      have h3 : (w : K) + 2 * totalW cs < n * 2 := by linarith
      exact lt_of_mul_lt_mul_left (r1.trans_lt h3) hnK.le
    · rw [ecs]; exact r2

theorem new_k0Size {u δ M0 : K} (hu0 : 0 ≤ u) (hu : u ≤ 1 / 2 ^ 10) (hδ : 1 ≤ δ) : K0Size u δ M0 (TDigest.new k0 invK0 (.fin δ)) 0 := by
  refine ⟨rfl, rfl, rfl, ?_, by simp [new]⟩
  have : (0 : K) < 2 / δ := by positivity
  simp only [new, List.length_nil, Nat.cast_zero]
  linarith

theorem execOps_k0Size [FloatFmt.Mono K] {A B : K} {N : Nat} (R : Roomy N A B) {u η Rm δ M0 : K} (E : RelErr u η Rm) (hηu : η ≤ u)
    (hu : u ≤ 1 / 2 ^ 10) (hδ : 1 ≤ δ) (hR1 : 12 * δ ≤ Rm) (hR2 : 12 * (N : K) ≤ Rm) : ∀ (ops : List (TOp K)) (d : TDigest K)
    (all : List (Centroid K)), RInv A B d all → K0Size u δ M0 d (totalW all) → (∀ c ∈ all, Within A B c) → (∀ c ∈ supplied ops, Within A B c) →
    (∀ c ∈ supplied ops, c.weight ≤ .fin M0) → totalW (all ++ supplied ops) ≤ N →
    Always (d.execOps ops) (fun d' => K0Size u δ M0 d' (totalW (all ++ supplied ops)))
  | [], d, all, h, hz, _, _, _, _ => by
    simp only [execOps, supplied, List.flatMap_nil, List.append_nil]
    exact hz
  | o :: os, d, all, h, hz, hall, hs, hM, hN => by
    have e : supplied (o :: os) = o.supplied ++ supplied os := by simp [supplied]
    rw [e, ← List.append_assoc] at hN ⊢
    rw [e] at hs hM
    have ho : ∀ c ∈ o.supplied, Within A B c := fun c hc => hs c (by simp [hc])
    have hos : ∀ c ∈ supplied os, Within A B c := fun c hc => hs c (by simp [hc])
    have h1 : totalW (all ++ o.supplied) ≤ N := by
      refine le_trans ?_ hN
      rw [totalW_append _ (supplied os)]
      obtain ⟨n, hn, -⟩ := totalW_nat hos
      rw [hn]
      have : (0 : K) ≤ n := by positivity
      linarith
    unfold execOps
    rw [always_bind, TOp.exec_eq]
    refine ((addCentroidBuffer_rinv R h hall o.supplied ho h1).and
      (addCentroidBuffer_k0Size R E hηu hu hδ hR1 hR2 h hz hall o.supplied ho (fun c hc => hM c (by simp [hc])) h1).partially).mono ?_
    rintro d' ⟨g1, g2⟩
    exact execOps_k0Size R E hηu hu hδ hR1 hR2 os d' (all ++ o.supplied) g1 g2
      (fun c hc => by rcases List.mem_append.1 hc with hc | hc; exacts [hall c hc, ho c hc]) hos (fun c hc => hM c (by simp [hc])) hN

end TDigest
end AQ

/-
Number of centroids left by a merge pass, from a potential function that grows by one over any two neighbouring runs.
-/
import Mathlib.Tactic.Linarith
import Mathlib.Data.Real.Basic
import Verif.Props.TDigestQuery

set_option linter.unusedSectionVars false
set_option linter.unusedVariables false

namespace AQ
open Prog Spec
variable {K : Type} [Field K] [LinearOrder K] [IsStrictOrderedRing K] [FloatFmt K]

/-- A potential `κ` on `(0, 1)` for total weight `n`: it is monotone, and it grows by one over any stretch of weight at least
two exceeding the size limit. -/
structure Steps (scale inv : ScaleFn K) (δ : Fl K) (n : K) (κ : K → K) : Prop where
  mono : ∀ a b, 0 < a → a ≤ b → b < 1 → κ a ≤ κ b
  step : ∀ a w, 0 < a → 2 ≤ w → a + w < n → Fl.le (.fin w) (sizeLimit scale inv δ n a) = false →
    κ (a / n) + 1 ≤ κ ((a + w) / n)

theorem steps_count {scale inv : ScaleFn K} {δ : Fl K} {n : K} {κ : K → K} (h : Steps scale inv δ n κ) (hn : 0 < n) :
    ∀ (k : ℕ) (ws : List K) (p : K), ws.length ≤ k → 1 ≤ p → (∀ w ∈ ws, 1 ≤ w) → p + ws.sum = n → ws ≠ [] →
    (∀ pre a b post, ws = pre ++ a :: b :: post →
      Fl.le (.fin (a + b)) (sizeLimit scale inv δ n (p + pre.sum)) = false) →
    (((ws.length - 1) / 2 : ℕ) : K) + κ (p / n) ≤ κ (1 - 1 / n) := by
  intro k
  induction k with
  | zero => intro ws p h1 _ _ _ h2; exact absurd (List.length_eq_zero_iff.1 (by omega)) h2
  | succ k ih =>
    intro ws p hk hp hw hs hne hpair
    have hsum : ∀ l : List K, (∀ w ∈ l, 1 ≤ w) → 0 ≤ l.sum := fun l hl =>
      List.sum_nonneg (fun w hw => le_trans zero_le_one (hl w hw))
    have hbase : p ≤ n - 1 → κ (p / n) ≤ κ (1 - 1 / n) := by
      intro hpn
      apply h.mono
      · exact div_pos (by linarith) hn
      · rw [show (1 : K) - 1 / n = (n - 1) / n by field_simp]
        exact div_le_div_of_nonneg_right hpn hn.le
      · have : 0 < 1 / n := by positivity
        linarith
    match ws, hne with
    | [x], _ =>
      simp only [List.sum_cons, List.sum_nil] at hs
      have := hw x (by simp)
      simpa using hbase (by linarith)
    | [x, y], _ =>
      simp only [List.sum_cons, List.sum_nil] at hs
      have := hw x (by simp)
      have := hw y (by simp)
      simpa using hbase (by linarith)
    | x :: y :: z :: rest, _ =>
      have hx := hw x (by simp)
      have hy := hw y (by simp)
      have hz := hw z (by simp)
      have hr := hsum rest (fun w hw' => hw w (by simp [hw']))
      have h1 := hpair [] x y (z :: rest) rfl
      simp only [List.sum_nil, add_zero] at h1
      simp only [List.sum_cons] at hs
      have h2 := h.step p (x + y) (by linarith) (by linarith) (by linarith) h1
      have h3 := ih (z :: rest) (p + (x + y)) (by simp at hk ⊢; omega) (by linarith)
        (fun w hw' => hw w (by simp at hw' ⊢; tauto)) (by simp only [List.sum_cons]; linarith) (by simp)
        (by
          intro pre a b post he
          have := hpair (x :: y :: pre) a b post (by simp [he])
          simp only [List.sum_cons] at this
          rw [show p + (x + y) + pre.sum = p + (x + (y + pre.sum)) by ring]
          exact this)
      have h4 : (x :: y :: z :: rest).length - 1 = ((z :: rest).length - 1) + 2 := by simp
      rw [h4, Nat.add_div_right _ (by norm_num)]
      push_cast
      linarith

/-- Weight at least one. -/
def Heavy (c : Centroid K) : Prop := c.mean.IsFin ∧ ∃ w : K, 1 ≤ w ∧ c.weight = .fin w

theorem Heavy.good {c : Centroid K} (h : Heavy c) : Good c := by
  obtain ⟨h1, w, h2, h3⟩ := h
  exact ⟨h1, w, by linarith, h3⟩

theorem totalW_ge_one {r : List (Centroid K)} (h : ∀ c ∈ r, Heavy c) (hne : r ≠ []) : 1 ≤ totalW r := by
  obtain ⟨c, r', rfl⟩ := List.exists_cons_of_ne_nil hne
  obtain ⟨-, w, h2, h3⟩ := h c (by simp)
  have : 0 ≤ totalW r' := totalW_nonneg (fun e he => (h e (by simp [he])).good)
  rw [totalW_cons, h3]
  show 1 ≤ w + totalW r'
  linarith

theorem TDigest.sum_runs (rs : List (List (Centroid K))) : (rs.map totalW).sum = totalW rs.flatten := by
  induction rs with
  | nil => simp
  | cons r rs ih => rw [List.map_cons, List.sum_cons, ih, List.flatten_cons, totalW_append]

/-- One merge pass over centroids of weight at least one. -/
theorem TDigest.scale_size [FloatFmt.Exact K] (d : TDigest K) (B : K → K) (hB : ∀ n, 1 ≤ n → 0 ≤ B n)
    (batch : List (Centroid K))
    (hd : ∀ c ∈ d.centroids, Heavy c) (hb : ∀ c ∈ batch, Heavy c) (hne : batch ++ d.centroids ≠ [])
    (hκ : 2 ≤ totalW (batch ++ d.centroids) →
      ∃ κ, Steps d.scaleFunc d.inverseScaleFunc d.compressFactor (totalW (batch ++ d.centroids)) κ ∧
      2 * (κ (1 - 1 / totalW (batch ++ d.centroids)) - κ (1 / totalW (batch ++ d.centroids))) ≤
        B (totalW (batch ++ d.centroids))) :
    Always (d.addCentroidBuffer batch)
      (fun d' => (d'.centroids.length : K) ≤ 3 + B (totalW (batch ++ d.centroids))) := by
  have hg : ∀ c ∈ batch ++ d.centroids, Heavy c := by
    intro c hc
    rcases List.mem_append.1 hc with hc | hc
    · exact hb c hc
    · exact hd c hc
  refine (C33_merge_joins_neighbours d batch (fun c hc => (hd c hc).good) (fun c hc => (hb c hc).good) hne).mono ?_
  rintro d' ⟨l, runs, h1, -, h3, h4, h5⟩
  set n := totalW (batch ++ d.centroids) with hn
  have hlg : ∀ c ∈ l, Heavy c := fun c hc => hg c (h1.mem_iff.1 hc)
  have hrun : ∀ r ∈ runs, 1 ≤ totalW r := fun r hr =>
    totalW_ge_one (fun c hc => hlg c (h3.mem hr hc)) (h3.2 r hr)
  have hsum : (runs.map totalW).sum = n := by rw [TDigest.sum_runs, h3.1, totalW_perm h1]
  have hn1 : 1 ≤ n := totalW_ge_one hg hne
  rw [h4, List.length_map]
  match runs, hsum with
  | [], _ =>
    have := hB n hn1
    simp only [List.length_nil, Nat.cast_zero]; linarith
  | [_], _ =>
    have := hB n hn1
    simp only [List.length_cons, List.length_nil, zero_add, Nat.cast_one]; linarith
  | r :: r' :: rest, hsum =>
    have hr := hrun r (by simp)
    have hr' := hrun r' (by simp)
    have hrest : 0 ≤ (rest.map totalW).sum := List.sum_nonneg (by
      intro w hw
      obtain ⟨q, hq, rfl⟩ := List.mem_map.1 hw
      have := hrun q (by simp [hq])
      linarith)
    simp only [List.map_cons, List.sum_cons] at hsum
    have hn2 : 2 ≤ n := by linarith
    obtain ⟨κ, hs, hbd⟩ := hκ hn2
    have key := steps_count hs (by linarith) _ ((r' :: rest).map totalW) (totalW r) (le_refl _) hr
      (by
        intro w hw
        obtain ⟨q, hq, rfl⟩ := List.mem_map.1 hw
        exact hrun q (by simp at hq ⊢; tauto))
      (by simp only [List.map_cons, List.sum_cons]; linarith) (by simp)
      (by
        intro pre a b post he
        obtain ⟨pre', rest', he0, rfl, he'⟩ := List.map_eq_append_iff.1 he
        obtain ⟨ra, rest2, rfl, rfl, he2⟩ := List.map_eq_cons_iff.1 he'
        obtain ⟨rb, rest3, rfl, rfl, rfl⟩ := List.map_eq_cons_iff.1 he2
        have hmb : rb ∈ r :: r' :: rest := by rw [he0]; simp
        have hrb : rb ≠ [] := h3.2 rb hmb
        obtain ⟨e, rb', rfl⟩ := List.exists_cons_of_ne_nil hrb
        have h6 := (h5 (r :: pre') ra ((e :: rb') :: rest3) (by rw [he0]; rfl)).2 e (by simp)
        have h8 : 0 ≤ totalW rb' := totalW_nonneg (fun c hc => (hlg c (h3.mem hmb (by simp [hc]))).good)
        rw [List.flatten_cons, totalW_append (a := r), ← TDigest.sum_runs] at h6
        rw [Bool.eq_false_iff] at h6 ⊢
        intro hcon
        apply h6
        simp only [totalW_append, totalW_cons, totalW_nil, add_zero] at hcon ⊢
        revert hcon
        generalize sizeLimit d.scaleFunc d.inverseScaleFunc d.compressFactor n _ = L
        cases L with
        | nan => exact fun h => h
        | ninf => exact fun h => h
        | pinf => exact fun _ => rfl
        | fin x =>
          simp only [Fl.le_fin, decide_eq_true_eq]
          intro h
          linarith)
    have hm : κ (1 / n) ≤ κ (totalW r / n) := by
      apply hs.mono
      · positivity
      · exact div_le_div_of_nonneg_right hr (by linarith)
      · rw [div_lt_one (by linarith)]; linarith
    have h11 : ((r :: r' :: rest).length : K) ≤ 3 + 2 * (((((r' :: rest).map totalW).length - 1) / 2 : ℕ) : K) := by
      have : (r :: r' :: rest).length ≤ 3 + 2 * ((((r' :: rest).map totalW).length - 1) / 2) := by
        simp only [List.length_cons, List.length_map]; omega
      exact_mod_cast this
    linarith

/-- The same for a whole history. -/
theorem TDigest.scale_size_history' [FloatFmt.Exact K] (scale inv : ScaleFn K) (δ : Fl K) (B : K → K)
    (hB : ∀ n, 1 ≤ n → 0 ≤ B n)
    (ops : List (TDigest.TOp K)) (hg : ∀ c ∈ TDigest.supplied ops, Heavy c) (hne : TDigest.supplied ops ≠ [])
    (hκ : ∀ n, 2 ≤ n → n ≤ totalW (TDigest.supplied ops) →
      ∃ κ, Steps scale inv δ n κ ∧ 2 * (κ (1 - 1 / n) - κ (1 / n)) ≤ B n) :
    Always ((TDigest.new scale inv δ).execOps ops)
      (fun d => (d.centroids.length : K) ≤ 3 + B (totalW (TDigest.supplied ops))) := by
  have key : ∀ (ops : List (TDigest.TOp K)) (d : TDigest K) (t : K), (∀ c ∈ TDigest.supplied ops, Heavy c) →
      (∀ c ∈ d.centroids, Heavy c) → d.scaleFunc = scale → d.inverseScaleFunc = inv → d.compressFactor = δ →
      totalW d.centroids = t → (d.centroids ≠ [] → (d.centroids.length : K) ≤ 3 + B t) →
      (d.centroids = [] → TDigest.supplied ops ≠ []) →
      (∀ n, 2 ≤ n → n ≤ t + totalW (TDigest.supplied ops) →
        ∃ κ, Steps scale inv δ n κ ∧ 2 * (κ (1 - 1 / n) - κ (1 / n)) ≤ B n) →
      Always (d.execOps ops) (fun d' => (d'.centroids.length : K) ≤ 3 + B (t + totalW (TDigest.supplied ops))) := by
    intro ops
    induction ops with
    | nil =>
      intro d t _ _ _ _ _ ht h h' _
      show (d.centroids.length : K) ≤ _
      by_cases hc : d.centroids = []
      · exact absurd rfl (h' hc)
      · simpa [TDigest.supplied] using h hc
    | cons o os ih =>
      intro d t hgs hd h1 h2 h3 ht h4 h4' hκ
      have hsup : TDigest.supplied (o :: os) = o.supplied ++ TDigest.supplied os := by simp [TDigest.supplied]
      have hg1 : ∀ c ∈ o.supplied, Heavy c := fun c hc => hgs c (by rw [hsup]; simp [hc])
      have hg2 : ∀ c ∈ TDigest.supplied os, Heavy c := fun c hc => hgs c (by rw [hsup]; simp [hc])
      unfold TDigest.execOps
      rw [always_bind, TDigest.exec_eq]
      by_cases hne : o.supplied ++ d.centroids = []
      · rw [List.append_eq_nil_iff] at hne
        rw [hne.1, TDigest.addCentroidBuffer_nil d hne.2, hsup, hne.1]
        refine ih d t hg2 hd h1 h2 h3 ht h4 (fun hc => ?_) ?_
        · have := h4' hc
          rwa [hsup, hne.1] at this
        · rw [hsup, hne.1] at hκ
          exact hκ
      have hnn : 0 ≤ totalW (TDigest.supplied os) := totalW_nonneg (fun c hc => (hg2 c hc).good)
      refine ((TDigest.scale_size d B hB o.supplied hd hg1 hne (by
          rw [h1, h2, h3]
          intro h
          refine hκ _ h ?_
          rw [hsup, totalW_append, totalW_append, ht]
          linarith)).and
        (d.addCentroidBuffer_spec o.supplied (fun c hc => (hd c hc).good) (fun c hc => (hg1 c hc).good) hne).partially).mono ?_
      rintro d' ⟨h5, l, runs, hl, p1, p2, p3, p4, -, -, -, p5, p6, p7⟩
      have hl' : ∀ c ∈ l, Heavy c := by
        intro c hc
        rcases List.mem_append.1 (p1.mem_iff.1 hc) with h | h
        · exact hg1 c h
        · exact hd c h
      have hruns : runs ≠ [] := by
        rintro rfl
        have := p3.1
        simp only [List.flatten_nil] at this
        exact hl this.symm
      have hheavy : ∀ r ∈ runs, Heavy (weightedMean r) := fun r hr =>
        ⟨by simp [weightedMean, Fl.IsFin], _, totalW_ge_one (fun c hc => hl' c (p3.mem hr hc)) (p3.2 r hr), rfl⟩
      have htot : totalW d'.centroids = totalW o.supplied + t := by
        rw [p4]
        have e : ∀ rs : List (List (Centroid K)), totalW (rs.map weightedMean) = totalW rs.flatten := by
          intro rs
          induction rs with
          | nil => simp
          | cons r rs ih => rw [List.map_cons, totalW_cons, ih, List.flatten_cons, totalW_append]; rfl
        rw [e, p3.1, totalW_perm p1, totalW_append, ht]
      have hres := ih d' (totalW o.supplied + t) hg2 (by
        intro c hc
        rw [p4] at hc
        obtain ⟨r, hr, rfl⟩ := List.mem_map.1 hc
        exact hheavy r hr) (p6.trans h1) (p7.trans h2) (p5.trans h3) htot
        (by
          intro _
          rw [totalW_append, ht] at h5
          exact h5)
        (by
          intro hc
          rw [p4, List.map_eq_nil_iff] at hc
          exact absurd hc hruns)
        (by
          intro n h1 h2
          refine hκ n h1 ?_
          rw [hsup, totalW_append]
          linarith)
      refine hres.mono (fun d'' h => ?_)
      rw [hsup, totalW_append]
      rwa [show t + (totalW o.supplied + totalW (TDigest.supplied os)) =
        totalW o.supplied + t + totalW (TDigest.supplied os) by ring]
  have := key ops (TDigest.new scale inv δ) 0 hg (by simp [TDigest.new]) rfl rfl rfl (by simp [TDigest.new])
    (fun h => absurd rfl h) (fun _ => hne) (by simpa using hκ)
  simpa using this

/-- A bound that does not depend on the total weight. -/
theorem TDigest.scale_size_all [FloatFmt.Exact K] (scale inv : ScaleFn K) (δ : Fl K) (B : K) (hB : 0 ≤ B)
    (hκ : ∀ n, 2 ≤ n → ∃ κ, Steps scale inv δ n κ ∧ 2 * (κ (1 - 1 / n) - κ (1 / n)) ≤ B)
    (ops : List (TDigest.TOp K)) (hg : ∀ c ∈ TDigest.supplied ops, Heavy c) :
    Always ((TDigest.new scale inv δ).execOps ops) (fun d => (d.centroids.length : K) ≤ B + 3) := by
  by_cases hne : TDigest.supplied ops = []
  · have key : ∀ ops : List (TDigest.TOp K), TDigest.supplied ops = [] → ∀ d : TDigest K, d.centroids = [] →
        Always (d.execOps ops) (fun d' => d'.centroids = []) := by
      intro ops
      induction ops with
      | nil => intro _ d hd; exact hd
      | cons o os ih =>
        intro hs d hd
        have hsup : TDigest.supplied (o :: os) = o.supplied ++ TDigest.supplied os := by simp [TDigest.supplied]
        rw [hsup, List.append_eq_nil_iff] at hs
        unfold TDigest.execOps
        rw [always_bind, TDigest.exec_eq, hs.1, TDigest.addCentroidBuffer_nil d hd]
        exact ih hs.2 d hd
    refine (key ops hne _ rfl).mono (fun d h => ?_)
    rw [h]
    simp only [List.length_nil, Nat.cast_zero]
    linarith
  · refine (TDigest.scale_size_history' scale inv δ (fun _ => B) (fun _ _ => hB) ops hg hne
      (fun n hn _ => hκ n hn)).mono (fun d h => ?_)
    linarith

end AQ

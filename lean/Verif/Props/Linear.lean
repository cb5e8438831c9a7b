/-
Properties C01–C04 (LinearDigest, weighted_average).
-/
import Verif.Proofs.Linear
import Verif.Spec.History

set_option linter.unusedSectionVars false

namespace AQ
open Spec Prog
variable {K : Type} [Field K] [LinearOrder K] [IsStrictOrderedRing K] [FloorRing K] [FloatFmt K]

/-- C01. After any history, on `n ≥ 1` non-NaN items, the value query with `0 ≤ q ≤ 1` does not panic, returns the order
statistic of the *supplied items* at index `min(round(q·n), n-1)` (`q·n` as rounded by the number format) and keeps the
stored multiset. `n` must be representable (`n ≤ 2^24` for `f32`, `2^53` for `f64`), see `C01_unrepresentable_length_panics`. -/
theorem C01_linear_value_is_order_statistic [FloatFmt.Mono K] (ops : List (Op (Fl K)))
    (hne : itemsOf ops ≠ []) (hnan : ∀ x ∈ itemsOf ops, x ≠ .nan)
    (hn : FloatFmt.rnd ((itemsOf ops).length : K) = .fin ((itemsOf ops).length : K))
    (h64 : (itemsOf ops).length < 2 ^ 64) (q : K) (h0 : 0 ≤ q) (h1 : q ≤ 1) :
    ∃ p : K, FloatFmt.rnd (q * (itemsOf ops).length) = .fin p ∧
      Partially (execAll (LinearDigest.new : LinearDigest K) ops) (fun d =>
        Always (d.estValueAtQuantile (.fin q)) (fun r =>
          IsOrderStat (itemsOf ops) (min (roundNat p) ((itemsOf ops).length - 1)) r.1 ∧
          r.2.values.Perm (itemsOf ops))) := by
  obtain ⟨p, hp, -, -⟩ := rnd_mul_mem hn h0 h1
  refine ⟨p, hp, ?_⟩
  refine (LinearDigest.execAll_perm ops).mono ?_
  intro d hd
  have hl := hd.length_eq
  have hne' : d.values ≠ [] := by intro h; rw [h] at hd; exact hne hd.nil_eq.symm
  obtain ⟨p', hp', h⟩ := d.estValue_spec q hne' (fun x hx => hnan x (hd.mem_iff.1 hx))
    (by rw [hl]; exact hn) (by rw [hl]; exact h64) h0 h1
  rw [hl, hp] at hp'
  obtain rfl : p = p' := by simpa using hp'
  refine h.mono ?_
  rintro r ⟨h2, h3⟩
  exact ⟨by rw [isOrderStat_perm hd, hl] at h2; exact h2, h3.trans hd⟩

theorem LinearDigest.execAll_always [FloatFmt.Mono K] (N : Nat) (hN : ∀ n ≤ N, FloatFmt.rnd (n : K) = .fin (n : K)) (h64 : N < 2 ^ 64) :
    ∀ (ops : List (Op (Fl K))) (l : List (Fl K)) (d : LinearDigest K), d.values.Perm l → (l ++ itemsOf ops).length ≤ N →
      (∀ x ∈ l ++ itemsOf ops, x ≠ .nan) →
      (∀ s q, (s, Op.value q) ∈ queriesFrom l ops → s ≠ [] ∧ ∃ a, q = .fin a ∧ 0 ≤ a ∧ a ≤ 1) →
      Always (execAll d ops) (fun d => d.values.Perm (l ++ itemsOf ops)) := by
  intro ops
  induction ops with
  | nil => intro l d h _ _ _; simpa [execAll, itemsOf] using h
  | cons o os ih =>
    intro l d h hlen hnan hq
    rw [execAll, always_bind]
    cases o with
    | add x =>
      show Always (execAll (⟨d.values ++ [x]⟩ : LinearDigest K) os) _
      have := ih (l ++ [x]) ⟨d.values ++ [x]⟩ (h.append_right _) (by simpa [itemsOf, Op.items, add_assoc, add_comm] using hlen)
        (by simpa [itemsOf, Op.items] using hnan) hq
      simpa [itemsOf, Op.items] using this
    | addBuffer xs =>
      show Always (execAll (⟨d.values ++ xs⟩ : LinearDigest K) os) _
      have := ih (l ++ xs) ⟨d.values ++ xs⟩ (h.append_right _) (by simpa [itemsOf, Op.items, add_assoc, add_comm] using hlen)
        (by simpa [itemsOf, Op.items] using hnan) hq
      simpa [itemsOf, Op.items] using this
    | quantile v =>
      exact ih l d h hlen hnan (fun s q hm => hq s q (List.mem_cons_of_mem _ hm))
    | value q =>
      obtain ⟨hne, a, rfl, h0, h1⟩ := hq l q (List.mem_cons_self ..)
      have hl := h.length_eq
      have hle : l.length ≤ N := by rw [List.length_append] at hlen; omega
      obtain ⟨p, -, hp⟩ := d.estValue_spec a (by rintro h'; rw [h'] at h; exact hne h.nil_eq.symm)
        (fun x hx => hnan x (List.mem_append_left _ (h.mem_iff.1 hx))) (by rw [hl]; exact hN _ hle) (by omega) h0 h1
      simp only [Op.exec]
      rw [always_bind]
      refine hp.mono ?_
      rintro r ⟨-, hr⟩
      exact ih l r.2 (hr.trans h) hlen hnan (fun s q hm => hq s q (List.mem_cons_of_mem _ hm))

/-- C01, totality: no history panics whose items are not NaN, whose value queries come after at least one item and ask for a
quantile in `[0,1]`, and whose item counts are representable. So the partial-correctness statements of C01–C03 cover every run
of such a history. -/
theorem C01_history_returns [FloatFmt.Mono K] (ops : List (Op (Fl K))) (hnan : ∀ x ∈ itemsOf ops, x ≠ .nan)
    (hn : ∀ n ≤ (itemsOf ops).length, FloatFmt.rnd (n : K) = .fin (n : K)) (h64 : (itemsOf ops).length < 2 ^ 64)
    (hq : ∀ s q, (s, Op.value q) ∈ queriesOf ops → s ≠ [] ∧ ∃ a, q = .fin a ∧ 0 ≤ a ∧ a ≤ 1) :
    Always (execAll (LinearDigest.new : LinearDigest K) ops) (fun d => d.values.Perm (itemsOf ops)) := by
  simpa using LinearDigest.execAll_always _ hn h64 ops [] LinearDigest.new (List.Perm.refl _) (by simp) (by simpa using hnan) hq

/-- C01 for exact arithmetic: index `min(round(q·n), n-1)` with the exact product. -/
theorem C01_linear_exact [FloatFmt.Exact K] (ops : List (Op (Fl K))) (hne : itemsOf ops ≠ [])
    (hnan : ∀ x ∈ itemsOf ops, x ≠ .nan) (h64 : (itemsOf ops).length < 2 ^ 64) (q : K) (h0 : 0 ≤ q) (h1 : q ≤ 1) :
    Partially (execAll (LinearDigest.new : LinearDigest K) ops) (fun d =>
      Always (d.estValueAtQuantile (.fin q)) (fun r =>
        IsOrderStat (itemsOf ops) (min (roundNat (q * (itemsOf ops).length)) ((itemsOf ops).length - 1)) r.1 ∧
        r.2.values.Perm (itemsOf ops))) := by
  obtain ⟨p, hp, h⟩ := C01_linear_value_is_order_statistic ops hne hnan (by simp) h64 q h0 h1
  rw [Fl.rnd_exact] at hp
  obtain rfl : q * ((itemsOf ops).length : K) = p := by simpa using hp
  exact h

/-- C02. The quantile answer is the rounded mid-rank fraction of the supplied items, whatever the history. -/
theorem C02_linear_quantile_formula [FloatFmt.Mono K] (ops : List (Op (Fl K))) (hne : itemsOf ops ≠ [])
    (hn : ExactCounts K (itemsOf ops).length) (v : Fl K) :
    Partially (execAll (LinearDigest.new : LinearDigest K) ops) (fun d =>
      d.estQuantileAtValue v = FloatFmt.rnd (midRank (itemsOf ops) v / (itemsOf ops).length)) := by
  refine (LinearDigest.execAll_perm ops).mono ?_
  intro d hd
  have hne' : d.values ≠ [] := by intro h; rw [h] at hd; exact hne hd.nil_eq.symm
  rw [d.estQuantile_eq v hne' (by rw [hd.length_eq]; exact hn) FloatFmt.Mono.rnd_one FloatFmt.Mono.rnd_two]
  unfold midRank
  rw [hd.countP_eq, hd.countP_eq, hd.length_eq]

/-- C02. The quantile answer lies in `[0,1]` and is monotone in the queried value, for every non-empty data set and
every monotone rounding. -/
theorem C02_linear_quantile_monotone [FloatFmt.Mono K] (d : LinearDigest K) (hne : d.values ≠ [])
    (hn : ExactCounts K d.values.length) (v w : Fl K) (hw : w ≠ .nan) (h : v ≤ w) :
    .fin 0 ≤ d.estQuantileAtValue v ∧ d.estQuantileAtValue v ≤ d.estQuantileAtValue w ∧
      d.estQuantileAtValue w ≤ .fin 1 := by
  have hlen : (0 : K) < d.values.length := by exact_mod_cast List.length_pos_of_ne_nil hne
  rw [d.estQuantile_eq v hne hn FloatFmt.Mono.rnd_one FloatFmt.Mono.rnd_two,
    d.estQuantile_eq w hne hn FloatFmt.Mono.rnd_one FloatFmt.Mono.rnd_two,
    ← FloatFmt.Mono.rnd_zero, ← FloatFmt.Mono.rnd_one]
  refine ⟨?_, ?_, ?_⟩ <;> apply FloatFmt.Mono.rnd_mono
  · exact div_nonneg (midRank_nonneg _ _) hlen.le
  · exact div_le_div_of_nonneg_right (midRank_mono _ hw h) hlen.le
  · exact (div_le_one hlen).2 (midRank_le _ _)

/-- C03. Histories supplying the same multiset give identical answers (including panics) and counts. Any rounding. -/
theorem C03_linear_order_irrelevant (ops ops' : List (Op (Fl K))) (hp : (itemsOf ops).Perm (itemsOf ops'))
    (v q : Fl K) :
    Partially (execAll (LinearDigest.new : LinearDigest K) ops) (fun d =>
      Partially (execAll (LinearDigest.new : LinearDigest K) ops') (fun d' =>
        d.estQuantileAtValue v = d'.estQuantileAtValue v ∧
        Prod.fst <$> d.estValueAtQuantile q = Prod.fst <$> d'.estValueAtQuantile q ∧
        d.count = (itemsOf ops).length ∧ d'.count = d.count)) := by
  refine (LinearDigest.execAll_perm ops).mono ?_
  intro d hd
  refine (LinearDigest.execAll_perm ops').mono ?_
  intro d' hd'
  have hdd : d.values.Perm d'.values := hd.trans (hp.trans hd'.symm)
  refine ⟨?_, ?_, hd.length_eq, hdd.length_eq.symm⟩
  · simp only [LinearDigest.estQuantileAtValue, hdd.countP_eq, hdd.length_eq]
  · simp only [LinearDigest.estValueAtQuantile, hdd.length_eq, sortFl_eq_of_perm hdd]

/-- C04. `weighted_average` of two non-NaN values stays between them, for any weights and any rounding function. -/
theorem C04_weighted_average_bounds (x1 w1 x2 w2 : Fl K) (h1 : x1 ≠ .nan) (h2 : x2 ≠ .nan) :
    min x1 x2 ≤ weightedAverage x1 w1 x2 w2 ∧ weightedAverage x1 w1 x2 w2 ≤ max x1 x2 ∧
      weightedAverage x1 w1 x2 w2 ≠ .nan := by
  have hmin : min x1 x2 ≠ .nan := by rcases min_choice x1 x2 with h | h <;> rw [h] <;> assumption
  have hmax : max x1 x2 ≠ .nan := by rcases max_choice x1 x2 with h | h <;> rw [h] <;> assumption
  unfold weightedAverage
  simp only [Fl.fmax_eq h1 h2, Fl.fmin_eq h1 h2]
  generalize (x1 * w1 + x2 * w2) / (w1 + w2) = w
  by_cases hw : w = .nan
  · subst hw
    have : Fl.fmin (Fl.nan : Fl K) (max x1 x2) = max x1 x2 := by
      cases h : max x1 x2 <;> simp_all [Fl.fmin]
    rw [this, Fl.fmax_eq hmin hmax, max_eq_right (min_le_max)]
    exact ⟨min_le_max, le_refl _, hmax⟩
  · have hm : min w (max x1 x2) ≠ .nan := by
      rcases min_choice w (max x1 x2) with h | h <;> rw [h] <;> assumption
    rw [Fl.fmin_eq hw hmax, Fl.fmax_eq hmin hm]
    refine ⟨le_max_left _ _, max_le min_le_max (min_le_right _ _), ?_⟩
    rcases max_choice (min x1 x2) (min w (max x1 x2)) with h | h <;> rw [h] <;> assumption

/-- C04, exact part: with exact arithmetic and positive weights it is the true weighted mean. -/
theorem C04_weighted_average_exact [FloatFmt.Exact K] (x1 w1 x2 w2 : K) (h1 : 0 ≤ w1) (h2 : 0 ≤ w2) (h : 0 < w1 + w2) :
    weightedAverage (.fin x1) (.fin w1) (.fin x2) (.fin w2) = .fin ((x1 * w1 + x2 * w2) / (w1 + w2)) := by
  unfold weightedAverage
  simp only [Fl.mul_exact, Fl.add_exact, Fl.div_exact _ h.ne', Fl.fmax_fin, Fl.fmin_fin]
  congr 1
  have e1 : (x1 * w1 + x2 * w2) / (w1 + w2) ≤ max x1 x2 := by
    rw [div_le_iff₀ h]
    nlinarith [mul_le_mul_of_nonneg_right (le_max_left x1 x2) h1, mul_le_mul_of_nonneg_right (le_max_right x1 x2) h2]
  have e2 : min x1 x2 ≤ (x1 * w1 + x2 * w2) / (w1 + w2) := by
    rw [le_div_iff₀ h]
    nlinarith [mul_le_mul_of_nonneg_right (min_le_left x1 x2) h1, mul_le_mul_of_nonneg_right (min_le_right x1 x2) h2]
  rw [min_eq_left e1, max_eq_right e2]

/-- C60. A value query on a LinearDigest holding a NaN and another value panics, for every `q`. -/
theorem C60_linear_value_nan_panics (d : LinearDigest K) (q : Fl K) (h2 : 2 ≤ d.values.length) (hn : .nan ∈ d.values) :
    Panics (d.estValueAtQuantile q) := by
  unfold LinearDigest.estValueAtQuantile
  have e : sortFl d.values = .fail .unwrap := sortByKey_nan id d.values h2 ⟨_, hn, rfl⟩
  rw [e]
  simp only
  cases h : Fl.toUsize (Fl.fround (q * Fl.ofNat d.values.length)) with
  | none => exact (by decide : Err.unwrap ≠ Err.fuel)
  | some i => exact (by decide : Err.unwrap ≠ Err.fuel)

/-! Concrete cases meeting the hypotheses. -/
section examples
attribute [local instance] ratExact
attribute [local instance] ratExact_exact

/-- A history with adds, a buffer and a query between them. -/
def linHist : List (Op (Fl ℚ)) := [.add (.fin 5), .addBuffer [.fin 1, .fin 3, .fin 3], .value (.fin (1/2)), .add (.fin 2)]

example : Panics ((LinearDigest.mk [.fin 1, .nan, .fin (2:ℚ)]).estValueAtQuantile (.fin (1/2))) := by decide +kernel
example : queriesOf linHist = [([.fin 5, .fin 1, .fin 3, .fin 3], .value (.fin (1 / 2)))] := rfl
example : itemsOf linHist = [.fin 5, .fin 1, .fin 3, .fin 3, .fin 2] := rfl
example : (execAll (LinearDigest.new : LinearDigest ℚ) linHist).run [] =
    .ok ⟨[.fin 1, .fin 3, .fin 3, .fin 5, .fin 2]⟩ := by decide +kernel
example : ((LinearDigest.mk [.fin 1, .fin 3, .fin 3, .fin 5, .fin (2:ℚ)]).estValueAtQuantile (.fin (1/2))).run [] =
    .ok (.fin 3, ⟨[.fin 1, .fin 2, .fin 3, .fin 3, .fin 5]⟩) := by decide +kernel
example : (LinearDigest.mk [.fin 1, .fin 3, .fin 3, .fin 5, .fin (2:ℚ)]).estQuantileAtValue (.fin 3) = .fin (3/5) := by
  decide +kernel
example : weightedAverage (.fin (1:ℚ)) .nan (.fin 4) (.fin 0) = .fin 4 := by decide +kernel
example : weightedAverage (.fin (1:ℚ)) (.fin 1) (.fin 4) (.fin 2) = .fin 3 := by decide +kernel
end examples

/-- A monotone rounding in which 7 is not representable and rounds up to 8 (as 2^24+3 rounds to 2^24+4 in `f32`). -/
@[reducible] def coarseFmt : FloatFmt ℚ where
  rnd x := .fin (if x ≤ 6 then x else if x < 7 then 6 else if x ≤ 8 then 8 else x)
  rnd64 := .fin
  maxVal := 10 ^ 30

theorem coarseFmt_mono : @FloatFmt.Mono ℚ _ _ coarseFmt := by
  let := coarseFmt
  refine ⟨fun x => by simp [FloatFmt.rnd], ?_, ?_, ?_, ?_, ?_⟩
  · intro x y h
    simp only [FloatFmt.rnd, Fl.fin_le_fin]
    repeat' split
    all_goals linarith
  all_goals simp [FloatFmt.rnd]
  all_goals norm_num

/-- C01, necessity of the representability hypothesis: when the number of items is rounded up by the float type, the query
at quantile 1 indexes out of bounds and panics. -/
theorem C01_unrepresentable_length_panics :
    letI := coarseFmt
    Panics ((LinearDigest.mk [.fin 1, .fin 2, .fin 3, .fin 4, .fin 5, .fin 6, .fin (7 : ℚ)]).estValueAtQuantile (.fin 1)) := by
  decide +kernel

end AQ

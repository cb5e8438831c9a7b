/-
Property C97: `SymDigest` in floating point.
-/
import Verif.Props.SymRC
import Verif.Props.TDRound
import Verif.Proofs.TDRoundQuery
import Verif.Proofs.F64Error

set_option linter.unusedSectionVars false
set_option linter.unusedVariables false

namespace AQ
open Spec Prog RCSketch

section
variable {K : Type} [Field K] [LinearOrder K] [IsStrictOrderedRing K] [FloatFmt K]
variable {D : Type} [Digest D (Fl K)]

/-- The average of two probabilities in rounding arithmetic. -/
theorem SymDigest.avg_round [FloatFmt.Mono K] {a h : K} (ha0 : 0 ≤ a) (ha1 : a ≤ 1) (hh0 : 0 ≤ h) (hh1 : h ≤ 1) :
    ∃ v : K, ((.fin a : Fl K) + .fin h) / Fl.lit 2 = .fin v ∧ 0 ≤ v ∧ v ≤ 1 ∧ (a + h ≤ 1 → v ≤ 1 / 2) ∧ (1 ≤ a + h → 1 / 2 ≤ v) := by
  have h0 := FloatFmt.Mono.rnd_zero (K := K)
  have h1 := FloatFmt.Mono.rnd_one (K := K)
  have hh := FloatFmt.Mono.rnd_half (K := K)
  have h2 := FloatFmt.Mono.rnd_two (K := K)
  obtain ⟨s, hs, s0, s2⟩ := rnd_between (x := a + h) h0 h2 (by linarith) (by linarith)
  obtain ⟨v, hv, v0, v1⟩ := rnd_between (x := s / 2) h0 h1 (by linarith) (by linarith)
  refine ⟨v, ?_, v0, v1, fun h => ?_, fun h => ?_⟩
  · rw [Fl.add_fin, hs, lit_two, Fl.div_fin_of_ne _ two_ne_zero, hv]
  · obtain ⟨s', hs', -, u⟩ := rnd_between (x := a + _) h0 h1 (by linarith) h
    rw [hs, Fl.fin.injEq] at hs'
    obtain ⟨v', hv', -, u'⟩ := rnd_between (x := s / 2) h0 hh (by linarith) (by linarith)
    rw [hv, Fl.fin.injEq] at hv'
    linarith
  · obtain ⟨s', hs', u, -⟩ := rnd_between (x := a + _) h1 h2 h (by linarith)
    rw [hs, Fl.fin.injEq] at hs'
    obtain ⟨v', hv', u', -⟩ := rnd_between (x := s / 2) hh h1 (by linarith) (by linarith)
    rw [hv, Fl.fin.injEq] at hv'
    linarith

/-- The choice between two probabilities in rounding arithmetic. -/
theorem SymDigest.choose_round [FloatFmt.Mono K] {a h : K} (ha0 : 0 ≤ a) (ha1 : a ≤ 1) (hh0 : 0 ≤ h) (hh1 : h ≤ 1) :
    ∃ c : K, SymDigest.chooseQuantile (.fin a : Fl K) (.fin h) = .ret (.fin c) ∧
      (c = a ∨ c = h ∨ c = 1 / 2 ∧ ((.fin a : Fl K) + .fin h) / Fl.lit 2 = .fin (1 / 2)) ∧
      (a + h ≤ 1 → c = a ∨ c = 1 / 2) ∧ (1 ≤ a + h → c = h ∨ c = 1 / 2) := by
  obtain ⟨v, hv, v0, v1, v2, v3⟩ := SymDigest.avg_round ha0 ha1 hh0 hh1
  unfold SymDigest.chooseQuantile
  simp only [hv, lit_half, Fl.cmp_fin]
  rcases lt_trichotomy v (1 / 2) with hc | hc | hc
  · rw [compare_lt_iff_lt.2 hc]
    exact ⟨a, rfl, .inl rfl, fun _ => .inl rfl, fun h => absurd (v3 h) (not_le.2 hc)⟩
  · rw [compare_eq_iff_eq.2 hc]
    exact ⟨v, rfl, .inr (.inr ⟨hc, by rw [hc]⟩), fun _ => .inr hc, fun _ => .inr hc⟩
  · rw [compare_gt_iff_gt.2 hc]
    exact ⟨h, rfl, .inr (.inl rfl), fun h => absurd (v2 h) (not_le.2 hc), fun _ => .inl rfl⟩

/-- Between two numbers of the format the average lies between. -/
theorem SymDigest.choose_between [FloatFmt.Binary K] {a h : K} (ha0 : 0 ≤ a) (ha1 : a ≤ 1) (hh0 : 0 ≤ h) (hh1 : h ≤ 1)
    (hra : FloatFmt.rnd a = .fin a) (hrh : FloatFmt.rnd h = .fin h) :
    ∃ c : K, SymDigest.chooseQuantile (.fin a : Fl K) (.fin h) = .ret (.fin c) ∧
      min a h ≤ c ∧ c ≤ max a h ∧ (a + h ≤ 1 → c = a ∨ c = 1 / 2) ∧ (1 ≤ a + h → c = h ∨ c = 1 / 2) := by
  obtain ⟨c, hc, h1, h2, h3⟩ := SymDigest.choose_round ha0 ha1 hh0 hh1
  have cd : ∀ {z : K}, 0 ≤ z → z ≤ 1 → FloatFmt.rnd z = .fin z → (Fl.fin z).CanDouble := fun {z} z0 z1 hz =>
    ⟨z, rfl, hz, FloatFmt.Binary.rnd_double 0 z 1 z0 z1 hz (by rw [mul_zero]; exact FloatFmt.Mono.rnd_zero)
      (by rw [mul_one]; exact FloatFmt.Mono.rnd_two)⟩
  have e2 : (Fl.ofNat 2 : Fl K) = Fl.lit 2 := by
    show FloatFmt.rnd ((2 : ℕ) : K) = FloatFmt.rnd 2
    rw [Nat.cast_ofNat]
  have hb : min a h ≤ c ∧ c ≤ max a h := by
    rcases h1 with rfl | rfl | ⟨rfl, e⟩
    · exact ⟨min_le_left _ _, le_max_left _ _⟩
    · exact ⟨min_le_right _ _, le_max_right _ _⟩
    · rcases le_total a h with hah | hah
      · obtain ⟨-, b1, b2⟩ := avg_mem (cd ha0 ha1 hra) (cd hh0 hh1 hrh) (Fl.fin_le_fin.2 hah)
        rw [e2, e, Fl.fin_le_fin] at b1 b2
        exact ⟨(min_le_left _ _).trans b1, b2.trans (le_max_right _ _)⟩
      · obtain ⟨-, b1, b2⟩ := avg_mem (cd hh0 hh1 hrh) (cd ha0 ha1 hra) (Fl.fin_le_fin.2 hah)
        rw [e2, Fl.add_fin, add_comm, ← Fl.add_fin, e, Fl.fin_le_fin] at b1 b2
        exact ⟨(min_le_right _ _).trans b1, b2.trans (le_max_left _ _)⟩
  exact ⟨c, hc, hb.1, hb.2, h2, h3⟩

/-- C97. In binary floating point, when the low side answers `a` and the high side `b`, probabilities of the format, a quantile query
returns; the answer lies between `a` and `h = rnd(1 − b)`, and is `a` (or one half) if `a + h ≤ 1`, `h` (or one half) if `a + h ≥ 1`. -/
theorem C97_quantile_between [FloatFmt.Binary K] (s : SymDigest D) (v : Fl K) {a b : K} {l h : D}
    (hl : Digest.estQuantileAtValue s.low v = .ret ((.fin a : Fl K), l))
    (hh : Digest.estQuantileAtValue s.high (-v) = .ret ((.fin b : Fl K), h))
    (ha0 : 0 ≤ a) (ha1 : a ≤ 1) (hb0 : 0 ≤ b) (hb1 : b ≤ 1) (hra : FloatFmt.rnd a = .fin a) :
    ∃ c e : K, s.estQuantileAtValue v = .ret (.fin c, ⟨l, h⟩) ∧ FloatFmt.rnd (1 - b) = .fin e ∧ 0 ≤ e ∧ e ≤ 1 ∧
      min a e ≤ c ∧ c ≤ max a e ∧ (a + e ≤ 1 → c = a ∨ c = 1 / 2) ∧ (1 ≤ a + e → c = e ∨ c = 1 / 2) := by
  obtain ⟨e, he, e0, e1⟩ := rnd_between (x := 1 - b) FloatFmt.Mono.rnd_zero FloatFmt.Mono.rnd_one (by linarith) (by linarith)
  obtain ⟨c, hc, h1, h2, h3, h4⟩ := SymDigest.choose_between ha0 ha1 e0 e1 hra (FloatFmt.Binary.rnd_idem _ _ he)
  refine ⟨c, e, ?_, he, e0, e1, h1, h2, h3, h4⟩
  unfold SymDigest.estQuantileAtValue
  rw [hl, bind_ret]
  simp only [hh, bind_ret]
  rw [TDigest.lit_one, Fl.sub_fin, he, hc]
  rfl

/-- C97. In any monotone rounding arithmetic, if both sides surely answer with a probability, so does the `SymDigest`. -/
theorem C97_quantile_is_probability [FloatFmt.Mono K] (s : SymDigest D) (v : Fl K)
    (hl : Always (Digest.estQuantileAtValue s.low v) (fun r => ∃ a : K, r.1 = .fin a ∧ 0 ≤ a ∧ a ≤ 1))
    (hh : Always (Digest.estQuantileAtValue s.high (-v)) (fun r => ∃ a : K, r.1 = .fin a ∧ 0 ≤ a ∧ a ≤ 1)) :
    Always (s.estQuantileAtValue v) (fun r => ∃ a : K, r.1 = .fin a ∧ 0 ≤ a ∧ a ≤ 1) := by
  unfold SymDigest.estQuantileAtValue
  rw [always_bind]
  refine hl.mono ?_
  rintro ⟨_, l⟩ ⟨a, rfl, ha0, ha1⟩
  rw [always_bind]
  refine hh.mono ?_
  rintro ⟨_, h⟩ ⟨b, rfl, hb0, hb1⟩
  obtain ⟨e, he, e0, e1⟩ := one_sub_unit (K := K) hb0 hb1
  obtain ⟨c, hc, h1, -⟩ := SymDigest.choose_round ha0 ha1 e0 e1
  simp only [he, hc]
  refine ⟨c, rfl, ?_⟩
  rcases h1 with rfl | rfl | ⟨rfl, -⟩
  · exact ⟨ha0, ha1⟩
  · exact ⟨e0, e1⟩
  · constructor <;> norm_num

/-- C97. In any monotone rounding arithmetic a value query for a finite `q` asks the low side for `q` and the high side for
`rnd(1 − q)`; below one half the answer is the low side's, above it the high side's negated; it returns whenever both sides do. -/
theorem C97_value_sides [FloatFmt.Mono K] (s : SymDigest D) (q : K) (P Q : Fl K → Prop)
    (hl : Always (Digest.estValueAtQuantile s.low (.fin q : Fl K)) (fun r => P r.1))
    (hh : Always (Digest.estValueAtQuantile s.high (FloatFmt.rnd (1 - q) : Fl K)) (fun r => Q r.1)) :
    Always (s.estValueAtQuantile (.fin q)) (fun r => (q < 1 / 2 → P r.1) ∧ (1 / 2 < q → ∃ w, Q w ∧ r.1 = -w) ∧
      (q = 1 / 2 → ∃ v w, P v ∧ Q w ∧ r.1 = (v + -w) / Fl.lit 2)) := by
  unfold SymDigest.estValueAtQuantile
  rw [always_bind]
  refine hl.mono ?_
  rintro ⟨a, l⟩ ha
  rw [always_bind, TDigest.lit_one, Fl.sub_fin]
  refine hh.mono ?_
  rintro ⟨b, h⟩ hb
  unfold SymDigest.chooseValue
  simp only [lit_half, Fl.cmp_fin]
  rcases lt_trichotomy q (1 / 2) with hc | hc | hc
  · rw [compare_lt_iff_lt.2 hc]
    exact ⟨fun _ => ha, fun h => absurd h (not_lt.2 hc.le), fun h => absurd h hc.ne⟩
  · rw [compare_eq_iff_eq.2 hc]
    exact ⟨fun h => absurd h (not_lt.2 hc.ge), fun h => absurd h (not_lt.2 hc.le), fun _ => ⟨a, b, ha, hb, rfl⟩⟩
  · rw [compare_gt_iff_gt.2 hc]
    exact ⟨fun h => absurd h (not_lt.2 hc.le), fun _ => ⟨b, hb, rfl⟩, fun h => absurd h hc.ne'⟩

/-- C97. In binary floating point the answer for one half lies between the two sides' estimates, if these can be doubled. -/
theorem C97_median_between [FloatFmt.Binary K] (v w : Fl K) (hv : v.CanDouble) (hw : (-w).CanDouble) :
    min v (-w) ≤ (v + -w) / Fl.lit 2 ∧ (v + -w) / Fl.lit 2 ≤ max v (-w) := by
  have e2 : (Fl.ofNat 2 : Fl K) = Fl.lit 2 := by
    show FloatFmt.rnd ((2 : ℕ) : K) = FloatFmt.rnd 2
    rw [Nat.cast_ofNat]
  rcases le_total v (-w) with h | h
  · obtain ⟨-, b1, b2⟩ := avg_mem hv hw h
    rw [e2] at b1 b2
    exact ⟨(min_le_left _ _).trans b1, b2.trans (le_max_right _ _)⟩
  · obtain ⟨-, b1, b2⟩ := avg_mem hw hv h
    have e : -w + v = v + -w := by
      obtain ⟨x, rfl, -⟩ := hv
      obtain ⟨y, hy, -⟩ := hw
      rw [hy, Fl.add_fin, Fl.add_fin, add_comm]
    rw [e2, e] at b1 b2
    exact ⟨(min_le_right _ _).trans b1, b2.trans (le_max_left _ _)⟩
end

section sketches
variable [FloatFmt ℚ]

/-- One side's quantile query in rounding arithmetic. -/
theorem rc_side_round [FloatFmt.Mono ℚ] (n k : Nat) (hk : 1 ≤ k) (hk2 : k % 2 = 0) (hn : n < 2 ^ 32)
    (ops : List (Op (Fl ℚ))) (hins : ∀ o ∈ ops, (∃ x, o = .add x) ∨ ∃ xs, o = .addBuffer xs)
    (hlen : (itemsOf ops).length ≤ n) (hnan : ∀ y ∈ itemsOf ops, y ≠ .nan) (hne : itemsOf ops ≠ [])
    (hex : ∀ m : Nat, m ≤ (itemsOf ops).length → FloatFmt.rnd (m : ℚ) = .fin (m : ℚ)) (x : Fl ℚ) (hx : x ≠ .nan) :
    Always (execAll (RCSketch.fresh n k : RCSketch ℚ) ops) (fun s => ∃ a : ℚ,
      Digest.estQuantileAtValue s x = .ret ((.fin a : Fl ℚ), s) ∧
      FloatFmt.rnd ((weightedRank s.buffers x : ℚ) / (itemsOf ops).length) = .fin a ∧ weightedRank s.buffers x ≤ (itemsOf ops).length ∧
      |(weightedRank s.buffers x : ℚ) - rank (itemsOf ops) x| ≤ apriori n k (itemsOf ops).length) := by
  obtain ⟨iops, hrun, hit, hmeth, hfast⟩ := rc_trait_run n k hk ops hins
  rw [hrun]
  rw [← hit] at hlen hnan hne hex ⊢
  have hN : (0 : ℚ) < (insItems iops).length := Nat.cast_pos.2 (List.length_pos_of_ne_nil hne)
  have hkq : (0 : ℚ) < k := by exact_mod_cast hk
  refine ((C07_insertions_never_panic n k hk hn iops hmeth hlen hnan).and
    ((rc_levels n k hk2 iops (by omega)).and ((C63_a_priori_rank_error n k hk2 iops hmeth).and
      ((C08_weight_conserved_partial n k hk2 iops hne ⟨_, hex _ le_rfl⟩).and (rc_static n k iops))))).mono ?_
  rintro s ⟨hc, hl, he, ⟨hw, -⟩, hst⟩
  have hW : weightedRank s.buffers x ≤ (insItems iops).length := hw ▸ weightedRank_le _ _
  obtain ⟨a, ha, -⟩ := rnd_between (x := (weightedRank s.buffers x : ℚ) / (insItems iops).length)
    FloatFmt.Mono.rnd_zero FloatFmt.Mono.rnd_one (by positivity) ((div_le_one hN).2 (by exact_mod_cast hW))
  refine ⟨a, ?_, ha, hW, ?_⟩
  · show (s.estQuantileAtValue x >>= _) = _
    unfold RCSketch.estQuantileAtValue
    rw [estQuantile_eq hx _ _ (by omega), bind_ret, hc]
    unfold Fl.ofNat
    rw [hex _ hW, hex _ le_rfl, Fl.div_fin_of_ne _ hN.ne', ha]
    rfl
  · have h := he x hx
    rw [C17_rank_is_interpolate_rank s (by omega) x hx] at h
    obtain ⟨a1, a2⟩ := h
    have hB : s.bufferSize = max (2 * k * Nat.clog 2 (n / k)) (2 * k) := by
      have := hst.2.2.2.2
      simp_all [bsize]
    rw [hB] at a1 a2
    unfold apriori
    generalize ((insItems iops).length * (Nat.log 2 ((insItems iops).length / max (2 * k * Nat.clog 2 (n / k)) (2 * k)) + 1)) = D
      at a1 a2 ⊢
    have a1 : (k : ℚ) * weightedRank s.buffers x ≤ k * rank (insItems iops) x + D := by exact_mod_cast a1
    have a2 : (k : ℚ) * rank (insItems iops) x ≤ k * weightedRank s.buffers x + D := by exact_mod_cast a2
    rw [abs_le]
    constructor
    · rw [neg_le, neg_sub, le_div_iff₀ hkq]; linarith
    · rw [le_div_iff₀ hkq]; linarith

/-- C97. A `SymDigest` of two `RCSketch`es in binary floating point with relative error `u` (and absolute error `η` near 0): quantile
queries never panic, and the answer is surely within the a-priori error of C95 plus `2 (u + η)` of the true fraction. -/
theorem C97_sketches_sure [FloatFmt.Binary ℚ] {u η R : ℚ} (hr : RelErr u η R) (hR : 1 ≤ R)
    (n k : Nat) (hk : 1 ≤ k) (hk2 : k % 2 = 0) (hn : n < 2 ^ 32)
    (ops : List (Op (Fl ℚ))) (hins : ∀ o ∈ ops, (∃ x, o = .add x) ∨ ∃ xs, o = .addBuffer xs)
    (hlen : (itemsOf ops).length ≤ n) (hnan : ∀ y ∈ itemsOf ops, y ≠ .nan) (hne : itemsOf ops ≠ [])
    (hex : ∀ m : Nat, m ≤ (itemsOf ops).length → FloatFmt.rnd (m : ℚ) = .fin (m : ℚ)) (x : Fl ℚ) (hx : x ≠ .nan) :
    Always (symRC n k ops >>= fun d => d.estQuantileAtValue x) (fun r =>
      ∃ c : ℚ, r.1 = .fin c ∧ 0 ≤ c ∧ c ≤ 1 ∧
        ((itemsOf ops).countP (fun y => y < x) : ℚ) - apriori n k (itemsOf ops).length ≤ (c + 2 * (u + η)) * (itemsOf ops).length ∧
        (c - 2 * (u + η)) * (itemsOf ops).length ≤ rank (itemsOf ops) x + apriori n k (itemsOf ops).length) := by
  have hx' : -x ≠ .nan := by cases x <;> simp_all
  have hl := rc_side_round n k hk hk2 hn ops hins hlen hnan hne hex x hx
  have hh := rc_side_round n k hk hk2 hn (ops.map mirrorOp) (mirror_ins hins) (by rw [mirror_items, List.length_map]; exact hlen)
    (by rw [mirror_items]; exact mirror_nan hnan) (by rw [mirror_items]; simpa using hne)
    (by rw [mirror_items, List.length_map]; exact hex) (-x) hx'
  rw [mirror_items, List.length_map, (mirror_rank _ hnan x hx).1] at hh
  have hN : (0 : ℚ) < (itemsOf ops).length := Nat.cast_pos.2 (List.length_pos_of_ne_nil hne)
  have hsum : ((itemsOf ops).countP (fun y => x ≤ y) : ℚ) + (itemsOf ops).countP (fun y => y < x) = (itemsOf ops).length := by
    have h := (mirror_rank _ hnan x hx).2
    rw [(mirror_rank _ hnan x hx).1] at h
    exact_mod_cast h
  have hle : ((itemsOf ops).countP (fun y => y < x) : ℚ) ≤ rank (itemsOf ops) x := by
    have : (itemsOf ops).countP (fun y => y < x) ≤ rank (itemsOf ops) x :=
      List.countP_mono_left (fun y _ h => by simp only [decide_eq_true_eq] at h ⊢; exact h.le)
    exact_mod_cast this
  unfold symRC
  rw [RCSketch.new_eq (by omega), bind_ret, bind_ret, always_bind]
  refine (SymDigest.always_sides _ _ ops hins _ _ hl hh).mono ?_
  rintro ⟨l, h⟩ ⟨⟨a, hl1, hl2, hl3, hl4⟩, b, hh1, hh2, hh3, hh4⟩
  simp only at hl1 hl2 hl3 hl4 hh1 hh2 hh3 hh4
  have near : ∀ {z y : ℚ}, 0 ≤ z → z ≤ 1 → FloatFmt.rnd z = .fin y → |y - z| ≤ u + η := by
    intro z y z0 z1 hz
    obtain ⟨y', hy', h⟩ := hr.near z (by rw [abs_of_nonneg z0]; linarith)
    rw [hz, Fl.fin.injEq] at hy'
    rw [hy']
    rw [abs_of_nonneg z0] at h
    nlinarith [hr.u_nonneg]
  have d1 : ∀ {w : Nat}, w ≤ (itemsOf ops).length → 0 ≤ (w : ℚ) / (itemsOf ops).length ∧ (w : ℚ) / (itemsOf ops).length ≤ 1 :=
    fun {w} hw => ⟨by positivity, (div_le_one hN).2 (by exact_mod_cast hw)⟩
  obtain ⟨a', ha', a0, a1⟩ := rnd_between FloatFmt.Mono.rnd_zero FloatFmt.Mono.rnd_one (d1 hl3).1 (d1 hl3).2
  rw [hl2, Fl.fin.injEq] at ha'; subst ha'
  obtain ⟨b', hb', b0, b1⟩ := rnd_between FloatFmt.Mono.rnd_zero FloatFmt.Mono.rnd_one (d1 hh3).1 (d1 hh3).2
  rw [hh2, Fl.fin.injEq] at hb'; subst hb'
  obtain ⟨c, e, hc, he, e0, e1, c1, c2, -⟩ := C97_quantile_between (⟨l, h⟩ : SymDigest (RCSketch ℚ)) x hl1 hh1 a0 a1 b0 b1
    (FloatFmt.Binary.rnd_idem _ _ hl2)
  rw [hc]
  have n1 := abs_le.1 (near (d1 hl3).1 (d1 hl3).2 hl2)
  have n2 := abs_le.1 (near (d1 hh3).1 (d1 hh3).2 hh2)
  have n3 := abs_le.1 (near (by linarith) (by linarith) he)
  have hu : 0 ≤ u + η := add_nonneg hr.u_nonneg hr.eta_nonneg
  refine ⟨c, rfl, (le_min a0 e0).trans c1, c2.trans (max_le a1 e1), ?_, ?_⟩
  · have g : (((itemsOf ops).countP (fun y => y < x) : ℚ) - apriori n k (itemsOf ops).length) / (itemsOf ops).length ≤
        c + 2 * (u + η) := by
      have k1 : (((itemsOf ops).countP (fun y => y < x) : ℚ) - apriori n k (itemsOf ops).length) / (itemsOf ops).length ≤
          (weightedRank l.buffers x : ℚ) / (itemsOf ops).length :=
        div_le_div_of_nonneg_right (by linarith [(abs_le.1 hl4).1]) hN.le
      have k2 : (((itemsOf ops).countP (fun y => y < x) : ℚ) - apriori n k (itemsOf ops).length) / (itemsOf ops).length ≤
          1 - (weightedRank h.buffers (-x) : ℚ) / (itemsOf ops).length := by
        rw [le_sub_iff_add_le, ← add_div, div_le_one hN]
        linarith [(abs_le.1 hh4).2]
      rcases min_choice a e with h' | h' <;> rw [h'] at c1 <;> linarith
    exact (div_le_iff₀ hN).1 g
  · have g : c - 2 * (u + η) ≤ ((rank (itemsOf ops) x : ℚ) + apriori n k (itemsOf ops).length) / (itemsOf ops).length := by
      have k1 : (weightedRank l.buffers x : ℚ) / (itemsOf ops).length ≤
          ((rank (itemsOf ops) x : ℚ) + apriori n k (itemsOf ops).length) / (itemsOf ops).length :=
        div_le_div_of_nonneg_right (by linarith [(abs_le.1 hl4).2]) hN.le
      have k2 : 1 - (weightedRank h.buffers (-x) : ℚ) / (itemsOf ops).length ≤
          ((rank (itemsOf ops) x : ℚ) + apriori n k (itemsOf ops).length) / (itemsOf ops).length := by
        rw [sub_le_iff_le_add, ← add_div, le_div_iff₀ hN]
        linarith [(abs_le.1 hh4).1]
      rcases max_choice a e with h' | h' <;> rw [h'] at c2 <;> linarith
    exact (le_div_iff₀ hN).1 g

/-- One side's value query in rounding arithmetic: the target rank is the rounded product of the quantile and the number of items. -/
theorem rc_side_value_round [FloatFmt.Mono ℚ] (n k : Nat) (hk : 1 ≤ k) (hk2 : k % 2 = 0) (hn : n < 2 ^ 32)
    (ops : List (Op (Fl ℚ))) (hins : ∀ o ∈ ops, (∃ x, o = .add x) ∨ ∃ xs, o = .addBuffer xs)
    (hlen : (itemsOf ops).length ≤ n) (hnan : ∀ y ∈ itemsOf ops, y ≠ .nan) (hne : itemsOf ops ≠ [])
    (hex : ∀ m : Nat, m ≤ (itemsOf ops).length → FloatFmt.rnd (m : ℚ) = .fin (m : ℚ)) (q : ℚ) (h0 : 0 ≤ q) (h1 : q ≤ 1) :
    ∃ t : ℚ, FloatFmt.rnd (q * (itemsOf ops).length) = .fin t ∧
    Always (execAll (RCSketch.fresh n k : RCSketch ℚ) ops) (fun s => ∃ v ∈ itemsOf ops,
      Digest.estValueAtQuantile s (.fin q : Fl ℚ) = .ret (v, s) ∧ s.estValueAtQuantile (.fin q) = .ret v) ∧
    ∀ ε : ℚ, 0 < ε → ε ≤ 1 → exp (execAll (RCSketch.fresh n k : RCSketch ℚ) ops >>= fun s => s.estValueAtQuantile (.fin q))
      (fun v => if ((itemsOf ops).countP (fun y => y < v) : ℚ) ≤ (1 + ε) * t ∧
        (1 - ε) * t ≤ (rank (itemsOf ops) v : ℚ) then 0 else 1) ≤ 10 / (k * ε) ^ 2 := by
  obtain ⟨iops, hrun, hit, hmeth, hfast⟩ := rc_trait_run n k hk ops hins
  rw [hrun]
  rw [← hit] at hlen hnan hne hex ⊢
  obtain ⟨t, ht, t0, t1, ht'⟩ := C94_target _ hex q h0 h1
  refine ⟨t, ht', ?_, ?_⟩
  · refine (rc_value_sides n k hk hk2 hn iops hmeth hlen hnan hne hex _ _ ht t0 t1).mono ?_
    rintro s ⟨v, hv, hvI, -⟩
    refine ⟨v, hvI, ?_, hv⟩
    show (s.estValueAtQuantile _ >>= _) = _
    rw [hv]; rfl
  · intro ε hε hε1
    have h := C94_value_relative n k hk hk2 hn iops hmeth hfast hlen hnan hne hex _ _ ht t0 t1 ε hε hε1
    simpa using h

/-- C97. C95 for `q < 1/2` in rounding arithmetic: `t = rnd(q N)` replaces `q N`. -/
theorem C97_sketches_value_low [FloatFmt.Mono ℚ] (n k : Nat) (hk : 1 ≤ k) (hk2 : k % 2 = 0) (hn : n < 2 ^ 32)
    (ops : List (Op (Fl ℚ))) (hins : ∀ o ∈ ops, (∃ x, o = .add x) ∨ ∃ xs, o = .addBuffer xs)
    (hlen : (itemsOf ops).length ≤ n) (hnan : ∀ y ∈ itemsOf ops, y ≠ .nan) (hne : itemsOf ops ≠ [])
    (hex : ∀ m : Nat, m ≤ (itemsOf ops).length → FloatFmt.rnd (m : ℚ) = .fin (m : ℚ)) (q : ℚ) (h0 : 0 ≤ q) (h1 : q < 1 / 2) :
    ∃ t : ℚ, FloatFmt.rnd (q * (itemsOf ops).length) = .fin t ∧
    Always (symRC n k ops >>= fun d => d.estValueAtQuantile (.fin q)) (fun r => r.1 ∈ itemsOf ops) ∧
    ∀ ε : ℚ, 0 < ε → ε ≤ 1 → exp (symRC n k ops >>= fun d => d.estValueAtQuantile (.fin q)) (fun r =>
      if ((itemsOf ops).countP (fun y => y < r.1) : ℚ) ≤ (1 + ε) * t ∧
        (1 - ε) * t ≤ ((itemsOf ops).countP (fun y => y ≤ r.1) : ℚ) then 0 else 1) ≤ 10 / (k * ε) ^ 2 := by
  obtain ⟨p, hp, p0, p1⟩ := rnd_between (x := 1 - q) FloatFmt.Mono.rnd_zero FloatFmt.Mono.rnd_one (by linarith) (by linarith)
  obtain ⟨t, ht, hl, hle⟩ := rc_side_value_round n k hk hk2 hn ops hins hlen hnan hne hex q h0 (by linarith)
  obtain ⟨t', ht', hh, -⟩ := rc_side_value_round n k hk hk2 hn (ops.map mirrorOp) (mirror_ins hins)
    (by rw [mirror_items, List.length_map]; exact hlen) (by rw [mirror_items]; exact mirror_nan hnan)
    (by rw [mirror_items]; simpa using hne) (by rw [mirror_items, List.length_map]; exact hex) p p0 p1
  have ans : ∀ (l h : RCSketch ℚ) (v w : Fl ℚ), Digest.estValueAtQuantile l (.fin q : Fl ℚ) = .ret (v, l) →
      Digest.estValueAtQuantile h (.fin p : Fl ℚ) = .ret (w, h) →
      SymDigest.estValueAtQuantile (⟨l, h⟩ : SymDigest (RCSketch ℚ)) (.fin q) = .ret (v, ⟨l, h⟩) := by
    intro l h v w hv hw
    unfold SymDigest.estValueAtQuantile
    simp only [hv, bind_ret, TDigest.lit_one, Fl.sub_fin, hp, hw]
    unfold SymDigest.chooseValue
    rw [lit_half, Fl.cmp_fin, compare_lt_iff_lt.2 h1]
    rfl
  refine ⟨t, ht, ?_, fun ε hε hε1 => ?_⟩
  · unfold symRC
    rw [RCSketch.new_eq (by omega), bind_ret, bind_ret, always_bind]
    refine (SymDigest.always_sides _ _ ops hins _ _ hl hh).mono ?_
    rintro ⟨l, h⟩ ⟨⟨v, hvI, hv, -⟩, w, hwI, hw, -⟩
    rw [ans l h v w hv hw]
    exact hvI
  rw [exp_bind, exp_symRC n k hk ops hins]
  refine le_trans (le_of_eq ?_) (hle ε hε hε1)
  rw [exp_bind]
  refine exp_congr (hl.partially.mono ?_)
  rintro l ⟨v, hvI, hv, hv'⟩
  refine (exp_congr (g' := fun _ => if ((itemsOf ops).countP (fun y => y < v) : ℚ) ≤ (1 + ε) * t ∧
        (1 - ε) * t ≤ ((itemsOf ops).countP (fun y => y ≤ v) : ℚ) then 0 else 1)
    (hh.partially.mono ?_)).trans ((exp_const (hh.mono fun _ _ => trivial) _).trans ?_)
  · rintro h ⟨w, hwI, hw, -⟩
    rw [ans l h v w hv hw]
    rfl
  · rw [hv', exp_ret]; rfl

/-- C97. C95 for `q > 1/2` in rounding arithmetic: `t = rnd(rnd(1 − q) N)` replaces `(1 − q) N`. -/
theorem C97_sketches_value_high [FloatFmt.Mono ℚ] (n k : Nat) (hk : 1 ≤ k) (hk2 : k % 2 = 0) (hn : n < 2 ^ 32)
    (ops : List (Op (Fl ℚ))) (hins : ∀ o ∈ ops, (∃ x, o = .add x) ∨ ∃ xs, o = .addBuffer xs)
    (hlen : (itemsOf ops).length ≤ n) (hnan : ∀ y ∈ itemsOf ops, y ≠ .nan) (hne : itemsOf ops ≠ [])
    (hex : ∀ m : Nat, m ≤ (itemsOf ops).length → FloatFmt.rnd (m : ℚ) = .fin (m : ℚ)) (q : ℚ) (h0 : 1 / 2 < q) (h1 : q ≤ 1) :
    ∃ p t : ℚ, FloatFmt.rnd (1 - q) = .fin p ∧ FloatFmt.rnd (p * (itemsOf ops).length) = .fin t ∧
    Always (symRC n k ops >>= fun d => d.estValueAtQuantile (.fin q)) (fun r => r.1 ∈ itemsOf ops) ∧
    ∀ ε : ℚ, 0 < ε → ε ≤ 1 → exp (symRC n k ops >>= fun d => d.estValueAtQuantile (.fin q)) (fun r =>
      if ((itemsOf ops).countP (fun y => r.1 < y) : ℚ) ≤ (1 + ε) * t ∧
        (1 - ε) * t ≤ ((itemsOf ops).countP (fun y => r.1 ≤ y) : ℚ) then 0 else 1) ≤ 10 / (k * ε) ^ 2 := by
  obtain ⟨p, hp, p0, p1⟩ := rnd_between (x := 1 - q) FloatFmt.Mono.rnd_zero FloatFmt.Mono.rnd_one (by linarith) (by linarith)
  obtain ⟨t', ht', hl, -⟩ := rc_side_value_round n k hk hk2 hn ops hins hlen hnan hne hex q (by linarith) h1
  obtain ⟨t, ht, hh, hhe⟩ := rc_side_value_round n k hk hk2 hn (ops.map mirrorOp) (mirror_ins hins)
    (by rw [mirror_items, List.length_map]; exact hlen) (by rw [mirror_items]; exact mirror_nan hnan)
    (by rw [mirror_items]; simpa using hne) (by rw [mirror_items, List.length_map]; exact hex) p p0 p1
  have ans : ∀ (l h : RCSketch ℚ) (v w : Fl ℚ), Digest.estValueAtQuantile l (.fin q : Fl ℚ) = .ret (v, l) →
      Digest.estValueAtQuantile h (.fin p : Fl ℚ) = .ret (w, h) →
      SymDigest.estValueAtQuantile (⟨l, h⟩ : SymDigest (RCSketch ℚ)) (.fin q) = .ret (-w, ⟨l, h⟩) := by
    intro l h v w hv hw
    unfold SymDigest.estValueAtQuantile
    simp only [hv, bind_ret, TDigest.lit_one, Fl.sub_fin, hp, hw]
    unfold SymDigest.chooseValue
    rw [lit_half, Fl.cmp_fin, compare_gt_iff_gt.2 h0]
    rfl
  refine ⟨p, t, hp, by rw [mirror_items, List.length_map] at ht; exact ht, ?_, fun ε hε hε1 => ?_⟩
  · unfold symRC
    rw [RCSketch.new_eq (by omega), bind_ret, bind_ret, always_bind]
    refine (SymDigest.always_sides _ _ ops hins _ _ hl hh).mono ?_
    rintro ⟨l, h⟩ ⟨⟨v, hvI, hv, -⟩, w, hwI, hw, -⟩
    rw [ans l h v w hv hw]
    rw [mirror_items] at hwI
    obtain ⟨z, hz, rfl⟩ := List.mem_map.1 hwI
    show - -z ∈ _
    rw [Fl.neg_neg']
    exact hz
  rw [exp_bind, exp_symRC n k hk ops hins]
  have hhe := hhe ε hε hε1
  rw [exp_bind] at hhe
  refine le_trans (le_of_eq ?_) hhe
  refine Eq.trans (exp_congr (g' := fun _ => exp (execAll (RCSketch.fresh n k : RCSketch ℚ) (ops.map mirrorOp)) (fun h =>
      exp (h.estValueAtQuantile (.fin p)) (fun v =>
      if ((itemsOf (ops.map mirrorOp)).countP (fun y => y < v) : ℚ) ≤ (1 + ε) * t ∧
        (1 - ε) * t ≤ (rank (itemsOf (ops.map mirrorOp)) v : ℚ) then 0 else 1)))
      (hl.partially.mono ?_)) (exp_const (hl.mono fun _ _ => trivial) _)
  rintro l ⟨v, hvI, hv, -⟩
  refine exp_congr (hh.partially.mono ?_)
  rintro h ⟨w, hwI, hw, hw'⟩
  rw [hw', exp_ret, ans l h v w hv hw, exp_ret]
  rw [mirror_items] at hwI ⊢
  obtain ⟨z, hz, rfl⟩ := List.mem_map.1 hwI
  have hz' := hnan z hz
  have e1 : ((itemsOf ops).map (fun x => -x)).countP (fun y => y < -z) = (itemsOf ops).countP (fun y => z < y) := by
    rw [List.countP_map]
    refine List.countP_congr (fun y hy => ?_)
    simp only [Function.comp, decide_eq_true_eq]
    exact Fl.neg_lt_neg_iff (hnan y hy) hz'
  rw [e1, (mirror_rank _ hnan z hz').1]
  show (if ((itemsOf ops).countP (fun y => - -z < y) : ℚ) ≤ _ ∧ _ ≤ ((itemsOf ops).countP (fun y => - -z ≤ y) : ℚ) then (0 : ℚ) else 1) = _
  rw [Fl.neg_neg']

end sketches

section tdigests
variable {K : Type} [Field K] [LinearOrder K] [IsStrictOrderedRing K] [FloatFmt K] [FloorRing K]

/-- A history of insertions into a `TDigest` through the trait. -/
theorem td_trait_run : ∀ (ops : List (Op (Fl K))) (hins : ∀ o ∈ ops, (∃ x, o = .add x) ∨ ∃ xs, o = .addBuffer xs),
    ∃ tops : List (TDigest.TOp K), (∀ d : TDigest K, execAll d ops = d.execOps tops) ∧
      TDigest.supplied tops = (itemsOf ops).map (fun x => ⟨x, .fin 1⟩)
  | [], _ => ⟨[], fun _ => rfl, rfl⟩
  | o :: os, hins => by
    obtain ⟨ts, h1, h2⟩ := td_trait_run os (fun o' ho' => hins o' (by simp [ho']))
    rcases hins o (by simp) with ⟨x, rfl⟩ | ⟨xs, rfl⟩
    · refine ⟨.add x :: ts, fun d => ?_, ?_⟩
      · show (d.add x >>= fun d => execAll d os) = (d.add x >>= fun d => d.execOps ts)
        simp only [h1]
      · show (_ : List (Centroid K)) ++ TDigest.supplied ts = ([x] ++ itemsOf os).map _
        rw [h2, List.map_append]; rfl
    · refine ⟨.addBuffer xs :: ts, fun d => ?_, ?_⟩
      · show (d.addBuffer xs >>= fun d => execAll d os) = (d.addBuffer xs >>= fun d => d.execOps ts)
        simp only [h1]
      · show (_ : List (Centroid K)) ++ TDigest.supplied ts = (xs ++ itemsOf os).map _
        rw [h2, List.map_append]; rfl

/-- One side: a `TDigest` after insertions of at least one item. -/
theorem td_side_round [FloatFmt.Mono K] {N : Nat} {A B : K} (R : Roomy N A B) (h64 : N < 2 ^ 64) (s i : ScaleFn K) (cf : Fl K)
    (ops : List (Op (Fl K))) (hins : ∀ o ∈ ops, (∃ x, o = .add x) ∨ ∃ xs, o = .addBuffer xs)
    (hi : ∀ x ∈ itemsOf ops, ItemIn A B x) (hN : (itemsOf ops).length ≤ N) (hne : itemsOf ops ≠ []) :
    Always (execAll (TDigest.new s i cf : TDigest K) ops) (fun d => Digest.count d = .ret (itemsOf ops).length ∧
      (∀ v : Fl K, v ≠ .nan →
        Always (Digest.estQuantileAtValue d v) (fun r => ∃ a : K, r.1 = .fin a ∧ 0 ≤ a ∧ a ≤ 1) ∧
        Always (Digest.estValueAtQuantile d v) (fun _ => True))) := by
  obtain ⟨tops, h1, h2⟩ := td_trait_run ops hins
  rw [h1]
  have hu : ∀ c ∈ TDigest.supplied tops, c.weight = .fin 1 := by
    rw [h2]
    intro c hc
    obtain ⟨x, -, rfl⟩ := List.mem_map.1 hc
    rfl
  have hw : ∀ c ∈ TDigest.supplied tops, Within A B c := by
    rw [h2]
    intro c hc
    obtain ⟨x, hx, rfl⟩ := List.mem_map.1 hc
    obtain ⟨y, rfl, y1, y2⟩ := hi x hx
    exact ⟨y, 1, rfl, y1, y2, by simp, le_rfl⟩
  have hlen : (TDigest.supplied tops).length = (itemsOf ops).length := by rw [h2, List.length_map]
  have htot : ∀ l : List (Centroid K), (∀ c ∈ l, c.weight = .fin 1) → totalW l = (l.length : K) := by
    intro l
    induction l with
    | nil => simp
    | cons a l ih =>
      intro h
      rw [totalW_cons, ih (fun c hc => h c (by simp [hc])), h a (by simp)]
      simp [Fl.toK, add_comm]
  have hT : totalW (TDigest.supplied tops) ≤ N := by rw [htot _ hu, hlen]; exact_mod_cast hN
  have hne' : TDigest.supplied tops ≠ [] := by rw [h2]; simpa using hne
  have g1 := C87_count R h64 s i cf tops hw hu (by rw [hlen]; exact hN)
  have g2 := C88_quantile_is_probability R s i cf tops hw hT hne'
  have g3 := C88_value_never_panics R h64 s i cf tops hw hT hne'
  refine (g1.and (g2.partially.and g3.partially)).mono ?_
  rintro d ⟨d1, d2, d3⟩
  refine ⟨by rw [← hlen]; exact d1, fun v hv => ⟨?_, ?_⟩⟩
  · show Always (d.estQuantileAtValue v >>= fun r => .ret (r, d)) _
    rw [always_bind]
    exact d2 v hv
  · show Always (d.estValueAtQuantile v >>= fun r => .ret (r, d)) _
    rw [always_bind]
    exact (d3 v hv).mono (fun _ _ => trivial)

/-- C97. A `SymDigest` of two `TDigest`s in rounding arithmetic with room for `N` items between `-B` and `B`: insertions never panic,
`count()` is exact, quantile queries answer with a probability for every value but NaN, value queries return for every finite `q`. -/
theorem C97_tdigests [FloatFmt.Mono K] {N : Nat} {B : K} (R : Roomy N (-B) B) (h64 : N < 2 ^ 64) (s i s' i' : ScaleFn K) (cf cf' : Fl K)
    (ops : List (Op (Fl K))) (hins : ∀ o ∈ ops, (∃ x, o = .add x) ∨ ∃ xs, o = .addBuffer xs)
    (hi : ∀ x ∈ itemsOf ops, ItemIn (-B) B x) (hN : (itemsOf ops).length ≤ N) (hne : itemsOf ops ≠ []) :
    Always (execAll (SymDigest.new (TDigest.new s i cf) (TDigest.new s' i' cf') : SymDigest (TDigest K)) ops) (fun d =>
      d.count (K := K) = .ret (itemsOf ops).length ∧
      (∀ v : Fl K, v ≠ .nan → Always (d.estQuantileAtValue v) (fun r => ∃ a : K, r.1 = .fin a ∧ 0 ≤ a ∧ a ≤ 1)) ∧
      ∀ q : K, Always (d.estValueAtQuantile (.fin q)) (fun _ => True)) := by
  have hl := td_side_round R h64 s i cf ops hins hi hN hne
  have hh := td_side_round R h64 s' i' cf' (ops.map mirrorOp) (mirror_ins hins)
    (by
      rw [mirror_items]
      intro x hx
      obtain ⟨y, hy, rfl⟩ := List.mem_map.1 hx
      obtain ⟨z, rfl, z1, z2⟩ := hi y hy
      exact ⟨-z, rfl, by linarith, by linarith⟩)
    (by rw [mirror_items, List.length_map]; exact hN) (by rw [mirror_items]; simpa using hne)
  refine (SymDigest.always_sides _ _ ops hins _ _ hl hh).mono ?_
  rintro ⟨l, h⟩ ⟨⟨l1, l2⟩, h1, h2⟩
  refine ⟨l1, fun v hv => ?_, fun q => ?_⟩
  · exact C97_quantile_is_probability _ v (l2 v hv).1 (h2 (-v) (by cases v <;> simp_all)).1
  · refine (C97_value_sides _ q (fun _ => True) (fun _ => True) ?_ ?_).mono (fun _ _ => trivial)
    · exact (l2 (.fin q) (by simp)).2
    · exact (h2 _ (FloatFmt.Mono.rnd_ne_nan _)).2
end tdigests

section doubles
attribute [local instance] f64Fmt f64_binary f64_mono

/-- C97 for `f64`, `TDigest`s: up to `2^52` doubles of magnitude at most `2^970`. -/
theorem C97_tdigests_f64 (s i s' i' : ScaleFn ℚ) (cf cf' : Fl ℚ)
    (ops : List (Op (Fl ℚ))) (hins : ∀ o ∈ ops, (∃ x, o = .add x) ∨ ∃ xs, o = .addBuffer xs)
    (hi : ∀ x ∈ itemsOf ops, ItemIn (-2 ^ (970 : ℤ)) (2 ^ (970 : ℤ)) x) (hN : (itemsOf ops).length ≤ 2 ^ 52) (hne : itemsOf ops ≠ []) :
    Always (execAll (SymDigest.new (TDigest.new s i cf) (TDigest.new s' i' cf') : SymDigest (TDigest ℚ)) ops) (fun d =>
      d.count (K := ℚ) = .ret (itemsOf ops).length ∧
      (∀ v : Fl ℚ, v ≠ .nan → Always (d.estQuantileAtValue v) (fun r => ∃ a : ℚ, r.1 = .fin a ∧ 0 ≤ a ∧ a ≤ 1)) ∧
      ∀ q : ℚ, Always (d.estValueAtQuantile (.fin q)) (fun _ => True)) :=
  C97_tdigests (f64_roomy (e := 970) (by norm_num) le_rfl) (by norm_num) s i s' i' cf cf' ops hins hi hN hne

/-- C97 for `f64`, `RCSketch`es: quantile estimates are within the a-priori error plus `2^-51`. -/
theorem C97_sketches_f64 (n k : Nat) (hk : 1 ≤ k) (hk2 : k % 2 = 0) (hn : n < 2 ^ 32)
    (ops : List (Op (Fl ℚ))) (hins : ∀ o ∈ ops, (∃ x, o = .add x) ∨ ∃ xs, o = .addBuffer xs)
    (hlen : (itemsOf ops).length ≤ n) (hnan : ∀ y ∈ itemsOf ops, y ≠ .nan) (hne : itemsOf ops ≠ []) (x : Fl ℚ) (hx : x ≠ .nan) :
    Always (symRC n k ops >>= fun d => d.estQuantileAtValue x) (fun r =>
      ∃ c : ℚ, r.1 = .fin c ∧ 0 ≤ c ∧ c ≤ 1 ∧
        ((itemsOf ops).countP (fun y => y < x) : ℚ) - apriori n k (itemsOf ops).length ≤ (c + 1 / 2 ^ 51) * (itemsOf ops).length ∧
        (c - 1 / 2 ^ 51) * (itemsOf ops).length ≤ rank (itemsOf ops) x + apriori n k (itemsOf ops).length) := by
  have hex : ∀ m : Nat, m ≤ (itemsOf ops).length → FloatFmt.rnd (m : ℚ) = .fin (m : ℚ) := fun m hm =>
    f64_exactCounts.rnd_nat (by omega)
  have hm : (1 : ℚ) ≤ Ieee.double.max := by decide +kernel
  refine (C97_sketches_sure f64_relErr hm n k hk hk2 hn ops hins hlen hnan hne hex x hx).mono ?_
  rintro r ⟨c, hc, c0, c1, c2, c3⟩
  have hu : (2 : ℚ) * (2 ^ (-53 : ℤ) + 2 ^ (-1075 : ℤ)) ≤ 1 / 2 ^ 51 := by
    have : (2 : ℚ) ^ (-1075 : ℤ) ≤ 2 ^ (-53 : ℤ) := zpow_le_zpow_right₀ (by norm_num) (by norm_num)
    have e : (2 : ℚ) ^ (-53 : ℤ) = 1 / 2 ^ 53 := by norm_num [zpow_neg]
    rw [e] at this ⊢
    linarith
  have hN : (0 : ℚ) ≤ (itemsOf ops).length := Nat.cast_nonneg _
  refine ⟨c, hc, c0, c1, c2.trans ?_, le_trans ?_ c3⟩
  · exact mul_le_mul_of_nonneg_right (by linarith) hN
  · exact mul_le_mul_of_nonneg_right (by linarith) hN

/-- Three items added to two sketches `new(8, 2)`: the estimates are rounded thirds. -/
example : (Ieee.double.rnd (1 / 3) = .fin (6004799503160661 / 18014398509481984)) ∧
    Always (symRC (K := ℚ) 8 2 [.add (.fin 1), .addBuffer [.fin 3, .fin 2]] >>= fun d => d.estQuantileAtValue (.fin 1)) (fun r =>
      r.1 = .fin (6004799503160661 / 18014398509481984)) ∧ apriori 8 2 3 = 3 / 2 := by
  refine ⟨?_, ?_, ?_⟩ <;> decide +kernel

/-- The hypotheses of C97 for `TDigest`s hold for this history: three items, one of them rounded. -/
example : (∀ o ∈ [Op.add (Ieee.double.rnd (1 / 10)), .addBuffer [.fin (3 : ℚ), .fin 2]],
      (∃ x, o = .add x) ∨ ∃ xs, o = .addBuffer xs) ∧
    (∀ x ∈ itemsOf [Op.add (Ieee.double.rnd (1 / 10)), .addBuffer [.fin (3 : ℚ), .fin 2]],
      ItemIn (-2 ^ (970 : ℤ)) (2 ^ (970 : ℤ)) x) ∧
    Always (execAll (SymDigest.new (TDigest.new k0 invK0 (.fin 4)) (TDigest.new k0 invK0 (.fin 4)) : SymDigest (TDigest ℚ))
      [Op.add (Ieee.double.rnd (1 / 10)), .addBuffer [.fin (3 : ℚ), .fin 2]]) (fun d => 
        Always (d.estValueAtQuantile (.fin (1 / 2))) (fun r => .fin (3 / 2) < r.1 ∧ r.1 < .fin (5 / 2))) := by
  have h1 : Ieee.double.rnd (1 / 10) = .fin (3602879701896397 / 36028797018963968) := by decide +kernel
  have big : (3 : ℚ) ≤ 2 ^ (970 : ℤ) := by
    have : (2 : ℚ) ^ (2 : ℤ) ≤ 2 ^ (970 : ℤ) := zpow_le_zpow_right₀ (by norm_num) (by norm_num)
    exact le_trans (by norm_num) this
  refine ⟨?_, ?_, by decide +kernel⟩
  · intro o ho
    simp only [List.mem_cons, List.not_mem_nil, or_false] at ho
    rcases ho with rfl | rfl
    · exact .inl ⟨_, rfl⟩
    · exact .inr ⟨_, rfl⟩
  · rw [h1]
    generalize (2 : ℚ) ^ (970 : ℤ) = B at big
    intro x hx
    have hx : x = .fin (3602879701896397 / 36028797018963968) ∨ x = .fin 3 ∨ x = .fin 2 := by simpa [itemsOf, Op.items] using hx
    rcases hx with rfl | rfl | rfl
    · exact ⟨_, rfl, by norm_num; linarith, by norm_num; linarith⟩
    · exact ⟨_, rfl, by linarith, by linarith⟩
    · exact ⟨_, rfl, by linarith, by linarith⟩

/-- Three items and a query. -/
def thirdsHist : List (Op (Fl ℚ)) := [.addBuffer [.fin 1, .fin 2, .fin 3], .quantile (.fin (3 / 2))]

/-- C53 does not carry over to `f64` to the last bit: the estimate of the fraction of items `≤ 3/2` among 1, 2, 3 is `rnd(1/3)`, the
mirrored answer of the mirrored history is `rnd(1 − rnd(1 − rnd(1/3)))`, another number. -/
theorem C53_not_symmetric_with_rounding :
    ∃ a b : Fl ℚ, a ≠ b ∧
      Always (answers (SymDigest.new LinearDigest.new LinearDigest.new : SymDigest (LinearDigest ℚ))
        thirdsHist) (fun r => r.1 = [a]) ∧
      Always (answers (SymDigest.new LinearDigest.new LinearDigest.new : SymDigest (LinearDigest ℚ))
        (thirdsHist.map mirrorOp)) (fun r =>
          mirrorAnswers thirdsHist r.1 = [b]) := by
  refine ⟨.fin (6004799503160661 / 18014398509481984), .fin (1501199875790165 / 4503599627370496), by decide +kernel, ?_, ?_⟩
  · decide +kernel
  · decide +kernel
end doubles
end AQ

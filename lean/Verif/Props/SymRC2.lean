/-
Property C128: a `SymDigest` of two `RCSketch2`s is accurate towards both ends.
-/
import Verif.Props.ParallelRC

set_option linter.unusedSectionVars false
set_option linter.unusedVariables false

namespace AQ
open Spec Prog

section
variable [FloatFmt ℚ] [FloatFmt.Exact ℚ]
variable {D : Type} [Digest D (Fl ℚ)]

theorem exp_symNew (d : D) (ops : List (Op (Fl ℚ))) (hins : ∀ o ∈ ops, (∃ x, o = .add x) ∨ ∃ xs, o = .addBuffer xs)
    (f : SymDigest D → ℚ) :
    exp (execAll (SymDigest.new d d) ops) f = exp (execAll d ops) (fun l => exp (execAll d (ops.map mirrorOp)) (fun h => f ⟨l, h⟩)) :=
  SymDigest.exp_sides ops hins d d (fun l h => f ⟨l, h⟩)

theorem sym_answer_of {l h : D} {x : Fl ℚ} {N a b : ℚ} (hN : 0 < N)
    (hl : Digest.estQuantileAtValue l x = .ret ((.fin (a / N) : Fl ℚ), l))
    (hh : Digest.estQuantileAtValue h (-x) = .ret ((.fin (b / N) : Fl ℚ), h)) :
    SymDigest.estQuantileAtValue (⟨l, h⟩ : SymDigest D) x = .ret (
      (if a < b then .fin (a / N) else if b < a then .fin (1 - b / N) else .fin ((a / N + (1 - b / N)) / 2)), ⟨l, h⟩) := by
  unfold SymDigest.estQuantileAtValue
  rw [hl, bind_ret]
  simp only [hh, bind_ret]
  rw [Fl.lit_exact, Fl.sub_exact, choose_fin]
  have e : ∀ a b : ℚ, (a / N + (1 - b / N) < 1 ↔ a < b) := fun a b => by
    rw [← div_lt_div_iff_of_pos_right hN (a := a) (b := b)]
    constructor <;> intro h <;> linarith
  have e' : ∀ a b : ℚ, (1 < a / N + (1 - b / N) ↔ b < a) := fun a b => by
    rw [← div_lt_div_iff_of_pos_right hN (a := b) (b := a)]
    constructor <;> intro h <;> linarith
  simp only [e, e']
  rfl

/-- Below the middle only the low side counts. -/
theorem symQ_low {d : D} {ops : List (Op (Fl ℚ))} (hins : ∀ o ∈ ops, (∃ x, o = .add x) ∨ ∃ xs, o = .addBuffer xs) {x : Fl ℚ} {N R R' E V : ℚ}
    (hN : 0 < N) {wl wh : D → ℚ}
    (hl : Always (execAll d ops) (fun s => Digest.estQuantileAtValue s x = .ret ((.fin (wl s / N) : Fl ℚ), s) ∧ |wl s - R| ≤ E))
    (hh : Always (execAll d (ops.map mirrorOp)) (fun s => Digest.estQuantileAtValue s (-x) = .ret ((.fin (wh s / N) : Fl ℚ), s) ∧ |wh s - R'| ≤ E))
    (hm : exp (execAll d ops) (fun s => (wl s - R) ^ 2) ≤ V) (hlow : R + 2 * E < R') :
    exp (execAll (SymDigest.new d d) ops >>= fun s => s.estQuantileAtValue x) (fun r => (r.1.toK - R / N) ^ 2) ≤ V / N ^ 2 := by
  rw [exp_bind, exp_symNew d ops hins]
  have e : exp (execAll d ops) (fun l => exp (execAll d (ops.map mirrorOp)) (fun h =>
      exp (SymDigest.estQuantileAtValue (⟨l, h⟩ : SymDigest D) x) (fun r => (r.1.toK - R / N) ^ 2))) =
      exp (execAll d ops) (fun l => (1 / N ^ 2) * (wl l - R) ^ 2) := by
    refine exp_congr (hl.partially.mono ?_)
    rintro l ⟨hl1, hl2⟩
    refine (exp_congr (g' := fun _ => (1 / N ^ 2) * (wl l - R) ^ 2) (hh.partially.mono ?_)).trans
      (exp_const (hh.mono fun _ _ => trivial) _)
    rintro h ⟨hh1, hh2⟩
    rw [sym_answer_of hN hl1 hh1, exp_ret]
    rw [abs_le] at hl2 hh2
    rw [if_pos (by linarith [hl2.2, hh2.1])]
    show (wl l / N - R / N) ^ 2 = _
    field_simp
  rw [e, exp_mul_left]
  calc 1 / N ^ 2 * _ ≤ 1 / N ^ 2 * V := mul_le_mul_of_nonneg_left hm (by positivity)
    _ = _ := by field_simp

/-- Above the middle only the high side counts. -/
theorem symQ_high {d : D} {ops : List (Op (Fl ℚ))} (hins : ∀ o ∈ ops, (∃ x, o = .add x) ∨ ∃ xs, o = .addBuffer xs) {x : Fl ℚ} {N R R' E V : ℚ}
    (hN : 0 < N) {wl wh : D → ℚ}
    (hl : Always (execAll d ops) (fun s => Digest.estQuantileAtValue s x = .ret ((.fin (wl s / N) : Fl ℚ), s) ∧ |wl s - R| ≤ E))
    (hh : Always (execAll d (ops.map mirrorOp)) (fun s => Digest.estQuantileAtValue s (-x) = .ret ((.fin (wh s / N) : Fl ℚ), s) ∧ |wh s - R'| ≤ E))
    (hm : exp (execAll d (ops.map mirrorOp)) (fun s => (wh s - R') ^ 2) ≤ V) (hhigh : R' + 2 * E < R) :
    exp (execAll (SymDigest.new d d) ops >>= fun s => s.estQuantileAtValue x) (fun r => (r.1.toK - (N - R') / N) ^ 2) ≤ V / N ^ 2 := by
  rw [exp_bind, exp_symNew d ops hins]
  have e : exp (execAll d ops) (fun l => exp (execAll d (ops.map mirrorOp)) (fun h =>
      exp (SymDigest.estQuantileAtValue (⟨l, h⟩ : SymDigest D) x) (fun r => (r.1.toK - (N - R') / N) ^ 2))) =
      exp (execAll d (ops.map mirrorOp)) (fun h => (1 / N ^ 2) * (wh h - R') ^ 2) := by
    refine Eq.trans (exp_congr (g' := fun _ => exp (execAll d (ops.map mirrorOp)) (fun h => (1 / N ^ 2) * (wh h - R') ^ 2))
      (hl.partially.mono ?_)) (exp_const (hl.mono fun _ _ => trivial) _)
    rintro l ⟨hl1, hl2⟩
    refine exp_congr (hh.partially.mono ?_)
    rintro h ⟨hh1, hh2⟩
    rw [sym_answer_of hN hl1 hh1, exp_ret]
    rw [abs_le] at hl2 hh2
    rw [if_neg (by linarith [hl2.1, hh2.2]), if_pos (by linarith [hl2.1, hh2.2])]
    show (1 - wh h / N - (N - R') / N) ^ 2 = _
    field_simp
    ring
  rw [e, exp_mul_left]
  calc 1 / N ^ 2 * _ ≤ 1 / N ^ 2 * V := mul_le_mul_of_nonneg_left hm (by positivity)
    _ = _ := by field_simp

/-- Everywhere the answer is one of the two, or between. -/
theorem symQ_sure {d : D} {ops : List (Op (Fl ℚ))} (hins : ∀ o ∈ ops, (∃ x, o = .add x) ∨ ∃ xs, o = .addBuffer xs) {x : Fl ℚ} {N R R' E : ℚ}
    (hN : 0 < N) (hRR : N - R' ≤ R) {wl wh : D → ℚ}
    (hl : Always (execAll d ops) (fun s => Digest.estQuantileAtValue s x = .ret ((.fin (wl s / N) : Fl ℚ), s) ∧ |wl s - R| ≤ E))
    (hh : Always (execAll d (ops.map mirrorOp)) (fun s => Digest.estQuantileAtValue s (-x) = .ret ((.fin (wh s / N) : Fl ℚ), s) ∧ |wh s - R'| ≤ E)) :
    Always (execAll (SymDigest.new d d) ops >>= fun s => s.estQuantileAtValue x) (fun r =>
      ∃ a : ℚ, r.1 = .fin a ∧ N - R' - E ≤ a * N ∧ a * N ≤ R + E) := by
  rw [always_bind]
  refine (SymDigest.always_sides _ _ ops hins _ _ hl hh).mono ?_
  rintro ⟨l, h⟩ ⟨⟨hl1, hl2⟩, hh1, hh2⟩
  rw [sym_answer_of hN hl1 hh1]
  rw [abs_le] at hl2 hh2
  rw [Prog.Always]
  simp only at hl2 hh2 ⊢
  have c1 : ∀ a : ℚ, a / N * N = a := fun a => div_mul_cancel₀ _ hN.ne'
  split
  · exact ⟨_, rfl, by rw [c1]; linarith [hl2.1], by rw [c1]; linarith [hl2.2]⟩
  · split
    · exact ⟨_, rfl, by rw [sub_mul, c1]; linarith [hh2.2], by rw [sub_mul, c1]; linarith [hh2.1]⟩
    · refine ⟨_, rfl, ?_, ?_⟩
      · rw [div_mul_eq_mul_div, add_mul, sub_mul, c1, c1]; linarith [hh2.2, hl2.1]
      · rw [div_mul_eq_mul_div, add_mul, sub_mul, c1, c1]; linarith [hh2.1, hl2.2]

/-! ### `RCSketch2` -/

theorem rc2_trait_run {sec : Nat → Nat} (k : Nat) (ops : List (Op (Fl ℚ)))
    (hins : ∀ o ∈ ops, (∃ x, o = .add x) ∨ ∃ xs, o = .addBuffer xs) :
    ∃ iops : List (InsOp ℚ), execAll (RC2.new sec k : RC2 sec ℚ) ops = RCSketch2.runHist sec k iops ∧
      insItems iops = itemsOf ops ∧ ∀ o ∈ iops, o.method = .default := by
  obtain ⟨iops, hio⟩ := exists_traitIns ops hins
  exact ⟨iops, traitIns_exec2 hio _, (traitIns_exec hio (RCSketch.fresh 1 1)).2.1.symm, (traitIns_exec hio (RCSketch.fresh 1 1)).2.2⟩

/-- One side: its answer, its sure error and its mean squared error. -/
theorem rc2_side {sec : Nat → Nat} {k : Nat} (hk : Spec.Sections sec k)
    (ops : List (Op (Fl ℚ))) (hins : ∀ o ∈ ops, (∃ x, o = .add x) ∨ ∃ xs, o = .addBuffer xs)
    (hlen : (itemsOf ops).length < 2 ^ 32) (hnan : ∀ y ∈ itemsOf ops, y ≠ .nan) (hne : itemsOf ops ≠ []) (x : Fl ℚ) (hx : x ≠ .nan) :
    Always (execAll (RC2.new sec k : RC2 sec ℚ) ops) (fun s =>
      Digest.estQuantileAtValue s x = .ret ((.fin ((weightedRank (RCSketch2.buffers s) x : ℚ) / ((itemsOf ops).length : ℚ)) : Fl ℚ), s) ∧
      |(weightedRank (RCSketch2.buffers s) x : ℚ) - rank (itemsOf ops) x| ≤ 180 * ((itemsOf ops).length / k)) ∧
    exp (execAll (RC2.new sec k : RC2 sec ℚ) ops)
      (fun s => ((weightedRank (RCSketch2.buffers s) x : ℚ) - rank (itemsOf ops) x) ^ 2) ≤ 4 * (rank (itemsOf ops) x : ℚ) ^ 2 / k := by
  obtain ⟨iops, hex, hit, hmeth⟩ := rc2_trait_run (sec := sec) k ops hins
  rw [hex]
  rw [← hit] at hlen hnan hne ⊢
  have hNq : (0 : ℚ) < (insItems iops).length := by exact_mod_cast List.length_pos_of_ne_nil hne
  refine ⟨?_, rc2_stored_relative_k hk iops hmeth hlen hnan x⟩
  refine ((C19_insertions_never_panic sec hk.ok k iops hmeth hlen hnan).and (rc2_rank_sure k iops (hk.size hlen) hmeth)).mono ?_
  rintro s ⟨hc, hl, he⟩
  constructor
  · show (RCSketch2.estQuantileAtValue s x >>= _) = _
    unfold RCSketch2.estQuantileAtValue
    rw [estQuantile_eq hx _ _ (by simp [RCSketch2.buffers]; omega), bind_ret, hc, Fl.ofNat_exact, Fl.ofNat_exact,
      Fl.div_exact _ hNq.ne']
    rfl
  · exact (he x).trans (rc2_k_bounds hk _).1

/-- The high side: the mirrored data. -/
theorem rc2_high_side {sec : Nat → Nat} {k : Nat} (hk : Spec.Sections sec k)
    (ops : List (Op (Fl ℚ))) (hins : ∀ o ∈ ops, (∃ x, o = .add x) ∨ ∃ xs, o = .addBuffer xs)
    (hlen : (itemsOf ops).length < 2 ^ 32) (hnan : ∀ y ∈ itemsOf ops, y ≠ .nan) (hne : itemsOf ops ≠ []) (x : Fl ℚ) (hx : x ≠ .nan) :
    Always (execAll (RC2.new sec k : RC2 sec ℚ) (ops.map mirrorOp)) (fun s =>
      Digest.estQuantileAtValue s (-x) = .ret ((.fin ((weightedRank (RCSketch2.buffers s) (-x) : ℚ) / ((itemsOf ops).length : ℚ)) : Fl ℚ), s) ∧
      |(weightedRank (RCSketch2.buffers s) (-x) : ℚ) - ((itemsOf ops).countP (fun y => x ≤ y) : ℚ)| ≤ 180 * ((itemsOf ops).length / k)) ∧
    exp (execAll (RC2.new sec k : RC2 sec ℚ) (ops.map mirrorOp))
      (fun s => ((weightedRank (RCSketch2.buffers s) (-x) : ℚ) - ((itemsOf ops).countP (fun y => x ≤ y) : ℚ)) ^ 2) ≤
        4 * ((itemsOf ops).countP (fun y => x ≤ y) : ℚ) ^ 2 / k := by
  have hx' : -x ≠ .nan := by cases x <;> simp_all
  have h := rc2_side hk (ops.map mirrorOp) (mirror_ins hins) (by rw [mirror_items, List.length_map]; exact hlen)
    (by rw [mirror_items]; exact mirror_nan hnan) (by rw [mirror_items]; simpa using hne) (-x) hx'
  rw [mirror_items, List.length_map, (mirror_rank _ hnan x hx).1] at h
  exact h

theorem below_eq {I : List (Fl ℚ)} (hnan : ∀ y ∈ I, y ≠ .nan) (x : Fl ℚ) (hx : x ≠ .nan) :
    (I.length : ℚ) - (I.countP (fun y => x ≤ y) : ℚ) = (I.countP (fun y => y < x) : ℚ) := by
  have h := (mirror_rank _ hnan x hx).2
  rw [(mirror_rank _ hnan x hx).1] at h
  have : (I.countP (fun y => x ≤ y) : ℚ) + (I.countP (fun y => y < x) : ℚ) = I.length := by exact_mod_cast h
  linarith

/-- C128. Below the middle (by more than `360 N/k`) the estimate of the fraction of items `≤ x` has a mean squared error of at most
`4 p² / k`, `p` the true fraction of items `≤ x`. -/
theorem C128_quantile_low {sec : Nat → Nat} {k : Nat} (hk : Spec.Sections sec k)
    (ops : List (Op (Fl ℚ))) (hins : ∀ o ∈ ops, (∃ x, o = .add x) ∨ ∃ xs, o = .addBuffer xs)
    (hlen : (itemsOf ops).length < 2 ^ 32) (hnan : ∀ y ∈ itemsOf ops, y ≠ .nan) (hne : itemsOf ops ≠ []) (x : Fl ℚ) (hx : x ≠ .nan)
    (hlow : (rank (itemsOf ops) x : ℚ) + 360 * ((itemsOf ops).length / k) < (itemsOf ops).countP (fun y => x ≤ y)) :
    exp (execAll (SymDigest.new (RC2.new sec k : RC2 sec ℚ) (RC2.new sec k)) ops >>= fun d => d.estQuantileAtValue x)
      (fun r => (r.1.toK - (rank (itemsOf ops) x : ℚ) / (itemsOf ops).length) ^ 2) ≤
      4 * ((rank (itemsOf ops) x : ℚ) / (itemsOf ops).length) ^ 2 / k := by
  have hN : (0 : ℚ) < (itemsOf ops).length := Nat.cast_pos.2 (List.length_pos_of_ne_nil hne)
  obtain ⟨hl, hlm⟩ := rc2_side hk ops hins hlen hnan hne x hx
  obtain ⟨hh, -⟩ := rc2_high_side hk ops hins hlen hnan hne x hx
  refine (symQ_low hins hN hl hh hlm (by linarith)).trans (le_of_eq ?_)
  rw [div_pow]
  ring

/-- C128. Above the middle (by more than `360 N/k`) the estimate of the fraction of items `< x` has a mean squared error of at most
`4 p² / k`, `p` the true fraction of items `≥ x`. -/
theorem C128_quantile_high {sec : Nat → Nat} {k : Nat} (hk : Spec.Sections sec k)
    (ops : List (Op (Fl ℚ))) (hins : ∀ o ∈ ops, (∃ x, o = .add x) ∨ ∃ xs, o = .addBuffer xs)
    (hlen : (itemsOf ops).length < 2 ^ 32) (hnan : ∀ y ∈ itemsOf ops, y ≠ .nan) (hne : itemsOf ops ≠ []) (x : Fl ℚ) (hx : x ≠ .nan)
    (hhigh : ((itemsOf ops).countP (fun y => x ≤ y) : ℚ) + 360 * ((itemsOf ops).length / k) < rank (itemsOf ops) x) :
    exp (execAll (SymDigest.new (RC2.new sec k : RC2 sec ℚ) (RC2.new sec k)) ops >>= fun d => d.estQuantileAtValue x)
      (fun r => (r.1.toK - ((itemsOf ops).countP (fun y => y < x) : ℚ) / (itemsOf ops).length) ^ 2) ≤
      4 * (((itemsOf ops).countP (fun y => x ≤ y) : ℚ) / (itemsOf ops).length) ^ 2 / k := by
  have hN : (0 : ℚ) < (itemsOf ops).length := Nat.cast_pos.2 (List.length_pos_of_ne_nil hne)
  obtain ⟨hl, -⟩ := rc2_side hk ops hins hlen hnan hne x hx
  obtain ⟨hh, hhm⟩ := rc2_high_side hk ops hins hlen hnan hne x hx
  have h := symQ_high hins hN hl hh hhm (by linarith)
  rw [below_eq hnan x hx] at h
  refine h.trans (le_of_eq ?_)
  rw [div_pow]
  ring

/-- C128. Everywhere, whatever the coins: the answer is at most `180/k` below the fraction of items `< x` or above the fraction of items `≤ x`. -/
theorem C128_quantile_sure {sec : Nat → Nat} {k : Nat} (hk : Spec.Sections sec k)
    (ops : List (Op (Fl ℚ))) (hins : ∀ o ∈ ops, (∃ x, o = .add x) ∨ ∃ xs, o = .addBuffer xs)
    (hlen : (itemsOf ops).length < 2 ^ 32) (hnan : ∀ y ∈ itemsOf ops, y ≠ .nan) (hne : itemsOf ops ≠ []) (x : Fl ℚ) (hx : x ≠ .nan) :
    Always (execAll (SymDigest.new (RC2.new sec k : RC2 sec ℚ) (RC2.new sec k)) ops >>= fun d => d.estQuantileAtValue x) (fun r =>
      ∃ a : ℚ, r.1 = .fin a ∧ ((itemsOf ops).countP (fun y => y < x) : ℚ) - 180 * ((itemsOf ops).length / k) ≤
          a * (itemsOf ops).length ∧ a * (itemsOf ops).length ≤ rank (itemsOf ops) x + 180 * ((itemsOf ops).length / k)) := by
  have hN : (0 : ℚ) < (itemsOf ops).length := Nat.cast_pos.2 (List.length_pos_of_ne_nil hne)
  have hle : ((itemsOf ops).countP (fun y => y < x) : ℚ) ≤ rank (itemsOf ops) x := by
    have : (itemsOf ops).countP (fun y => y < x) ≤ rank (itemsOf ops) x :=
      List.countP_mono_left (fun y _ h => by simp only [decide_eq_true_eq] at h ⊢; exact h.le)
    exact_mod_cast this
  obtain ⟨hl, -⟩ := rc2_side hk ops hins hlen hnan hne x hx
  obtain ⟨hh, -⟩ := rc2_high_side hk ops hins hlen hnan hne x hx
  have h := symQ_sure hins hN (by rw [below_eq hnan x hx]; exact hle) hl hh
  rwa [below_eq hnan x hx] at h

/-- One side's value query. -/
theorem rc2_side_value {sec : Nat → Nat} {k : Nat} (hk : Spec.Sections sec k)
    (ops : List (Op (Fl ℚ))) (hins : ∀ o ∈ ops, (∃ x, o = .add x) ∨ ∃ xs, o = .addBuffer xs)
    (hlen : (itemsOf ops).length < 2 ^ 32) (hnan : ∀ y ∈ itemsOf ops, y ≠ .nan) (hne : itemsOf ops ≠ [])
    (q : ℚ) (h0 : 0 ≤ q) (h1 : q ≤ 1) :
    Always (execAll (RC2.new sec k : RC2 sec ℚ) ops) (fun s => ∃ v ∈ itemsOf ops,
      Digest.estValueAtQuantile s (.fin q : Fl ℚ) = .ret (v, s) ∧ RCSketch2.estValueAtQuantile s (.fin q) = .ret v) ∧
    ∀ ε : ℚ, 0 < ε → ε ≤ 1 → exp (execAll (RC2.new sec k : RC2 sec ℚ) ops >>= fun s => RCSketch2.estValueAtQuantile s (.fin q))
      (fun v => if ((itemsOf ops).countP (fun y => y < v) : ℚ) ≤ (1 + ε) * (q * (itemsOf ops).length) ∧
        (1 - ε) * (q * (itemsOf ops).length) ≤ (rank (itemsOf ops) v : ℚ) then 0 else 1) ≤ 48 / (k * ε ^ 2) := by
  obtain ⟨iops, hrun, hit, hmeth⟩ := rc2_trait_run (sec := sec) k ops hins
  rw [hrun]
  rw [← hit] at hlen hnan hne ⊢
  have hN : (0 : ℚ) ≤ (insItems iops).length := Nat.cast_nonneg _
  have ht : (.fin q : Fl ℚ) * Fl.ofNat (insItems iops).length = .fin (q * (insItems iops).length) := by
    rw [Fl.ofNat_exact, Fl.mul_exact]
  have hq1 : q * (insItems iops).length ≤ (insItems iops).length := by nlinarith
  constructor
  · refine (rc2_value_sides k iops (hk.size hlen) (by norm_num) hmeth hlen hnan hne (fun m _ => FloatFmt.Exact.rnd_eq _) _ _ ht (by positivity)).mono ?_
    rintro s ⟨v, hv, hvI, -⟩
    refine ⟨v, hvI, ?_, hv⟩
    show (RCSketch2.estValueAtQuantile s _ >>= _) = _
    rw [hv]; rfl
  · intro ε hε hε1
    have h := C100_value_relative hk iops hmeth hlen hnan hne (fun m _ => FloatFmt.Exact.rnd_eq _) _ _ ht (by positivity) hq1 ε hε hε1
    simp only [Rat.cast_id] at h
    exact h

/-- C128. Below the median: for `q < 1/2` and `0 < ε ≤ 1`, except with probability at most `48 / (k ε²)`, at most `(1 + ε) q N` items lie
below the answer and at least `(1 − ε) q N` are not above it. -/
theorem C128_value_low {sec : Nat → Nat} {k : Nat} (hk : Spec.Sections sec k)
    (ops : List (Op (Fl ℚ))) (hins : ∀ o ∈ ops, (∃ x, o = .add x) ∨ ∃ xs, o = .addBuffer xs)
    (hlen : (itemsOf ops).length < 2 ^ 32) (hnan : ∀ y ∈ itemsOf ops, y ≠ .nan) (hne : itemsOf ops ≠ [])
    (q : ℚ) (h0 : 0 ≤ q) (h1 : q < 1 / 2) (ε : ℚ) (hε : 0 < ε) (hε1 : ε ≤ 1) :
    exp (execAll (SymDigest.new (RC2.new sec k : RC2 sec ℚ) (RC2.new sec k)) ops >>= fun d => d.estValueAtQuantile (.fin q)) (fun r =>
      if ((itemsOf ops).countP (fun y => y < r.1) : ℚ) ≤ (1 + ε) * (q * (itemsOf ops).length) ∧
        (1 - ε) * (q * (itemsOf ops).length) ≤ ((itemsOf ops).countP (fun y => y ≤ r.1) : ℚ) then 0 else 1) ≤ 48 / (k * ε ^ 2) := by
  obtain ⟨hl, hle⟩ := rc2_side_value hk ops hins hlen hnan hne q h0 (by linarith)
  obtain ⟨hh, -⟩ := rc2_side_value hk (ops.map mirrorOp) (mirror_ins hins)
    (by rw [mirror_items, List.length_map]; exact hlen) (by rw [mirror_items]; exact mirror_nan hnan)
    (by rw [mirror_items]; simpa using hne) (1 - q) (by linarith) (by linarith)
  rw [exp_bind, exp_symNew _ ops hins]
  refine le_trans (le_of_eq ?_) (hle ε hε hε1)
  rw [exp_bind]
  refine exp_congr (hl.partially.mono ?_)
  rintro l ⟨v, hvI, hv, hv'⟩
  refine (exp_congr (g' := fun _ => if ((itemsOf ops).countP (fun y => y < v) : ℚ) ≤ (1 + ε) * (q * (itemsOf ops).length) ∧
        (1 - ε) * (q * (itemsOf ops).length) ≤ ((itemsOf ops).countP (fun y => y ≤ v) : ℚ) then 0 else 1)
    (hh.partially.mono ?_)).trans ((exp_const (hh.mono fun _ _ => trivial) _).trans ?_)
  · rintro h ⟨w, hwI, hw, -⟩
    unfold SymDigest.estValueAtQuantile
    simp only [hv, bind_ret, Fl.lit_exact, Fl.sub_exact, hw]
    unfold SymDigest.chooseValue
    rw [Fl.lit_exact, Fl.cmp_fin, compare_lt_iff_lt.2 h1]
    rfl
  · rw [hv', exp_ret]; rfl

/-- C128. Above the median: for `q > 1/2` and `0 < ε ≤ 1`, except with probability at most `48 / (k ε²)`, at most `(1 + ε) (1 − q) N` items
lie above the answer and at least `(1 − ε) (1 − q) N` are not below it. -/
theorem C128_value_high {sec : Nat → Nat} {k : Nat} (hk : Spec.Sections sec k)
    (ops : List (Op (Fl ℚ))) (hins : ∀ o ∈ ops, (∃ x, o = .add x) ∨ ∃ xs, o = .addBuffer xs)
    (hlen : (itemsOf ops).length < 2 ^ 32) (hnan : ∀ y ∈ itemsOf ops, y ≠ .nan) (hne : itemsOf ops ≠ [])
    (q : ℚ) (h0 : 1 / 2 < q) (h1 : q ≤ 1) (ε : ℚ) (hε : 0 < ε) (hε1 : ε ≤ 1) :
    exp (execAll (SymDigest.new (RC2.new sec k : RC2 sec ℚ) (RC2.new sec k)) ops >>= fun d => d.estValueAtQuantile (.fin q)) (fun r =>
      if ((itemsOf ops).countP (fun y => r.1 < y) : ℚ) ≤ (1 + ε) * ((1 - q) * (itemsOf ops).length) ∧
        (1 - ε) * ((1 - q) * (itemsOf ops).length) ≤ ((itemsOf ops).countP (fun y => r.1 ≤ y) : ℚ) then 0 else 1) ≤
      48 / (k * ε ^ 2) := by
  obtain ⟨hl, -⟩ := rc2_side_value hk ops hins hlen hnan hne q (by linarith) h1
  obtain ⟨hh, hhe⟩ := rc2_side_value hk (ops.map mirrorOp) (mirror_ins hins)
    (by rw [mirror_items, List.length_map]; exact hlen) (by rw [mirror_items]; exact mirror_nan hnan)
    (by rw [mirror_items]; simpa using hne) (1 - q) (by linarith) (by linarith)
  rw [exp_bind, exp_symNew _ ops hins]
  have hhe := hhe ε hε hε1
  rw [exp_bind] at hhe
  refine le_trans (le_of_eq ?_) hhe
  refine Eq.trans (exp_congr (g' := fun _ => exp (execAll (RC2.new sec k : RC2 sec ℚ) (ops.map mirrorOp)) (fun h =>
      exp (RCSketch2.estValueAtQuantile h (.fin (1 - q))) (fun v =>
      if ((itemsOf (ops.map mirrorOp)).countP (fun y => y < v) : ℚ) ≤ (1 + ε) * ((1 - q) * (itemsOf (ops.map mirrorOp)).length) ∧
        (1 - ε) * ((1 - q) * (itemsOf (ops.map mirrorOp)).length) ≤ (rank (itemsOf (ops.map mirrorOp)) v : ℚ) then 0 else 1)))
      (hl.partially.mono ?_)) (exp_const (hl.mono fun _ _ => trivial) _)
  rintro l ⟨v, hvI, hv, -⟩
  refine exp_congr (hh.partially.mono ?_)
  rintro h ⟨w, hwI, hw, hw'⟩
  rw [hw', exp_ret]
  unfold SymDigest.estValueAtQuantile
  simp only [hv, bind_ret, Fl.lit_exact, Fl.sub_exact, hw]
  unfold SymDigest.chooseValue
  rw [Fl.lit_exact, Fl.cmp_fin, compare_gt_iff_gt.2 h0]
  rw [mirror_items] at hwI ⊢
  obtain ⟨u, huI, rfl⟩ := List.mem_map.1 hwI
  have hu := hnan u huI
  have e1 : ((itemsOf ops).map (fun x => -x)).countP (fun y => y < -u) = (itemsOf ops).countP (fun y => u < y) := by
    rw [List.countP_map]
    refine List.countP_congr (fun y hy => ?_)
    simp only [Function.comp, decide_eq_true_eq]
    exact Fl.neg_lt_neg_iff (hnan y hy) hu
  rw [e1, (mirror_rank _ hnan u hu).1, List.length_map]
  show (if ((itemsOf ops).countP (fun y => - -u < y) : ℚ) ≤ _ ∧ _ ≤ ((itemsOf ops).countP (fun y => - -u ≤ y) : ℚ) then (0 : ℚ) else 1) = _
  rw [Fl.neg_neg']

end

section examples
attribute [local instance] ratExact ratExact_exact

/-- 8000 items, 80 times 0, 1, ..., 99, in two sketches `new(1000)`, which hold 6000 items before they compact. -/
def symRC2Hist : List (Op (Fl ℚ)) := List.replicate 80 (.addBuffer (upTo 100))

theorem itemsOf_replicate (o : Op (Fl ℚ)) : ∀ m : Nat, itemsOf (List.replicate m o) = (List.replicate m o.items).flatten
  | 0 => rfl
  | m + 1 => by
    show o.items ++ itemsOf (List.replicate m o) = _
    rw [itemsOf_replicate o m]
    rfl

theorem symRC2Hist_count (p : Fl ℚ → Bool) : (itemsOf symRC2Hist).countP p = 80 * (upTo 100 : List (Fl ℚ)).countP p := by
  unfold symRC2Hist
  rw [itemsOf_replicate, List.countP_flatten, List.map_replicate, List.sum_replicate]
  rfl

theorem symRC2Hist_ok : (∀ o ∈ symRC2Hist, (∃ x, o = .add x) ∨ ∃ xs, o = .addBuffer xs) ∧ (itemsOf symRC2Hist).length = 8000 ∧
    (∀ y ∈ itemsOf symRC2Hist, y ≠ .nan) ∧ itemsOf symRC2Hist ≠ [] := by
  have hl : (itemsOf symRC2Hist).length = 8000 := by
    rw [← List.countP_true, symRC2Hist_count]
    decide +kernel
  refine ⟨?_, hl, ?_, ?_⟩
  · intro o ho
    exact .inr ⟨_, (List.mem_replicate.1 ho).2⟩
  · intro y hy
    rw [symRC2Hist, itemsOf_replicate, List.mem_flatten] at hy
    obtain ⟨l, hl, hy⟩ := hy
    rw [(List.mem_replicate.1 hl).2] at hy
    exact (show ∀ y ∈ (upTo 100 : List (Fl ℚ)), y ≠ .nan by decide +kernel) y hy
  · intro e
    rw [e] at hl
    simp at hl

/-- C128 with the section sizes the code computes, `k = 1000`: 240 items are `≤ 2` and 240 are `≥ 97`. -/
theorem C128_example : exp (execAll (SymDigest.new (RC2.new (f32Sec 1000) 1000 : RC2 (f32Sec 1000) ℚ) (RC2.new (f32Sec 1000) 1000)) symRC2Hist >>=
      fun d => d.estQuantileAtValue (.fin 2)) (fun r => (r.1.toK - 240 / 8000) ^ 2) ≤ 4 * (240 / 8000) ^ 2 / 1000 ∧
    exp (execAll (SymDigest.new (RC2.new (f32Sec 1000) 1000 : RC2 (f32Sec 1000) ℚ) (RC2.new (f32Sec 1000) 1000)) symRC2Hist >>=
      fun d => d.estQuantileAtValue (.fin 97)) (fun r => (r.1.toK - 7760 / 8000) ^ 2) ≤ 4 * (240 / 8000) ^ 2 / 1000 := by
  obtain ⟨h1, h2, h3, h4⟩ := symRC2Hist_ok
  have hk := sections_f32 (k := 1000) (by norm_num) (by norm_num)
  constructor
  · have r1 : rank (itemsOf symRC2Hist) (.fin 2) = 240 := by unfold rank; rw [symRC2Hist_count]; decide +kernel
    have r2 : (itemsOf symRC2Hist).countP (fun y => (.fin 2 : Fl ℚ) ≤ y) = 7840 := by rw [symRC2Hist_count]; decide +kernel
    have h := C128_quantile_low hk symRC2Hist h1 (by rw [h2]; norm_num) h3 h4 (.fin 2) (by simp) (by rw [r1, r2, h2]; norm_num)
    rw [r1, h2] at h
    exact_mod_cast h
  · have r1 : rank (itemsOf symRC2Hist) (.fin 97) = 7840 := by unfold rank; rw [symRC2Hist_count]; decide +kernel
    have r2 : (itemsOf symRC2Hist).countP (fun y => (.fin 97 : Fl ℚ) ≤ y) = 240 := by rw [symRC2Hist_count]; decide +kernel
    have r3 : (itemsOf symRC2Hist).countP (fun y => y < (.fin 97 : Fl ℚ)) = 7760 := by rw [symRC2Hist_count]; decide +kernel
    have h := C128_quantile_high hk symRC2Hist h1 (by rw [h2]; norm_num) h3 h4 (.fin 97) (by simp) (by rw [r1, r2, h2]; norm_num)
    rw [r2, r3, h2] at h
    exact_mod_cast h
end examples
end AQ

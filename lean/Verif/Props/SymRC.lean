/-
Property C95: a `SymDigest` of two `RCSketch`es is accurate towards both ends.
-/
import Verif.Props.RCValue
import Verif.Props.SymDigest

set_option linter.unusedSectionVars false
set_option linter.unusedVariables false

namespace AQ
open Spec Prog RCSketch

section
variable {K : Type} [Field K] [LinearOrder K] [IsStrictOrderedRing K] [FloatFmt K]
variable {D : Type} [Digest D (Fl K)]

/-- After insertions the two sides of a `SymDigest` are independent, the high side having seen the negated data. -/
theorem SymDigest.exp_sides : ∀ (ops : List (Op (Fl K))) (hins : ∀ o ∈ ops, (∃ x, o = .add x) ∨ ∃ xs, o = .addBuffer xs)
    (l h : D) (f : D → D → ℚ),
    exp (execAll (⟨l, h⟩ : SymDigest D) ops) (fun s => f s.low s.high) =
      exp (execAll l ops) (fun l' => exp (execAll h (ops.map mirrorOp)) (fun h' => f l' h'))
  | [], _, l, h, f => rfl
  | o :: os, hins, l, h, f => by
    have ih := SymDigest.exp_sides os (fun o' ho' => hins o' (by simp [ho']))
    rcases hins o (by simp) with ⟨x, rfl⟩ | ⟨xs, rfl⟩
    · show exp (SymDigest.add ⟨l, h⟩ x >>= fun s => execAll s os) _ =
        exp (Digest.add l x >>= fun l => execAll l os) (fun l' =>
          exp (Digest.add h (-x) >>= fun h => execAll h (os.map mirrorOp)) (fun h' => f l' h'))
      unfold SymDigest.add
      simp only [exp_bind, pure_eq, exp_ret, ih]
      refine congrArg _ (funext fun l1 => ?_)
      rw [exp_swap]
    · show exp (SymDigest.addBuffer ⟨l, h⟩ xs >>= fun s => execAll s os) _ =
        exp (Digest.addBuffer l xs >>= fun l => execAll l os) (fun l' =>
          exp (Digest.addBuffer h (xs.map (fun x => -x)) >>= fun h => execAll h (os.map mirrorOp)) (fun h' => f l' h'))
      unfold SymDigest.addBuffer
      simp only [exp_bind, pure_eq, exp_ret, ih]
      refine congrArg _ (funext fun l1 => ?_)
      rw [exp_swap]

/-- What surely holds of each side alone. -/
theorem SymDigest.always_sides (P Q : D → Prop) : ∀ (ops : List (Op (Fl K)))
    (hins : ∀ o ∈ ops, (∃ x, o = .add x) ∨ ∃ xs, o = .addBuffer xs) (l h : D),
    Always (execAll l ops) P → Always (execAll h (ops.map mirrorOp)) Q →
    Always (execAll (⟨l, h⟩ : SymDigest D) ops) (fun s => P s.low ∧ Q s.high)
  | [], _, l, h, hP, hQ => ⟨hP, hQ⟩
  | o :: os, hins, l, h, hP, hQ => by
    have ih := SymDigest.always_sides P Q os (fun o' ho' => hins o' (by simp [ho']))
    rcases hins o (by simp) with ⟨x, rfl⟩ | ⟨xs, rfl⟩
    · show Always (SymDigest.add ⟨l, h⟩ x >>= fun s => execAll s os) _
      replace hP : Always (Digest.add l x >>= fun l => execAll l os) P := hP
      replace hQ : Always (Digest.add h (-x) >>= fun h => execAll h (os.map mirrorOp)) Q := hQ
      rw [always_bind] at hP hQ
      unfold SymDigest.add
      simp only [always_bind, pure_eq]
      exact hP.mono (fun l1 h1 => hQ.mono (fun h2 h3 => ih _ _ h1 h3))
    · show Always (SymDigest.addBuffer ⟨l, h⟩ xs >>= fun s => execAll s os) _
      replace hP : Always (Digest.addBuffer l xs >>= fun l => execAll l os) P := hP
      replace hQ : Always (Digest.addBuffer h (xs.map (fun x => -x)) >>= fun h => execAll h (os.map mirrorOp)) Q := hQ
      rw [always_bind] at hP hQ
      unfold SymDigest.addBuffer
      simp only [always_bind, pure_eq]
      exact hP.mono (fun l1 h1 => hQ.mono (fun h2 h3 => ih _ _ h1 h3))

theorem Fl.neg_le_neg_iff {a b : Fl K} (ha : a ≠ .nan) (hb : b ≠ .nan) : -a ≤ -b ↔ b ≤ a := by
  cases a <;> cases b <;> simp_all [Fl.fin_le_fin]

theorem Fl.neg_lt_neg_iff {a b : Fl K} (ha : a ≠ .nan) (hb : b ≠ .nan) : -a < -b ↔ b < a := by
  rw [← not_le, ← not_le, Fl.neg_le_neg_iff hb ha]

theorem mirror_items (ops : List (Op (Fl K))) : itemsOf (ops.map mirrorOp) = (itemsOf ops).map (fun x => -x) := by
  induction ops with
  | nil => rfl
  | cons o os ih =>
    show (mirrorOp o).items ++ itemsOf (os.map mirrorOp) = (o.items ++ itemsOf os).map _
    rw [ih, List.map_append]
    cases o <;> rfl

/-- One side: a history through the trait is one of insertions without fast compaction. -/
theorem rc_trait_run (n k : Nat) (hk : 1 ≤ k) (ops : List (Op (Fl K)))
    (hins : ∀ o ∈ ops, (∃ x, o = .add x) ∨ ∃ xs, o = .addBuffer xs) :
    ∃ iops : List (InsOp K), execAll (RCSketch.fresh n k : RCSketch K) ops = RCSketch.runHist n k iops ∧
      insItems iops = itemsOf ops ∧ (∀ o ∈ iops, o.method = .default) ∧ ∀ o ∈ iops, o.fast = false := by
  obtain ⟨iops, hio⟩ := exists_traitIns ops hins
  refine ⟨iops, ?_, (traitIns_exec hio (RCSketch.fresh n k)).2.1.symm, (traitIns_exec hio (RCSketch.fresh n k)).2.2,
    traitIns_fast hio⟩
  rw [(traitIns_exec hio _).1]
  unfold RCSketch.runHist
  rw [RCSketch.new_eq (by omega), bind_ret]

theorem mirror_ins {ops : List (Op (Fl K))} (hins : ∀ o ∈ ops, (∃ x, o = .add x) ∨ ∃ xs, o = .addBuffer xs) :
    ∀ o ∈ ops.map mirrorOp, (∃ x : Fl K, o = .add x) ∨ ∃ xs, o = .addBuffer xs := by
  intro o ho
  obtain ⟨o', ho', rfl⟩ := List.mem_map.1 ho
  rcases hins o' ho' with ⟨x, rfl⟩ | ⟨xs, rfl⟩
  · exact .inl ⟨_, rfl⟩
  · exact .inr ⟨_, rfl⟩

/-- A `SymDigest` of two new sketches after a history. -/
def symRC (n k : Nat) (ops : List (Op (Fl K))) : Prog (SymDigest (RCSketch K)) := do
  let l ← RCSketch.new n k
  let h ← RCSketch.new n k
  execAll (SymDigest.new l h) ops

theorem exp_symRC (n k : Nat) (hk : 1 ≤ k) (ops : List (Op (Fl K)))
    (hins : ∀ o ∈ ops, (∃ x, o = .add x) ∨ ∃ xs, o = .addBuffer xs) (f : SymDigest (RCSketch K) → ℚ) :
    exp (symRC n k ops) f = exp (execAll (RCSketch.fresh n k : RCSketch K) ops) (fun l =>
      exp (execAll (RCSketch.fresh n k : RCSketch K) (ops.map mirrorOp)) (fun h => f ⟨l, h⟩)) := by
  unfold symRC
  rw [RCSketch.new_eq (by omega), bind_ret, bind_ret]
  exact SymDigest.exp_sides ops hins _ _ (fun l h => f ⟨l, h⟩)

theorem mirror_rank (I : List (Fl K)) (hnan : ∀ y ∈ I, y ≠ .nan) (x : Fl K) (hx : x ≠ .nan) :
    rank (I.map (fun y => -y)) (-x) = I.countP (fun y => x ≤ y) ∧
    rank (I.map (fun y => -y)) (-x) + I.countP (fun y => y < x) = I.length := by
  have h1 : rank (I.map (fun y => -y)) (-x) = I.countP (fun y => x ≤ y) := by
    unfold rank
    rw [List.countP_map]
    refine List.countP_congr (fun y hy => ?_)
    simp only [Function.comp, decide_eq_true_eq]
    exact Fl.neg_le_neg_iff (hnan y hy) hx
  refine ⟨h1, ?_⟩
  rw [h1, List.length_eq_countP_add_countP (fun y => decide (x ≤ y)) (l := I)]
  congr 1
  refine List.countP_congr (fun y hy => ?_)
  simp [not_le]

theorem mirror_nan {I : List (Fl K)} (hnan : ∀ y ∈ I, y ≠ .nan) : ∀ y ∈ I.map (fun y => -y), y ≠ .nan := by
  intro y hy
  obtain ⟨z, hz, rfl⟩ := List.mem_map.1 hy
  have := hnan z hz
  cases z <;> simp_all

end

/-- The a-priori bound on rank errors (C63). -/
def apriori (n k N : Nat) : ℚ := (N * (Nat.log 2 (N / max (2 * k * Nat.clog 2 (n / k)) (2 * k)) + 1) : Nat) / k

section
variable [FloatFmt ℚ]

variable [FloatFmt.Exact ℚ]

/-- Everything needed about one side: its answer, its sure error and its mean squared error. -/
theorem rc_side (n k : Nat) (hk : 1 ≤ k) (hk2 : k % 2 = 0) (hn : n < 2 ^ 32)
    (ops : List (Op (Fl ℚ))) (hins : ∀ o ∈ ops, (∃ x, o = .add x) ∨ ∃ xs, o = .addBuffer xs)
    (hlen : (itemsOf ops).length ≤ n) (hnan : ∀ y ∈ itemsOf ops, y ≠ .nan) (hne : itemsOf ops ≠ []) (x : Fl ℚ) (hx : x ≠ .nan) :
    Always (execAll (RCSketch.fresh n k : RCSketch ℚ) ops) (fun s =>
      Digest.estQuantileAtValue s x = .ret ((.fin ((weightedRank s.buffers x : ℚ) / (itemsOf ops).length) : Fl ℚ), s) ∧
      |(weightedRank s.buffers x : ℚ) - rank (itemsOf ops) x| ≤ apriori n k (itemsOf ops).length) ∧
    exp (execAll (RCSketch.fresh n k : RCSketch ℚ) ops)
      (fun s => ((weightedRank s.buffers x : ℚ) - rank (itemsOf ops) x) ^ 2) ≤ 2 * ((rank (itemsOf ops) x : ℚ) / k) ^ 2 := by
  obtain ⟨iops, hrun, hit, hmeth, hfast⟩ := rc_trait_run n k hk ops hins
  rw [hrun]
  rw [← hit] at hlen hnan hne ⊢
  have hN : (0 : ℚ) < (insItems iops).length := Nat.cast_pos.2 (List.length_pos_of_ne_nil hne)
  have hkq : (0 : ℚ) < k := by exact_mod_cast hk
  refine ⟨?_, (C92_stored_rank_relative n k hk hk2 hn iops hmeth hfast hlen hnan x).2⟩
  refine ((C07_insertions_never_panic n k hk hn iops hmeth hlen hnan).and
    ((rc_levels n k hk2 iops (by omega)).and ((C63_a_priori_rank_error n k hk2 iops hmeth).and (rc_static n k iops)))).mono ?_
  rintro s ⟨hc, hl, he, hst⟩
  constructor
  · show (s.estQuantileAtValue x >>= _) = _
    unfold RCSketch.estQuantileAtValue
    rw [estQuantile_eq hx _ _ (by omega), bind_ret, hc, Fl.ofNat_exact, Fl.ofNat_exact, Fl.div_exact _ hN.ne']
    rfl
  · have h := he x hx
    rw [C17_rank_is_interpolate_rank s (by omega) x hx] at h
    obtain ⟨a1, a2⟩ := h
    have hB : s.bufferSize = max (2 * k * Nat.clog 2 (n / k)) (2 * k) := by
      have := hst.2.2.2.2
      simp_all [bsize]
    rw [hB] at a1 a2
    unfold apriori
    generalize ((insItems iops).length * (Nat.log 2 ((insItems iops).length / max (2 * k * Nat.clog 2 (n / k)) (2 * k)) + 1)) = D
      at a1 a2 ⊢
    have a1 : (k : ℚ) * weightedRank s.buffers x ≤ k * rank (insItems iops) x + D := by exact_mod_cast a1
    have a2 : (k : ℚ) * rank (insItems iops) x ≤ k * weightedRank s.buffers x + D := by exact_mod_cast a2
    rw [abs_le]
    constructor
    · rw [neg_le, neg_sub, le_div_iff₀ hkq]; linarith
    · rw [le_div_iff₀ hkq]; linarith


/-- Both sides together: the estimates, and the sure bounds on them. -/
theorem sym_sides (n k : Nat) (hk : 1 ≤ k) (hk2 : k % 2 = 0) (hn : n < 2 ^ 32)
    (ops : List (Op (Fl ℚ))) (hins : ∀ o ∈ ops, (∃ x, o = .add x) ∨ ∃ xs, o = .addBuffer xs)
    (hlen : (itemsOf ops).length ≤ n) (hnan : ∀ y ∈ itemsOf ops, y ≠ .nan) (hne : itemsOf ops ≠ []) (x : Fl ℚ) (hx : x ≠ .nan) :
    Always (execAll (RCSketch.fresh n k : RCSketch ℚ) (ops.map mirrorOp)) (fun s =>
      Digest.estQuantileAtValue s (-x) = .ret ((.fin ((weightedRank s.buffers (-x) : ℚ) / (itemsOf ops).length) : Fl ℚ), s) ∧
      |(weightedRank s.buffers (-x) : ℚ) - (itemsOf ops).countP (fun y => x ≤ y)| ≤ apriori n k (itemsOf ops).length) ∧
    exp (execAll (RCSketch.fresh n k : RCSketch ℚ) (ops.map mirrorOp))
      (fun s => ((weightedRank s.buffers (-x) : ℚ) - (itemsOf ops).countP (fun y => x ≤ y)) ^ 2) ≤
        2 * (((itemsOf ops).countP (fun y => x ≤ y) : ℚ) / k) ^ 2 := by
  have hx' : -x ≠ .nan := by cases x <;> simp_all
  have h := rc_side n k hk hk2 hn (ops.map mirrorOp) (mirror_ins hins) (by rw [mirror_items, List.length_map]; exact hlen)
    (by rw [mirror_items]; exact mirror_nan hnan) (by rw [mirror_items]; simpa using hne) (-x) hx'
  rw [mirror_items, List.length_map, (mirror_rank _ hnan x hx).1] at h
  exact h

/-- The choice between the two estimates. -/
theorem choose_fin (a b : ℚ) : SymDigest.chooseQuantile (.fin a : Fl ℚ) (.fin b) =
    .ret (if a + b < 1 then .fin a else if 1 < a + b then .fin b else .fin ((a + b) / 2)) := by
  unfold SymDigest.chooseQuantile
  rw [Fl.lit_exact, Fl.lit_exact, Fl.add_exact, Fl.div_exact _ (by norm_num : (2 : ℚ) ≠ 0)]
  simp only [Fl.cmp_fin]
  rcases lt_trichotomy (a + b) 1 with h | h | h
  · rw [compare_lt_iff_lt.2 (by linarith), if_pos h]
  · rw [compare_eq_iff_eq.2 (by linarith), if_neg (by linarith), if_neg (by linarith)]
  · rw [compare_gt_iff_gt.2 (by linarith), if_neg (by linarith), if_pos h]

theorem sym_answer {l h : RCSketch ℚ} {x : Fl ℚ} {N : ℚ} (hN : 0 < N)
    (hl : Digest.estQuantileAtValue l x = .ret ((.fin ((weightedRank l.buffers x : ℚ) / N) : Fl ℚ), l))
    (hh : Digest.estQuantileAtValue h (-x) = .ret ((.fin ((weightedRank h.buffers (-x) : ℚ) / N) : Fl ℚ), h)) :
    SymDigest.estQuantileAtValue (⟨l, h⟩ : SymDigest (RCSketch ℚ)) x = .ret (
      (if (weightedRank l.buffers x : ℚ) < weightedRank h.buffers (-x) then .fin ((weightedRank l.buffers x : ℚ) / N)
       else if (weightedRank h.buffers (-x) : ℚ) < weightedRank l.buffers x then .fin (1 - (weightedRank h.buffers (-x) : ℚ) / N)
       else .fin (((weightedRank l.buffers x : ℚ) / N + (1 - (weightedRank h.buffers (-x) : ℚ) / N)) / 2)), ⟨l, h⟩) := by
  unfold SymDigest.estQuantileAtValue
  rw [hl, bind_ret]
  simp only [hh, bind_ret]
  rw [Fl.lit_exact, Fl.sub_exact, choose_fin]
  have e : ∀ a b : ℚ, (a / N + (1 - b / N) < 1 ↔ a < b) := fun a b => by
    rw [← div_lt_div_iff_of_pos_right hN (a := a) (b := b)]
    constructor <;> intro h <;> linarith
  have e' : ∀ a b : ℚ, (1 < a / N + (1 - b / N) ↔ b < a) := fun a b => by
    rw [← div_lt_div_iff_of_pos_right hN (a := b) (b := a)]
    constructor <;> intro h <;> linarith
  simp only [e, e']
  rfl

/-- C95. Below the middle (by more than the a-priori error) the estimate of the fraction of items `≤ x` has a mean squared error of
at most `2 (p / k)²`, `p` the true fraction of items `≤ x`. -/
theorem C95_quantile_low (n k : Nat) (hk : 1 ≤ k) (hk2 : k % 2 = 0) (hn : n < 2 ^ 32)
    (ops : List (Op (Fl ℚ))) (hins : ∀ o ∈ ops, (∃ x, o = .add x) ∨ ∃ xs, o = .addBuffer xs)
    (hlen : (itemsOf ops).length ≤ n) (hnan : ∀ y ∈ itemsOf ops, y ≠ .nan) (hne : itemsOf ops ≠ []) (x : Fl ℚ) (hx : x ≠ .nan)
    (hlow : (rank (itemsOf ops) x : ℚ) + 2 * apriori n k (itemsOf ops).length < (itemsOf ops).countP (fun y => x ≤ y)) :
    exp (symRC n k ops >>= fun d => d.estQuantileAtValue x)
      (fun r => (r.1.toK - (rank (itemsOf ops) x : ℚ) / (itemsOf ops).length) ^ 2) ≤
      2 * ((rank (itemsOf ops) x : ℚ) / (itemsOf ops).length / k) ^ 2 := by
  obtain ⟨hl, hlm⟩ := rc_side n k hk hk2 hn ops hins hlen hnan hne x hx
  obtain ⟨hh, -⟩ := sym_sides n k hk hk2 hn ops hins hlen hnan hne x hx
  have hN : (0 : ℚ) < (itemsOf ops).length := Nat.cast_pos.2 (List.length_pos_of_ne_nil hne)
  rw [exp_bind, exp_symRC n k hk ops hins]
  set N : ℚ := ((itemsOf ops).length : ℚ) with hNd
  set R : ℚ := (rank (itemsOf ops) x : ℚ) with hR
  have e : exp (execAll (RCSketch.fresh n k : RCSketch ℚ) ops) (fun l =>
      exp (execAll (RCSketch.fresh n k : RCSketch ℚ) (ops.map mirrorOp)) (fun h =>
        exp (SymDigest.estQuantileAtValue ⟨l, h⟩ x) (fun r => (r.1.toK - R / N) ^ 2))) =
      exp (execAll (RCSketch.fresh n k : RCSketch ℚ) ops) (fun l => (1 / N ^ 2) * ((weightedRank l.buffers x : ℚ) - R) ^ 2) := by
    refine exp_congr (hl.partially.mono ?_)
    rintro l ⟨hl1, hl2⟩
    refine (exp_congr (g' := fun _ => (1 / N ^ 2) * ((weightedRank l.buffers x : ℚ) - R) ^ 2) (hh.partially.mono ?_)).trans
      (exp_const (hh.mono fun _ _ => trivial) _)
    rintro h ⟨hh1, hh2⟩
    rw [sym_answer hN hl1 hh1, exp_ret]
    rw [abs_le] at hl2 hh2
    rw [if_pos (by linarith [hl2.2, hh2.1])]
    show ((weightedRank l.buffers x : ℚ) / N - R / N) ^ 2 = _
    field_simp
  rw [e, exp_mul_left]
  calc 1 / N ^ 2 * _ ≤ 1 / N ^ 2 * (2 * (R / k) ^ 2) := mul_le_mul_of_nonneg_left hlm (by positivity)
    _ = _ := by
      have hkq : (0 : ℚ) < k := by exact_mod_cast hk
      field_simp

/-- C95. Above the middle (by more than the a-priori error) the estimate of the fraction of items `< x` has a mean squared error of
at most `2 (p / k)²`, `p` the true fraction of items `≥ x`. -/
theorem C95_quantile_high (n k : Nat) (hk : 1 ≤ k) (hk2 : k % 2 = 0) (hn : n < 2 ^ 32)
    (ops : List (Op (Fl ℚ))) (hins : ∀ o ∈ ops, (∃ x, o = .add x) ∨ ∃ xs, o = .addBuffer xs)
    (hlen : (itemsOf ops).length ≤ n) (hnan : ∀ y ∈ itemsOf ops, y ≠ .nan) (hne : itemsOf ops ≠ []) (x : Fl ℚ) (hx : x ≠ .nan)
    (hhigh : ((itemsOf ops).countP (fun y => x ≤ y) : ℚ) + 2 * apriori n k (itemsOf ops).length < rank (itemsOf ops) x) :
    exp (symRC n k ops >>= fun d => d.estQuantileAtValue x)
      (fun r => (r.1.toK - ((itemsOf ops).countP (fun y => y < x) : ℚ) / (itemsOf ops).length) ^ 2) ≤
      2 * (((itemsOf ops).countP (fun y => x ≤ y) : ℚ) / (itemsOf ops).length / k) ^ 2 := by
  obtain ⟨hl, -⟩ := rc_side n k hk hk2 hn ops hins hlen hnan hne x hx
  obtain ⟨hh, hhm⟩ := sym_sides n k hk hk2 hn ops hins hlen hnan hne x hx
  have hN : (0 : ℚ) < (itemsOf ops).length := Nat.cast_pos.2 (List.length_pos_of_ne_nil hne)
  have hsum : ((itemsOf ops).countP (fun y => x ≤ y) : ℚ) + (itemsOf ops).countP (fun y => y < x) = (itemsOf ops).length := by
    have h := (mirror_rank _ hnan x hx).2
    rw [(mirror_rank _ hnan x hx).1] at h
    exact_mod_cast h
  rw [exp_bind, exp_symRC n k hk ops hins]
  set N : ℚ := ((itemsOf ops).length : ℚ) with hNd
  set R : ℚ := ((itemsOf ops).countP (fun y => x ≤ y) : ℚ) with hR
  set R' : ℚ := ((itemsOf ops).countP (fun y => y < x) : ℚ) with hR'
  have e : exp (execAll (RCSketch.fresh n k : RCSketch ℚ) ops) (fun l =>
      exp (execAll (RCSketch.fresh n k : RCSketch ℚ) (ops.map mirrorOp)) (fun h =>
        exp (SymDigest.estQuantileAtValue ⟨l, h⟩ x) (fun r => (r.1.toK - R' / N) ^ 2))) =
      exp (execAll (RCSketch.fresh n k : RCSketch ℚ) (ops.map mirrorOp))
        (fun h => (1 / N ^ 2) * ((weightedRank h.buffers (-x) : ℚ) - R) ^ 2) := by
    refine Eq.trans (exp_congr (g' := fun _ => exp (execAll (RCSketch.fresh n k : RCSketch ℚ) (ops.map mirrorOp))
        (fun h => (1 / N ^ 2) * ((weightedRank h.buffers (-x) : ℚ) - R) ^ 2)) (hl.partially.mono ?_))
      (exp_const (hl.mono fun _ _ => trivial) _)
    rintro l ⟨hl1, hl2⟩
    refine exp_congr (hh.partially.mono ?_)
    rintro h ⟨hh1, hh2⟩
    rw [sym_answer hN hl1 hh1, exp_ret]
    rw [abs_le] at hl2 hh2
    rw [if_neg (by linarith [hl2.1, hh2.2]), if_pos (by linarith [hl2.1, hh2.2])]
    show (1 - (weightedRank h.buffers (-x) : ℚ) / N - R' / N) ^ 2 = _
    have : R' = N - R := by linarith
    rw [this]
    field_simp
    ring
  rw [e, exp_mul_left]
  calc 1 / N ^ 2 * _ ≤ 1 / N ^ 2 * (2 * (R / k) ^ 2) := mul_le_mul_of_nonneg_left hhm (by positivity)
    _ = _ := by
      have hkq : (0 : ℚ) < k := by exact_mod_cast hk
      field_simp

/-- C95. Everywhere, whatever the coins: the answer is at most the a-priori error below the fraction of items `< x` or above the
fraction of items `≤ x`. -/
theorem C95_quantile_sure (n k : Nat) (hk : 1 ≤ k) (hk2 : k % 2 = 0) (hn : n < 2 ^ 32)
    (ops : List (Op (Fl ℚ))) (hins : ∀ o ∈ ops, (∃ x, o = .add x) ∨ ∃ xs, o = .addBuffer xs)
    (hlen : (itemsOf ops).length ≤ n) (hnan : ∀ y ∈ itemsOf ops, y ≠ .nan) (hne : itemsOf ops ≠ []) (x : Fl ℚ) (hx : x ≠ .nan) :
    Always (symRC n k ops >>= fun d => d.estQuantileAtValue x) (fun r =>
      ∃ a : ℚ, r.1 = .fin a ∧ ((itemsOf ops).countP (fun y => y < x) : ℚ) - apriori n k (itemsOf ops).length ≤
          a * (itemsOf ops).length ∧ a * (itemsOf ops).length ≤ rank (itemsOf ops) x + apriori n k (itemsOf ops).length) := by
  obtain ⟨hl, -⟩ := rc_side n k hk hk2 hn ops hins hlen hnan hne x hx
  obtain ⟨hh, -⟩ := sym_sides n k hk hk2 hn ops hins hlen hnan hne x hx
  have hN : (0 : ℚ) < (itemsOf ops).length := Nat.cast_pos.2 (List.length_pos_of_ne_nil hne)
  have hsum : ((itemsOf ops).countP (fun y => x ≤ y) : ℚ) + (itemsOf ops).countP (fun y => y < x) = (itemsOf ops).length := by
    have h := (mirror_rank _ hnan x hx).2
    rw [(mirror_rank _ hnan x hx).1] at h
    exact_mod_cast h
  have hle : ((itemsOf ops).countP (fun y => y < x) : ℚ) ≤ rank (itemsOf ops) x := by
    have : (itemsOf ops).countP (fun y => y < x) ≤ rank (itemsOf ops) x :=
      List.countP_mono_left (fun y _ h => by simp only [decide_eq_true_eq] at h ⊢; exact h.le)
    exact_mod_cast this
  unfold symRC
  rw [RCSketch.new_eq (by omega), bind_ret, bind_ret, always_bind]
  refine (SymDigest.always_sides _ _ ops hins _ _ hl hh).mono ?_
  rintro ⟨l, h⟩ ⟨⟨hl1, hl2⟩, hh1, hh2⟩
  rw [sym_answer hN hl1 hh1]
  rw [abs_le] at hl2 hh2
  rw [Prog.Always]
  simp only at hl2 hh2 ⊢
  have c1 : ∀ a : ℚ, a / ((itemsOf ops).length : ℚ) * (itemsOf ops).length = a := fun a => div_mul_cancel₀ _ hN.ne'
  split
  · exact ⟨_, rfl, by rw [c1]; linarith [hl2.1], by rw [c1]; linarith [hl2.2]⟩
  · split
    · exact ⟨_, rfl, by rw [sub_mul, c1]; linarith [hh2.2], by rw [sub_mul, c1]; linarith [hh2.1]⟩
    · refine ⟨_, rfl, ?_, ?_⟩
      · rw [div_mul_eq_mul_div, add_mul, sub_mul, c1, c1]; linarith [hh2.2, hl2.1]
      · rw [div_mul_eq_mul_div, add_mul, sub_mul, c1, c1]; linarith [hh2.1, hl2.2]

/-- One side's value query. -/
theorem rc_side_value (n k : Nat) (hk : 1 ≤ k) (hk2 : k % 2 = 0) (hn : n < 2 ^ 32)
    (ops : List (Op (Fl ℚ))) (hins : ∀ o ∈ ops, (∃ x, o = .add x) ∨ ∃ xs, o = .addBuffer xs)
    (hlen : (itemsOf ops).length ≤ n) (hnan : ∀ y ∈ itemsOf ops, y ≠ .nan) (hne : itemsOf ops ≠ [])
    (q : ℚ) (h0 : 0 ≤ q) (h1 : q ≤ 1) :
    Always (execAll (RCSketch.fresh n k : RCSketch ℚ) ops) (fun s => ∃ v ∈ itemsOf ops,
      Digest.estValueAtQuantile s (.fin q : Fl ℚ) = .ret (v, s) ∧ s.estValueAtQuantile (.fin q) = .ret v) ∧
    ∀ ε : ℚ, 0 < ε → ε ≤ 1 → exp (execAll (RCSketch.fresh n k : RCSketch ℚ) ops >>= fun s => s.estValueAtQuantile (.fin q))
      (fun v => if ((itemsOf ops).countP (fun y => y < v) : ℚ) ≤ (1 + ε) * (q * (itemsOf ops).length) ∧
        (1 - ε) * (q * (itemsOf ops).length) ≤ (rank (itemsOf ops) v : ℚ) then 0 else 1) ≤ 10 / (k * ε) ^ 2 := by
  obtain ⟨iops, hrun, hit, hmeth, hfast⟩ := rc_trait_run n k hk ops hins
  rw [hrun]
  rw [← hit] at hlen hnan hne ⊢
  have hN : (0 : ℚ) ≤ (insItems iops).length := Nat.cast_nonneg _
  have ht : (.fin q : Fl ℚ) * Fl.ofNat (insItems iops).length = .fin (q * (insItems iops).length) := by
    rw [Fl.ofNat_exact, Fl.mul_exact]
  have hex : ∀ m : Nat, m ≤ (insItems iops).length → FloatFmt.rnd (m : ℚ) = .fin (m : ℚ) := fun m _ => FloatFmt.Exact.rnd_eq _
  have hq1 : q * (insItems iops).length ≤ (insItems iops).length := by nlinarith
  constructor
  · refine (rc_value_sides n k hk hk2 hn iops hmeth hlen hnan hne hex _ _ ht (by positivity) hq1).mono ?_
    rintro s ⟨v, hv, hvI, -⟩
    refine ⟨v, hvI, ?_, hv⟩
    show (s.estValueAtQuantile _ >>= _) = _
    rw [hv]; rfl
  · intro ε hε hε1
    have h := C94_value_relative n k hk hk2 hn iops hmeth hfast hlen hnan hne hex _ _ ht (by positivity) hq1 ε hε hε1
    simpa using h

/-- C95. Below the median: for `q < 1/2` and `0 < ε ≤ 1`, except with probability at most `10 / (k ε)²`, at most `(1 + ε) q N` items lie
below the answer and at least `(1 − ε) q N` are not above it. -/
theorem C95_value_low (n k : Nat) (hk : 1 ≤ k) (hk2 : k % 2 = 0) (hn : n < 2 ^ 32)
    (ops : List (Op (Fl ℚ))) (hins : ∀ o ∈ ops, (∃ x, o = .add x) ∨ ∃ xs, o = .addBuffer xs)
    (hlen : (itemsOf ops).length ≤ n) (hnan : ∀ y ∈ itemsOf ops, y ≠ .nan) (hne : itemsOf ops ≠ [])
    (q : ℚ) (h0 : 0 ≤ q) (h1 : q < 1 / 2) (ε : ℚ) (hε : 0 < ε) (hε1 : ε ≤ 1) :
    exp (symRC n k ops >>= fun d => d.estValueAtQuantile (.fin q)) (fun r =>
      if ((itemsOf ops).countP (fun y => y < r.1) : ℚ) ≤ (1 + ε) * (q * (itemsOf ops).length) ∧
        (1 - ε) * (q * (itemsOf ops).length) ≤ ((itemsOf ops).countP (fun y => y ≤ r.1) : ℚ) then 0 else 1) ≤ 10 / (k * ε) ^ 2 := by
  obtain ⟨hl, hle⟩ := rc_side_value n k hk hk2 hn ops hins hlen hnan hne q h0 (by linarith)
  obtain ⟨hh, -⟩ := rc_side_value n k hk hk2 hn (ops.map mirrorOp) (mirror_ins hins)
    (by rw [mirror_items, List.length_map]; exact hlen) (by rw [mirror_items]; exact mirror_nan hnan)
    (by rw [mirror_items]; simpa using hne) (1 - q) (by linarith) (by linarith)
  rw [exp_bind, exp_symRC n k hk ops hins]
  refine le_trans (le_of_eq ?_) (hle ε hε hε1)
  rw [exp_bind]
  refine exp_congr (hl.partially.mono ?_)
  rintro l ⟨v, hvI, hv, hv'⟩
  refine (exp_congr (g' := fun _ => if ((itemsOf ops).countP (fun y => y < v) : ℚ) ≤ (1 + ε) * (q * (itemsOf ops).length) ∧
        (1 - ε) * (q * (itemsOf ops).length) ≤ ((itemsOf ops).countP (fun y => y ≤ v) : ℚ) then 0 else 1)
    (hh.partially.mono ?_)).trans ((exp_const (hh.mono fun _ _ => trivial) _).trans ?_)
  · rintro h ⟨w, hwI, hw, -⟩
    unfold SymDigest.estValueAtQuantile
    simp only [hv, bind_ret, Fl.lit_exact, Fl.sub_exact, hw]
    unfold SymDigest.chooseValue
    rw [Fl.lit_exact, Fl.cmp_fin, compare_lt_iff_lt.2 h1]
    rfl
  · rw [hv', exp_ret]; rfl

/-- C95. Above the median: for `q > 1/2` and `0 < ε ≤ 1`, except with probability at most `10 / (k ε)²`, at most `(1 + ε) (1 − q) N` items
lie above the answer and at least `(1 − ε) (1 − q) N` are not below it. -/
theorem C95_value_high (n k : Nat) (hk : 1 ≤ k) (hk2 : k % 2 = 0) (hn : n < 2 ^ 32)
    (ops : List (Op (Fl ℚ))) (hins : ∀ o ∈ ops, (∃ x, o = .add x) ∨ ∃ xs, o = .addBuffer xs)
    (hlen : (itemsOf ops).length ≤ n) (hnan : ∀ y ∈ itemsOf ops, y ≠ .nan) (hne : itemsOf ops ≠ [])
    (q : ℚ) (h0 : 1 / 2 < q) (h1 : q ≤ 1) (ε : ℚ) (hε : 0 < ε) (hε1 : ε ≤ 1) :
    exp (symRC n k ops >>= fun d => d.estValueAtQuantile (.fin q)) (fun r =>
      if ((itemsOf ops).countP (fun y => r.1 < y) : ℚ) ≤ (1 + ε) * ((1 - q) * (itemsOf ops).length) ∧
        (1 - ε) * ((1 - q) * (itemsOf ops).length) ≤ ((itemsOf ops).countP (fun y => r.1 ≤ y) : ℚ) then 0 else 1) ≤
      10 / (k * ε) ^ 2 := by
  obtain ⟨hl, -⟩ := rc_side_value n k hk hk2 hn ops hins hlen hnan hne q (by linarith) h1
  obtain ⟨hh, hhe⟩ := rc_side_value n k hk hk2 hn (ops.map mirrorOp) (mirror_ins hins)
    (by rw [mirror_items, List.length_map]; exact hlen) (by rw [mirror_items]; exact mirror_nan hnan)
    (by rw [mirror_items]; simpa using hne) (1 - q) (by linarith) (by linarith)
  rw [exp_bind, exp_symRC n k hk ops hins]
  have hhe := hhe ε hε hε1
  rw [exp_bind] at hhe
  refine le_trans (le_of_eq ?_) hhe
  refine Eq.trans (exp_congr (g' := fun _ => exp (execAll (RCSketch.fresh n k : RCSketch ℚ) (ops.map mirrorOp)) (fun h =>
      exp (h.estValueAtQuantile (.fin (1 - q))) (fun v =>
      if ((itemsOf (ops.map mirrorOp)).countP (fun y => y < v) : ℚ) ≤ (1 + ε) * ((1 - q) * (itemsOf (ops.map mirrorOp)).length) ∧
        (1 - ε) * ((1 - q) * (itemsOf (ops.map mirrorOp)).length) ≤ (rank (itemsOf (ops.map mirrorOp)) v : ℚ) then 0 else 1)))
      (hl.partially.mono ?_)) (exp_const (hl.mono fun _ _ => trivial) _)
  rintro l ⟨v, hvI, hv, -⟩
  refine exp_congr (hh.partially.mono ?_)
  rintro h ⟨w, hwI, hw, hw'⟩
  rw [hw', exp_ret]
  unfold SymDigest.estValueAtQuantile
  simp only [hv, bind_ret, Fl.lit_exact, Fl.sub_exact, hw]
  unfold SymDigest.chooseValue
  rw [Fl.lit_exact, Fl.cmp_fin, compare_gt_iff_gt.2 h0]
  rw [mirror_items] at hwI ⊢
  obtain ⟨u, huI, rfl⟩ := List.mem_map.1 hwI
  have hu := hnan u huI
  have e1 : ((itemsOf ops).map (fun x => -x)).countP (fun y => y < -u) = (itemsOf ops).countP (fun y => u < y) := by
    rw [List.countP_map]
    refine List.countP_congr (fun y hy => ?_)
    simp only [Function.comp, decide_eq_true_eq]
    exact Fl.neg_lt_neg_iff (hnan y hy) hu
  rw [e1, (mirror_rank _ hnan u hu).1, List.length_map]
  show (if ((itemsOf ops).countP (fun y => - -u < y) : ℚ) ≤ _ ∧ _ ≤ ((itemsOf ops).countP (fun y => - -u ≤ y) : ℚ) then (0 : ℚ) else 1) = _
  rw [Fl.neg_neg']

end

section examples
attribute [local instance] ratExact ratExact_exact

/-- 300 items added to two sketches `new(1000, 20)` (buffer size 240). -/
def symRCHist : List (Op (Fl ℚ)) := [.add (.fin 7), .addBuffer (upTo 299)]

theorem symRCHist_ok : (∀ o ∈ symRCHist, (∃ x, o = .add x) ∨ ∃ xs, o = .addBuffer xs) ∧ (itemsOf symRCHist).length = 300 ∧
    (∀ y ∈ itemsOf symRCHist, y ≠ .nan) ∧ itemsOf symRCHist ≠ [] := by
  refine ⟨?_, by decide +kernel, by decide +kernel, by decide +kernel⟩
  intro o ho
  simp only [symRCHist, List.mem_cons, List.not_mem_nil, or_false] at ho
  rcases ho with rfl | rfl
  · exact .inl ⟨_, rfl⟩
  · exact .inr ⟨_, rfl⟩

/-- The a-priori error is 15 ranks. -/
example : apriori 1000 20 300 = 15 := by decide +kernel

/-- C95 below the middle: 52 items are `≤ 50`, 249 are `≥ 50`. -/
example : exp (symRC 1000 20 symRCHist >>= fun d => d.estQuantileAtValue (.fin 50)) (fun r => (r.1.toK - 52 / 300) ^ 2) ≤
    2 * (52 / 300 / 20) ^ 2 := by
  obtain ⟨h1, h2, h3, h4⟩ := symRCHist_ok
  have r1 : rank (itemsOf symRCHist) (.fin 50) = 52 := by decide +kernel
  have r2 : (itemsOf symRCHist).countP (fun y => (.fin 50 : Fl ℚ) ≤ y) = 249 := by decide +kernel
  have ha : apriori 1000 20 300 = 15 := by decide +kernel
  have h := C95_quantile_low 1000 20 (by norm_num) (by norm_num) (by norm_num) symRCHist h1 (by rw [h2]; norm_num) h3 h4 (.fin 50)
    (by simp) (by rw [r1, r2, h2, ha]; norm_num)
  rw [r1, h2] at h
  exact_mod_cast h

/-- C95 above the middle: 29 items are `≥ 270`, 271 are `≤ 270` and `< 270` up to one. -/
example : exp (symRC 1000 20 symRCHist >>= fun d => d.estQuantileAtValue (.fin 270)) (fun r => (r.1.toK - 271 / 300) ^ 2) ≤
    2 * (29 / 300 / 20) ^ 2 := by
  obtain ⟨h1, h2, h3, h4⟩ := symRCHist_ok
  have r1 : rank (itemsOf symRCHist) (.fin 270) = 272 := by decide +kernel
  have r2 : (itemsOf symRCHist).countP (fun y => (.fin 270 : Fl ℚ) ≤ y) = 29 := by decide +kernel
  have r3 : (itemsOf symRCHist).countP (fun y => y < (.fin 270 : Fl ℚ)) = 271 := by decide +kernel
  have ha : apriori 1000 20 300 = 15 := by decide +kernel
  have h := C95_quantile_high 1000 20 (by norm_num) (by norm_num) (by norm_num) symRCHist h1 (by rw [h2]; norm_num) h3 h4 (.fin 270)
    (by simp) (by rw [r1, r2, h2, ha]; norm_num)
  rw [r2, r3, h2] at h
  exact_mod_cast h

/-- C95: with probability at least 9/10 the estimate of the 90% quantile has at most 45 items above it and at least 15 not below it. -/
example : exp (symRC 1000 20 symRCHist >>= fun d => d.estValueAtQuantile (.fin (9 / 10))) (fun r =>
    if ((itemsOf symRCHist).countP (fun y => r.1 < y) : ℚ) ≤ 45 ∧ 15 ≤ ((itemsOf symRCHist).countP (fun y => r.1 ≤ y) : ℚ) then 0 else 1) ≤
    1 / 10 := by
  obtain ⟨h1, h2, h3, h4⟩ := symRCHist_ok
  have h := C95_value_high 1000 20 (by norm_num) (by norm_num) (by norm_num) symRCHist h1 (by rw [h2]; norm_num) h3 h4 (9 / 10)
    (by norm_num) (by norm_num) (1 / 2) (by norm_num) (by norm_num)
  rw [h2] at h
  norm_num at h ⊢
  exact h

/-- A single `RCSketch` is not that accurate near the top: 14 items in `new(16, 2)`, mean squared error of the top rank; the
`SymDigest` makes no error there. -/
example :
    exp ((RCSketch.new 16 2 : Prog (RCSketch ℚ)) >>= fun s => execAll s multiHist >>= fun d => Digest.estQuantileAtValue d (.fin 11))
      (fun r => (r.1.toK - 13 / 14) ^ 2) = 1 / 196 ∧
    exp (symRC 16 2 multiHist >>= fun d => d.estQuantileAtValue (.fin 11)) (fun r => (r.1.toK - 12 / 14) ^ 2) = 0 := by
  constructor <;> decide +kernel
end examples
end AQ

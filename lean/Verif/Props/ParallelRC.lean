/-
Properties C102 and C103: combinations of independent randomised digests (`ParallelDigest`, `MultiDigest`), in particular of
`RCSketch`es and `RCSketch2`s.
-/
import Verif.Proofs.ParallelExp
import Verif.Props.SymRC
import Verif.Props.RCRelative
import Verif.Props.RC2Relative
import Verif.Props.MultiDigest
import Mathlib.Algebra.Order.BigOperators.Ring.Finset

set_option linter.unusedSectionVars false
set_option linter.unusedVariables false

namespace AQ
open Prog Spec

section
variable {K : Type} [Field K] [LinearOrder K] [IsStrictOrderedRing K] [FloatFmt K]

/-- A history through the trait is one of insertions without fast compaction. -/
theorem traitIns_exec2 {sec : Nat → Nat} {ops : List (Op (Fl K))} {iops : List (InsOp K)} (h : List.Forall₂ TraitIns ops iops)
    (s : RC2 sec K) : execAll s ops = RCSketch2.execOps sec s iops := by
  induction h generalizing s with
  | nil => rfl
  | cons h hs ih =>
    cases h with
    | add x =>
      show (RCSketch2.add sec s x >>= _) = (RCSketch2.add sec s x >>= _)
      exact congrArg _ (funext fun s' => ih s')
    | addBuffer x =>
      show (RCSketch2.addBuffer sec s x >>= _) = (RCSketch2.addBuffer sec s x >>= _)
      exact congrArg _ (funext fun s' => ih s')

/-! ### Shares -/

theorem share_cons (m i : Nat) (o : Op (Fl K)) (os : List (Op (Fl K))) : share m i (o :: os) =
    if piece m i o.items = [] then share m i os else .addBuffer (piece m i o.items) :: share m i os := rfl

theorem sum_cut {α : Type} (f : List (Fl K) → Nat) (h0 : f [] = 0) (hadd : ∀ a b, f (a ++ b) = f a + f b) :
    ∀ (cs : List (List (Fl K))) (m : Nat), cs.length ≤ m → ∑ i ∈ Finset.range m, f ((cs[i]?).getD []) = f cs.flatten
  | [], m, _ => by simp [h0]
  | c :: cs, 0, h => by simp at h
  | c :: cs, m + 1, h => by
    rw [Finset.sum_range_succ', List.flatten_cons, hadd, Nat.add_comm (f c)]
    have := sum_cut (α := α) f h0 hadd cs m (by simpa using h)
    rw [← this]
    rfl

/-- The shares of the members make up the items. -/
theorem sum_share (f : List (Fl K) → Nat) (h0 : f [] = 0) (hadd : ∀ a b, f (a ++ b) = f a + f b) (m : Nat) (hm : m ≠ 0) :
    ∀ ops : List (Op (Fl K)), ∑ i ∈ Finset.range m, f (itemsOf (share m i ops)) = f (itemsOf ops)
  | [] => by
    show ∑ i ∈ Finset.range m, f [] = f []
    simp [h0]
  | o :: os => by
    have ih := sum_share f h0 hadd m hm os
    have e : ∀ i, f (itemsOf (share m i (o :: os))) = f (((ParallelDigest.cut m o.items)[i]?).getD []) + f (itemsOf (share m i os)) := by
      intro i
      rw [ParallelDigest.cut_get m hm]
      rw [share_cons]
      by_cases h : piece m i o.items = []
      · simp [h, h0]
      · simp only [if_neg h, Option.getD_some]
        rw [← hadd]
        rfl
    simp only [e]
    rw [Finset.sum_add_distrib, ih, sum_cut (α := Nat) f h0 hadd _ m (ParallelDigest.cut_length m hm _)]
    show _ = f (o.items ++ itemsOf os)
    rw [hadd]
    congr 2
    exact chunksAux_flatten _ (ParallelDigest.chunkLen_ne_zero _ _) _ _ le_rfl

theorem piece_subset {α : Type} (m i : Nat) (b : List α) : piece m i b ⊆ b :=
  fun _ h => List.mem_of_mem_drop (List.mem_of_mem_take h)

theorem share_ins (m i : Nat) : ∀ ops : List (Op (Fl K)), (∀ o ∈ share m i ops, (∃ x, o = .add x) ∨ ∃ xs, o = .addBuffer xs) ∧
    itemsOf (share m i ops) ⊆ itemsOf ops
  | [] => by simp [share]
  | o :: os => by
    obtain ⟨h1, h2⟩ := share_ins m i os
    have hsub : itemsOf os ⊆ itemsOf (o :: os) := fun y hy => List.mem_append.2 (Or.inr hy)
    rw [share_cons]
    by_cases h : piece m i o.items = []
    · rw [if_pos h]
      exact ⟨h1, fun y hy => hsub (h2 hy)⟩
    · rw [if_neg h]
      refine ⟨fun o' ho' => ?_, fun y hy => ?_⟩
      · rcases List.mem_cons.1 ho' with rfl | ho'
        · exact Or.inr ⟨_, rfl⟩
        · exact h1 o' ho'
      · rcases List.mem_append.1 hy with hy | hy
        · exact List.mem_append.2 (Or.inl (piece_subset m i _ hy))
        · exact hsub (h2 hy)

theorem Spec.PlainIns.nan {ops : List (Op (Fl K))} (h : PlainIns ops) : ∀ y ∈ itemsOf ops, y ≠ .nan := by
  intro y hy
  obtain ⟨o, ho, hy⟩ := List.mem_flatMap.1 hy
  exact (h o ho).2 y hy

end

section
variable [FloatFmt ℚ] [FloatFmt.Exact ℚ]

/-! ### One sketch -/

theorem estimates_of_rank {D : Type} [Digest D (Fl ℚ)] {d : D} {ops : List (Op (Fl ℚ))} {x : Fl ℚ} {N R : Nat} {v : ℚ}
    (hN : 0 < N) (X : D → ℚ)
    (hs : Always (execAll d ops) (fun s => Digest.estQuantileAtValue s x = .ret ((.fin (X s / N) : Fl ℚ), s) ∧
      Digest.count s = .ret N))
    (hm : exp (execAll d ops) X = R) (hv : exp (execAll d ops) (fun s => (X s - R) ^ 2) ≤ v * (N : ℚ) ^ 2) :
    Estimates x ops N ((R : ℚ) / N) v d := by
  have hNq : (0 : ℚ) < N := by exact_mod_cast hN
  have hexp : ∀ g : ℚ → ℚ, exp (execAll d ops >>= fun d' => Digest.estQuantileAtValue d' x) (fun r => g r.1.toK) =
      exp (execAll d ops) (fun s => g (X s / N)) := by
    intro g
    rw [exp_bind]
    refine exp_congr (hs.partially.mono ?_)
    rintro s ⟨h1, -⟩
    rw [h1, exp_ret]
    rfl
  refine ⟨?_, ?_, ?_⟩
  · rw [always_bind]
    refine hs.mono ?_
    rintro s ⟨h1, h2⟩
    rw [h1]
    exact ⟨⟨_, rfl⟩, h2⟩
  · rw [hexp (fun z => z)]
    have e : (fun s => X s / (N : ℚ)) = fun s => (1 / (N : ℚ)) * X s := by funext s; ring
    rw [e, exp_mul_left, hm]
    ring
  · rw [hexp (fun z => (z - (R : ℚ) / N) ^ 2)]
    have e : (fun s => (X s / (N : ℚ) - (R : ℚ) / N) ^ 2) = fun s => (1 / (N : ℚ) ^ 2) * (X s - R) ^ 2 := by
      funext s; field_simp
    rw [e, exp_mul_left]
    calc _ ≤ 1 / (N : ℚ) ^ 2 * (v * (N : ℚ) ^ 2) := mul_le_mul_of_nonneg_left hv (by positivity)
      _ = _ := by field_simp

/-- An `RCSketch` used through the trait. -/
theorem rc_estimates (n k : Nat) (hk : 1 ≤ k) (hk2 : k % 2 = 0) (hn : n < 2 ^ 32) (ops : List (Op (Fl ℚ)))
    (hins : ∀ o ∈ ops, (∃ x, o = .add x) ∨ ∃ xs, o = .addBuffer xs) (hlen : (itemsOf ops).length ≤ n)
    (hnan : ∀ y ∈ itemsOf ops, y ≠ .nan) (hne : itemsOf ops ≠ []) (x : Fl ℚ) (hx : x ≠ .nan) :
    Estimates x ops (itemsOf ops).length ((rank (itemsOf ops) x : ℚ) / (itemsOf ops).length)
      (2 * ((rank (itemsOf ops) x : ℚ) / (k * (itemsOf ops).length)) ^ 2) (RCSketch.fresh n k : RCSketch ℚ) := by
  obtain ⟨iops, hex, hit, hmeth, hfast⟩ := rc_trait_run n k hk ops hins
  rw [← hit] at hlen hnan hne ⊢
  have hN : 0 < (insItems iops).length := List.length_pos_of_ne_nil hne
  have hNq : (0 : ℚ) < (insItems iops).length := by exact_mod_cast hN
  refine estimates_of_rank hN (fun s => (weightedRank s.buffers x : ℚ)) ?_ ?_ ?_
  · rw [hex]
    refine ((C07_insertions_never_panic n k hk hn iops hmeth hlen hnan).and
      (rc_levels n k hk2 iops (by omega))).mono ?_
    rintro s ⟨hc, hl⟩
    refine ⟨?_, ?_⟩
    · show (s.estQuantileAtValue x >>= _) = _
      unfold RCSketch.estQuantileAtValue
      rw [estQuantile_eq hx _ _ (by omega), bind_ret, hc, Fl.ofNat_exact, Fl.ofNat_exact, Fl.div_exact _ hNq.ne']
      rfl
    · show Prog.ret s.count = _
      rw [hc]
  · rw [hex]
    exact C10_rank_unbiased n k hk hn iops hmeth hlen hnan x
  · rw [hex]
    refine (C92_stored_rank_relative n k hk hk2 hn iops hmeth hfast hlen hnan x).2.trans (le_of_eq ?_)
    have hkq : (0 : ℚ) < k := by exact_mod_cast hk
    field_simp

/-- An `RCSketch2` used through the trait. -/
theorem rc2_estimates {sec : Nat → Nat} {k : Nat} (hk : Spec.Sections sec k) (ops : List (Op (Fl ℚ)))
    (hins : ∀ o ∈ ops, (∃ x, o = .add x) ∨ ∃ xs, o = .addBuffer xs) (hlen : (itemsOf ops).length < 2 ^ 32)
    (hnan : ∀ y ∈ itemsOf ops, y ≠ .nan) (hne : itemsOf ops ≠ []) (x : Fl ℚ) (hx : x ≠ .nan) :
    Estimates x ops (itemsOf ops).length ((rank (itemsOf ops) x : ℚ) / (itemsOf ops).length)
      (4 / k * ((rank (itemsOf ops) x : ℚ) / (itemsOf ops).length) ^ 2) (RC2.new sec k : RC2 sec ℚ) := by
  obtain ⟨iops, hio⟩ := exists_traitIns ops hins
  have hit := (traitIns_exec hio (RCSketch.fresh 1 1)).2.1
  have hmeth := (traitIns_exec hio (RCSketch.fresh 1 1)).2.2
  have hex : execAll (RC2.new sec k : RC2 sec ℚ) ops = RCSketch2.runHist sec k iops := traitIns_exec2 hio _
  rw [hit] at hlen hnan hne ⊢
  have hN : 0 < (insItems iops).length := List.length_pos_of_ne_nil hne
  have hNq : (0 : ℚ) < (insItems iops).length := by exact_mod_cast hN
  have hsz := hk.size hlen
  refine estimates_of_rank (D := RC2 sec ℚ) hN (fun s => (weightedRank (RCSketch2.buffers s) x : ℚ)) ?_ ?_ ?_
  · rw [hex]
    refine ((C19_insertions_never_panic sec hk.ok k iops hmeth hlen hnan).and (rc2_geo k iops hsz)).mono ?_
    rintro s ⟨hc, hl⟩
    refine ⟨?_, ?_⟩
    · show (RCSketch2.estQuantileAtValue s x >>= _) = _
      unfold RCSketch2.estQuantileAtValue
      rw [estQuantile_eq hx _ _ (by simp [RCSketch2.buffers]; omega), bind_ret, hc, Fl.ofNat_exact, Fl.ofNat_exact,
        Fl.div_exact _ hNq.ne']
      rfl
    · show Prog.ret (RCSketch2.count s) = _
      rw [hc]
  · rw [hex]
    exact C22_rank_unbiased sec hk.ok k iops hmeth hlen hnan x
  · rw [hex]
    refine (rc2_stored_relative k iops hsz hmeth hlen hnan x).trans ((rc2_relative_k hk _).trans (le_of_eq ?_))
    have hkq : (0 : ℚ) < k := by exact_mod_cast (by have := hk.base; omega : 0 < k)
    field_simp

/-! ### C102: `ParallelDigest` -/

variable {D : Type} [Digest D (Fl ℚ)]

/-- C102. A `ParallelDigest` of randomised sub-digests: if after its share of the history the `i`-th sub-digest counts `n i` items
and answers `x` without bias for `μ i` and with mean squared error at most `v i`, then no call panics, and the answer is unbiased
for the mean of the `μ i` weighted with `n i`, with mean squared error at most `∑ (n i)² v i / (∑ n i)²`. -/
theorem C102_parallel_combines (ds : List D) (hne : ds ≠ []) (ops : List (Op (Fl ℚ))) (hops : PlainIns ops) (x : Fl ℚ)
    (n : Nat → Nat) (μ v : Nat → ℚ) (hN : 0 < ∑ i ∈ Finset.range ds.length, n i)
    (h : ∀ i (h : i < ds.length), Estimates x (share ds.length i ops) (n i) (μ i) (v i) ds[i]) :
    Estimates x ops (∑ i ∈ Finset.range ds.length, n i)
      ((∑ i ∈ Finset.range ds.length, n i * μ i) / (∑ i ∈ Finset.range ds.length, n i : ℕ))
      ((∑ i ∈ Finset.range ds.length, (n i : ℚ) ^ 2 * v i) / (∑ i ∈ Finset.range ds.length, n i : ℕ) ^ 2)
      (ParallelDigest.new ds : ParallelDigest D ℚ) :=
  ParallelDigest.combine ds hne ops hops x n μ v hN h

theorem Spec.Estimates.weaken {d : D} {x : Fl ℚ} {ops : List (Op (Fl ℚ))} {n : Nat} {μ v w : ℚ} (h : Estimates x ops n μ v d)
    (hw : v ≤ w) : Estimates x ops n μ w d := ⟨h.sure, h.mean, h.var.trans hw⟩

/-- Members that count every item `j` times and whose mean squared error is `c` times the squared fraction of items at most `x`: so
does, and so is that of, the whole. -/
theorem parallel_relative (m : Nat) (hm : m ≠ 0) (j : Nat) (hj : j ≠ 0) (d : D) (ops : List (Op (Fl ℚ))) (hops : PlainIns ops)
    (x : Fl ℚ) (c : ℚ) (hc : 0 ≤ c) (hfed : ∀ i, i < m → itemsOf (share m i ops) ≠ [])
    (h : ∀ i, i < m → Estimates x (share m i ops) (j * (itemsOf (share m i ops)).length)
      ((rank (itemsOf (share m i ops)) x : ℚ) / (itemsOf (share m i ops)).length)
      (c * ((rank (itemsOf (share m i ops)) x : ℚ) / (itemsOf (share m i ops)).length) ^ 2) d) :
    Estimates x ops (j * (itemsOf ops).length) ((rank (itemsOf ops) x : ℚ) / (itemsOf ops).length)
      (c * ((rank (itemsOf ops) x : ℚ) / (itemsOf ops).length) ^ 2)
      (ParallelDigest.new (List.replicate m d) : ParallelDigest D ℚ) := by
  have hlen : (List.replicate m d).length = m := List.length_replicate
  have hsN : ∑ i ∈ Finset.range m, j * (itemsOf (share m i ops)).length = j * (itemsOf ops).length := by
    rw [← Finset.mul_sum, sum_share List.length rfl (fun a b => List.length_append) m hm ops]
  have hsR : ∑ i ∈ Finset.range m, rank (itemsOf (share m i ops)) x = rank (itemsOf ops) x :=
    sum_share (fun l => rank l x) rfl (fun a b => by simp [rank]) m hm ops
  have hpos : 0 < (itemsOf ops).length := by
    rw [← sum_share List.length rfl (fun a b => List.length_append) m hm ops]
    exact lt_of_lt_of_le (List.length_pos_of_ne_nil (hfed 0 (Nat.pos_of_ne_zero hm)))
      (Finset.single_le_sum (f := fun i => (itemsOf (share m i ops)).length) (fun _ _ => Nat.zero_le _)
        (Finset.mem_range.2 (Nat.pos_of_ne_zero hm)))
  have hp : ∀ i ∈ Finset.range m, ((itemsOf (share m i ops)).length : ℚ) ≠ 0 := fun i hi => by
    have := List.length_pos_of_ne_nil (hfed i (Finset.mem_range.1 hi))
    exact_mod_cast this.ne'
  have hjq : (0 : ℚ) < j := by exact_mod_cast Nat.pos_of_ne_zero hj
  have hNq : (0 : ℚ) < ((itemsOf ops).length : ℚ) := by exact_mod_cast hpos
  have := C102_parallel_combines (List.replicate m d) (by
      intro h0
      rw [h0] at hlen
      exact hm hlen.symm) ops hops x (fun i => j * (itemsOf (share m i ops)).length)
    (fun i => (rank (itemsOf (share m i ops)) x : ℚ) / (itemsOf (share m i ops)).length)
    (fun i => c * ((rank (itemsOf (share m i ops)) x : ℚ) / (itemsOf (share m i ops)).length) ^ 2)
    (by rw [hlen, hsN]; exact Nat.mul_pos (Nat.pos_of_ne_zero hj) hpos) (fun i hi => by
      rw [List.getElem_replicate, hlen]
      rw [hlen] at hi
      exact h i hi)
  rw [hlen, hsN] at this
  have e1 : ∑ i ∈ Finset.range m, ((j * (itemsOf (share m i ops)).length : ℕ) : ℚ) *
      ((rank (itemsOf (share m i ops)) x : ℚ) / (itemsOf (share m i ops)).length) = j * (rank (itemsOf ops) x : ℚ) := by
    rw [← hsR, Nat.cast_sum, Finset.mul_sum]
    refine Finset.sum_congr rfl (fun i hi => ?_)
    have := hp i hi
    push_cast
    field_simp
  have e2 : ∑ i ∈ Finset.range m, ((j * (itemsOf (share m i ops)).length : ℕ) : ℚ) ^ 2 *
      (c * ((rank (itemsOf (share m i ops)) x : ℚ) / (itemsOf (share m i ops)).length) ^ 2) ≤
        c * j ^ 2 * (rank (itemsOf ops) x : ℚ) ^ 2 := by
    have e3 : ∑ i ∈ Finset.range m, ((j * (itemsOf (share m i ops)).length : ℕ) : ℚ) ^ 2 *
        (c * ((rank (itemsOf (share m i ops)) x : ℚ) / (itemsOf (share m i ops)).length) ^ 2) =
        c * j ^ 2 * ∑ i ∈ Finset.range m, (rank (itemsOf (share m i ops)) x : ℚ) ^ 2 := by
      rw [Finset.mul_sum]
      refine Finset.sum_congr rfl (fun i hi => ?_)
      have := hp i hi
      push_cast
      field_simp
    rw [e3, ← hsR, Nat.cast_sum]
    exact mul_le_mul_of_nonneg_left (Finset.sum_sq_le_sq_sum_of_nonneg (fun i _ => Nat.cast_nonneg _)) (by positivity)
  rw [e1, Nat.cast_mul, mul_div_mul_left _ _ hjq.ne'] at this
  refine this.weaken ((div_le_div_of_nonneg_right e2 (by positivity)).trans (le_of_eq ?_))
  field_simp

theorem parallel_relative_one (m : Nat) (hm : m ≠ 0) (d : D) (ops : List (Op (Fl ℚ))) (hops : PlainIns ops)
    (x : Fl ℚ) (c : ℚ) (hc : 0 ≤ c) (hfed : ∀ i, i < m → itemsOf (share m i ops) ≠ [])
    (h : ∀ i, i < m → Estimates x (share m i ops) (itemsOf (share m i ops)).length
      ((rank (itemsOf (share m i ops)) x : ℚ) / (itemsOf (share m i ops)).length)
      (c * ((rank (itemsOf (share m i ops)) x : ℚ) / (itemsOf (share m i ops)).length) ^ 2) d) :
    Estimates x ops (itemsOf ops).length ((rank (itemsOf ops) x : ℚ) / (itemsOf ops).length)
      (c * ((rank (itemsOf ops) x : ℚ) / (itemsOf ops).length) ^ 2)
      (ParallelDigest.new (List.replicate m d) : ParallelDigest D ℚ) := by
  have := parallel_relative m hm 1 one_ne_zero d ops hops x c hc hfed (fun i hi => by rw [Nat.one_mul]; exact h i hi)
  rwa [Nat.one_mul] at this

theorem Spec.PlainIns.ins {ops : List (Op (Fl ℚ))} (h : PlainIns ops) : ∀ o ∈ ops, (∃ x, o = .add x) ∨ ∃ xs, o = .addBuffer xs :=
  fun o ho => (h o ho).1.imp id (fun ⟨xs, h, _⟩ => ⟨xs, h⟩)

/-- C102 for `RCSketch`es, each of which gets at least one and at most `n` of the items: no panic, the count is the number of items,
and the answer is unbiased with the same relative accuracy as one sketch has. -/
theorem C102_parallel_rcsketch (n k m : Nat) (hm : m ≠ 0) (hk : 1 ≤ k) (hk2 : k % 2 = 0) (hn : n < 2 ^ 32)
    (ops : List (Op (Fl ℚ))) (hops : PlainIns ops)
    (hfed : ∀ i, i < m → itemsOf (share m i ops) ≠ [] ∧ (itemsOf (share m i ops)).length ≤ n) (x : Fl ℚ) (hx : x ≠ .nan) :
    Estimates x ops (itemsOf ops).length ((rank (itemsOf ops) x : ℚ) / (itemsOf ops).length)
      (2 / k ^ 2 * ((rank (itemsOf ops) x : ℚ) / (itemsOf ops).length) ^ 2)
      (ParallelDigest.new (List.replicate m (RCSketch.fresh n k)) : ParallelDigest (RCSketch ℚ) ℚ) := by
  have hkq : (0 : ℚ) < k := by exact_mod_cast hk
  refine parallel_relative_one m hm _ ops hops x (2 / k ^ 2 : ℚ) (by positivity) (fun i hi => (hfed i hi).1) (fun i hi => ?_)
  obtain ⟨h1, h2⟩ := share_ins m i ops
  refine (rc_estimates n k hk hk2 hn _ h1 (hfed i hi).2 (fun y hy => hops.nan y (h2 hy)) (hfed i hi).1 x hx).weaken (le_of_eq ?_)
  have : ((itemsOf (share m i ops)).length : ℚ) ≠ 0 := by
    have := List.length_pos_of_ne_nil (hfed i hi).1
    exact_mod_cast this.ne'
  field_simp

/-- C102 for `RCSketch2`s. -/
theorem C102_parallel_rcsketch2 {sec : Nat → Nat} {k : Nat} (hk : Spec.Sections sec k) (m : Nat) (hm : m ≠ 0)
    (ops : List (Op (Fl ℚ))) (hops : PlainIns ops)
    (hfed : ∀ i, i < m → itemsOf (share m i ops) ≠ [] ∧ (itemsOf (share m i ops)).length < 2 ^ 32) (x : Fl ℚ) (hx : x ≠ .nan) :
    Estimates x ops (itemsOf ops).length ((rank (itemsOf ops) x : ℚ) / (itemsOf ops).length)
      (4 / k * ((rank (itemsOf ops) x : ℚ) / (itemsOf ops).length) ^ 2)
      (ParallelDigest.new (List.replicate m (RC2.new sec k)) : ParallelDigest (RC2 sec ℚ) ℚ) := by
  refine parallel_relative_one m hm _ ops hops x (4 / k : ℚ) (by positivity) (fun i hi => (hfed i hi).1) (fun i hi => ?_)
  obtain ⟨h1, h2⟩ := share_ins m i ops
  exact rc2_estimates hk _ h1 (hfed i hi).2 (fun y hy => hops.nan y (h2 hy)) (hfed i hi).1 x hx

/-- What such a bound means (Chebyshev): the answer is off by more than `ε` with probability at most `v / ε²`. -/
theorem Spec.Estimates.tail {d : D} {x : Fl ℚ} {ops : List (Op (Fl ℚ))} {n : Nat} {μ v : ℚ} (h : Estimates x ops n μ v d) (ε : ℚ)
    (hε : 0 < ε) : exp (execAll d ops >>= fun d' => Digest.estQuantileAtValue d' x) (fun r => if ε < |r.1.toK - μ| then 1 else 0) ≤
      v / ε ^ 2 := by
  rw [le_div_iff₀ (by positivity), mul_comm, ← exp_mul_left]
  refine le_trans (exp_mono ((partially_true _).mono fun r _ => ?_)) h.var
  split
  · rename_i hc
    rw [mul_one, ← sq_abs (r.1.toK - μ)]
    nlinarith
  · rw [mul_zero]
    positivity

/-! ### C103: `MultiDigest` -/

theorem forEach_all (f : D → Prog D) {P : D → Prop} : ∀ ds : List D, (∀ d ∈ ds, Always (f d) P) →
    Always (forEach f ds) (fun es => es.length = ds.length ∧ ∀ d ∈ es, P d)
  | [], _ => ⟨rfl, by simp⟩
  | d :: ds, h => by
    unfold forEach
    rw [always_bind]
    refine (h d (by simp)).mono (fun d' hd' => ?_)
    rw [always_bind]
    refine (forEach_all f ds (fun e he => h e (by simp [he]))).mono ?_
    rintro es ⟨h1, h2⟩
    refine ⟨by simp [h1], fun e he => ?_⟩
    rcases List.mem_cons.1 he with rfl | he
    · exact hd'
    · exact h2 e he

theorem MultiDigest.exec_all (o : Op (Fl ℚ)) {P : D → Prop} (ds : List D) (h : ∀ d ∈ ds, Always (o.exec d) P) :
    Always (o.exec (⟨ds⟩ : MultiDigest D)) (fun m => m.digests.length = ds.length ∧ ∀ d ∈ m.digests, P d) := by
  cases o with
  | add x =>
    show Always (MultiDigest.add _ x) _
    unfold MultiDigest.add
    rw [always_bind]
    exact (forEach_all _ ds h).mono (fun _ h => h)
  | addBuffer x =>
    show Always (MultiDigest.addBuffer _ x) _
    unfold MultiDigest.addBuffer
    rw [always_bind]
    exact (forEach_all _ ds h).mono (fun _ h => h)
  | quantile v =>
    show Always (MultiDigest.estQuantileAtValue _ v >>= _) _
    unfold MultiDigest.estQuantileAtValue
    simp only [always_bind]
    refine (MultiDigest.sumLoop_always (P := fun r => P r.2) _ ds (Fl.lit 0) (fun d hd => ?_)).mono ?_
    · have := h d hd
      rw [Op.exec, always_bind] at this
      exact this.mono (fun _ h => h)
    · rintro r ⟨rs, h0, h1, h2, -⟩
      show r.2.length = ds.length ∧ ∀ d ∈ r.2, P d
      rw [h2, List.length_map]
      exact ⟨h0, fun d hd => by obtain ⟨s, hs, rfl⟩ := List.mem_map.1 hd; exact h1 s hs⟩
  | value v =>
    show Always (MultiDigest.estValueAtQuantile _ v >>= _) _
    unfold MultiDigest.estValueAtQuantile
    simp only [always_bind]
    refine (MultiDigest.sumLoop_always (P := fun r => P r.2) _ ds (Fl.lit 0) (fun d hd => ?_)).mono ?_
    · have := h d hd
      rw [Op.exec, always_bind] at this
      exact this.mono (fun _ h => h)
    · rintro r ⟨rs, h0, h1, h2, -⟩
      show r.2.length = ds.length ∧ ∀ d ∈ r.2, P d
      rw [h2, List.length_map]
      exact ⟨h0, fun d hd => by obtain ⟨s, hs, rfl⟩ := List.mem_map.1 hd; exact h1 s hs⟩

theorem MultiDigest.execAll_all {P : D → Prop} : ∀ (ops : List (Op (Fl ℚ))) (ds : List D), (∀ d ∈ ds, Always (execAll d ops) P) →
    Always (execAll (⟨ds⟩ : MultiDigest D) ops) (fun m => m.digests.length = ds.length ∧ ∀ d ∈ m.digests, P d)
  | [], ds, h => ⟨rfl, h⟩
  | o :: os, ds, h => by
    unfold execAll
    rw [always_bind]
    refine (MultiDigest.exec_all o (P := fun d => Always (execAll d os) P) ds (fun d hd => ?_)).mono ?_
    · have := h d hd
      rwa [execAll, always_bind] at this
    · rintro m ⟨h1, h2⟩
      rw [← h1]
      exact MultiDigest.execAll_all os m.digests h2

/-- C103. A `MultiDigest` whose members each count `n` items and answer `x` without bias for `μ` and with mean squared error at most
`v`: no call panics, the answer is unbiased with mean squared error at most `v` divided by the number of members, and the count is
`n` times that number. So wrappers can be nested. -/
theorem C103_multi_combines (ds : List D) (hne : ds ≠ []) (ops : List (Op (Fl ℚ))) (x : Fl ℚ) (n : Nat) (μ v : ℚ)
    (h : ∀ d ∈ ds, Estimates x ops n μ v d) :
    Estimates x ops (ds.length * n) μ (v / ds.length) (MultiDigest.built ds : MultiDigest D) := by
  obtain ⟨h1, h2⟩ := C73_averaging_divides_variance ops ds hne x μ v (fun d hd => (h d hd).sure.mono (fun _ h => h.1))
    (fun d hd => (h d hd).mean) (fun d hd => (h d hd).var)
  refine ⟨?_, h1, h2⟩
  have h0 : (0 : ℚ) < ds.length := Nat.cast_pos.2 (List.length_pos_of_ne_nil hne)
  rw [MultiDigest.built_eq, always_bind]
  refine (MultiDigest.execAll_all ops ds (P := fun d => Always (Digest.estQuantileAtValue d x)
    (fun r => r.1.IsFin ∧ Digest.count r.2 = .ret n)) (fun d hd => ?_)).mono ?_
  · have := (h d hd).sure
    rwa [always_bind] at this
  · rintro m ⟨hl, hm⟩
    show Always (MultiDigest.estQuantileAtValue m x) _
    unfold MultiDigest.estQuantileAtValue
    rw [always_bind]
    refine (MultiDigest.sumLoop_always _ m.digests (Fl.lit 0) hm).mono ?_
    rintro r ⟨rs, e0, e1, e2, e3⟩
    refine ⟨?_, ?_⟩
    · show (r.1 / Fl.ofNat m.digests.length).IsFin
      have hfold : ∀ (l : List (Fl ℚ)) (a : ℚ), (∀ y ∈ l, y.IsFin) → (l.foldl (· + ·) (Fl.fin a)).IsFin := by
        intro l
        induction l with
        | nil => intro a _; exact ⟨a, rfl⟩
        | cons y l ih =>
          intro a hl
          obtain ⟨b, rfl⟩ := hl y (by simp)
          rw [List.foldl_cons, Fl.add_exact]
          exact ih _ (fun z hz => hl z (by simp [hz]))
      obtain ⟨b, hb⟩ := hfold (rs.map Prod.fst) 0 (fun y hy => by
        obtain ⟨s, hs, rfl⟩ := List.mem_map.1 hy
        exact (e1 s hs).1)
      rw [e3, Fl.lit_exact, hb, Fl.ofNat_exact, hl, Fl.div_exact _ h0.ne']
      exact ⟨_, rfl⟩
    · show sumCounts r.2 = _
      rw [← hl, ← e0, ← List.length_map (as := rs) Prod.snd, ← e2]
      refine sumCounts_const n r.2 (fun d hd => ?_)
      rw [e2] at hd
      obtain ⟨s, hs, rfl⟩ := List.mem_map.1 hd
      exact (e1 s hs).2

/-- C103 for `RCSketch2`s. -/
theorem C103_multi_rcsketch2 {sec : Nat → Nat} {k : Nat} (hk : Spec.Sections sec k) (m : Nat) (hm : m ≠ 0) (ops : List (Op (Fl ℚ)))
    (hins : ∀ o ∈ ops, (∃ x, o = .add x) ∨ ∃ xs, o = .addBuffer xs) (hlen : (itemsOf ops).length < 2 ^ 32)
    (hnan : ∀ y ∈ itemsOf ops, y ≠ .nan) (hne : itemsOf ops ≠ []) (x : Fl ℚ) (hx : x ≠ .nan) :
    Estimates x ops (m * (itemsOf ops).length) ((rank (itemsOf ops) x : ℚ) / (itemsOf ops).length)
      (4 / k * ((rank (itemsOf ops) x : ℚ) / (itemsOf ops).length) ^ 2 / m)
      (MultiDigest.built (List.replicate m (RC2.new sec k : RC2 sec ℚ))) := by
  have hl : (List.replicate m (RC2.new sec k : RC2 sec ℚ)).length = m := List.length_replicate
  have := C103_multi_combines (List.replicate m (RC2.new sec k : RC2 sec ℚ)) (by
      intro h0
      rw [h0] at hl
      exact hm hl.symm) ops x _ _ _ (fun d hd => by
    rw [List.eq_of_mem_replicate hd]
    exact rc2_estimates hk ops hins hlen hnan hne x hx)
  rwa [hl] at this

/-- C103, nested: a `ParallelDigest` of `m` `MultiDigest`s of `j` `RCSketch`es each. The count is `j` times the number of items. -/
theorem C103_parallel_multi_rcsketch (n k m j : Nat) (hm : m ≠ 0) (hj : j ≠ 0) (hk : 1 ≤ k) (hk2 : k % 2 = 0) (hn : n < 2 ^ 32)
    (ops : List (Op (Fl ℚ))) (hops : PlainIns ops)
    (hfed : ∀ i, i < m → itemsOf (share m i ops) ≠ [] ∧ (itemsOf (share m i ops)).length ≤ n) (x : Fl ℚ) (hx : x ≠ .nan) :
    Estimates x ops (j * (itemsOf ops).length) ((rank (itemsOf ops) x : ℚ) / (itemsOf ops).length)
      (2 / k ^ 2 / j * ((rank (itemsOf ops) x : ℚ) / (itemsOf ops).length) ^ 2)
      (ParallelDigest.new (List.replicate m (MultiDigest.built (List.replicate j (RCSketch.fresh n k)))) :
        ParallelDigest (MultiDigest (RCSketch ℚ)) ℚ) := by
  have hkq : (0 : ℚ) < k := by exact_mod_cast hk
  have hjq : (0 : ℚ) < j := by exact_mod_cast Nat.pos_of_ne_zero hj
  have hl : (List.replicate j (RCSketch.fresh n k : RCSketch ℚ)).length = j := List.length_replicate
  refine parallel_relative m hm j hj _ ops hops x (2 / k ^ 2 / j : ℚ) (by positivity) (fun i hi => (hfed i hi).1) (fun i hi => ?_)
  obtain ⟨h1, h2⟩ := share_ins m i ops
  have := C103_multi_combines (List.replicate j (RCSketch.fresh n k : RCSketch ℚ)) (by
      intro h0
      rw [h0] at hl
      exact hj hl.symm) (share m i ops) x _ _ _ (fun d hd => by
    rw [List.eq_of_mem_replicate hd]
    exact rc_estimates n k hk hk2 hn _ h1 (hfed i hi).2 (fun y hy => hops.nan y (h2 hy)) (hfed i hi).1 x hx)
  rw [hl] at this
  refine this.weaken (le_of_eq ?_)
  have : ((itemsOf (share m i ops)).length : ℚ) ≠ 0 := by
    have := List.length_pos_of_ne_nil (hfed i hi).1
    exact_mod_cast this.ne'
  field_simp

end

section examples
attribute [local instance] ratExact ratExact_exact

/-- Three calls, 301 items for three members: the first gets 101 of them, the others 100 each. -/
def parRCHist : List (Op (Fl ℚ)) := [.add (.fin 7), .addBuffer (upTo 240), .addBuffer (upTo 60)]

theorem parRCHist_ok : PlainIns parRCHist ∧ (itemsOf parRCHist).length = 301 ∧ rank (itemsOf parRCHist) (.fin 20) = 43 ∧
    ∀ i, i < 3 → itemsOf (share 3 i parRCHist) ≠ [] ∧ (itemsOf (share 3 i parRCHist)).length ≤ 1000 := by
  have hn : (∀ y ∈ upTo 240, y ≠ (Fl.nan : Fl ℚ)) ∧ ∀ y ∈ upTo 60, y ≠ (Fl.nan : Fl ℚ) := by decide +kernel
  refine ⟨?_, by decide +kernel, by decide +kernel, by decide +kernel⟩
  intro o ho
  simp only [parRCHist, List.mem_cons, List.not_mem_nil, or_false] at ho
  rcases ho with rfl | rfl | rfl
  · exact ⟨.inl ⟨_, rfl⟩, by simp [Op.items]⟩
  · exact ⟨.inr ⟨_, rfl, by decide +kernel⟩, hn.1⟩
  · exact ⟨.inr ⟨_, rfl, by decide +kernel⟩, hn.2⟩

example : (itemsOf (share 3 0 parRCHist)).length = 101 ∧ (itemsOf (share 3 2 parRCHist)).length = 100 := by decide +kernel

/-- C102: 43 of the 301 items are `≤ 20`; the estimate is off by more than half of that with probability at most 8/400. -/
example : exp (execAll (ParallelDigest.new (List.replicate 3 (RCSketch.fresh 1000 20)) : ParallelDigest (RCSketch ℚ) ℚ) parRCHist >>=
    fun d => Digest.estQuantileAtValue d (.fin 20 : Fl ℚ)) (fun r => if 43 / 602 < |r.1.toK - 43 / 301| then 1 else 0) ≤ 8 / 400 := by
  obtain ⟨h1, h2, h3, h4⟩ := parRCHist_ok
  have h := C102_parallel_rcsketch 1000 20 3 (by norm_num) (by norm_num) (by norm_num) (by norm_num) parRCHist h1 h4 (.fin 20)
    (by simp)
  rw [h2, h3] at h
  have := h.tail (43 / 602) (by norm_num)
  norm_num at this ⊢
  exact this

/-- C102 with `RCSketch2`s, section sizes as computed by the code (k = 400). -/
example : Estimates (.fin 20) parRCHist 301 (43 / 301) (4 / 400 * (43 / 301) ^ 2)
    (ParallelDigest.new (List.replicate 3 (RC2.new (f32Sec 400) 400)) : ParallelDigest (RC2 (f32Sec 400) ℚ) ℚ) := by
  obtain ⟨h1, h2, h3, h4⟩ := parRCHist_ok
  have h := C102_parallel_rcsketch2 (sections_f32 (k := 400) (by norm_num) (by norm_num)) 3 (by norm_num) parRCHist h1
    (fun i hi => ⟨(h4 i hi).1, by have := (h4 i hi).2; omega⟩) (.fin 20) (by simp)
  rw [h2, h3] at h
  exact_mod_cast h

/-- C103: two `RCSketch`es in each of the three members halve the bound; every item is counted twice. -/
example : Estimates (.fin 20) parRCHist 602 (43 / 301) (1 / 400 * (43 / 301) ^ 2)
    (ParallelDigest.new (List.replicate 3 (MultiDigest.built (List.replicate 2 (RCSketch.fresh 1000 20)))) :
        ParallelDigest (MultiDigest (RCSketch ℚ)) ℚ) := by
  obtain ⟨h1, h2, h3, h4⟩ := parRCHist_ok
  have h := C103_parallel_multi_rcsketch 1000 20 3 2 (by norm_num) (by norm_num) (by norm_num) (by norm_num) (by norm_num) parRCHist
    h1 h4 (.fin 20) (by simp)
  rw [h2, h3] at h
  refine h.weaken (by norm_num)

/-- Two members with `k = 2`, 13 items each, exactly: unbiased (22 of the 26 items are `≤ 10`), but not exact. -/
example :
    exp (execAll (ParallelDigest.new (List.replicate 2 (RCSketch.fresh 16 2)) : ParallelDigest (RCSketch ℚ) ℚ)
      [.addBuffer (upTo 13 ++ upTo 13)] >>= fun d => Digest.estQuantileAtValue d (.fin 10 : Fl ℚ))
      (fun r => r.1.toK) = 22 / 26 ∧
    0 < exp (execAll (ParallelDigest.new (List.replicate 2 (RCSketch.fresh 16 2)) : ParallelDigest (RCSketch ℚ) ℚ)
      [.addBuffer (upTo 13 ++ upTo 13)] >>= fun d => Digest.estQuantileAtValue d (.fin 10 : Fl ℚ))
      (fun r => (r.1.toK - 22 / 26) ^ 2) := by decide +kernel

end examples
end AQ

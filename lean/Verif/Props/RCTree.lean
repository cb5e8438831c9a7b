/-
Property C133: RCSketches merged in any shape.
-/
import Verif.Proofs.RCTree

set_option linter.unusedSectionVars false
set_option linter.unusedVariables false

namespace AQ
open Prog Spec RCSketch
variable {K : Type} [Field K] [LinearOrder K] [IsStrictOrderedRing K] [FloatFmt K]
namespace MergeTree

theorem PosK.root : ∀ {t : MergeTree K}, t.PosK → 1 ≤ t.root.2
  | new _ _, h => h
  | ins t _, h => PosK.root (t := t) h
  | merge a _ _, h => PosK.root (t := a) h.1

theorem rcCapacity_pos (n k : Nat) (hk : 1 ≤ k) : 0 < rcCapacity n k := by
  rw [rcCapacity]
  split
  · have : 4 ^ 1 ≤ 4 ^ rcLogLen n k := Nat.pow_le_pow_right (by norm_num) (le_max_left _ _)
    refine Nat.mul_pos (by omega) (by omega)
  · refine Nat.mul_pos (by omega) (by omega)

theorem Fits.root : ∀ {t : MergeTree K}, t.PosK → t.Fits rcCapacity → (insItems t.ops).length < rcCapacity t.root.1 t.root.2
  | new n k, hp, _ => rcCapacity_pos n k hp
  | ins t o, _, h => h.2
  | merge a b _, _, h => h.2.2

section
variable {t : MergeTree K}

/-- The history at the root runs without a panic, is unbiased and has the variance bound of its weight. -/
theorem root_history (hp : t.PosK) (hev : t.EvenK) (hf : t.Fits rcCapacity) {l : List (AnyIns K)}
    (hl : CallsOk (· ≠ .nan) (insItems t.ops).length l) : Always (AnyIns.run t.root.1 t.root.2 l) (fun _ => True) ∧ ∀ x,
      exp (AnyIns.run t.root.1 t.root.2 l) (fun s => (weightedRank s.buffers x : ℚ)) = suppliedRank x l ∧
      exp (AnyIns.run t.root.1 t.root.2 l) (fun s => ((weightedRank s.buffers x : ℚ) - suppliedRank x l) ^ 2) ≤ t.share := by
  obtain ⟨h1, h2, h3, h4, -⟩ := hl
  have hlen : AnyIns.passed l < rcCapacity t.root.1 t.root.2 := lt_of_le_of_lt ((passed_le l).trans (le_of_eq h3)) (hf.root hp)
  refine ⟨C130_never_panics _ _ hp.root l h1 h2 hlen h4, fun x => ⟨C130_unbiased _ _ hp.root l h1 h2 hlen h4 x, ?_⟩⟩
  have := C130_mean_squared_error _ _ hp.root hev.root l h1 h2 hlen h4 x
  rw [h3] at this
  exact this
end

/-- Never a panic, no bias, and the variance budget. -/
structure Good (t : MergeTree K) : Prop where
  never : Always t.run (fun _ => True)
  callsNever : Always t.calls (fun _ => True)
  unbiased : ∀ x, exp t.run (fun s => (weightedRank s.buffers x : ℚ)) = rank (insItems t.ops) x
  callsUnbiased : ∀ x, exp t.calls (fun l => (suppliedRank x l : ℚ)) = rank (insItems t.ops) x
  mse : ∀ x, exp t.run (fun s => ((weightedRank s.buffers x : ℚ) - rank (insItems t.ops) x) ^ 2) ≤ t.share + t.inherited
  callsMse : ∀ x, exp t.calls (fun l => ((suppliedRank x l : ℚ) - rank (insItems t.ops) x) ^ 2) ≤ t.inherited

theorem good_of_calls {t : MergeTree K} (hp : t.PosK) (hev : t.EvenK) (hf : t.Fits rcCapacity) (hm : ∀ o ∈ t.ops, o.method = .default)
    (hnan : ∀ y ∈ insItems t.ops, y ≠ .nan) (h1 : Always t.calls (fun _ => True))
    (h2 : ∀ x, exp t.calls (fun l => (suppliedRank x l : ℚ)) = rank (insItems t.ops) x)
    (h3 : ∀ x, exp t.calls (fun l => ((suppliedRank x l : ℚ) - rank (insItems t.ops) x) ^ 2) ≤ t.inherited) : t.Good := by
  have hok := calls_ok (G := (· ≠ .nan)) t hev hm hnan
  refine ⟨?_, h1, fun x => ?_, h2, fun x => ?_, h3⟩
  · rw [always_iff_exp, run_dist]
    rw [exp_congr (g' := fun _ => 1) (hok.mono (fun l hl => (always_iff_exp _).1 (root_history hp hev hf hl).1))]
    exact (always_iff_exp _).1 h1
  · rw [run_dist, ← h2 x]
    exact exp_congr (hok.mono (fun l hl => ((root_history hp hev hf hl).2 x).1))
  · rw [run_dist]
    have hb : Partially t.calls (fun l => exp (AnyIns.run t.root.1 t.root.2 l)
        (fun s => ((weightedRank (addCount t.others s).buffers x : ℚ) - rank (insItems t.ops) x) ^ 2) ≤
        t.share + ((suppliedRank x l : ℚ) - rank (insItems t.ops) x) ^ 2) := by
      refine hok.mono (fun l hl => ?_)
      obtain ⟨a1, a2⟩ := root_history hp hev hf hl
      have := exp_shift_sq a1 (fun s : RCSketch K => (weightedRank s.buffers x : ℚ)) (r := 0) (w := suppliedRank x l)
        (r' := rank (insItems t.ops) x) (V := t.share) (by rw [zero_add]; exact (a2 x).1) (by rw [zero_add]; exact (a2 x).2)
      rw [zero_add] at this
      exact this
    refine (exp_mono hb).trans ?_
    rw [exp_add, exp_const h1]
    exact add_le_add_right (h3 x) _

/-- Two independent unbiased estimates added up. -/
theorem exp_sum_sq {α β : Type} {p : Prog α} {q : Prog β} (hp : Always p (fun _ => True)) (hq : Always q (fun _ => True)) {f : α → ℚ}
    {g : β → ℚ} {a b A B : ℚ} (hf : exp p f = a) (hg : exp q g = b) (hA : exp p (fun x => (f x - a) ^ 2) ≤ A)
    (hB : exp q (fun y => (g y - b) ^ 2) ≤ B) : exp p (fun x => exp q (fun y => (f x + g y - (a + b)) ^ 2)) ≤ A + B := by
  have h1 : ∀ x, exp q (fun y => (f x + g y - (a + b)) ^ 2) = exp q (fun y => (g y - b) ^ 2) + (f x - a) ^ 2 := by
    intro x
    have e : (fun y => (f x + g y - (a + b)) ^ 2) = (fun y => (g y - b) ^ 2 + (2 * (f x - a) * g y + ((f x - a) ^ 2 - 2 * (f x - a) * b))) := by
      funext y; ring
    rw [e, exp_add, exp_add q (fun y => 2 * (f x - a) * g y), exp_mul_left, hg, exp_const hq]
    ring
  simp only [h1]
  rw [exp_add, exp_const hp]
  linarith

theorem good : ∀ (t : MergeTree K), t.PosK → t.EvenK → t.Fits rcCapacity → (∀ o ∈ t.ops, o.method = .default) →
    (∀ y ∈ insItems t.ops, y ≠ .nan) → t.Good := by
  intro t
  induction t with
  | new n k =>
    intro hp hev hf hm hnan
    refine good_of_calls hp hev hf hm hnan trivial (fun x => ?_) (fun x => ?_)
    · simp [calls, exp_ret, suppliedRank, ops, insItems, rank]
    · simp [calls, exp_ret, suppliedRank, ops, insItems, rank, inherited]
  | ins t o ih =>
    intro hp hev hf hm hnan
    have hnan' : ∀ y ∈ insItems t.ops ++ insItems [o], y ≠ .nan := by rw [← insItems_append]; exact hnan
    have g := ih hp hev hf.1 (fun o' ho => hm o' (by simp [ops, ho])) (fun y hy => hnan' y (by simp [hy]))
    have hr : ∀ x l, (suppliedRank x (l ++ [.plain o]) : ℚ) = suppliedRank x l + rank o.items x := by
      intro x l; rw [suppliedRank_append, Nat.cast_add]; simp [suppliedRank, AnyIns.lvl, AnyIns.items]
    have hR : ∀ x, (rank (insItems (ins t o).ops) x : ℚ) = rank (insItems t.ops) x + rank o.items x := by
      intro x; rw [ops, insItems_append, rank_append, insItems_single, Nat.cast_add]
    refine good_of_calls hp hev hf hm hnan ?_ (fun x => ?_) (fun x => ?_)
    · unfold calls; rw [always_bind]; exact g.callsNever
    · unfold calls
      rw [exp_bind]
      simp only [exp_ret, hr]
      rw [exp_add, exp_const g.callsNever, g.callsUnbiased, hR]
    · unfold calls
      rw [exp_bind]
      simp only [exp_ret, hr, hR, add_sub_add_right_eq_sub]
      exact g.callsMse x
  | merge a b fast iha ihb =>
    intro hp hev hf hm hnan
    have hnan' : ∀ y ∈ insItems a.ops ++ insItems b.ops, y ≠ .nan := by rw [← insItems_append]; exact hnan
    have ga := iha hp.1 hev.1 hf.1 (fun o' ho => hm o' (by simp [ops, ho])) (fun y hy => hnan' y (by simp [hy]))
    have gb := ihb hp.2 hev.2 hf.2.1 (fun o' ho => hm o' (by simp [ops, ho])) (fun y hy => hnan' y (by simp [hy]))
    have hr : ∀ x l (s : RCSketch K), (suppliedRank x (l ++ (levelCalls fast .default 0 s.buffers).map .level) : ℚ) =
        suppliedRank x l + weightedRank s.buffers x := by
      intro x l s; rw [suppliedRank_append, levelCalls_rank, Nat.cast_add]; simp
    have hR : ∀ x, (rank (insItems (merge a b fast).ops) x : ℚ) = rank (insItems a.ops) x + rank (insItems b.ops) x := by
      intro x; rw [ops, insItems_append, rank_append, Nat.cast_add]
    refine good_of_calls hp hev hf hm hnan ?_ (fun x => ?_) (fun x => ?_)
    · unfold calls
      rw [always_bind]
      refine ga.callsNever.mono (fun l _ => ?_)
      rw [always_bind]
      exact gb.never
    · unfold calls
      rw [exp_bind]
      simp only [exp_bind, exp_ret, hr]
      have : ∀ l : List (AnyIns K), exp b.run (fun s => (suppliedRank x l : ℚ) + weightedRank s.buffers x) =
          suppliedRank x l + rank (insItems b.ops) x := by
        intro l; rw [exp_add, exp_const gb.never, gb.unbiased]
      simp only [this]
      rw [exp_add, exp_const ga.callsNever, ga.callsUnbiased, hR]
    · unfold calls
      rw [exp_bind]
      simp only [exp_bind, exp_ret, hr, hR]
      exact exp_sum_sq ga.callsNever gb.never (ga.callsUnbiased x) (gb.unbiased x) (ga.callsMse x) (gb.mse x)

variable (t : MergeTree K)

/-- C133. `count()` of the final sketch is the number of items supplied to all of them. -/
theorem C133_count : Partially t.run (fun s => Digest.count s = .ret (insItems t.ops).length) :=
  (run_count t).mono (fun s hs => by change Prog.ret s.count = _; rw [hs])

/-- C133. Its stored weight is that number too, and every stored item is one of the items supplied (even section sizes, default
compaction). -/
theorem C133_weight (hev : t.EvenK) (hm : ∀ o ∈ t.ops, o.method = .default) :
    Partially t.run (fun s => wsum (s.buffers.map List.length) = (insItems t.ops).length ∧ ∀ b ∈ s.buffers, ∀ y ∈ b, y ∈ insItems t.ops) :=
  (run_good t hev (calls_ok t hev hm (fun y hy => hy))).mono (fun s hs => ⟨hs.1, hs.2.1⟩)

/-- C133. `interpolate_rank` returns the stored weight up to `x` (fewer than `2^63` items). -/
theorem C133_interpolate_rank (hev : t.EvenK) (hm : ∀ o ∈ t.ops, o.method = .default) (hN : (insItems t.ops).length < 2 ^ 63) :
    Partially t.run (fun s => ∀ x, x ≠ .nan → s.interpolateRank x = .ret (weightedRank s.buffers x)) := by
  refine run_of_calls t (run_dist t) ((calls_ok (G := fun _ => True) t hev hm (fun _ _ => trivial)).mono ?_)
  rintro l ⟨h1, h2, h3, h4, h5⟩
  exact (C130_interpolate_rank _ _ hev.root l (h5 hN) (by rw [h3]; exact hN)).mono (fun s hs => hs)

variable (hp : t.PosK) (hev : t.EvenK) (hf : t.Fits rcCapacity) (hm : ∀ o ∈ t.ops, o.method = .default)
  (hnan : ∀ y ∈ insItems t.ops, y ≠ .nan)
include hp hev hf hm hnan

/-- C133. Nothing panics while every sketch receives, directly and by merging, fewer items than its capacity (C122). -/
theorem C133_never_panics : Always t.run (fun _ => True) := (good t hp hev hf hm hnan).never

theorem exp_interpolate (hN : (insItems t.ops).length < 2 ^ 63) {x : Fl K} (hx : x ≠ .nan) (f : ℚ → ℚ) :
    exp (t.run >>= fun s => s.interpolateRank x) (fun r => f r) = exp t.run (fun s => f (weightedRank s.buffers x)) := by
  rw [exp_bind]
  exact exp_congr ((C133_interpolate_rank t hev hm hN).mono (fun s hs => by rw [hs x hx]; rfl))

/-- C133. Rank queries of the final sketch are unbiased. -/
theorem C133_unbiased (hN : (insItems t.ops).length < 2 ^ 63) (x : Fl K) (hx : x ≠ .nan) :
    exp (t.run >>= fun s => s.interpolateRank x) (fun r => (r : ℚ)) = rank (insItems t.ops) x := by
  rw [exp_interpolate t hp hev hf hm hnan hN hx (fun r => r)]
  exact (good t hp hev hf hm hnan).unbiased x

/-- C133. Their mean squared error is at most the sum, over the sketch at the root and all sketches merged into another, of `2 N² / (k B)`,
where `N` items reached the sketch with section size `k` and buffer size `B`. -/
theorem C133_mean_squared_error (hN : (insItems t.ops).length < 2 ^ 63) (x : Fl K) (hx : x ≠ .nan) :
    exp (t.run >>= fun s => s.interpolateRank x) (fun r => ((r : ℚ) - rank (insItems t.ops) x) ^ 2) ≤ t.share + t.inherited := by
  rw [exp_interpolate t hp hev hf hm hnan hN hx (fun r => (r - rank (insItems t.ops) x) ^ 2)]
  exact (good t hp hev hf hm hnan).mse x

/-- C133. Probability of an error of `d` or more. -/
theorem C133_tail (hN : (insItems t.ops).length < 2 ^ 63) (x : Fl K) (hx : x ≠ .nan) (d : ℚ) (hd : 0 < d) :
    exp (t.run >>= fun s => s.interpolateRank x) (fun r => if d ≤ |(r : ℚ) - rank (insItems t.ops) x| then 1 else 0) ≤
      (t.share + t.inherited) / d ^ 2 := by
  rw [le_div_iff₀ (by positivity), mul_comm, ← exp_mul_left]
  refine le_trans (exp_mono ((partially_true _).mono (fun r _ => ?_))) (C133_mean_squared_error t hp hev hf hm hnan hN x hx)
  split
  · rename_i hr
    rw [mul_one, ← sq_abs ((r : ℚ) - _)]
    exact pow_le_pow_left₀ (by positivity) hr 2
  · rw [mul_zero]; positivity

omit hp hev hf hm hnan

/-! ### A balanced tree of shards -/

/-- `2^h` sketches `new(n, k)`, each given one batch, merged pairwise in `h` rounds. -/
def shards (n k : Nat) (fast : Bool) (xs : Nat → List (Fl K)) : Nat → Nat → MergeTree K
  | 0, i => ins (new n k) (.addBuffer (xs i))
  | h + 1, i => merge (shards n k fast xs h i) (shards n k fast xs h (i + 2 ^ h)) fast

theorem shards_spec (n k : Nat) (fast : Bool) (xs : Nat → List (Fl K)) (M : Nat) (hM : ∀ i, (xs i).length = M) : ∀ h i,
    (shards n k fast xs h i).root = (n, k) ∧ (insItems (shards n k fast xs h i).ops).length = 2 ^ h * M ∧
    (k % 2 = 0 → (shards n k fast xs h i).EvenK) ∧ (1 ≤ k → (shards n k fast xs h i).PosK) ∧
    (2 ^ h * M < rcCapacity n k → (shards n k fast xs h i).Fits rcCapacity) ∧
    (∀ o ∈ (shards n k fast xs h i).ops, o.method = .default) ∧
    ((∀ i, ∀ y ∈ xs i, y ≠ .nan) → ∀ y ∈ insItems (shards n k fast xs h i).ops, y ≠ .nan) := by
  intro h
  induction h with
  | zero =>
    intro i
    refine ⟨rfl, by simp [shards, ops, insItems, InsOp.items, hM], fun h => h, fun h => h, fun h => ⟨trivial, ?_⟩,
      by simp [shards, ops, InsOp.method], fun h => ?_⟩
    · simpa [ops, insItems, InsOp.items, hM, root] using h
    · simpa [shards, ops, insItems, InsOp.items] using h i
  | succ h ih =>
    intro i
    obtain ⟨a1, a2, a3, a4, a5, a6, a7⟩ := ih i
    obtain ⟨b1, b2, b3, b4, b5, b6, b7⟩ := ih (i + 2 ^ h)
    have hl : (insItems (shards n k fast xs (h + 1) i).ops).length = 2 ^ (h + 1) * M := by
      rw [shards, ops, insItems_append, List.length_append, a2, b2]; ring
    have hle : 2 ^ h * M ≤ 2 ^ (h + 1) * M := Nat.mul_le_mul_right _ (Nat.pow_le_pow_right (by norm_num) (by omega))
    refine ⟨a1, hl, fun e => ⟨a3 e, b3 e⟩, fun e => ⟨a4 e, b4 e⟩,
      fun e => ⟨a5 (lt_of_le_of_lt hle e), b5 (lt_of_le_of_lt hle e), ?_⟩, fun o ho => ?_, fun e y hy => ?_⟩
    · change (insItems (shards n k fast xs (h + 1) i).ops).length < _
      rw [hl, a1]; exact e
    · rw [shards, ops] at ho
      rcases List.mem_append.1 ho with ho | ho
      · exact a6 o ho
      · exact b6 o ho
    · rw [shards, ops, insItems_append] at hy
      rcases List.mem_append.1 hy with hy | hy
      · exact a7 e y hy
      · exact b7 e y hy

theorem shards_budget (n k : Nat) (hk : 1 ≤ k) (fast : Bool) (xs : Nat → List (Fl K)) (M : Nat) (hM : ∀ i, (xs i).length = M) : ∀ h i,
    (shards n k fast xs h i).share = 2 * ((2 : ℚ) ^ h * M) ^ 2 / (k * (max (2 * k * Nat.clog 2 (n / k)) (2 * k) : Nat)) ∧
    (shards n k fast xs h i).share + (shards n k fast xs h i).inherited ≤
      3 * ((2 : ℚ) ^ h * M) ^ 2 / (k * (max (2 * k * Nat.clog 2 (n / k)) (2 * k) : Nat)) ∧
    (shards n k fast xs h i).inherited ≤ (((2 : ℚ) ^ h * M) ^ 2 - (2 : ℚ) ^ h * M ^ 2) /
      (k * (max (2 * k * Nat.clog 2 (n / k)) (2 * k) : Nat)) := by
  have hB : (0 : ℚ) ≤ (k * (max (2 * k * Nat.clog 2 (n / k)) (2 * k) : Nat) : ℚ) := by positivity
  intro h
  induction h with
  | zero =>
    intro i
    have h1 : (shards n k fast xs 0 i).share = 2 * ((2 : ℚ) ^ 0 * M) ^ 2 / (k * (max (2 * k * Nat.clog 2 (n / k)) (2 * k) : Nat)) := by
      simp [shards, share, ops, insItems, InsOp.items, hM, root, rootBuffer]
    have h2 : (shards n k fast xs 0 i).inherited = 0 := rfl
    refine ⟨h1, ?_, ?_⟩
    · rw [h1, h2, add_zero]
      refine div_le_div_of_nonneg_right ?_ hB
      nlinarith [sq_nonneg ((2 : ℚ) ^ 0 * M)]
    · rw [h2]
      refine div_nonneg ?_ hB
      simp
  | succ h ih =>
    intro i
    obtain ⟨a1, a2, a3⟩ := ih i
    obtain ⟨b1, b2, b3⟩ := ih (i + 2 ^ h)
    obtain ⟨c1, c2, -⟩ := shards_spec n k fast xs M hM (h + 1) i
    have h1 : (shards n k fast xs (h + 1) i).share = 2 * ((2 : ℚ) ^ (h + 1) * M) ^ 2 / (k * (max (2 * k * Nat.clog 2 (n / k)) (2 * k) : Nat)) := by
      rw [share, rootBuffer, c1, c2]; push_cast; rfl
    have h2 : (shards n k fast xs (h + 1) i).inherited = (shards n k fast xs h i).inherited +
        ((shards n k fast xs h (i + 2 ^ h)).share + (shards n k fast xs h (i + 2 ^ h)).inherited) := rfl
    have h3 : (shards n k fast xs (h + 1) i).inherited ≤ (((2 : ℚ) ^ (h + 1) * M) ^ 2 - (2 : ℚ) ^ (h + 1) * M ^ 2) /
        (k * (max (2 * k * Nat.clog 2 (n / k)) (2 * k) : Nat)) := by
      rw [h2, b1]
      refine (add_le_add a3 (add_le_add_right b3 _)).trans ?_
      rw [← add_div, ← add_div]
      refine div_le_div_of_nonneg_right ?_ hB
      apply le_of_eq
      rw [pow_succ]
      ring
    refine ⟨h1, ?_, h3⟩
    rw [h1]
    refine (add_le_add_right h3 _).trans ?_
    rw [← add_div]
    refine div_le_div_of_nonneg_right ?_ hB
    have : (0 : ℚ) ≤ (2 : ℚ) ^ (h + 1) * M ^ 2 := by positivity
    linarith

/-- C133. `2^h` shards of `M` items each, sketched separately with the same parameters and merged pairwise, answer rank queries without
bias and with mean squared error at most `3 N² / (k B)`, `N = 2^h M`: at most one and a half times the bound for a single sketch fed everything, whatever
the number of shards. -/
theorem C133_shards (n k : Nat) (hk : 1 ≤ k) (he : k % 2 = 0) (fast : Bool) (xs : Nat → List (Fl K)) (M : Nat) (hM : ∀ i, (xs i).length = M)
    (h : Nat) (hcap : 2 ^ h * M < rcCapacity n k) (hN : 2 ^ h * M < 2 ^ 63) (hnan : ∀ i, ∀ y ∈ xs i, y ≠ .nan) (x : Fl K) (hx : x ≠ .nan) :
    exp ((shards n k fast xs h 0).run >>= fun s => s.interpolateRank x) (fun r => (r : ℚ)) = rank (insItems (shards n k fast xs h 0).ops) x ∧
    exp ((shards n k fast xs h 0).run >>= fun s => s.interpolateRank x)
      (fun r => ((r : ℚ) - rank (insItems (shards n k fast xs h 0).ops) x) ^ 2) ≤
      3 * ((2 : ℚ) ^ h * M) ^ 2 / (k * (max (2 * k * Nat.clog 2 (n / k)) (2 * k) : Nat)) := by
  obtain ⟨c1, c2, c3, c4, c5, c6, c7⟩ := shards_spec n k fast xs M hM h 0
  refine ⟨C133_unbiased _ (c4 hk) (c3 he) (c5 hcap) c6 (c7 hnan) (by rw [c2]; exact hN) x hx, ?_⟩
  exact (C133_mean_squared_error _ (c4 hk) (c3 he) (c5 hcap) c6 (c7 hnan) (by rw [c2]; exact hN) x hx).trans
    (shards_budget n k hk fast xs M hM h 0).2.1

/-! ### Concrete cases -/

attribute [local instance] ratExact ratExact_exact

/-- Three sketches: the second is merged into the first, an item is added, and the result merged into the third. -/
def treeABC : MergeTree ℚ :=
  merge (ins (new 2 2) (.addBuffer [.fin 1, .fin 3]))
    (ins (merge (ins (new 2 2) (.add (.fin 5))) (ins (new 4 2) (.addBuffer [.fin 2, .fin 4])) false) (.add (.fin 6))) true

/-- The hypotheses hold of it, and the final sketch counts six items and ranks the largest sixth. -/
theorem C133_example : treeABC.PosK ∧ treeABC.EvenK ∧ treeABC.Fits rcCapacity ∧ (∀ o ∈ treeABC.ops, o.method = .default) ∧
    (insItems treeABC.ops = [.fin 1, .fin 3, .fin 5, .fin 2, .fin 4, .fin 6]) ∧
    CanReturn (treeABC.run >>= Digest.count) 6 ∧ CanReturn (treeABC.run >>= fun s => s.interpolateRank (.fin 6)) 6 := by
  refine ⟨⟨by norm_num [PosK], by norm_num [PosK], by norm_num [PosK]⟩, ⟨by norm_num [EvenK], by norm_num [EvenK], by norm_num [EvenK]⟩, ?_,
    by simp [treeABC, ops, InsOp.method], by simp [treeABC, ops, insItems, InsOp.items], by decide +kernel, by decide +kernel⟩
  have h1 : rcCapacity 2 2 = 12 := by decide +kernel
  have h2 : rcCapacity 4 2 = 12 := by decide +kernel
  simp [treeABC, Fits, ops, insItems, InsOp.items, root, h1, h2]

/-- 1024 shards of 200 items each in sketches `new(1000, 10)`: the standard deviation of a rank query is below 9500 of 204800. -/
theorem C133_shards_example (xs : Nat → List (Fl K)) (hM : ∀ i, (xs i).length = 200) (hnan : ∀ i, ∀ y ∈ xs i, y ≠ .nan) (x : Fl K)
    (hx : x ≠ .nan) :
    exp ((shards 1000 10 false xs 10 0).run >>= fun s => s.interpolateRank x)
      (fun r => ((r : ℚ) - rank (insItems (shards 1000 10 false xs 10 0).ops) x) ^ 2) ≤ 9500 ^ 2 := by
  have hc : rcCapacity 1000 10 = 327660 := by decide +kernel
  have hB : max (2 * 10 * Nat.clog 2 (1000 / 10)) (2 * 10) = 140 := by decide +kernel
  have h := (C133_shards 1000 10 (by norm_num) (by norm_num) false xs 200 hM 10 (by rw [hc]; norm_num) (by norm_num) hnan x hx).2
  rw [hB] at h
  refine h.trans ?_
  norm_num

end MergeTree
end AQ

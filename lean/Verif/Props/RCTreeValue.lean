/-
Property C138: value and quantile queries of merged and of overfull RCSketches.
-/
import Verif.Props.RCTree
import Verif.Props.RCValue

set_option linter.unusedSectionVars false
set_option linter.unusedVariables false

namespace AQ
open Prog Spec RCSketch
variable {K : Type} [Field K] [LinearOrder K] [IsStrictOrderedRing K] [FloatFmt K]

namespace RCSketch

/-- At most `m` levels for weights below `2^(m+1)`, when no call is above level `m - 1` (even `k`). -/
theorem anyRun_levels_lt (n k : Nat) (hk2 : k % 2 = 0) {m : Nat} (hm : 1 ≤ m) (ops : List (AnyIns K)) (hl : ∀ o ∈ ops, o.lvl < m)
    (hW : suppliedWeight ops < 2 ^ (m + 1)) : Partially (AnyIns.run n k ops) (fun s => s.buffers.length ≤ m) := by
  by_cases hk : k = 0
  · subst hk; unfold AnyIns.run; simp [RCSketch.new, calcBufferSize, bind_fail]
  · rw [anyRun_eq (by omega)]
    refine (anyExecs_flowL (l0 := m) hm ops 0 _ (base_fresh hk) ((flow_fresh hk2).lvl m) hl).mono ?_
    rintro s ⟨hb, hf⟩
    by_contra hc
    obtain ⟨-, h2, -⟩ := hf.bounds
    have h3 := h2 (s.buffers.length - 2) (by omega) (by omega)
    have h4 : 2 ^ (m - 1) ≤ 2 ^ (s.buffers.length - 2) := Nat.pow_le_pow_right (by norm_num) (by omega)
    have h6 : 4 ≤ s.bufferSize := by have := hf.Bev; have := hb.hB; omega
    have h5 : 2 ^ (m - 1) * 4 ≤ 2 ^ (s.buffers.length - 2) * s.bufferSize := Nat.mul_le_mul h4 h6
    have h7 : 2 ^ (m - 1) * 4 = 2 ^ (m + 1) := by
      obtain ⟨m, rfl⟩ := Nat.exists_eq_add_of_le' hm
      rw [Nat.add_sub_cancel]; ring
    omega

end RCSketch

namespace MergeTree

theorem levels_lt {m : Nat} (hm1 : 1 ≤ m) : ∀ (t : MergeTree K), t.EvenK → (∀ o ∈ t.ops, o.method = .default) →
    (insItems t.ops).length < 2 ^ (m + 1) →
    Partially t.calls (fun l => ∀ o ∈ l, o.lvl < m) ∧ Partially t.run (fun s => s.buffers.length ≤ m) := by
  have key : ∀ t : MergeTree K, t.EvenK → (∀ o ∈ t.ops, o.method = .default) → (insItems t.ops).length < 2 ^ (m + 1) →
      Partially t.calls (fun l => ∀ o ∈ l, o.lvl < m) →
      Partially t.calls (fun l => ∀ o ∈ l, o.lvl < m) ∧ Partially t.run (fun s => s.buffers.length ≤ m) := by
    intro t hev hm hN h
    refine ⟨h, run_of_calls t (run_dist t) ((h.and (calls_ok (G := fun _ => True) t hev hm (fun _ _ => trivial))).mono ?_)⟩
    rintro l ⟨h1, -, -, h3, -⟩
    exact (anyRun_levels_lt _ _ hev.root hm1 l h1 (by rw [h3]; exact hN)).mono (fun s hs => hs)
  intro t
  induction t with
  | new n k => intro hev hm hN; exact key _ hev hm hN (by simp [calls])
  | ins t o ih =>
    intro hev hm hN
    have hlen : (insItems (ins t o).ops).length = (insItems t.ops).length + o.items.length := by
      rw [ops, insItems_append, List.length_append, insItems_single]
    refine key _ hev hm hN ?_
    unfold calls
    rw [partially_bind]
    refine (ih hev (fun o' ho => hm o' (by simp [ops, ho])) (by omega)).1.mono (fun l hl o' ho => ?_)
    rcases List.mem_append.1 ho with ho | ho
    · exact hl o' ho
    · obtain rfl := List.mem_singleton.1 ho
      simp only [AnyIns.lvl]; omega
  | merge a b fast iha ihb =>
    intro hev hm hN
    have hlen : (insItems (merge a b fast).ops).length = (insItems a.ops).length + (insItems b.ops).length := by
      rw [ops, insItems_append, List.length_append]
    refine key _ hev hm hN ?_
    unfold calls
    rw [partially_bind]
    refine (iha hev.1 (fun o' ho => hm o' (by simp [ops, ho])) (by omega)).1.mono (fun l hl => ?_)
    rw [partially_bind]
    refine (ihb hev.2 (fun o' ho => hm o' (by simp [ops, ho])) (by omega)).2.mono (fun s hs o' ho => ?_)
    rcases List.mem_append.1 ho with ho | ho
    · exact hl o' ho
    · obtain ⟨c, hc, rfl⟩ := List.mem_map.1 ho
      have := (RCSketch.levelCalls_mem _ _ _ _ c hc).2.2.1
      simp only [AnyIns.lvl]; omega

end MergeTree

/-- Accuracy in rank of a value query of any random sketch whose stored ranks have mean squared error at most `V`. -/
theorem RCValue.value_tail (p : Prog (RCSketch K)) (I : List (Fl K)) (q : Fl K) (t : K) (h0 : 0 ≤ t) (V d : ℚ) (hV : 0 ≤ V) (hd : 0 < d)
    (hs : Partially p (fun s => ∃ v, s.estValueAtQuantile q = .ret v ∧ v ∈ I ∧
      (∀ x, x < v → (weightedRank s.buffers x : K) ≤ t) ∧ ∀ x, v ≤ x → t ≤ (weightedRank s.buffers x : K)))
    (hmse : ∀ x, exp p (fun s => ((weightedRank s.buffers x : ℚ) - rank I x) ^ 2) ≤ V) :
    exp (p >>= fun s => s.estValueAtQuantile q) (fun v =>
      if (I.countP (fun y => y < v) : K) ≤ t + (d : K) ∧ t - (d : K) ≤ (rank I v : K) then 0 else 1) ≤ 2 * V / d ^ 2 := by
  have hdK : (0 : K) < (d : K) := by exact_mod_cast hd
  have tail : ∀ x, exp p (fun s => if d ≤ |(weightedRank s.buffers x : ℚ) - rank I x| then 1 else 0) ≤ V / d ^ 2 := fun x =>
    RCValue.chebyshev p _ V d hd (hmse x)
  have hP : 0 ≤ V / d ^ 2 := by positivity
  rw [show 2 * V / d ^ 2 = V / d ^ 2 + V / d ^ 2 by ring]
  refine RCValue.value_events p (fun s => s.estValueAtQuantile q) I
    (fun x s => (weightedRank s.buffers x : K) ≤ t) (fun x s => t ≤ (weightedRank s.buffers x : K)) hs (t - (d : K)) (t + (d : K))
    (by linarith) _ _ hP hP ?_ ?_
  · intro x hx hR
    refine le_trans (exp_mono ((partially_true _).mono (fun s _ => ?_))) (tail x)
    split
    · rename_i hW
      rw [if_pos]
      have h3 : d ≤ (rank I x - weightedRank s.buffers x : ℚ) := by
        have : ((d : ℚ) : K) ≤ ((rank I x - weightedRank s.buffers x : ℚ) : K) := by
          push_cast; linarith
        exact_mod_cast this
      rw [abs_sub_comm]
      exact h3.trans (le_abs_self _)
    · split <;> norm_num
  · intro x hx hR
    refine le_trans (exp_mono ((partially_true _).mono (fun s _ => ?_))) (tail x)
    split
    · rename_i hW
      rw [if_pos]
      have h3 : d ≤ (weightedRank s.buffers x - rank I x : ℚ) := by
        have : ((d : ℚ) : K) ≤ ((weightedRank s.buffers x - rank I x : ℚ) : K) := by
          push_cast; linarith
        exact_mod_cast this
      exact h3.trans (le_abs_self _)
    · split <;> norm_num

namespace MergeTree
variable (t : MergeTree K) (hp : t.PosK) (hev : t.EvenK) (hf : t.Fits rcCapacity) (hm : ∀ o ∈ t.ops, o.method = .default)
  (hnan : ∀ y ∈ insItems t.ops, y ≠ .nan)

include hp hev hf hm hnan in
/-- The value query of a merged sketch returns an item, whose estimated ranks left and right enclose the target. -/
theorem value_sides (hne : insItems t.ops ≠ []) (hN : (insItems t.ops).length < 2 ^ 32)
    (hex : ∀ m : Nat, m ≤ (insItems t.ops).length → FloatFmt.rnd (m : K) = .fin (m : K))
    (q : Fl K) (r : K) (hr : q * Fl.ofNat (insItems t.ops).length = .fin r) (h0 : 0 ≤ r) (h1 : r ≤ ((insItems t.ops).length : K)) :
    Always t.run (fun s => ∃ v, s.estValueAtQuantile q = .ret v ∧ v ∈ insItems t.ops ∧
      (∀ x, x < v → (weightedRank s.buffers x : K) ≤ r) ∧ ∀ x, v ≤ x → r ≤ (weightedRank s.buffers x : K)) := by
  refine ((good t hp hev hf hm hnan).never.and ((levels_lt (m := 31) (by norm_num) t hev hm (by omega)).2.and
    ((run_count t).and (C133_weight t hev hm)))).mono ?_
  rintro s ⟨-, hl, hc, hw, hmem⟩
  have hin : ∀ y ∈ s.buffers.flatten, y ∈ insItems t.ops := by
    intro y hy
    obtain ⟨b, hb, hy⟩ := List.mem_flatten.1 hy
    exact hmem b hb y hy
  have hne' : s.buffers.flatten ≠ [] := by
    intro h
    have h2 : ∀ L : List (List (Fl K)), L.flatten = [] → wsum (L.map List.length) = 0 := by
      intro L
      induction L with
      | nil => intro _; rfl
      | cons b L ih =>
        intro h
        rw [List.flatten_cons, List.append_eq_nil_iff] at h
        show b.length + 2 * wsum (L.map List.length) = 0
        rw [ih h.2, h.1]; rfl
    rw [h2 _ h] at hw
    exact hne (List.eq_nil_of_length_eq_zero hw.symm)
  obtain ⟨v, hv1, hv2⟩ := estValue_correct s.buffers s.count q hl (fun y hy => hnan y (hin y hy)) hne'
    (by rw [hw]; exact hex) (by rw [hc, hr]; simp)
  rw [hc, hr] at hv2
  obtain ⟨h3, h4⟩ := RCValue.stat_sides hv2 h0 (by rw [hw]; exact h1)
  exact ⟨v, hv1, hin v hv2.1, h3, h4⟩

theorem inherited_nonneg : ∀ t : MergeTree K, 0 ≤ t.inherited
  | new _ _ => le_refl _
  | ins t _ => inherited_nonneg t
  | merge a b _ => by
    have h1 := inherited_nonneg a
    have h2 := inherited_nonneg b
    have h3 : 0 ≤ b.share := by unfold share; positivity
    change 0 ≤ a.inherited + (b.share + b.inherited)
    linarith

include hp hev hf hm hnan in
/-- C138. Value queries of a sketch merged from others in any shape (or fed more than declared) return one of the supplied items. -/
theorem C138_value_returns (hne : insItems t.ops ≠ []) (hN : (insItems t.ops).length < 2 ^ 32)
    (hex : ∀ m : Nat, m ≤ (insItems t.ops).length → FloatFmt.rnd (m : K) = .fin (m : K))
    (q : Fl K) (r : K) (hr : q * Fl.ofNat (insItems t.ops).length = .fin r) (h0 : 0 ≤ r) (h1 : r ≤ ((insItems t.ops).length : K)) :
    Always (t.run >>= fun s => s.estValueAtQuantile q) (fun v => v ∈ insItems t.ops) := by
  rw [always_bind]
  refine (value_sides t hp hev hf hm hnan hne hN hex q r hr h0 h1).mono ?_
  rintro s ⟨v, hv, hv1, -⟩
  rw [hv]
  exact hv1

include hp hev hf hm hnan in
/-- C138. With `r = q·N` as computed: except with probability at most `2 V / d²`, `V` the bound of C133, at most `r + d` items lie
below the answer and at least `r - d` are not above it. -/
theorem C138_value_tail (hne : insItems t.ops ≠ []) (hN : (insItems t.ops).length < 2 ^ 32)
    (hex : ∀ m : Nat, m ≤ (insItems t.ops).length → FloatFmt.rnd (m : K) = .fin (m : K))
    (q : Fl K) (r : K) (hr : q * Fl.ofNat (insItems t.ops).length = .fin r) (h0 : 0 ≤ r) (h1 : r ≤ ((insItems t.ops).length : K))
    (d : ℚ) (hd : 0 < d) :
    exp (t.run >>= fun s => s.estValueAtQuantile q) (fun v =>
      if ((insItems t.ops).countP (fun y => y < v) : K) ≤ r + (d : K) ∧ r - (d : K) ≤ (rank (insItems t.ops) v : K) then 0 else 1) ≤
      2 * (t.share + t.inherited) / d ^ 2 :=
  RCValue.value_tail t.run (insItems t.ops) q r h0 (t.share + t.inherited) d
    (add_nonneg (by unfold share; positivity) (inherited_nonneg t)) hd
    (value_sides t hp hev hf hm hnan hne hN hex q r hr h0 h1).partially (good t hp hev hf hm hnan).mse

include hev hm in
/-- C138. The quantile estimate is the stored weight up to `x` divided by the number of items supplied (as computed); fewer than `2^63` items. -/
theorem C138_quantile_eq (hN : (insItems t.ops).length < 2 ^ 63) (x : Fl K) (hx : x ≠ .nan) :
    Partially t.run (fun s => s.estQuantileAtValue x = .ret (Fl.ofNat (weightedRank s.buffers x) / Fl.ofNat (insItems t.ops).length)) := by
  refine ((levels_lt (m := 64) (by norm_num) t hev hm (by omega)).2.and (run_count t)).mono ?_
  rintro s ⟨hl, hc⟩
  unfold RCSketch.estQuantileAtValue
  rw [estQuantile_eq hx _ _ (by omega), hc]

include hp hev hf hm hnan in
/-- C138. In exact arithmetic it is, except with probability at most `V / (ε N)²`, within `ε` of the true quantile. -/
theorem C138_quantile_tail [FloatFmt.Exact K] (hne : insItems t.ops ≠ []) (hN : (insItems t.ops).length < 2 ^ 63) (x : Fl K) (hx : x ≠ .nan)
    (ε : ℚ) (hε : 0 < ε) :
    exp (t.run >>= fun s => s.estQuantileAtValue x) (fun e =>
      if e ≤ .fin ((rank (insItems t.ops) x : K) / (insItems t.ops).length - (ε : K)) ∨
        .fin ((rank (insItems t.ops) x : K) / (insItems t.ops).length + (ε : K)) ≤ e then 1 else 0) ≤
      (t.share + t.inherited) / (ε * (insItems t.ops).length) ^ 2 := by
  have hNq : (0 : ℚ) < (insItems t.ops).length := by exact_mod_cast List.length_pos_of_ne_nil hne
  have hNK : (0 : K) < (insItems t.ops).length := by exact_mod_cast List.length_pos_of_ne_nil hne
  have tail := RCValue.chebyshev t.run (fun s : RCSketch K => (weightedRank s.buffers x : ℚ) - rank (insItems t.ops) x)
    (t.share + t.inherited) (ε * (insItems t.ops).length) (by positivity) ((good t hp hev hf hm hnan).mse x)
  rw [exp_bind]
  refine le_trans (exp_mono ((C138_quantile_eq t hev hm hN x hx).mono (fun s hs => ?_))) tail
  have e1 : (Fl.ofNat (weightedRank s.buffers x) / Fl.ofNat (insItems t.ops).length : Fl K) =
      .fin ((weightedRank s.buffers x : K) / (insItems t.ops).length) := by
    rw [Fl.ofNat_exact, Fl.ofNat_exact, Fl.div_exact _ hNK.ne']
  rw [hs, exp_ret, e1]
  split
  · rename_i h
    rw [Fl.fin_le_fin, Fl.fin_le_fin] at h
    rw [if_pos]
    have h2 : (ε : K) * (insItems t.ops).length ≤ rank (insItems t.ops) x - weightedRank s.buffers x ∨
        (ε : K) * (insItems t.ops).length ≤ weightedRank s.buffers x - rank (insItems t.ops) x := by
      rcases h with h | h
      · left
        rw [le_sub_iff_add_le, div_add' _ _ _ hNK.ne', div_le_div_iff_of_pos_right hNK] at h
        linarith
      · right
        rw [div_add' _ _ _ hNK.ne', div_le_div_iff_of_pos_right hNK] at h
        linarith
    rcases h2 with h2 | h2
    · have : ε * (insItems t.ops).length ≤ (rank (insItems t.ops) x - weightedRank s.buffers x : ℚ) := by
        have : ((ε * (insItems t.ops).length : ℚ) : K) ≤ ((rank (insItems t.ops) x - weightedRank s.buffers x : ℚ) : K) := by
          push_cast; exact h2
        exact_mod_cast this
      rw [abs_sub_comm]
      exact this.trans (le_abs_self _)
    · have : ε * (insItems t.ops).length ≤ (weightedRank s.buffers x - rank (insItems t.ops) x : ℚ) := by
        have : ((ε * (insItems t.ops).length : ℚ) : K) ≤ ((weightedRank s.buffers x - rank (insItems t.ops) x : ℚ) : K) := by
          push_cast; exact h2
        exact_mod_cast this
      exact this.trans (le_abs_self _)
  · split <;> norm_num

/-- C138 for `2^h` shards of `M` items merged pairwise: except with probability at most `6 / (k · buffer_size · ε²)`, whatever the number of
shards, the value found for `q` has at most `(q + ε)·N` items below it and at least `(q - ε)·N` not above it. -/
theorem C138_shards (n k : Nat) (hk : 1 ≤ k) (he : k % 2 = 0) (fast : Bool) (xs : Nat → List (Fl K)) (M : Nat) (hM : ∀ i, (xs i).length = M)
    (hM0 : 0 < M) (h : Nat) (hcap : 2 ^ h * M < rcCapacity n k) (hN : 2 ^ h * M < 2 ^ 32) (hnan : ∀ i, ∀ y ∈ xs i, y ≠ .nan)
    (hex : ∀ m : Nat, m ≤ 2 ^ h * M → FloatFmt.rnd (m : K) = .fin (m : K))
    (q : Fl K) (r : K) (hr : q * Fl.ofNat (2 ^ h * M) = .fin r) (h0 : 0 ≤ r) (h1 : r ≤ ((2 ^ h * M : Nat) : K)) (ε : ℚ) (hε : 0 < ε) :
    exp ((shards n k fast xs h 0).run >>= fun s => s.estValueAtQuantile q) (fun v =>
      if ((insItems (shards n k fast xs h 0).ops).countP (fun y => y < v) : K) ≤ r + (ε : K) * (2 ^ h * M : Nat) ∧
        r - (ε : K) * (2 ^ h * M : Nat) ≤ (rank (insItems (shards n k fast xs h 0).ops) v : K) then 0 else 1) ≤
      6 / (k * (max (2 * k * Nat.clog 2 (n / k)) (2 * k) : Nat) * ε ^ 2) := by
  obtain ⟨c1, c2, c3, c4, c5, c6, c7⟩ := shards_spec n k fast xs M hM h 0
  have hN0 : 0 < 2 ^ h * M := by positivity
  have hNq : (0 : ℚ) < (2 ^ h * M : Nat) := by exact_mod_cast hN0
  have hne : insItems (shards n k fast xs h 0).ops ≠ [] := by
    intro e; rw [e] at c2; simp at c2; omega
  have hB0 : (0 : ℚ) < (max (2 * k * Nat.clog 2 (n / k)) (2 * k) : Nat) := by
    have : 0 < max (2 * k * Nat.clog 2 (n / k)) (2 * k) := lt_of_lt_of_le (by omega) (le_max_right _ _)
    exact_mod_cast this
  have hkq : (0 : ℚ) < k := by exact_mod_cast hk
  have hb := (shards_budget n k hk fast xs M hM h 0).2.1
  have := C138_value_tail _ (c4 hk) (c3 he) (c5 hcap) c6 (c7 hnan) hne (by rw [c2]; exact hN) (by rw [c2]; exact hex) q r
    (by rw [c2]; exact hr) h0 (by rw [c2]; exact h1) (ε * (2 ^ h * M : Nat)) (by positivity)
  have hcast : ((ε * (2 ^ h * M : Nat) : ℚ) : K) = (ε : K) * (2 ^ h * M : Nat) := by push_cast; ring
  rw [hcast] at this
  refine this.trans ?_
  have e2 : ((2 ^ h * M : Nat) : ℚ) = (2 : ℚ) ^ h * M := by push_cast; ring
  rw [e2] at hNq ⊢
  generalize ((max (2 * k * Nat.clog 2 (n / k)) (2 * k) : Nat) : ℚ) = B at hb hB0 ⊢
  generalize (2 : ℚ) ^ h * M = N at hb hNq ⊢
  calc 2 * ((shards n k fast xs h 0).share + (shards n k fast xs h 0).inherited) / (ε * N) ^ 2
      ≤ 2 * (3 * N ^ 2 / (k * B)) / (ε * N) ^ 2 := div_le_div_of_nonneg_right (by linarith) (by positivity)
    _ = 6 / (k * B * ε ^ 2) := by field_simp; norm_num

/-- A sketch given a history of calls, as a tree. -/
def ofHist (n k : Nat) (os : List (InsOp K)) : MergeTree K := os.foldl ins (new n k)

theorem foldl_ops : ∀ (os : List (InsOp K)) (t : MergeTree K), (os.foldl ins t).ops = t.ops ++ os ∧ (os.foldl ins t).root = t.root ∧
    (os.foldl ins t).inherited = t.inherited ∧ (t.EvenK → (os.foldl ins t).EvenK) ∧ (t.PosK → (os.foldl ins t).PosK) ∧
    (os.foldl ins t).run = (t.run >>= fun s => s.execOps os) ∧
    (t.Fits rcCapacity → (insItems (t.ops ++ os)).length < rcCapacity t.root.1 t.root.2 → (os.foldl ins t).Fits rcCapacity)
  | [], t => ⟨by simp, rfl, rfl, fun h => h, fun h => h, (bind_ret_right _).symm, fun h _ => h⟩
  | o :: os, t => by
    obtain ⟨h1, h2, h3, h4, h5, h6, h7⟩ := foldl_ops os (ins t o)
    refine ⟨by rw [List.foldl_cons, h1]; simp [ops], h2, h3, h4, h5, ?_, fun h h' => h7 ⟨h, ?_⟩ ?_⟩
    · rw [List.foldl_cons, h6]
      change ((t.run >>= fun s => s.execOp o) >>= fun s => s.execOps os) = _
      rw [bind_assoc']
      rfl
    · refine lt_of_le_of_lt ?_ h'
      simp only [ops, insItems, List.flatMap_append, List.length_append, List.flatMap_cons, List.flatMap_nil]
      simp
    · have : (ins t o).ops ++ os = t.ops ++ o :: os := by simp [ops]
      rw [this]
      exact h'

/-- C138 for one sketch fed any number of items below its capacity (C122), the declared length notwithstanding: the bound of C94. -/
theorem C138_beyond (n k : Nat) (hk : 1 ≤ k) (he : k % 2 = 0) (os : List (InsOp K)) (hm : ∀ o ∈ os, o.method = .default)
    (hcap : (insItems os).length < rcCapacity n k) (hN : (insItems os).length < 2 ^ 32) (hnan : ∀ y ∈ insItems os, y ≠ .nan)
    (hne : insItems os ≠ []) (hex : ∀ m : Nat, m ≤ (insItems os).length → FloatFmt.rnd (m : K) = .fin (m : K))
    (q : Fl K) (r : K) (hr : q * Fl.ofNat (insItems os).length = .fin r) (h0 : 0 ≤ r) (h1 : r ≤ ((insItems os).length : K)) (ε : ℚ) (hε : 0 < ε) :
    exp (runHist n k os >>= fun s => s.estValueAtQuantile q) (fun v =>
      if ((insItems os).countP (fun y => y < v) : K) ≤ r + (ε : K) * (insItems os).length ∧
        r - (ε : K) * (insItems os).length ≤ (rank (insItems os) v : K) then 0 else 1) ≤
      4 / (k * (max (2 * k * Nat.clog 2 (n / k)) (2 * k) : Nat) * ε ^ 2) := by
  obtain ⟨c1, c2, c3, c4, c5, c6, c7⟩ := foldl_ops os (new n k : MergeTree K)
  have c1 : (os.foldl ins (new n k)).ops = os := by rw [c1]; simp [ops]
  have hNq : (0 : ℚ) < (insItems os).length := by exact_mod_cast List.length_pos_of_ne_nil hne
  have hB0 : (0 : ℚ) < (max (2 * k * Nat.clog 2 (n / k)) (2 * k) : Nat) := by
    have : 0 < max (2 * k * Nat.clog 2 (n / k)) (2 * k) := lt_of_lt_of_le (by omega) (le_max_right _ _)
    exact_mod_cast this
  have hkq : (0 : ℚ) < k := by exact_mod_cast hk
  have := C138_value_tail (os.foldl ins (new n k)) (c5 hk) (c4 he) (c7 trivial (by simpa [ops, root] using hcap)) (by rw [c1]; exact hm)
    (by rw [c1]; exact hnan) (by rw [c1]; exact hne) (by rw [c1]; exact hN) (by rw [c1]; exact hex) q r
    (by rw [c1]; exact hr) h0 (by rw [c1]; exact h1) (ε * (insItems os).length) (by positivity)
  have hcast : ((ε * (insItems os).length : ℚ) : K) = (ε : K) * (insItems os).length := by push_cast; ring
  have hsh : (os.foldl ins (new n k)).share = 2 * ((insItems os).length : ℚ) ^ 2 / (k * (max (2 * k * Nat.clog 2 (n / k)) (2 * k) : Nat)) := by
    rw [share, rootBuffer, c1, c2]; rfl
  rw [hcast, hsh, c3, c1, c6] at this
  refine (le_of_eq rfl).trans (this.trans (le_of_eq ?_))
  have : (new n k : MergeTree K).inherited = 0 := rfl
  rw [this, add_zero]
  generalize ((max (2 * k * Nat.clog 2 (n / k)) (2 * k) : Nat) : ℚ) = B at hB0 ⊢
  generalize ((insItems os).length : ℚ) = N at hNq ⊢
  field_simp
  norm_num

/-! ### Concrete cases -/

section
attribute [local instance] f64Fmt f64_binary f64_mono

/-- In `f64`: 1024 shards of 200 items each in sketches `new(1000, 10)`; the median found in the merged sketch is, except with probability
at most 0.43, between the 40% and the 60% quantile of the 204800 items. -/
theorem C138_shards_example (xs : Nat → List (Fl ℚ)) (hM : ∀ i, (xs i).length = 200) (hnan : ∀ i, ∀ y ∈ xs i, y ≠ .nan) :
    exp ((shards 1000 10 false xs 10 0).run >>= fun s => s.estValueAtQuantile (.fin (1 / 2))) (fun v =>
      if ((insItems (shards 1000 10 false xs 10 0).ops).countP (fun y => y < v) : ℚ) ≤ 122880 ∧
        81920 ≤ (rank (insItems (shards 1000 10 false xs 10 0).ops) v : ℚ) then 0 else 1) ≤ 43 / 100 := by
  have hc : rcCapacity 1000 10 = 327660 := by decide +kernel
  have hB : max (2 * 10 * Nat.clog 2 (1000 / 10)) (2 * 10) = 140 := by decide +kernel
  have hex : ∀ m : Nat, m ≤ 2 ^ 10 * 200 → (FloatFmt.rnd (m : ℚ) : Fl ℚ) = .fin (m : ℚ) := fun m hm =>
    ExactCounts.rnd_nat f64_exactCounts (hm.trans (by norm_num))
  have hr : (.fin (1 / 2) : Fl ℚ) * Fl.ofNat (2 ^ 10 * 200) = .fin 102400 := by
    unfold Fl.ofNat
    rw [hex _ le_rfl]
    have := hex 102400 (by norm_num)
    change FloatFmt.rnd ((1 / 2 : ℚ) * ((2 ^ 10 * 200 : Nat) : ℚ)) = _
    rw [show (1 / 2 : ℚ) * ((2 ^ 10 * 200 : Nat) : ℚ) = ((102400 : Nat) : ℚ) by norm_num, this]
    norm_num
  have h := C138_shards (K := ℚ) 1000 10 (by norm_num) (by norm_num) false xs 200 hM (by norm_num) 10 (by rw [hc]; norm_num) (by norm_num) hnan hex
    (.fin (1 / 2)) 102400 hr (by norm_num) (by norm_num) (1 / 10) (by norm_num)
  rw [hB] at h
  have e1 : (102400 : ℚ) + ((1 / 10 : ℚ) : ℚ) * ((2 ^ 10 * 200 : Nat) : ℚ) = 122880 := by norm_num
  have e2 : (102400 : ℚ) - ((1 / 10 : ℚ) : ℚ) * ((2 ^ 10 * 200 : Nat) : ℚ) = 81920 := by norm_num
  simp only [Rat.cast_id, e1, e2] at h
  refine h.trans (by norm_num)
end

attribute [local instance] ratExact ratExact_exact in
/-- The tree of C133: the median found among the six items can be 4, and the quantile found for 3 can be 2/3. -/
theorem C138_example : CanReturn (treeABC.run >>= fun s => s.estValueAtQuantile (.fin (1 / 2))) (.fin 4) ∧
    CanReturn (treeABC.run >>= fun s => s.estQuantileAtValue (.fin 3)) (.fin (2 / 3)) := by
  refine ⟨by decide +kernel, by decide +kernel⟩

end MergeTree
end AQ

/-
Properties C157 and C158: rank errors of RCSketches have exponentially small tails, and all ranks and quantiles are accurate at once.
-/
import Mathlib.Analysis.Complex.ExponentialBounds
import Verif.Proofs.RCTail

set_option linter.unusedSectionVars false
set_option linter.unusedVariables false

namespace AQ
open Prog Spec RCSketch

theorem Prog.partially_forall {α ι : Type} {p : Prog α} {Q : ι → α → Prop} (h : ∀ i, Partially p (Q i)) : Partially p (fun a => ∀ i, Q i a) := by
  induction p with
  | ret a => exact fun i => h i
  | fail e => trivial
  | flip f ih => exact fun b => ih b (fun i => h i b)

variable {K : Type} [Field K] [LinearOrder K] [IsStrictOrderedRing K] [FloatFmt K]
namespace MergeTree
section
variable (t : MergeTree K) (hp : t.PosK) (hev : t.EvenK) (hf : t.Fits rcCapacity) (hm : ∀ o ∈ t.ops, o.method = .default)
  (hnan : ∀ y ∈ insItems t.ops, y ≠ .nan)
include hp hev hf hm hnan

/-- C157. Any tree of insertions and merges: the rank found for `x` is off by `d` or more with probability at most
`2 exp(-d² / (2 V))`, `V` the variance bound of C133. -/
theorem C157_tail (hN : (insItems t.ops).length < 2 ^ 63) (x : Fl K) (hx : x ≠ .nan) (d : ℚ) (hd : 0 ≤ d) :
    ((exp (t.run >>= fun s => s.interpolateRank x) (fun r => if d ≤ |(r : ℚ) - rank (insItems t.ops) x| then 1 else 0) : ℚ) : ℝ) ≤
      2 * Real.exp (-((d : ℝ) ^ 2 / (2 * ((t.share + t.inherited : ℚ) : ℝ)))) := by
  obtain ⟨h1, h2⟩ := one_sided t hp hev hf hm hnan x d hd
  rw [exp_interpolate t hp hev hf hm hnan hN hx (fun r => if d ≤ |r - rank (insItems t.ops) x| then 1 else 0)]
  have h3 : exp t.run (fun s => if d ≤ |(weightedRank s.buffers x : ℚ) - rank (insItems t.ops) x| then 1 else 0) ≤
      exp t.run (fun s => if d ≤ (((weightedRank s.buffers x : ℤ) - rank (insItems t.ops) x : ℤ) : ℚ) then 1 else 0) +
      exp t.run (fun s => if d ≤ (((rank (insItems t.ops) x : ℤ) - weightedRank s.buffers x : ℤ) : ℚ) then 1 else 0) := by
    rw [← exp_add]
    refine exp_mono ((partially_true _).mono (fun s _ => ?_))
    push_cast
    split
    · rename_i h
      rcases le_abs.1 h with h | h
      · rw [if_pos h]; split <;> norm_num
      · rw [if_pos (show d ≤ (rank (insItems t.ops) x : ℚ) - weightedRank s.buffers x by linarith)]; split <;> norm_num
    · split <;> split <;> norm_num
  have h4 : ((exp t.run (fun s => if d ≤ |(weightedRank s.buffers x : ℚ) - rank (insItems t.ops) x| then 1 else 0) : ℚ) : ℝ) ≤
      ((exp t.run (fun s => if d ≤ (((weightedRank s.buffers x : ℤ) - rank (insItems t.ops) x : ℤ) : ℚ) then 1 else 0) : ℚ) : ℝ) +
      ((exp t.run (fun s => if d ≤ (((rank (insItems t.ops) x : ℤ) - weightedRank s.buffers x : ℤ) : ℚ) then 1 else 0) : ℚ) : ℝ) := by
    exact_mod_cast h3
  linarith

open Classical in
/-- C158. All ranks at once: except with probability at most `2 m exp(-e² / (2 V))` every rank query of the final sketch is answered
with an error below `e + N/m`. -/
theorem C158_all_ranks (hne : insItems t.ops ≠ []) (hN : (insItems t.ops).length < 2 ^ 63) (m : Nat) (hm1 : 1 ≤ m) (e : ℚ) (he : 0 ≤ e) :
    ((exp t.run (fun s => if ∀ x, x ≠ .nan → ∃ r, s.interpolateRank x = .ret r ∧
        |(r : ℚ) - rank (insItems t.ops) x| < e + ((insItems t.ops).length : ℚ) / m then 0 else 1) : ℚ) : ℝ) ≤
      2 * m * Real.exp (-((e : ℝ) ^ 2 / (2 * ((t.share + t.inherited : ℚ) : ℝ)))) := by
  have h := all_ranks t.run (insItems t.ops) hne (fun s => weightedRank s.buffers) (stored_counts t hev hm) m hm1 e he _
    (fun x _ => (one_sided t hp hev hf hm hnan x e he).1) (fun x _ => (one_sided t hp hev hf hm hnan x e he).2)
  refine le_trans ?_ h
  have h2 : exp t.run (fun s => if ∀ x, x ≠ .nan → ∃ r, s.interpolateRank x = .ret r ∧
        |(r : ℚ) - rank (insItems t.ops) x| < e + ((insItems t.ops).length : ℚ) / m then 0 else 1) ≤
      exp t.run (fun s => if ∃ x, e + ((insItems t.ops).length : ℚ) / m ≤ |(weightedRank s.buffers x : ℚ) - rank (insItems t.ops) x| then 1 else 0) := by
    refine exp_mono ((C133_interpolate_rank t hev hm hN).mono (fun s hs => ?_))
    split
    · split <;> norm_num
    · rename_i hc
      rw [if_pos]
      by_contra hall
      push Not at hall
      exact hc (fun x hx => ⟨_, hs x hx, hall x⟩)
  exact_mod_cast h2

open Classical in
/-- C158. All quantiles at once: except with probability at most `2 m exp(-e² / (2 V))` every value query of the final sketch, for `q·N = r`
as computed, returns one of the items, with fewer than `r + e + N/m` items below it and more than `r - e - N/m` not above it. -/
theorem C158_all_values (hne : insItems t.ops ≠ []) (hN : (insItems t.ops).length < 2 ^ 32)
    (hex : ∀ m : Nat, m ≤ (insItems t.ops).length → FloatFmt.rnd (m : K) = .fin (m : K)) (m : Nat) (hm1 : 1 ≤ m) (e : ℚ) (he : 0 ≤ e) :
    ((exp t.run (fun s => if ∀ (q : Fl K) (r : K), q * Fl.ofNat (insItems t.ops).length = .fin r → 0 ≤ r → r ≤ ((insItems t.ops).length : K) →
        ∃ v, s.estValueAtQuantile q = .ret v ∧ v ∈ insItems t.ops ∧
          ((insItems t.ops).countP (fun y => y < v) : K) < r + ((e + ((insItems t.ops).length : ℚ) / m : ℚ) : K) ∧
          r - ((e + ((insItems t.ops).length : ℚ) / m : ℚ) : K) < (rank (insItems t.ops) v : K) then 0 else 1) : ℚ) : ℝ) ≤
      2 * m * Real.exp (-((e : ℝ) ^ 2 / (2 * ((t.share + t.inherited : ℚ) : ℝ)))) := by
  have h := all_ranks t.run (insItems t.ops) hne (fun s => weightedRank s.buffers) (stored_counts t hev hm) m hm1 e he _
    (fun x _ => (one_sided t hp hev hf hm hnan x e he).1) (fun x _ => (one_sided t hp hev hf hm hnan x e he).2)
  have hNq : (0 : ℚ) < (insItems t.ops).length := by exact_mod_cast List.length_pos_of_ne_nil hne
  have hmq : (0 : ℚ) < m := by exact_mod_cast hm1
  set D : ℚ := e + ((insItems t.ops).length : ℚ) / m with hD
  have hD0 : 0 < D := by rw [hD]; positivity
  have hD0K : (0 : K) < (D : K) := by exact_mod_cast hD0
  refine le_trans ?_ h
  have hv : Partially t.run (fun s => ∀ (i : Fl K × K), i.1 * Fl.ofNat (insItems t.ops).length = .fin i.2 → 0 ≤ i.2 →
      i.2 ≤ ((insItems t.ops).length : K) → ∃ v, s.estValueAtQuantile i.1 = .ret v ∧ v ∈ insItems t.ops ∧
      (∀ x, x < v → (weightedRank s.buffers x : K) ≤ i.2) ∧ ∀ x, v ≤ x → i.2 ≤ (weightedRank s.buffers x : K)) := by
    refine Prog.partially_forall (fun i => ?_)
    by_cases hc : i.1 * Fl.ofNat (insItems t.ops).length = .fin i.2 ∧ 0 ≤ i.2 ∧ i.2 ≤ ((insItems t.ops).length : K)
    · exact (value_sides t hp hev hf hm hnan hne hN hex i.1 i.2 hc.1 hc.2.1 hc.2.2).partially.mono (fun s hs _ _ _ => hs)
    · exact (partially_true _).mono (fun s _ a b c => absurd ⟨a, b, c⟩ hc)
  rw [Rat.cast_le]
  refine exp_mono (hv.mono (fun s hs => ?_))
  split
  · split <;> norm_num
  · rename_i hc
    rw [if_pos]
    by_contra hall
    push Not at hall
    refine hc (fun q r hr h0 h1 => ?_)
    obtain ⟨v, hv1, hv2, hl, hr'⟩ := hs (q, r) hr h0 h1
    have bound : ∀ x, (rank (insItems t.ops) x : K) < weightedRank s.buffers x + (D : K) ∧
        (weightedRank s.buffers x : K) < rank (insItems t.ops) x + (D : K) := by
      intro x
      obtain ⟨a1, a2⟩ := abs_lt.1 (hall x)
      constructor
      · have : (rank (insItems t.ops) x : ℚ) < weightedRank s.buffers x + D := by linarith
        have h2 : (((rank (insItems t.ops) x : ℚ)) : K) < ((weightedRank s.buffers x + D : ℚ) : K) := by exact_mod_cast this
        push_cast at h2; exact h2
      · have : (weightedRank s.buffers x : ℚ) < rank (insItems t.ops) x + D := by linarith
        have h2 : (((weightedRank s.buffers x : ℚ)) : K) < ((rank (insItems t.ops) x + D : ℚ) : K) := by exact_mod_cast this
        push_cast at h2; exact h2
    refine ⟨v, hv1, hv2, ?_, ?_⟩
    · by_cases hz : (insItems t.ops).filter (fun y => decide (y < v)) = []
      · rw [List.countP_eq_length_filter, hz]
        simp only [List.length_nil, Nat.cast_zero]
        have := h0; linarith
      · obtain ⟨f, hf1, hf2⟩ := exists_max _ hz
        obtain ⟨hfI, hfv⟩ := List.mem_filter.1 hf1
        have hfv : f < v := by simpa using hfv
        have hcount : (insItems t.ops).countP (fun y => y < v) = rank (insItems t.ops) f := by
          refine List.countP_congr (fun y hy => ?_)
          simp only [decide_eq_true_eq]
          exact ⟨fun h => hf2 y (List.mem_filter.2 ⟨hy, by simpa using h⟩), fun h => lt_of_le_of_lt h hfv⟩
        have h2 := (bound f).1
        have h3 := hl f hfv
        have h4 : ((insItems t.ops).countP (fun y => decide (y < v)) : K) = (rank (insItems t.ops) f : K) := by exact_mod_cast hcount
        rw [h4]; linarith
    · have h2 := (bound v).2
      have h3 := hr' v le_rfl
      linarith

end

/-! ### One sketch, and a tree of shards -/

/-- The tree of a plain history. -/
theorem ofHist_spec (n k : Nat) (hk : 1 ≤ k) (he : k % 2 = 0) (os : List (InsOp K)) (hcap : (insItems os).length < rcCapacity n k) :
    (ofHist n k os).ops = os ∧ (ofHist n k os).PosK ∧ (ofHist n k os).EvenK ∧ (ofHist n k os).Fits rcCapacity ∧
    (ofHist n k os).run = runHist n k os ∧ (ofHist n k os).share + (ofHist n k os).inherited =
      2 * ((insItems os).length : ℚ) ^ 2 / (k * (max (2 * k * Nat.clog 2 (n / k)) (2 * k) : Nat)) := by
  obtain ⟨c1, c2, c3, c4, c5, c6, c7⟩ := foldl_ops os (new n k : MergeTree K)
  have c1 : (os.foldl ins (new n k)).ops = os := by rw [c1]; simp [ops]
  refine ⟨c1, c5 hk, c4 he, c7 trivial (by simpa [ops, root] using hcap), c6, ?_⟩
  unfold ofHist
  rw [c3]
  change share _ + 0 = _
  rw [add_zero, share, rootBuffer, c1, c2]; rfl

theorem expo (N B c : ℚ) (hN : 0 < N) (hB : 0 < B) (hc : 0 ≤ c) :
    (((c * N : ℚ) : ℝ) ^ 2 / (2 * ((2 * N ^ 2 / B : ℚ) : ℝ))) = (c : ℝ) ^ 2 * B / 4 := by
  have h1 : (N : ℝ) ≠ 0 := by exact_mod_cast hN.ne'
  have h2 : (B : ℝ) ≠ 0 := by exact_mod_cast hB.ne'
  push_cast
  field_simp
  norm_num

section
variable (n k : Nat) (hk : 1 ≤ k) (he : k % 2 = 0) (os : List (InsOp K)) (hmeth : ∀ o ∈ os, o.method = .default)
  (hcap : (insItems os).length < rcCapacity n k) (hnan : ∀ y ∈ insItems os, y ≠ .nan) (hne : insItems os ≠ [])
include hk he hmeth hcap hnan hne

/-- C157 for one sketch, also beyond its declared length (C122): a rank query is off by `ε N` or more with probability at most
`2 exp(-ε² k B / 4)`, `B` the buffer size. -/
theorem C157_plain (hN : (insItems os).length < 2 ^ 63) (x : Fl K) (hx : x ≠ .nan) (ε : ℚ) (hε : 0 ≤ ε) :
    ((exp (runHist n k os >>= fun s => s.interpolateRank x)
      (fun r => if ε * (insItems os).length ≤ |(r : ℚ) - rank (insItems os) x| then 1 else 0) : ℚ) : ℝ) ≤
      2 * Real.exp (-((ε : ℝ) ^ 2 * ((k * (max (2 * k * Nat.clog 2 (n / k)) (2 * k) : Nat) : ℚ) : ℝ) / 4)) := by
  obtain ⟨a1, a2, a3, a4, a5, a6⟩ := ofHist_spec n k hk he os hcap
  have hNq : (0 : ℚ) < (insItems os).length := by exact_mod_cast List.length_pos_of_ne_nil hne
  have hB0 : (0 : ℚ) < k * (max (2 * k * Nat.clog 2 (n / k)) (2 * k) : Nat) := by
    have : 0 < k * max (2 * k * Nat.clog 2 (n / k)) (2 * k) := Nat.mul_pos hk (lt_of_lt_of_le (by omega) (le_max_right _ _))
    exact_mod_cast this
  have h := C157_tail (ofHist n k os) a2 a3 a4 (by rw [a1]; exact hmeth) (by rw [a1]; exact hnan) (by rw [a1]; exact hN) x hx
    (ε * (insItems os).length) (by positivity)
  rw [a1, a5, a6, expo _ _ _ hNq hB0 hε] at h
  exact h

open Classical in
/-- C158 for one sketch: except with probability at most `2 m exp(-k B / (4 m²))` every rank query is off by less than `2 N / m`. -/
theorem C158_plain (hN : (insItems os).length < 2 ^ 63) (m : Nat) (hm1 : 1 ≤ m) :
    ((exp (runHist n k os) (fun s => if ∀ x, x ≠ .nan → ∃ r, s.interpolateRank x = .ret r ∧
        |(r : ℚ) - rank (insItems os) x| < 2 * ((insItems os).length : ℚ) / m then 0 else 1) : ℚ) : ℝ) ≤
      2 * m * Real.exp (-(((k * (max (2 * k * Nat.clog 2 (n / k)) (2 * k) : Nat) : ℚ) : ℝ) / (4 * (m : ℝ) ^ 2))) := by
  obtain ⟨a1, a2, a3, a4, a5, a6⟩ := ofHist_spec n k hk he os hcap
  have hNq : (0 : ℚ) < (insItems os).length := by exact_mod_cast List.length_pos_of_ne_nil hne
  have hmR : (0 : ℝ) < m := by exact_mod_cast hm1
  have hB0 : (0 : ℚ) < k * (max (2 * k * Nat.clog 2 (n / k)) (2 * k) : Nat) := by
    have : 0 < k * max (2 * k * Nat.clog 2 (n / k)) (2 * k) := Nat.mul_pos hk (lt_of_lt_of_le (by omega) (le_max_right _ _))
    exact_mod_cast this
  have h := C158_all_ranks (ofHist n k os) a2 a3 a4 (by rw [a1]; exact hmeth) (by rw [a1]; exact hnan) (by rw [a1]; exact hne)
    (by rw [a1]; exact hN) m hm1 (1 / m * (insItems os).length) (by positivity)
  rw [a1, a5, a6, expo _ _ _ hNq hB0 (by positivity)] at h
  have e1 : (1 / m * (insItems os).length + (insItems os).length / m : ℚ) = 2 * ((insItems os).length : ℚ) / m := by ring
  rw [e1] at h
  have e2 : (((1 / m : ℚ) : ℝ) ^ 2 * ((k * (max (2 * k * Nat.clog 2 (n / k)) (2 * k) : Nat) : ℚ) : ℝ) / 4) =
      ((k * (max (2 * k * Nat.clog 2 (n / k)) (2 * k) : Nat) : ℚ) : ℝ) / (4 * (m : ℝ) ^ 2) := by
    generalize ((k * (max (2 * k * Nat.clog 2 (n / k)) (2 * k) : Nat) : ℚ) : ℝ) = Q
    push_cast
    field_simp
  rw [e2] at h
  exact h

open Classical in
/-- C158 for the value queries of one sketch: except with that probability every `est_value_at_quantile(q)` returns an item with fewer than
`r + 2 N / m` items below it and more than `r - 2 N / m` not above it, `r = q·N` as computed. -/
theorem C158_plain_values (hN : (insItems os).length < 2 ^ 32)
    (hex : ∀ m : Nat, m ≤ (insItems os).length → FloatFmt.rnd (m : K) = .fin (m : K)) (m : Nat) (hm1 : 1 ≤ m) :
    ((exp (runHist n k os) (fun s => if ∀ (q : Fl K) (r : K), q * Fl.ofNat (insItems os).length = .fin r → 0 ≤ r →
        r ≤ ((insItems os).length : K) → ∃ v, s.estValueAtQuantile q = .ret v ∧ v ∈ insItems os ∧
          ((insItems os).countP (fun y => y < v) : K) < r + ((2 * ((insItems os).length : ℚ) / m : ℚ) : K) ∧
          r - ((2 * ((insItems os).length : ℚ) / m : ℚ) : K) < (rank (insItems os) v : K) then 0 else 1) : ℚ) : ℝ) ≤
      2 * m * Real.exp (-(((k * (max (2 * k * Nat.clog 2 (n / k)) (2 * k) : Nat) : ℚ) : ℝ) / (4 * (m : ℝ) ^ 2))) := by
  obtain ⟨a1, a2, a3, a4, a5, a6⟩ := ofHist_spec n k hk he os hcap
  have hNq : (0 : ℚ) < (insItems os).length := by exact_mod_cast List.length_pos_of_ne_nil hne
  have hmR : (0 : ℝ) < m := by exact_mod_cast hm1
  have hB0 : (0 : ℚ) < k * (max (2 * k * Nat.clog 2 (n / k)) (2 * k) : Nat) := by
    have : 0 < k * max (2 * k * Nat.clog 2 (n / k)) (2 * k) := Nat.mul_pos hk (lt_of_lt_of_le (by omega) (le_max_right _ _))
    exact_mod_cast this
  have h := C158_all_values (ofHist n k os) a2 a3 a4 (by rw [a1]; exact hmeth) (by rw [a1]; exact hnan) (by rw [a1]; exact hne)
    (by rw [a1]; exact hN) (by rw [a1]; exact hex) m hm1 (1 / m * (insItems os).length) (by positivity)
  rw [a1, a5, a6, expo _ _ _ hNq hB0 (by positivity)] at h
  have e1 : (1 / m * (insItems os).length + (insItems os).length / m : ℚ) = 2 * ((insItems os).length : ℚ) / m := by ring
  rw [e1] at h
  have e2 : (((1 / m : ℚ) : ℝ) ^ 2 * ((k * (max (2 * k * Nat.clog 2 (n / k)) (2 * k) : Nat) : ℚ) : ℝ) / 4) =
      ((k * (max (2 * k * Nat.clog 2 (n / k)) (2 * k) : Nat) : ℚ) : ℝ) / (4 * (m : ℝ) ^ 2) := by
    generalize ((k * (max (2 * k * Nat.clog 2 (n / k)) (2 * k) : Nat) : ℚ) : ℝ) = Q
    push_cast
    field_simp
  rw [e2] at h
  exact h

end

/-- C157 for `2^h` shards of `M` items merged pairwise: `2 exp(-ε² k B / 6)`, whatever the number of shards. -/
theorem C157_shards (n k : Nat) (hk : 1 ≤ k) (he : k % 2 = 0) (fast : Bool) (xs : Nat → List (Fl K)) (M : Nat) (hM : ∀ i, (xs i).length = M)
    (hM0 : 0 < M) (h : Nat) (hcap : 2 ^ h * M < rcCapacity n k) (hN : 2 ^ h * M < 2 ^ 63) (hnan : ∀ i, ∀ y ∈ xs i, y ≠ .nan) (x : Fl K)
    (hx : x ≠ .nan) (ε : ℚ) (hε : 0 ≤ ε) :
    ((exp ((shards n k fast xs h 0).run >>= fun s => s.interpolateRank x)
      (fun r => if ε * ((2 : ℚ) ^ h * M) ≤ |(r : ℚ) - rank (insItems (shards n k fast xs h 0).ops) x| then 1 else 0) : ℚ) : ℝ) ≤
      2 * Real.exp (-((ε : ℝ) ^ 2 * ((k * (max (2 * k * Nat.clog 2 (n / k)) (2 * k) : Nat) : ℚ) : ℝ) / 6)) := by
  obtain ⟨c1, c2, c3, c4, c5, c6, c7⟩ := shards_spec n k fast xs M hM h 0
  have hb := (shards_budget n k hk fast xs M hM h 0).2.1
  have hpos : 0 ≤ (shards n k fast xs h 0).inherited := inherited_nonneg _
  have hsh := (shards_budget n k hk fast xs M hM h 0).1
  have hB0 : (0 : ℚ) < k * (max (2 * k * Nat.clog 2 (n / k)) (2 * k) : Nat) := by
    have : 0 < k * max (2 * k * Nat.clog 2 (n / k)) (2 * k) := Nat.mul_pos hk (lt_of_lt_of_le (by omega) (le_max_right _ _))
    exact_mod_cast this
  have hNq : (0 : ℚ) < (2 : ℚ) ^ h * M := by positivity
  refine (C157_tail _ (c4 hk) (c3 he) (c5 hcap) c6 (c7 hnan) (by rw [c2]; exact hN) x hx (ε * ((2 : ℚ) ^ h * M)) (by positivity)).trans ?_
  refine mul_le_mul_of_nonneg_left (Real.exp_le_exp.2 (neg_le_neg ?_)) (by norm_num)
  generalize (k * (max (2 * k * Nat.clog 2 (n / k)) (2 * k) : Nat) : ℚ) = B at hb hB0 hsh ⊢
  have hV0 : 0 < (shards n k fast xs h 0).share + (shards n k fast xs h 0).inherited := by
    rw [hsh]; have : 0 < 2 * ((2 : ℚ) ^ h * M) ^ 2 / B := by positivity
    linarith
  generalize (shards n k fast xs h 0).share + (shards n k fast xs h 0).inherited = V at hb hV0 ⊢
  generalize (2 : ℚ) ^ h * M = N at hb hNq ⊢
  rw [le_div_iff₀ hB0] at hb
  have key : ε ^ 2 * B / 6 ≤ (ε * N) ^ 2 / (2 * V) := by
    rw [div_le_div_iff₀ (by norm_num) (by positivity)]
    nlinarith [sq_nonneg ε, mul_le_mul_of_nonneg_left hb (sq_nonneg ε)]
  have key' : ((ε ^ 2 * B / 6 : ℚ) : ℝ) ≤ (((ε * N) ^ 2 / (2 * V) : ℚ) : ℝ) := by exact_mod_cast key
  push_cast at key' ⊢
  exact key'

/-! ### Concrete cases -/

theorem exp_seven : 2 * Real.exp (-7) ≤ 1 / 500 := by
  have h1 : (2.7 : ℝ) ≤ Real.exp 1 := le_trans (by norm_num) Real.exp_one_gt_d9.le
  have h2 : Real.exp 7 = Real.exp 1 ^ 7 := by rw [← Real.exp_nat_mul]; norm_num
  have h3 : (1000 : ℝ) ≤ Real.exp 7 := by
    rw [h2]
    exact le_trans (by norm_num) (pow_le_pow_left₀ (by norm_num) h1 7)
  rw [Real.exp_neg]
  have h4 : (Real.exp 7)⁻¹ ≤ 1000⁻¹ := inv_anti₀ (by norm_num) h3
  linarith

theorem exp_twentysix : 200 * Real.exp (-26) ≤ 1 / 10 ^ 8 := by
  have h1 : (2.7 : ℝ) ≤ Real.exp 1 := le_trans (by norm_num) Real.exp_one_gt_d9.le
  have h2 : Real.exp 26 = Real.exp 1 ^ 26 := by rw [← Real.exp_nat_mul]; norm_num
  have h3 : (2 * 10 ^ 10 : ℝ) ≤ Real.exp 26 := by
    rw [h2]
    exact le_trans (by norm_num) (pow_le_pow_left₀ (by norm_num) h1 26)
  rw [Real.exp_neg]
  have h4 : (Real.exp 26)⁻¹ ≤ (2 * 10 ^ 10)⁻¹ := inv_anti₀ (by norm_num) h3
  norm_num at h4 ⊢
  linarith


/-- A sketch `new(1000000, 100)` given any million non-NaN items in one batch: a rank query is off by 1% or more with probability at most 0.002
(C62 gives 0.072). -/
theorem C157_example (xs : List (Fl K)) (hl : xs.length = 1000000) (hxs : ∀ y ∈ xs, y ≠ .nan) (x : Fl K) (hx : x ≠ .nan) :
    ((exp (runHist 1000000 100 [.addBuffer xs] >>= fun s => s.interpolateRank x)
      (fun r => if (10000 : ℚ) ≤ |(r : ℚ) - rank xs x| then 1 else 0) : ℚ) : ℝ) ≤ 1 / 500 := by
  have hB : max (2 * 100 * Nat.clog 2 (1000000 / 100)) (2 * 100) = 2800 := by decide +kernel
  have he : insItems [InsOp.addBuffer xs] = xs := by simp [insItems, InsOp.items]
  have hc : 1000000 < rcCapacity 1000000 100 := by decide +kernel
  have h := C157_plain (K := K) 1000000 100 (by norm_num) (by norm_num) [.addBuffer xs] (by simp [InsOp.method]) (by rw [he, hl]; exact hc)
    (by rw [he]; exact hxs) (by rw [he]; intro h; rw [h] at hl; simp at hl) (by rw [he, hl]; norm_num) x hx (1 / 100) (by norm_num)
  rw [hB, he, hl] at h
  have e1 : (1 / 100 : ℚ) * ((1000000 : Nat) : ℚ) = 10000 := by norm_num
  rw [e1] at h
  refine h.trans (le_trans (le_of_eq ?_) exp_seven)
  norm_num

open Classical in
/-- A sketch `new(1000000, 200)` given any million non-NaN items: except with probability at most `10⁻⁸` all rank queries whatsoever are answered within 2%. -/
theorem C158_example (xs : List (Fl K)) (hl : xs.length = 1000000) (hxs : ∀ y ∈ xs, y ≠ .nan) :
    ((exp (runHist 1000000 200 [.addBuffer xs]) (fun s => if ∀ x, x ≠ .nan → ∃ r, s.interpolateRank x = .ret r ∧
        |(r : ℚ) - rank xs x| < 20000 then 0 else 1) : ℚ) : ℝ) ≤ 1 / 10 ^ 8 := by
  have hB : max (2 * 200 * Nat.clog 2 (1000000 / 200)) (2 * 200) = 5200 := by decide +kernel
  have he : insItems [InsOp.addBuffer xs] = xs := by simp [insItems, InsOp.items]
  have hc : 1000000 < rcCapacity 1000000 200 := by decide +kernel
  have h := C158_plain (K := K) 1000000 200 (by norm_num) (by norm_num) [.addBuffer xs] (by simp [InsOp.method]) (by rw [he, hl]; exact hc)
    (by rw [he]; exact hxs) (by rw [he]; intro h; rw [h] at hl; simp at hl) (by rw [he, hl]; norm_num) 100 (by norm_num)
  rw [hB, he, hl] at h
  have e1 : 2 * ((1000000 : Nat) : ℚ) / ((100 : Nat) : ℚ) = 20000 := by norm_num
  rw [e1] at h
  refine h.trans (le_trans (le_of_eq ?_) exp_twentysix)
  norm_num

end MergeTree
end AQ

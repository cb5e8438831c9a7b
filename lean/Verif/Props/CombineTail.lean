/-
Properties C161 and C162: exponential tails of the answers of `MultiDigest`s and `ParallelDigest`s of randomised digests.
-/
import Mathlib.Analysis.Complex.ExponentialBounds
import Verif.Proofs.CombineTail
import Verif.Props.RCTail
import Verif.Props.RC2Tail
import Verif.Props.RCCapacity

set_option linter.unusedSectionVars false
set_option linter.unusedVariables false

namespace AQ
open Prog Spec

section
variable {D : Type} [FloatFmt ℚ] [FloatFmt.Exact ℚ] [Digest D (Fl ℚ)]

/-- What concentration means: an answer is off by `ε` or more with probability at most `2 exp(-(ε n)² / (2 V))`. -/
theorem Spec.Concentrates.tail {x : Fl ℚ} {ops : List (Op (Fl ℚ))} {n R V : Nat} {d : D} (h : Concentrates x ops n R V d) (hn : n ≠ 0)
    (W : ℝ) (hW : (V : ℝ) ≤ W) (ε : ℚ) (hε : 0 ≤ ε) :
    ((exp (execAll d ops >>= fun d' => Digest.estQuantileAtValue d' x)
      (fun r => if ε ≤ |r.1.toK - (R : ℚ) / n| then 1 else 0) : ℚ) : ℝ) ≤ 2 * Real.exp (-((ε : ℝ) * n) ^ 2 / (2 * W)) := by
  have hnq : (0 : ℚ) < n := by exact_mod_cast Nat.pos_of_ne_zero hn
  have h1 := tail_of_mgf (execAll d ops >>= fun d' => Digest.estQuantileAtValue d' x) (fun r => ⌊r.1.toK * n⌋ - (R : ℤ)) V W hW
    (fun a ha => by simpa [rcosh] using h.mgf a ha 1 (by norm_num)) (ε * n) (by positivity)
  have h2 := tail_of_mgf (execAll d ops >>= fun d' => Digest.estQuantileAtValue d' x) (fun r => (R : ℤ) - ⌊r.1.toK * n⌋) V W hW
    (fun a ha => by simpa [rcosh] using h.mgf a ha (-1) (by norm_num)) (ε * n) (by positivity)
  have h3 : exp (execAll d ops >>= fun d' => Digest.estQuantileAtValue d' x) (fun r => if ε ≤ |r.1.toK - (R : ℚ) / n| then 1 else 0) ≤
      exp (execAll d ops >>= fun d' => Digest.estQuantileAtValue d' x)
        (fun r => if ε * n ≤ ((⌊r.1.toK * n⌋ - (R : ℤ) : ℤ) : ℚ) then 1 else 0) +
      exp (execAll d ops >>= fun d' => Digest.estQuantileAtValue d' x)
        (fun r => if ε * n ≤ (((R : ℤ) - ⌊r.1.toK * n⌋ : ℤ) : ℚ) then 1 else 0) := by
    rw [← exp_add]
    refine exp_mono (h.sure.partially.mono ?_)
    rintro r ⟨⟨z, hz⟩, -⟩
    have e : ⌊r.1.toK * n⌋ = z := by rw [hz]; exact whole_mul z hn
    rw [e]
    have e2 : r.1.toK = (z : ℚ) / n := by rw [hz]; rfl
    rw [e2]
    push_cast
    split
    · rename_i hc
      have hc' : ε * n ≤ |(z : ℚ) - R| := by
        rw [← sub_div, abs_div, abs_of_pos hnq, le_div_iff₀ hnq] at hc
        exact hc
      rcases le_abs.1 hc' with hc | hc
      · rw [if_pos hc]; split <;> norm_num
      · rw [if_pos (show ε * n ≤ (R : ℚ) - z by linarith)]; split <;> norm_num
    · split <;> split <;> norm_num
  have h4 : ((exp (execAll d ops >>= fun d' => Digest.estQuantileAtValue d' x)
        (fun r => if ε ≤ |r.1.toK - (R : ℚ) / n| then 1 else 0) : ℚ) : ℝ) ≤
      ((exp (execAll d ops >>= fun d' => Digest.estQuantileAtValue d' x)
        (fun r => if ε * n ≤ ((⌊r.1.toK * n⌋ - (R : ℤ) : ℤ) : ℚ) then 1 else 0) : ℚ) : ℝ) +
      ((exp (execAll d ops >>= fun d' => Digest.estQuantileAtValue d' x)
        (fun r => if ε * n ≤ (((R : ℤ) - ⌊r.1.toK * n⌋ : ℤ) : ℚ) then 1 else 0) : ℚ) : ℝ) := by
    exact_mod_cast h3
  have e5 : (-((ε : ℝ) * n) ^ 2 / (2 * W)) = -((((ε * n : ℚ)) : ℝ) ^ 2 / (2 * W)) := by
    push_cast; ring
  rw [e5]
  linarith

/-! ### One sketch -/

/-- The number of fair signs that an `RCSketch::new(n, k)` fed `N` items is worth: `2 N² / (k B)`, `B` the buffer size. -/
def rcSigns (n k N : Nat) : ℚ := 2 * (N : ℚ) ^ 2 / (k * (max (2 * k * Nat.clog 2 (n / k)) (2 * k) : Nat))

/-- An `RCSketch` used through the trait. -/
theorem rc_concentrates (n k : Nat) (hk : 1 ≤ k) (hk2 : k % 2 = 0) (ops : List (Op (Fl ℚ)))
    (hins : ∀ o ∈ ops, (∃ x, o = .add x) ∨ ∃ xs, o = .addBuffer xs) (hcap : (itemsOf ops).length < rcCapacity n k)
    (hlen : (itemsOf ops).length < 2 ^ 32) (hnan : ∀ y ∈ itemsOf ops, y ≠ .nan) (hne : itemsOf ops ≠ []) (x : Fl ℚ) (hx : x ≠ .nan) :
    Concentrates x ops (itemsOf ops).length (rank (itemsOf ops) x) ⌊rcSigns n k (itemsOf ops).length⌋₊
      (RCSketch.fresh n k : RCSketch ℚ) := by
  obtain ⟨iops, hex, hit, hmeth, hfast⟩ := rc_trait_run n k hk ops hins
  rw [← hit] at hlen hnan hne hcap ⊢
  have hN : 0 < (insItems iops).length := List.length_pos_of_ne_nil hne
  have hNq : (0 : ℚ) < (insItems iops).length := by exact_mod_cast hN
  have hs : Always (execAll (RCSketch.fresh n k : RCSketch ℚ) ops) (fun s => Digest.estQuantileAtValue s x =
      .ret ((.fin (((weightedRank s.buffers x : ℤ) : ℚ) / (insItems iops).length) : Fl ℚ), s) ∧
      Digest.count s = .ret (insItems iops).length) := by
    rw [hex]
    refine ((RCSketch.C122_safe n k hk iops hmeth hcap hnan).and (rc_levels n k hk2 iops hlen)).mono ?_
    rintro s ⟨hc, hl⟩
    have hc' : s.count = (insItems iops).length := by
      injection (show Prog.ret s.count = Prog.ret (insItems iops).length from hc)
    refine ⟨?_, hc⟩
    show (s.estQuantileAtValue x >>= _) = _
    unfold RCSketch.estQuantileAtValue
    rw [estQuantile_eq hx _ _ (by omega), bind_ret, hc', Fl.ofNat_exact, Fl.ofNat_exact, Fl.div_exact _ hNq.ne']
    simp
  refine ⟨?_, ?_⟩
  · rw [always_bind]
    refine hs.mono ?_
    rintro s ⟨h1, h2⟩
    rw [h1]
    exact ⟨⟨_, rfl⟩, h2⟩
  · intro a ha σ hσ
    obtain ⟨a1, a2, a3, a4, a5, a6⟩ := MergeTree.ofHist_spec n k hk hk2 iops hcap
    have h1 := (MergeTree.mgf ha hσ (MergeTree.ofHist n k iops) a2 a3 a4 (by rw [a1]; exact hmeth) (by rw [a1]; exact hnan)).run x
    rw [a1, a5] at h1
    have hM : ⌊(MergeTree.ofHist n k iops).share⌋₊ + (MergeTree.ofHist n k iops).inhN ≤ ⌊rcSigns n k (insItems iops).length⌋₊ := by
      refine Nat.le_floor ?_
      unfold rcSigns
      rw [← a6]
      push_cast
      exact add_le_add (Nat.floor_le (MergeTree.share_nonneg _)) (MergeTree.inhN_le _)
    refine le_trans (le_of_eq ?_) (h1.trans (pow_le_pow_right₀ (one_le_rcosh (by linarith)) hM))
    rw [exp_bind]
    rw [← hex]
    refine exp_congr (hs.partially.mono ?_)
    rintro s ⟨h2, -⟩
    rw [h2, exp_ret]
    have e : ⌊(Fl.fin (((weightedRank s.buffers x : ℤ) : ℚ) / (insItems iops).length)).toK * (insItems iops).length⌋ =
      (weightedRank s.buffers x : ℤ) := whole_mul _ hN.ne'
    show a ^ (σ * (⌊(Fl.fin _).toK * _⌋ - _)) = _
    rw [e]

/-- The number of fair signs that an `RCSketch2` with parameter `k` fed `N` items is worth. -/
def rc2Signs (k N : Nat) : ℚ := 3 * ((N : ℚ) / k) ^ 2

/-- An `RCSketch2` used through the trait. -/
theorem rc2_concentrates {sec : Nat → Nat} {k : Nat} (hk : Spec.Sections sec k) (ops : List (Op (Fl ℚ)))
    (hins : ∀ o ∈ ops, (∃ x, o = .add x) ∨ ∃ xs, o = .addBuffer xs) (hlen : (itemsOf ops).length < 2 ^ 32)
    (hnan : ∀ y ∈ itemsOf ops, y ≠ .nan) (hne : itemsOf ops ≠ []) (x : Fl ℚ) (hx : x ≠ .nan) :
    Concentrates x ops (itemsOf ops).length (rank (itemsOf ops) x) ⌊rc2Signs k (itemsOf ops).length⌋₊ (RC2.new sec k : RC2 sec ℚ) := by
  obtain ⟨iops, hio⟩ := exists_traitIns ops hins
  have hit := (traitIns_exec hio (RCSketch.fresh 1 1)).2.1
  have hmeth := (traitIns_exec hio (RCSketch.fresh 1 1)).2.2
  have hex : execAll (RC2.new sec k : RC2 sec ℚ) ops = RCSketch2.runHist sec k iops := traitIns_exec2 hio _
  rw [hit] at hlen hnan hne ⊢
  have hN : 0 < (insItems iops).length := List.length_pos_of_ne_nil hne
  have hNq : (0 : ℚ) < (insItems iops).length := by exact_mod_cast hN
  have hsz := hk.size hlen
  have hs : Always (execAll (RC2.new sec k : RC2 sec ℚ) ops) (fun s => Digest.estQuantileAtValue s x =
      .ret ((.fin (((weightedRank (RCSketch2.buffers s) x : ℤ) : ℚ) / (insItems iops).length) : Fl ℚ), s) ∧
      Digest.count s = .ret (insItems iops).length) := by
    rw [hex]
    refine ((C19_insertions_never_panic sec hk.ok k iops hmeth hlen hnan).and (rc2_geo k iops hsz)).mono ?_
    rintro s ⟨hc, hl⟩
    refine ⟨?_, ?_⟩
    · show (RCSketch2.estQuantileAtValue s x >>= _) = _
      unfold RCSketch2.estQuantileAtValue
      rw [estQuantile_eq hx _ _ (by simp [RCSketch2.buffers]; omega), bind_ret, hc, Fl.ofNat_exact, Fl.ofNat_exact,
        Fl.div_exact _ hNq.ne']
      simp
    · show Prog.ret (RCSketch2.count s) = _
      rw [hc]
  refine ⟨?_, ?_⟩
  · rw [always_bind]
    refine hs.mono ?_
    rintro s ⟨h1, h2⟩
    rw [h1]
    exact ⟨⟨_, rfl⟩, h2⟩
  · intro a ha σ hσ
    have h1 := RCSketch2.hist_mgf k iops hsz hmeth hlen hnan x ha hσ
    have hM := Nat.floor_le_floor (rc2_k_bounds hk (insItems iops).length).2
    refine le_trans (le_of_eq ?_) (h1.trans (pow_le_pow_right₀ (one_le_rcosh (by linarith)) hM))
    rw [exp_bind, ← hex]
    refine exp_congr (hs.partially.mono ?_)
    rintro s ⟨h2, -⟩
    rw [h2, exp_ret]
    have e : ⌊(Fl.fin (((weightedRank (RCSketch2.buffers s) x : ℤ) : ℚ) / (insItems iops).length)).toK * (insItems iops).length⌋ =
      (weightedRank (RCSketch2.buffers s) x : ℤ) := whole_mul _ hN.ne'
    show a ^ (σ * (⌊(Fl.fin _).toK * _⌋ - _)) = _
    rw [e]

/-! ### C161: `MultiDigest` -/

/-- C161. A `MultiDigest` whose members, each with its own coins, concentrate: the numerator of its answer does, with as many signs as
the members have together, over a denominator that grows with the number of members. -/
theorem C161_multi (ds : List D) (hne : ds ≠ []) (ops : List (Op (Fl ℚ))) (x : Fl ℚ) (n R V : Nat) (hn : n ≠ 0)
    (h : ∀ d ∈ ds, Concentrates x ops n R V d) :
    Concentrates x ops (ds.length * n) (ds.length * R) (ds.length * V) (MultiDigest.built ds : MultiDigest D) :=
  MultiDigest.concentrates ds hne ops x hn h

/-- C161. So its answer is off by `ε` or more with probability at most `2 exp(-m (ε n)² / (2 V))`, `m` members. -/
theorem C161_multi_tail (ds : List D) (hne : ds ≠ []) (ops : List (Op (Fl ℚ))) (x : Fl ℚ) (n R V : Nat) (hn : n ≠ 0)
    (h : ∀ d ∈ ds, Concentrates x ops n R V d) (W : ℝ) (hW : (V : ℝ) ≤ W) (ε : ℚ) (hε : 0 ≤ ε) :
    ((exp (execAll (MultiDigest.built ds) ops >>= fun m => Digest.estQuantileAtValue m x)
      (fun r => if ε ≤ |r.1.toK - (R : ℚ) / n| then 1 else 0) : ℚ) : ℝ) ≤
      2 * Real.exp (-(ds.length * ((ε : ℝ) * n) ^ 2 / (2 * W))) := by
  have hl : ds.length ≠ 0 := (List.length_pos_of_ne_nil hne).ne'
  have hlR : (ds.length : ℝ) ≠ 0 := by exact_mod_cast hl
  have hlq : (ds.length : ℚ) ≠ 0 := by exact_mod_cast hl
  have h1 := (C161_multi ds hne ops x n R V hn h).tail (Nat.mul_ne_zero hl hn) (ds.length * W) (by
    push_cast
    exact mul_le_mul_of_nonneg_left hW (Nat.cast_nonneg _)) ε hε
  have e1 : ((ds.length * R : ℕ) : ℚ) / (ds.length * n : ℕ) = (R : ℚ) / n := by
    push_cast
    rw [mul_div_mul_left _ _ hlq]
  have e2 : (-((ε : ℝ) * (ds.length * n : ℕ)) ^ 2 / (2 * (ds.length * W))) = -(ds.length * ((ε : ℝ) * n) ^ 2 / (2 * W)) := by
    push_cast
    by_cases hW0 : W = 0
    · subst hW0; simp
    · field_simp
  rw [e1, e2] at h1
  exact h1

theorem signs_exp {N B : ℚ} (hN : 0 < N) (hB : 0 < B) (c : ℝ) (ε : ℚ) :
    c * ((ε : ℝ) * (N : ℝ)) ^ 2 / (2 * ((2 * N ^ 2 / B : ℚ) : ℝ)) = c * (ε : ℝ) ^ 2 * (B : ℝ) / 4 := by
  have h1 : (N : ℝ) ≠ 0 := by exact_mod_cast hN.ne'
  have h2 : (B : ℝ) ≠ 0 := by exact_mod_cast hB.ne'
  push_cast
  field_simp
  norm_num

/-- C161 for `m` `RCSketch`es fed through the `MultiDigest`: the answer is off by `ε` or more with probability at most
`2 exp(-ε² m k B / 4)`, `B` the buffer size: as for one sketch with `m` times the buffers. -/
theorem C161_multi_rcsketch (n k m : Nat) (hm : m ≠ 0) (hk : 1 ≤ k) (hk2 : k % 2 = 0) (ops : List (Op (Fl ℚ)))
    (hins : ∀ o ∈ ops, (∃ x, o = .add x) ∨ ∃ xs, o = .addBuffer xs) (hcap : (itemsOf ops).length < rcCapacity n k)
    (hlen : (itemsOf ops).length < 2 ^ 32) (hnan : ∀ y ∈ itemsOf ops, y ≠ .nan) (hne : itemsOf ops ≠ []) (x : Fl ℚ) (hx : x ≠ .nan)
    (ε : ℚ) (hε : 0 ≤ ε) :
    ((exp (execAll (MultiDigest.built (List.replicate m (RCSketch.fresh n k : RCSketch ℚ))) ops >>= fun m => Digest.estQuantileAtValue m x)
      (fun r => if ε ≤ |r.1.toK - (rank (itemsOf ops) x : ℚ) / (itemsOf ops).length| then 1 else 0) : ℚ) : ℝ) ≤
      2 * Real.exp (-(m * (ε : ℝ) ^ 2 * ((k * (max (2 * k * Nat.clog 2 (n / k)) (2 * k) : Nat) : ℚ) : ℝ) / 4)) := by
  have hl : (List.replicate m (RCSketch.fresh n k : RCSketch ℚ)).length = m := List.length_replicate
  have hN : 0 < (itemsOf ops).length := List.length_pos_of_ne_nil hne
  have hNq : (0 : ℚ) < (itemsOf ops).length := by exact_mod_cast hN
  have hB0 : (0 : ℚ) < k * (max (2 * k * Nat.clog 2 (n / k)) (2 * k) : Nat) := by
    have : 0 < k * max (2 * k * Nat.clog 2 (n / k)) (2 * k) := Nat.mul_pos hk (lt_of_lt_of_le (by omega) (le_max_right _ _))
    exact_mod_cast this
  have h := C161_multi_tail (List.replicate m (RCSketch.fresh n k : RCSketch ℚ)) (by
      intro h0
      rw [h0] at hl
      exact hm hl.symm) ops x _ _ _ hN.ne' (fun d hd => by
    rw [List.eq_of_mem_replicate hd]
    exact rc_concentrates n k hk hk2 ops hins hcap hlen hnan hne x hx) ((rcSigns n k (itemsOf ops).length : ℚ) : ℝ) (by
      exact_mod_cast Nat.floor_le (show 0 ≤ rcSigns n k (itemsOf ops).length by unfold rcSigns; positivity)) ε hε
  have e := signs_exp hNq hB0 (m : ℝ) ε
  unfold rcSigns at h
  rw [hl] at h
  rw [← e]
  exact_mod_cast h

theorem signs2_exp {N k : ℚ} (hN : 0 < N) (hk : 0 < k) (c : ℝ) (ε : ℚ) :
    c * ((ε : ℝ) * (N : ℝ)) ^ 2 / (2 * ((3 * (N / k) ^ 2 : ℚ) : ℝ)) = c * ((k : ℝ) * ε) ^ 2 / 6 := by
  have h1 : (N : ℝ) ≠ 0 := by exact_mod_cast hN.ne'
  have h2 : (k : ℝ) ≠ 0 := by exact_mod_cast hk.ne'
  push_cast
  field_simp
  ring

/-- C161 for `m` `RCSketch2`s: probability at most `2 exp(-m (k ε)² / 6)`. -/
theorem C161_multi_rcsketch2 {sec : Nat → Nat} {k : Nat} (hk : Spec.Sections sec k) (m : Nat) (hm : m ≠ 0) (ops : List (Op (Fl ℚ)))
    (hins : ∀ o ∈ ops, (∃ x, o = .add x) ∨ ∃ xs, o = .addBuffer xs) (hlen : (itemsOf ops).length < 2 ^ 32)
    (hnan : ∀ y ∈ itemsOf ops, y ≠ .nan) (hne : itemsOf ops ≠ []) (x : Fl ℚ) (hx : x ≠ .nan) (ε : ℚ) (hε : 0 ≤ ε) :
    ((exp (execAll (MultiDigest.built (List.replicate m (RC2.new sec k : RC2 sec ℚ))) ops >>= fun m => Digest.estQuantileAtValue m x)
      (fun r => if ε ≤ |r.1.toK - (rank (itemsOf ops) x : ℚ) / (itemsOf ops).length| then 1 else 0) : ℚ) : ℝ) ≤
      2 * Real.exp (-(m * ((k : ℝ) * ε) ^ 2 / 6)) := by
  have hl : (List.replicate m (RC2.new sec k : RC2 sec ℚ)).length = m := List.length_replicate
  have hN : 0 < (itemsOf ops).length := List.length_pos_of_ne_nil hne
  have hNq : (0 : ℚ) < (itemsOf ops).length := by exact_mod_cast hN
  have hkq : (0 : ℚ) < k := by exact_mod_cast (by have := hk.base; omega : 0 < k)
  have h := C161_multi_tail (List.replicate m (RC2.new sec k : RC2 sec ℚ)) (by
      intro h0
      rw [h0] at hl
      exact hm hl.symm) ops x _ _ _ hN.ne' (fun d hd => by
    rw [List.eq_of_mem_replicate hd]
    exact rc2_concentrates hk ops hins hlen hnan hne x hx) ((rc2Signs k (itemsOf ops).length : ℚ) : ℝ) (by
      exact_mod_cast Nat.floor_le (show 0 ≤ rc2Signs k (itemsOf ops).length by unfold rc2Signs; positivity)) ε hε
  have e := signs2_exp hNq hkq (m : ℝ) ε
  unfold rc2Signs at h
  rw [hl] at h
  have e' : ((k : ℚ) : ℝ) = (k : ℝ) := by norm_cast
  rw [e'] at e
  rw [← e]
  exact_mod_cast h

/-! ### C162: `ParallelDigest` -/

/-- C162. A `ParallelDigest` whose members, each on its share and with its own coins, concentrate: the numerator of its answer does, with
as many signs as the members have together. -/
theorem C162_parallel (ds : List D) (hne : ds ≠ []) (ops : List (Op (Fl ℚ))) (hops : PlainIns ops) (x : Fl ℚ)
    (n R V : Nat → Nat) (hN : 0 < ∑ i ∈ Finset.range ds.length, n i)
    (h : ∀ i (h : i < ds.length), Concentrates x (share ds.length i ops) (n i) (R i) (V i) ds[i]) :
    Concentrates x ops (∑ i ∈ Finset.range ds.length, n i) (∑ i ∈ Finset.range ds.length, R i) (∑ i ∈ Finset.range ds.length, V i)
      (ParallelDigest.new ds : ParallelDigest D ℚ) := ParallelDigest.concentrates ds hne ops hops x n R V hN h

/-- Members alike, whose number of signs is at most `c` times the square of the number of items of their share, no share longer than `s`. -/
theorem parallel_signs (m : Nat) (hm : m ≠ 0) (d : D) (ops : List (Op (Fl ℚ))) (hops : PlainIns ops) (x : Fl ℚ) (V : Nat → Nat) (c : ℚ)
    (hc : 0 ≤ c) (s : Nat) (hne : itemsOf ops ≠ [])
    (h : ∀ i, i < m → (itemsOf (share m i ops)).length ≤ s ∧ (V i : ℚ) ≤ c * ((itemsOf (share m i ops)).length : ℚ) ^ 2 ∧
      Concentrates x (share m i ops) (itemsOf (share m i ops)).length (rank (itemsOf (share m i ops)) x) (V i) d)
    (ε : ℚ) (hε : 0 ≤ ε) :
    ((exp (execAll (ParallelDigest.new (List.replicate m d) : ParallelDigest D ℚ) ops >>= fun p => Digest.estQuantileAtValue p x)
      (fun r => if ε ≤ |r.1.toK - (rank (itemsOf ops) x : ℚ) / (itemsOf ops).length| then 1 else 0) : ℚ) : ℝ) ≤
      2 * Real.exp (-((ε : ℝ) ^ 2 * (itemsOf ops).length / (2 * c * s))) := by
  have hlen : (List.replicate m d).length = m := List.length_replicate
  have hN : 0 < (itemsOf ops).length := List.length_pos_of_ne_nil hne
  have hsN : ∑ i ∈ Finset.range m, (itemsOf (share m i ops)).length = (itemsOf ops).length :=
    sum_share List.length rfl (fun a b => List.length_append) m hm ops
  have hsR : ∑ i ∈ Finset.range m, rank (itemsOf (share m i ops)) x = rank (itemsOf ops) x :=
    sum_share (fun l => rank l x) rfl (fun a b => by simp [rank]) m hm ops
  have h1 := C162_parallel (List.replicate m d) (by
      intro h0
      rw [h0] at hlen
      exact hm hlen.symm) ops hops x (fun i => (itemsOf (share m i ops)).length) (fun i => rank (itemsOf (share m i ops)) x) V
    (by rw [hlen, hsN]; exact hN) (fun i hi => by
      rw [List.getElem_replicate, hlen]
      rw [hlen] at hi
      exact (h i hi).2.2)
  rw [hlen, hsN, hsR] at h1
  have hV : ((∑ i ∈ Finset.range m, V i : ℕ) : ℚ) ≤ c * s * (itemsOf ops).length := by
    rw [← hsN, Nat.cast_sum, Nat.cast_sum, Finset.mul_sum]
    refine Finset.sum_le_sum (fun i hi => ?_)
    obtain ⟨a1, a2, -⟩ := h i (Finset.mem_range.1 hi)
    refine a2.trans ?_
    have a1q : ((itemsOf (share m i ops)).length : ℚ) ≤ s := by exact_mod_cast a1
    have a0 : (0 : ℚ) ≤ (itemsOf (share m i ops)).length := Nat.cast_nonneg _
    rw [pow_two, mul_assoc]
    exact mul_le_mul_of_nonneg_left (mul_le_mul_of_nonneg_right a1q a0) hc
  have h2 := h1.tail hN.ne' ((c * s * (itemsOf ops).length : ℚ) : ℝ) (by exact_mod_cast hV) ε hε
  refine h2.trans (le_of_eq ?_)
  have hNR : ((itemsOf ops).length : ℝ) ≠ 0 := by exact_mod_cast hN.ne'
  congr 2
  push_cast
  by_cases hcs : (c : ℝ) * s = 0
  · rw [mul_assoc 2 (c : ℝ), hcs]; simp
  · have hc0 : (c : ℝ) ≠ 0 := fun h => hcs (by rw [h, zero_mul])
    have hs0 : (s : ℝ) ≠ 0 := fun h => hcs (by rw [h, mul_zero])
    field_simp

/-- C162 for `m` `RCSketch`es, no share longer than `s`: the answer is off by `ε` or more with probability at most
`2 exp(-ε² (N/s) k B / 4)`. With equal shares `N/s = m`: as good as `m` sketches that all see everything. -/
theorem C162_parallel_rcsketch (n k m s : Nat) (hm : m ≠ 0) (hk : 1 ≤ k) (hk2 : k % 2 = 0) (ops : List (Op (Fl ℚ))) (hops : PlainIns ops)
    (hfed : ∀ i, i < m → itemsOf (share m i ops) ≠ [] ∧ (itemsOf (share m i ops)).length ≤ s) (hcap : s < rcCapacity n k)
    (hs : s < 2 ^ 32) (x : Fl ℚ) (hx : x ≠ .nan) (ε : ℚ) (hε : 0 ≤ ε) :
    ((exp (execAll (ParallelDigest.new (List.replicate m (RCSketch.fresh n k)) : ParallelDigest (RCSketch ℚ) ℚ) ops >>=
        fun p => Digest.estQuantileAtValue p x)
      (fun r => if ε ≤ |r.1.toK - (rank (itemsOf ops) x : ℚ) / (itemsOf ops).length| then 1 else 0) : ℚ) : ℝ) ≤
      2 * Real.exp (-((ε : ℝ) ^ 2 * ((itemsOf ops).length / s) * ((k * (max (2 * k * Nat.clog 2 (n / k)) (2 * k) : Nat) : ℚ) : ℝ) / 4)) := by
  have hB0 : (0 : ℚ) < k * (max (2 * k * Nat.clog 2 (n / k)) (2 * k) : Nat) := by
    have : 0 < k * max (2 * k * Nat.clog 2 (n / k)) (2 * k) := Nat.mul_pos hk (lt_of_lt_of_le (by omega) (le_max_right _ _))
    exact_mod_cast this
  have hne : itemsOf ops ≠ [] := by
    intro h0
    obtain ⟨y, hy⟩ := List.exists_mem_of_ne_nil _ (hfed 0 (Nat.pos_of_ne_zero hm)).1
    have := (share_ins m 0 ops).2 hy
    rw [h0] at this
    simp at this
  have h := parallel_signs m hm (RCSketch.fresh n k : RCSketch ℚ) ops hops x
    (fun i => ⌊rcSigns n k (itemsOf (share m i ops)).length⌋₊) (2 / (k * (max (2 * k * Nat.clog 2 (n / k)) (2 * k) : Nat))) (by positivity)
    s hne (fun i hi => by
      obtain ⟨a1, a2⟩ := hfed i hi
      obtain ⟨h1, h2⟩ := share_ins m i ops
      refine ⟨a2, ?_, rc_concentrates n k hk hk2 _ h1 (by omega) (by omega) (fun y hy => hops.nan y (h2 hy)) a1 x hx⟩
      refine (Nat.floor_le (by unfold rcSigns; positivity)).trans (le_of_eq ?_)
      unfold rcSigns
      ring) ε hε
  generalize (k * (max (2 * k * Nat.clog 2 (n / k)) (2 * k) : Nat) : ℚ) = B at h hB0 ⊢
  refine h.trans (le_of_eq ?_)
  have hBR : (B : ℝ) ≠ 0 := by exact_mod_cast hB0.ne'
  congr 3
  push_cast
  by_cases hs0 : (s : ℝ) = 0
  · rw [hs0]; simp
  · field_simp
    norm_num

/-- C162 for `m` `RCSketch2`s, no share longer than `s`: probability at most `2 exp(-(N/s) (k ε)² / 6)`. -/
theorem C162_parallel_rcsketch2 {sec : Nat → Nat} {k : Nat} (hk : Spec.Sections sec k) (m s : Nat) (hm : m ≠ 0)
    (ops : List (Op (Fl ℚ))) (hops : PlainIns ops)
    (hfed : ∀ i, i < m → itemsOf (share m i ops) ≠ [] ∧ (itemsOf (share m i ops)).length ≤ s)
    (hs : s < 2 ^ 32) (x : Fl ℚ) (hx : x ≠ .nan) (ε : ℚ) (hε : 0 ≤ ε) :
    ((exp (execAll (ParallelDigest.new (List.replicate m (RC2.new sec k)) : ParallelDigest (RC2 sec ℚ) ℚ) ops >>=
        fun p => Digest.estQuantileAtValue p x)
      (fun r => if ε ≤ |r.1.toK - (rank (itemsOf ops) x : ℚ) / (itemsOf ops).length| then 1 else 0) : ℚ) : ℝ) ≤
      2 * Real.exp (-(((itemsOf ops).length / s) * ((k : ℝ) * ε) ^ 2 / 6)) := by
  have hkq : (0 : ℚ) < k := by exact_mod_cast (by have := hk.base; omega : 0 < k)
  have hne : itemsOf ops ≠ [] := by
    intro h0
    obtain ⟨y, hy⟩ := List.exists_mem_of_ne_nil _ (hfed 0 (Nat.pos_of_ne_zero hm)).1
    have := (share_ins m 0 ops).2 hy
    rw [h0] at this
    simp at this
  have h := parallel_signs m hm (RC2.new sec k : RC2 sec ℚ) ops hops x
    (fun i => ⌊rc2Signs k (itemsOf (share m i ops)).length⌋₊) (3 / (k : ℚ) ^ 2) (by positivity)
    s hne (fun i hi => by
      obtain ⟨a1, a2⟩ := hfed i hi
      obtain ⟨h1, h2⟩ := share_ins m i ops
      refine ⟨a2, ?_, rc2_concentrates hk _ h1 (by omega) (fun y hy => hops.nan y (h2 hy)) a1 x hx⟩
      refine (Nat.floor_le (by unfold rc2Signs; positivity)).trans (le_of_eq ?_)
      unfold rc2Signs
      ring) ε hε
  refine h.trans (le_of_eq ?_)
  have hkR : (k : ℝ) ≠ 0 := by exact_mod_cast hkq.ne'
  congr 3
  push_cast
  by_cases hs0 : (s : ℝ) = 0
  · rw [hs0]; simp
  · field_simp
    ring

/-! ### Concrete cases -/

/-- Four `RCSketch::new(1000000, 50)` in a `MultiDigest`, any million non-NaN items in one batch: an answer is off by 1% or more with
probability at most 1/500 (for one sketch C157 gives 0.31). -/
theorem C161_example (xs : List (Fl ℚ)) (hl : xs.length = 1000000) (hxs : ∀ y ∈ xs, y ≠ .nan) (x : Fl ℚ) (hx : x ≠ .nan) :
    ((exp (execAll (MultiDigest.built (List.replicate 4 (RCSketch.fresh 1000000 50 : RCSketch ℚ))) [.addBuffer xs] >>=
        fun m => Digest.estQuantileAtValue m x)
      (fun r => if 1 / 100 ≤ |r.1.toK - (rank xs x : ℚ) / 1000000| then 1 else 0) : ℚ) : ℝ) ≤ 1 / 500 := by
  have he : itemsOf [Op.addBuffer xs] = xs := by simp [itemsOf, Op.items]
  have hc : Nat.clog 2 (1000000 / 50) = 15 := by decide +kernel
  have h := C161_multi_rcsketch 1000000 50 4 (by norm_num) (by norm_num) (by norm_num) [.addBuffer xs]
    (fun o ho => Or.inr ⟨xs, by simpa using ho⟩) (by rw [he, hl]; decide +kernel) (by rw [he, hl]; norm_num)
    (by rw [he]; exact hxs) (by rw [he]; intro h; rw [h] at hl; simp at hl) x hx (1 / 100) (by norm_num)
  rw [he, hl, hc] at h
  have e0 : ((1000000 : ℕ) : ℚ) = 1000000 := by norm_num
  rw [e0] at h
  refine h.trans ?_
  have h1 : (2.7 : ℝ) ≤ Real.exp 1 := le_trans (by norm_num) Real.exp_one_gt_d9.le
  have h2 : Real.exp 7 = Real.exp 1 ^ 7 := by rw [← Real.exp_nat_mul]; norm_num
  have h3 : (1000 : ℝ) ≤ Real.exp 7 := by
    rw [h2]
    exact le_trans (by norm_num) (pow_le_pow_left₀ (by norm_num) h1 7)
  have h5 : Real.exp (-7) ≤ (1000)⁻¹ := by rw [Real.exp_neg]; exact inv_anti₀ (by norm_num) h3
  refine (mul_le_mul_of_nonneg_left ((Real.exp_le_exp.2 ?_).trans h5) (by norm_num)).trans (by norm_num)
  push_cast
  norm_num

/-- Four `RCSketch::new(250000, 50)` in a `ParallelDigest`, any million non-NaN items in one batch: an answer is off by 1% or more with
probability at most 1/150. -/
theorem C162_example (xs : List (Fl ℚ)) (hl : xs.length = 1000000) (hxs : ∀ y ∈ xs, y ≠ .nan) (x : Fl ℚ) (hx : x ≠ .nan) :
    ((exp (execAll (ParallelDigest.new (List.replicate 4 (RCSketch.fresh 250000 50)) : ParallelDigest (RCSketch ℚ) ℚ) [.addBuffer xs] >>=
        fun p => Digest.estQuantileAtValue p x)
      (fun r => if 1 / 100 ≤ |r.1.toK - (rank xs x : ℚ) / 1000000| then 1 else 0) : ℚ) : ℝ) ≤ 1 / 150 := by
  have he : itemsOf [Op.addBuffer xs] = xs := by simp [itemsOf, Op.items]
  have hc : Nat.clog 2 (250000 / 50) = 13 := by decide +kernel
  have hne : xs ≠ [] := by intro h; rw [h] at hl; simp at hl
  have hsh : ∀ i, i < 4 → (itemsOf (share 4 i [Op.addBuffer xs])).length = 250000 := by
    intro i hi
    have hp : (piece 4 i xs).length = 250000 := by
      unfold piece
      rw [List.length_take, List.length_drop, hl]
      norm_num
      omega
    have hpn : piece 4 i xs ≠ [] := by intro h; rw [h] at hp; simp at hp
    have e1 : (Op.addBuffer xs : Op (Fl ℚ)).items = xs := rfl
    rw [share_cons, e1, if_neg hpn]
    simpa [itemsOf, Op.items, share] using hp
  have h := C162_parallel_rcsketch 250000 50 4 250000 (by norm_num) (by norm_num) (by norm_num) [.addBuffer xs]
    (fun o ho => by
      have : o = .addBuffer xs := by simpa using ho
      subst this
      exact ⟨Or.inr ⟨xs, rfl, hne⟩, hxs⟩)
    (fun i hi => by
      have := hsh i hi
      exact ⟨by intro h; rw [h] at this; simp at this, this.le⟩)
    (by decide +kernel) (by norm_num) x hx (1 / 100) (by norm_num)
  rw [he, hl, hc] at h
  have e0 : ((1000000 : ℕ) : ℚ) = 1000000 := by norm_num
  rw [e0] at h
  refine h.trans ?_
  have h1 : (2.7 : ℝ) ≤ Real.exp 1 := le_trans (by norm_num) Real.exp_one_gt_d9.le
  have h2 : Real.exp 6 = Real.exp 1 ^ 6 := by rw [← Real.exp_nat_mul]; norm_num
  have h3 : (300 : ℝ) ≤ Real.exp 6 := by
    rw [h2]
    exact le_trans (by norm_num) (pow_le_pow_left₀ (by norm_num) h1 6)
  have h5 : Real.exp (-6) ≤ (300)⁻¹ := by rw [Real.exp_neg]; exact inv_anti₀ (by norm_num) h3
  refine (mul_le_mul_of_nonneg_left ((Real.exp_le_exp.2 ?_).trans h5) (by norm_num)).trans (by norm_num)
  push_cast
  norm_num

end
end AQ

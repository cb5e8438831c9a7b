/-
Property C169: wrappers may be nested; the relative accuracy of the sketches inside carries through to the outside for all queries at once.
-/
import Verif.Props.CombineRel

set_option linter.unusedSectionVars false
set_option linter.unusedVariables false

namespace AQ
open Spec Prog

section
variable [FloatFmt ℚ] [FloatFmt.Exact ℚ]
variable {D : Type} [Digest D (Fl ℚ)]

open Classical in
/-- Fed the history `ops` the digest `d` surely counts every item `c` times, and except with probability at most `P` all its quantile queries
are within the fraction `3 ε` of the rank. -/
structure RelSure (ops : List (Op (Fl ℚ))) (ε : ℚ) (c : Nat) (P : ℝ) (d : D) : Prop where
  sure : Always (execAll d ops) (fun s => Digest.count (F := Fl ℚ) s = .ret (c * (itemsOf ops).length))
  rel : ((exp (execAll d ops) (fun s => if RelQ (itemsOf ops) ε s then 0 else 1) : ℚ) : ℝ) ≤ P

theorem RelSure.mono {ops : List (Op (Fl ℚ))} {ε : ℚ} {c : Nat} {P Q : ℝ} {d : D} (h : RelSure ops ε c P d) (hPQ : P ≤ Q) : RelSure ops ε c Q d :=
  ⟨h.sure, h.rel.trans hPQ⟩

theorem sumCounts_same (n : Nat) : ∀ ds : List D, (∀ d ∈ ds, Digest.count (F := Fl ℚ) d = .ret n) → sumCounts (F := Fl ℚ) ds = .ret (ds.length * n)
  | [], _ => by simp [sumCounts]
  | d :: ds, h => by
    unfold sumCounts
    rw [h d (by simp), bind_ret, sumCounts_same n ds (fun d' hd' => h d' (by simp [hd'])), bind_ret, List.length_cons, Nat.add_mul, Nat.one_mul,
      Nat.add_comm]
    rfl

theorem sumCounts_times (c : Nat) : ∀ (ds : List D) (n : Nat → Nat), (∀ i (h : i < ds.length), Digest.count (F := Fl ℚ) ds[i] = .ret (c * n i)) →
    sumCounts (F := Fl ℚ) ds = .ret (c * ∑ i ∈ Finset.range ds.length, n i)
  | [], n, _ => by simp [sumCounts]
  | d :: ds, n, h => by
    have h0 := h 0 (by simp)
    simp only [List.getElem_cons_zero] at h0
    unfold sumCounts
    rw [h0, bind_ret, sumCounts_times c ds (fun i => n (i + 1)) (fun i hi => h (i + 1) (by simpa using hi)), bind_ret, List.length_cons,
      Finset.sum_range_succ', Nat.mul_add, Nat.add_comm]
    rfl

/-- C169. A `MultiDigest` of `m` digests that each keep the relative error except with probability `P` and count every item `c` times keeps it
except with probability `m P` and counts every item `m c` times. -/
theorem C169_multi (ds : List D) (hne : ds ≠ []) (ops : List (Op (Fl ℚ))) (ε : ℚ) (c : Nat) (P : ℝ) (h : ∀ d ∈ ds, RelSure ops ε c P d) :
    RelSure ops ε (ds.length * c) (ds.length * P) (MultiDigest.built ds : MultiDigest D) := by
  refine ⟨?_, (C168_multi ds hne ops ε P (fun d hd => (h d hd).sure.mono (fun _ _ => trivial)) (fun d hd => (h d hd).rel)).2⟩
  rw [MultiDigest.built_eq]
  refine (MultiDigest.execAll_all ops ds (P := fun d => Digest.count (F := Fl ℚ) d = .ret (c * (itemsOf ops).length))
    (fun d hd => (h d hd).sure)).mono ?_
  rintro m ⟨hl, hm⟩
  show sumCounts (F := Fl ℚ) m.digests = _
  rw [sumCounts_same _ _ hm, hl, Nat.mul_assoc]

/-- C169. A `ParallelDigest` of `m` digests that each, on their non-empty shares, keep the relative error except with probability `P` and count
every item `c` times keeps it except with probability `m P` and counts every item `c` times. -/
theorem C169_parallel (ds : List D) (hne : ds ≠ []) (ops : List (Op (Fl ℚ))) (hops : PlainIns ops) (ε : ℚ) (c : Nat) (hc : c ≠ 0) (P : ℝ)
    (hfed : ∀ i, i < ds.length → itemsOf (share ds.length i ops) ≠ [])
    (h : ∀ i (h : i < ds.length), RelSure (share ds.length i ops) ε c P ds[i]) :
    RelSure ops ε c (ds.length * P) (ParallelDigest.new ds : ParallelDigest D ℚ) := by
  refine ⟨?_, (C168_parallel c hc ds hne ops hops ε P hfed (fun i hi => (h i hi).sure) (fun i hi => (h i hi).rel)).2⟩
  have hm : ds.length ≠ 0 := (List.length_pos_of_ne_nil hne).ne'
  refine (ParallelDigest.execAll_all (fun i s => Digest.count (F := Fl ℚ) s = .ret (c * (itemsOf (share ds.length i ops)).length))
    ops hops (ParallelDigest.new ds : ParallelDigest D ℚ) hne (fun i hi => (h i hi).sure)).mono ?_
  rintro p ⟨hl, hp⟩
  have hl : p.digests.length = ds.length := hl
  show sumCounts (F := Fl ℚ) p.digests = _
  rw [sumCounts_times c p.digests (fun i => (itemsOf (share ds.length i ops)).length) hp, hl,
    sum_share List.length rfl (fun a b => List.length_append) _ hm ops]

open Classical in
/-- C169. A `SymDigest` of two such digests is accurate towards both ends, at all values at once, except with probability `2 P`. -/
theorem C169_sym (l0 h0 : D) (ops : List (Op (Fl ℚ))) (hins : ∀ o ∈ ops, (∃ x, o = .add x) ∨ ∃ xs, o = .addBuffer xs)
    (hnan : ∀ y ∈ itemsOf ops, y ≠ .nan) (hne : itemsOf ops ≠ []) (ε : ℚ) (hε : 0 ≤ ε) (hε1 : ε ≤ 1 / 9) (c : Nat) (P : ℝ)
    (hl : RelSure ops ε c P l0) (hh : RelSure (ops.map mirrorOp) ε c P h0) :
    ((exp (execAll (SymDigest.new l0 h0) ops) (fun d => if SymAccurate (itemsOf ops) ε d then 0 else 1) : ℚ) : ℝ) ≤ 2 * P := by
  have r2 := hh.rel
  rw [mirror_items] at r2
  exact sym_union l0 h0 ops hins _ _ _ (fun l h a b => sym_accurate hne hnan hε hε1 a b) _ (hl.sure.mono (fun _ _ => trivial))
    (hh.sure.mono (fun _ _ => trivial)) hl.rel r2

/-- One `RCSketch` (C164). -/
theorem rc_relSure (n k : Nat) (hk : 1 ≤ k) (hk2 : k % 2 = 0) (hn : n < 2 ^ 32)
    (ops : List (Op (Fl ℚ))) (hins : ∀ o ∈ ops, (∃ x, o = .add x) ∨ ∃ xs, o = .addBuffer xs)
    (hlen : (itemsOf ops).length ≤ n) (hnan : ∀ y ∈ itemsOf ops, y ≠ .nan) (hne : itemsOf ops ≠ [])
    (ε : ℚ) (hε : 0 ≤ ε) (hε1 : ε ≤ 1 / 9) (j : Nat) (hpow : ((itemsOf ops).length : ℚ) ≤ (1 + ε) ^ j) :
    RelSure ops ε 1 (2 * (j + 1) * relFail (k * (max (2 * k * Nat.clog 2 (n / k)) (2 * k) : Nat)) (Nat.clog 2 (n / k)) ε)
      (RCSketch.fresh n k : RCSketch ℚ) := by
  have hcap : n < rcCapacity n k :=
    RCSketch.C122_declared n k hk (lt_of_lt_of_le (by omega : n < 1 * (2 ^ 33 - 34)) (Nat.mul_le_mul_right _ hk))
  refine ⟨?_, (rc_side_rel n k hk hk2 hn ops hins hlen hnan hne ε hε hε1 j hpow).2.1⟩
  rw [Nat.one_mul]
  exact counts_of_sure (rc_concentrates n k hk hk2 _ hins (by omega) (by omega) hnan hne (.fin 0) (by simp))
    ((rc_side n k hk hk2 hn _ hins hlen hnan hne (.fin 0) (by simp)).1.mono (fun s hs => ⟨_, hs.1⟩))

/-- One `RCSketch2` (C166). -/
theorem rc2_relSure {sec : Nat → Nat} {k : Nat} (hk : Spec.Sections sec k)
    (ops : List (Op (Fl ℚ))) (hins : ∀ o ∈ ops, (∃ x, o = .add x) ∨ ∃ xs, o = .addBuffer xs)
    (hlen : (itemsOf ops).length < 2 ^ 32) (hnan : ∀ y ∈ itemsOf ops, y ≠ .nan) (hne : itemsOf ops ≠ [])
    (ε : ℚ) (hε : 0 ≤ ε) (hε1 : ε ≤ 1 / 9) (j : Nat) (hpow : ((itemsOf ops).length : ℚ) ≤ (1 + ε) ^ j) :
    RelSure ops ε 1 (2 * (j + 1) * (2 * Real.exp (-(3 * (ε : ℝ) ^ 2 * k / 16)) + 22 * Real.exp (-(3 * (k : ℝ) / 16))))
      (RC2.new sec k : RC2 sec ℚ) := by
  refine ⟨?_, (rc2_side_rel hk ops hins hlen hnan hne ε hε hε1 j hpow).2.1⟩
  rw [Nat.one_mul]
  exact counts_of_sure (rc2_concentrates hk _ hins hlen hnan hne (.fin 0) (by simp))
    ((rc2_side hk _ hins hlen hnan hne (.fin 0) (by simp)).1.mono (fun s hs => ⟨_, hs.1⟩))

/-! ### A concrete nest -/

/-- A `ParallelDigest` of `m` `MultiDigest`s of `j` `RCSketch`es. -/
def nest (n k m j : Nat) : ParallelDigest (MultiDigest (RCSketch ℚ)) ℚ :=
  ParallelDigest.new (List.replicate m (MultiDigest.built (List.replicate j (RCSketch.fresh n k))))

/-- The shares of one batch whose length is a multiple of the number of sub-digests. -/
theorem even_shares (m s : Nat) (hs : 0 < s) (xs : List (Fl ℚ)) (hl : xs.length = m * s) (hm : m ≠ 0) (i : Nat) (hi : i < m) :
    itemsOf (share m i [Op.addBuffer xs]) ≠ [] ∧ (itemsOf (share m i [Op.addBuffer xs])).length = s := by
  have hp : (piece m i xs).length = s := by
    have e : (m * s + m - 1) / m = s := by
      rw [show m * s + m - 1 = m * s + (m - 1) by omega, Nat.mul_add_div (by omega), Nat.div_eq_of_lt (by omega), Nat.add_zero]
    unfold piece
    rw [List.length_take, List.length_drop, hl, e, max_eq_left (by omega : 1 ≤ s)]
    have h1 : (i + 1) * s ≤ m * s := Nat.mul_le_mul_right s hi
    rw [Nat.add_mul, Nat.one_mul] at h1
    omega
  have hpn : piece m i xs ≠ [] := by intro h; rw [h] at hp; simp at hp; omega
  have e1 : (Op.addBuffer xs : Op (Fl ℚ)).items = xs := rfl
  rw [share_cons, e1, if_neg hpn]
  have : (itemsOf (Op.addBuffer (piece m i xs) :: share m i [])).length = s := by simpa [itemsOf, Op.items, share] using hp
  exact ⟨by intro h; rw [h] at this; simp at this; omega, this⟩

open Classical in
/-- A `SymDigest` of two `ParallelDigest`s of four `MultiDigest`s of three sketches `new(1000000, 100)` each, any four million non-NaN items in one
batch: with probability at least `1 - 24·10⁻⁵` every quantile query whatsoever is off by at most 30% of the smaller of the two ranks. -/
theorem C169_example (xs : List (Fl ℚ)) (hl : xs.length = 4000000) (hxs : ∀ y ∈ xs, y ≠ .nan) :
    ((exp (execAll (SymDigest.new (nest 1000000 100 4 3) (nest 1000000 100 4 3)) [.addBuffer xs])
      (fun d => if SymAccurate xs (1 / 20) d then 0 else 1) : ℚ) : ℝ) ≤ 24 / 10 ^ 5 := by
  have hB : max (2 * 100 * Nat.clog 2 (1000000 / 100)) (2 * 100) = 2800 := by decide +kernel
  have hL : Nat.clog 2 (1000000 / 100) = 14 := by decide +kernel
  have hone : (2 * ((284 : Nat) + 1) * relFail (((100 : Nat) : ℝ) * (2800 : Nat)) 14 (1 / 20) : ℝ) ≤ 1 / 10 ^ 5 :=
    (mul_le_mul_of_nonneg_left relFail_million (by positivity)).trans (by norm_num)
  have key : ∀ ys : List (Fl ℚ), ys.length = 4000000 → (∀ y ∈ ys, y ≠ .nan) →
      RelSure [.addBuffer ys] (1 / 20) 3 (12 / 10 ^ 5) (nest 1000000 100 4 3) := by
    intro ys hl hys
    have hne : ys ≠ [] := by intro h; rw [h] at hl; simp at hl
    have hops : PlainIns [Op.addBuffer ys] := fun o ho => by
      have : o = .addBuffer ys := by simpa using ho
      subst this
      exact ⟨Or.inr ⟨ys, rfl, hne⟩, hys⟩
    have hsh := even_shares 4 1000000 (by norm_num) ys (by rw [hl]) (by norm_num)
    have hmem : ∀ i, i < 4 → RelSure (share 4 i [Op.addBuffer ys]) (1 / 20) 3 (3 / 10 ^ 5)
        (MultiDigest.built (List.replicate 3 (RCSketch.fresh 1000000 100 : RCSketch ℚ))) := by
      intro i hi
      obtain ⟨h1, h2⟩ := share_ins 4 i [Op.addBuffer ys]
      have h3 := rc_relSure 1000000 100 (by norm_num) (by norm_num) (by norm_num) _ h1 (hsh i hi).2.le (fun y hy => hops.nan y (h2 hy))
        (hsh i hi).1 (1 / 20) (by norm_num) (by norm_num) 284 (by rw [(hsh i hi).2, show 284 = 71 * 4 by norm_num, pow_mul]; norm_num)
      rw [hB, hL] at h3
      have h4 := C169_multi (List.replicate 3 (RCSketch.fresh 1000000 100 : RCSketch ℚ)) (by simp) (share 4 i [Op.addBuffer ys]) (1 / 20) 1
        (1 / 10 ^ 5) (fun d hd => by
          rw [List.eq_of_mem_replicate hd]
          exact h3.mono hone)
      rw [List.length_replicate] at h4
      exact h4.mono (by norm_num)
    have hlr : (List.replicate 4 (MultiDigest.built (List.replicate 3 (RCSketch.fresh 1000000 100 : RCSketch ℚ)))).length = 4 := List.length_replicate
    have h := C169_parallel (List.replicate 4 (MultiDigest.built (List.replicate 3 (RCSketch.fresh 1000000 100 : RCSketch ℚ)))) (by simp)
      [.addBuffer ys] hops (1 / 20) 3 (by norm_num) (3 / 10 ^ 5)
      (fun i hi => by rw [hlr] at hi ⊢; exact (hsh i hi).1)
      (fun i hi => by
        rw [List.getElem_replicate, hlr]
        rw [hlr] at hi
        exact hmem i hi)
    rw [hlr] at h
    exact h.mono (by norm_num)
  have he : itemsOf [Op.addBuffer xs] = xs := by simp [itemsOf, Op.items]
  have hne : xs ≠ [] := by intro h; rw [h] at hl; simp at hl
  have h := C169_sym (nest 1000000 100 4 3) (nest 1000000 100 4 3) [.addBuffer xs] (by simp) (by rw [he]; exact hxs) (by rw [he]; exact hne)
    (1 / 20) (by norm_num) (by norm_num) 3 (12 / 10 ^ 5) (key xs hl hxs)
    (key (xs.map (fun y => -y)) (by rw [List.length_map, hl]) (mirror_nan hxs))
  rw [he] at h
  exact h.trans (by norm_num)

end

/-! ### Unequal nests -/

section
attribute [local instance] ratExact ratExact_exact

/-- C169. The sub-digests of a `ParallelDigest` must count alike: with `MultiDigest`s of one and of three exact digests, given 1 and 2, the fraction
of items at most 3/2 comes out as 1/4 instead of 1/2, because `MultiDigest::count` multiplies by the number of members (C56). -/
theorem C169_unequal_members :
    Always (execAll (ParallelDigest.new [MultiDigest.built [LinearDigest.new], MultiDigest.built [LinearDigest.new, LinearDigest.new, LinearDigest.new]] :
        ParallelDigest (MultiDigest (LinearDigest ℚ)) ℚ) [.addBuffer [.fin 1, .fin 2]] >>= fun p => Digest.estQuantileAtValue p (.fin (3 / 2) : Fl ℚ))
      (fun r => r.1 = (.fin (1 / 4) : Fl ℚ)) := by
  decide +kernel
end
end AQ

/-
Property C170: a `BufferedDigest` keeps the relative accuracy of the randomised digest inside for all queries at once.
-/
import Verif.Props.NestRel
import Verif.Props.BufferedRC

set_option linter.unusedSectionVars false
set_option linter.unusedVariables false

namespace AQ
open Spec Prog

theorem insertions_of_no_queries {F : Type} : ∀ (os : List (Op F)) (seen : List F), queriesFrom seen os = [] →
    ∀ o ∈ os, (∃ x, o = .add x) ∨ ∃ xs, o = .addBuffer xs
  | [], _, _ => by simp
  | .add x :: os, seen, h => by
    intro o ho
    rcases List.mem_cons.1 ho with rfl | ho
    · exact Or.inl ⟨x, rfl⟩
    · exact insertions_of_no_queries os _ h o ho
  | .addBuffer xs :: os, seen, h => by
    intro o ho
    rcases List.mem_cons.1 ho with rfl | ho
    · exact Or.inr ⟨xs, rfl⟩
    · exact insertions_of_no_queries os _ h o ho
  | .quantile v :: os, seen, h => by simp [queriesFrom] at h
  | .value v :: os, seen, h => by simp [queriesFrom] at h

theorem no_queries_of_insertions {F : Type} : ∀ (os : List (Op F)) (seen : List F), (∀ o ∈ os, (∃ x, o = .add x) ∨ ∃ xs, o = .addBuffer xs) →
    queriesFrom seen os = []
  | [], _, _ => rfl
  | .add x :: os, seen, h => no_queries_of_insertions os _ (fun o ho => h o (by simp [ho]))
  | .addBuffer xs :: os, seen, h => no_queries_of_insertions os _ (fun o ho => h o (by simp [ho]))
  | .quantile v :: os, seen, h => by simpa using h (.quantile v) (by simp)
  | .value v :: os, seen, h => by simpa using h (.value v) (by simp)

/-- What a `BufferedDigest` given insertions holds after a flush is what its digest holds after some other insertions of the same items. -/
theorem flushed_stream {F : Type} (capacity : Nat) (hc : capacity ≠ 0) (ops : List (Op F))
    (hins : ∀ o ∈ ops, (∃ x, o = .add x) ∨ ∃ xs, o = .addBuffer xs) :
    ∃ os : List (Op F), (∀ o ∈ os, (∃ x, o = .add x) ∨ ∃ xs, o = .addBuffer xs) ∧ itemsOf os = itemsOf ops ∧ ∀ (D : Type) [Digest D F] (d : D),
      (execAll (BufferedDigest.new d capacity) ops >>= fun b => b.flush >>= fun b' => .ret b'.digest) = execAll d os := by
  obtain ⟨os, h1, h2⟩ := bufferedAnswers_stream capacity hc ops
  refine ⟨os, insertions_of_no_queries os [] (h1.2.trans (no_queries_of_insertions ops [] hins)), h1.1, fun D _ d => ?_⟩
  rw [← answers_execAll d os, ← h2 D d, ← answers_execAll]
  unfold bufferedAnswers
  simp only [bind_assoc', bind_ret, pure_eq]

section
variable [FloatFmt ℚ] [FloatFmt.Exact ℚ]
variable {D : Type} [Digest D (Fl ℚ)]

/-- After a flush the `BufferedDigest` answers like its digest, if adding nothing to the digest does nothing. -/
theorem buffered_relQ {I : List (Fl ℚ)} {ε : ℚ} (b : BufferedDigest D (Fl ℚ)) (hb : b.buffer = []) (hd : Digest.addBuffer b.digest ([] : List (Fl ℚ)) = .ret b.digest)
    (h : RelQ I ε b.digest) : RelQ I ε b := by
  intro x hx
  obtain ⟨A, hA, hA'⟩ := h x hx
  refine ⟨A, ?_, hA'⟩
  obtain ⟨d, buf, cap⟩ := b
  simp only at hb
  subst hb
  show BufferedDigest.estQuantileAtValue _ x = _
  unfold BufferedDigest.estQuantileAtValue BufferedDigest.flush
  simp only at hd hA ⊢
  rw [hd]
  simp only [bind_ret, pure_eq, hA]

open Classical in
/-- C170. Let a digest, fed the items of `ops` by any insertions, surely count every item `c` times and keep the relative error except with
probability `P`. A `BufferedDigest` of any capacity except 0 around it, fed `ops` and flushed, has an empty buffer, counts every item `c` times,
and keeps the relative error for all queries at once except with probability `P`, if adding nothing to the digest does nothing. -/
theorem C170_buffered (d : D) (capacity : Nat) (hc : capacity ≠ 0)
    (ops : List (Op (Fl ℚ))) (hins : ∀ o ∈ ops, (∃ x, o = .add x) ∨ ∃ xs, o = .addBuffer xs) (ε : ℚ) (c : Nat) (P : ℝ)
    (hnil : ∀ os : List (Op (Fl ℚ)), (∀ o ∈ os, (∃ x, o = .add x) ∨ ∃ xs, o = .addBuffer xs) → itemsOf os = itemsOf ops →
      Partially (execAll d os) (fun s => Digest.addBuffer s ([] : List (Fl ℚ)) = .ret s))
    (h : ∀ os : List (Op (Fl ℚ)), (∀ o ∈ os, (∃ x, o = .add x) ∨ ∃ xs, o = .addBuffer xs) → itemsOf os = itemsOf ops → RelSure os ε c P d) :
    Always (execAll (BufferedDigest.new d capacity) ops >>= fun b => b.flush) (fun b => b.buffer = [] ∧
      Digest.count (F := Fl ℚ) b = .ret (c * (itemsOf ops).length)) ∧
    ((exp (execAll (BufferedDigest.new d capacity) ops >>= fun b => b.flush) (fun b => if RelQ (itemsOf ops) ε b then 0 else 1) : ℚ) : ℝ) ≤ P := by
  obtain ⟨os, h1, h2, h3⟩ := flushed_stream capacity hc ops hins
  obtain ⟨r1, r2⟩ := h os h1 h2
  have r3 := hnil os h1 h2
  rw [h2] at r1 r2
  rw [← h3 D d] at r1 r2 r3
  have hbuf : Partially (execAll (BufferedDigest.new d capacity) ops >>= fun b => b.flush) (fun b => b.buffer = []) := by
    rw [partially_bind]
    refine (partially_true _).mono (fun b _ => ?_)
    unfold BufferedDigest.flush
    rw [partially_bind]
    exact (partially_true _).mono (fun s _ => rfl)
  have e : (execAll (BufferedDigest.new d capacity) ops >>= fun b => b.flush >>= fun b' => .ret b'.digest) =
      ((execAll (BufferedDigest.new d capacity) ops >>= fun b => b.flush) >>= fun b' => .ret b'.digest) := (bind_assoc' _ _ _).symm
  rw [e] at r1 r2 r3
  rw [partially_bind] at r3
  constructor
  · rw [always_bind] at r1
    refine (r1.and hbuf).mono ?_
    rintro b ⟨hb, hb0⟩
    have hb : Digest.count (F := Fl ℚ) b.digest = _ := hb
    refine ⟨hb0, ?_⟩
    show BufferedDigest.count b = _
    unfold BufferedDigest.count
    rw [hb, hb0, bind_ret]
    rfl
  · refine le_trans ?_ r2
    rw [Rat.cast_le, exp_bind (execAll (BufferedDigest.new d capacity) ops >>= fun b => b.flush)]
    refine exp_mono ((hbuf.and r3).mono ?_)
    rintro b ⟨hb, hn⟩
    rw [exp_ret]
    by_cases hq : RelQ (itemsOf ops) ε b.digest
    · rw [if_pos (buffered_relQ b hb hn hq)]; split <;> norm_num
    · rw [if_neg hq]; split <;> norm_num

/-- Adding no items to an `RCSketch` within its declared length does nothing. -/
theorem rc_add_nothing (n k : Nat) (hk : 1 ≤ k) (hn : n < 2 ^ 32) (os : List (Op (Fl ℚ)))
    (hins : ∀ o ∈ os, (∃ x, o = .add x) ∨ ∃ xs, o = .addBuffer xs) (hlen : (itemsOf os).length ≤ n) (hnan : ∀ y ∈ itemsOf os, y ≠ .nan) :
    Partially (execAll (RCSketch.fresh n k : RCSketch ℚ) os) (fun s => Digest.addBuffer s ([] : List (Fl ℚ)) = .ret s) := by
  obtain ⟨iops, hex, hit, hmeth, -⟩ := rc_trait_run n k hk os hins
  rw [hex]
  rw [← hit] at hlen hnan
  exact (C16_add_buffer_is_repeated_add n k hk hn iops [] hmeth (by simpa using hlen) hnan (by simp)).partially

/-- Adding no items to an `RCSketch2` does nothing. -/
theorem rc2_add_nothing {sec : Nat → Nat} {k : Nat} (hk : Spec.Sections sec k) (os : List (Op (Fl ℚ)))
    (hins : ∀ o ∈ os, (∃ x, o = .add x) ∨ ∃ xs, o = .addBuffer xs) :
    Partially (execAll (RC2.new sec k : RC2 sec ℚ) os) (fun s => Digest.addBuffer s ([] : List (Fl ℚ)) = .ret s) := by
  obtain ⟨iops, hex, hit, hmeth⟩ := rc2_trait_run (sec := sec) k os hins
  rw [hex]
  exact C65_add_buffer_is_repeated_add sec hk.ok k iops []

open Classical in
/-- C170 for an `RCSketch` used within its declared length. -/
theorem C170_buffered_rcsketch (n k : Nat) (hk : 1 ≤ k) (hk2 : k % 2 = 0) (hn : n < 2 ^ 32) (capacity : Nat) (hc : capacity ≠ 0)
    (ops : List (Op (Fl ℚ))) (hins : ∀ o ∈ ops, (∃ x, o = .add x) ∨ ∃ xs, o = .addBuffer xs)
    (hlen : (itemsOf ops).length ≤ n) (hnan : ∀ y ∈ itemsOf ops, y ≠ .nan) (hne : itemsOf ops ≠ [])
    (ε : ℚ) (hε : 0 ≤ ε) (hε1 : ε ≤ 1 / 9) (j : Nat) (hpow : ((itemsOf ops).length : ℚ) ≤ (1 + ε) ^ j) :
    Always (execAll (BufferedDigest.new (RCSketch.fresh n k : RCSketch ℚ) capacity) ops >>= fun b => b.flush) (fun b => b.buffer = [] ∧
      Digest.count (F := Fl ℚ) b = .ret (itemsOf ops).length) ∧
    ((exp (execAll (BufferedDigest.new (RCSketch.fresh n k : RCSketch ℚ) capacity) ops >>= fun b => b.flush)
      (fun b => if RelQ (itemsOf ops) ε b then 0 else 1) : ℚ) : ℝ) ≤
      2 * (j + 1) * relFail (k * (max (2 * k * Nat.clog 2 (n / k)) (2 * k) : Nat)) (Nat.clog 2 (n / k)) ε := by
  have h := C170_buffered (RCSketch.fresh n k : RCSketch ℚ) capacity hc ops hins ε 1 _
    (fun os h1 h2 => rc_add_nothing n k hk hn os h1 (by rw [h2]; exact hlen) (by rw [h2]; exact hnan))
    (fun os h1 h2 => rc_relSure n k hk hk2 hn os h1 (by rw [h2]; exact hlen) (by rw [h2]; exact hnan) (by rw [h2]; exact hne) ε hε hε1 j
      (by rw [h2]; exact hpow))
  rwa [Nat.one_mul] at h

open Classical in
/-- C170 for an `RCSketch2`. -/
theorem C170_buffered_rcsketch2 {sec : Nat → Nat} {k : Nat} (hk : Spec.Sections sec k) (capacity : Nat) (hc : capacity ≠ 0)
    (ops : List (Op (Fl ℚ))) (hins : ∀ o ∈ ops, (∃ x, o = .add x) ∨ ∃ xs, o = .addBuffer xs)
    (hlen : (itemsOf ops).length < 2 ^ 32) (hnan : ∀ y ∈ itemsOf ops, y ≠ .nan) (hne : itemsOf ops ≠ [])
    (ε : ℚ) (hε : 0 ≤ ε) (hε1 : ε ≤ 1 / 9) (j : Nat) (hpow : ((itemsOf ops).length : ℚ) ≤ (1 + ε) ^ j) :
    Always (execAll (BufferedDigest.new (RC2.new sec k : RC2 sec ℚ) capacity) ops >>= fun b => b.flush) (fun b => b.buffer = [] ∧
      Digest.count (F := Fl ℚ) b = .ret (itemsOf ops).length) ∧
    ((exp (execAll (BufferedDigest.new (RC2.new sec k : RC2 sec ℚ) capacity) ops >>= fun b => b.flush)
      (fun b => if RelQ (itemsOf ops) ε b then 0 else 1) : ℚ) : ℝ) ≤
      2 * (j + 1) * (2 * Real.exp (-(3 * (ε : ℝ) ^ 2 * k / 16)) + 22 * Real.exp (-(3 * (k : ℝ) / 16))) := by
  have h := C170_buffered (RC2.new sec k : RC2 sec ℚ) capacity hc ops hins ε 1 _
    (fun os h1 h2 => rc2_add_nothing hk os h1)
    (fun os h1 h2 => rc2_relSure hk os h1 (by rw [h2]; exact hlen) (by rw [h2]; exact hnan) (by rw [h2]; exact hne) ε hε hε1 j
      (by rw [h2]; exact hpow))
  rwa [Nat.one_mul] at h

open Classical in
/-- A `BufferedDigest` of capacity 1000 around `RCSketch::new(1000000, 100)`, any million non-NaN items added one at a time: with probability at
least `1 - 10⁻⁵` every quantile query whatsoever keeps the relative error. -/
theorem C170_example (xs : List (Fl ℚ)) (hl : xs.length = 1000000) (hxs : ∀ y ∈ xs, y ≠ .nan) :
    ((exp (execAll (BufferedDigest.new (RCSketch.fresh 1000000 100 : RCSketch ℚ) 1000) (xs.map Op.add) >>= fun b => b.flush)
      (fun b => if RelQ xs (1 / 20) b then 0 else 1) : ℚ) : ℝ) ≤ 1 / 10 ^ 5 := by
  have hB : max (2 * 100 * Nat.clog 2 (1000000 / 100)) (2 * 100) = 2800 := by decide +kernel
  have hL : Nat.clog 2 (1000000 / 100) = 14 := by decide +kernel
  have hit : itemsOf (xs.map Op.add) = xs := by
    clear hl hxs
    induction xs with
    | nil => rfl
    | cons x xs ih => simpa [itemsOf, Op.items] using ih
  have hne : xs ≠ [] := by intro h; rw [h] at hl; simp at hl
  have h := (C170_buffered_rcsketch 1000000 100 (by norm_num) (by norm_num) (by norm_num) 1000 (by norm_num) (xs.map Op.add)
    (fun o ho => by obtain ⟨x, -, rfl⟩ := List.mem_map.1 ho; exact Or.inl ⟨x, rfl⟩)
    (by rw [hit, hl]) (by rw [hit]; exact hxs) (by rw [hit]; exact hne) (1 / 20) (by norm_num) (by norm_num) 284
    (by rw [hit, hl, show 284 = 71 * 4 by norm_num, pow_mul]; norm_num)).2
  rw [hit, hB, hL] at h
  refine h.trans ?_
  have hone : (2 * ((284 : Nat) + 1) * relFail (((100 : Nat) : ℝ) * (2800 : Nat)) 14 (1 / 20) : ℝ) ≤ 1 / 10 ^ 5 :=
    (mul_le_mul_of_nonneg_left relFail_million (by positivity)).trans (by norm_num)
  simpa using hone

/-! ### Value queries -/

theorem buffered_relV {I : List (Fl ℚ)} {ε c : ℚ} (b : BufferedDigest D (Fl ℚ)) (hb : b.buffer = [])
    (hd : Digest.addBuffer b.digest ([] : List (Fl ℚ)) = .ret b.digest) (h : RelV I ε c b.digest) : RelV I ε c b := by
  intro q h0 h1
  obtain ⟨v, hv, hA, hA'⟩ := h q h0 h1
  refine ⟨v, hv, ?_, hA'⟩
  obtain ⟨d, buf, cap⟩ := b
  simp only at hb
  subst hb
  show BufferedDigest.estValueAtQuantile _ (.fin q : Fl ℚ) = _
  unfold BufferedDigest.estValueAtQuantile BufferedDigest.flush
  simp only at hd hA ⊢
  rw [hd]
  simp only [bind_ret, pure_eq, hA]

open Classical in
/-- C170, value queries: the same for what every value query returns. -/
theorem C170_buffered_values (d : D) (capacity : Nat) (hc : capacity ≠ 0)
    (ops : List (Op (Fl ℚ))) (hins : ∀ o ∈ ops, (∃ x, o = .add x) ∨ ∃ xs, o = .addBuffer xs) (ε c : ℚ) (P : ℝ)
    (hnil : ∀ os : List (Op (Fl ℚ)), (∀ o ∈ os, (∃ x, o = .add x) ∨ ∃ xs, o = .addBuffer xs) → itemsOf os = itemsOf ops →
      Partially (execAll d os) (fun s => Digest.addBuffer s ([] : List (Fl ℚ)) = .ret s))
    (h : ∀ os : List (Op (Fl ℚ)), (∀ o ∈ os, (∃ x, o = .add x) ∨ ∃ xs, o = .addBuffer xs) → itemsOf os = itemsOf ops →
      ((exp (execAll d os) (fun s => if RelV (itemsOf os) ε c s then 0 else 1) : ℚ) : ℝ) ≤ P) :
    ((exp (execAll (BufferedDigest.new d capacity) ops >>= fun b => b.flush) (fun b => if RelV (itemsOf ops) ε c b then 0 else 1) : ℚ) : ℝ) ≤ P := by
  obtain ⟨os, h1, h2, h3⟩ := flushed_stream capacity hc ops hins
  have r2 := h os h1 h2
  have r3 := hnil os h1 h2
  rw [h2] at r2
  rw [← h3 D d] at r2 r3
  have hbuf : Partially (execAll (BufferedDigest.new d capacity) ops >>= fun b => b.flush) (fun b => b.buffer = []) := by
    rw [partially_bind]
    refine (partially_true _).mono (fun b _ => ?_)
    unfold BufferedDigest.flush
    rw [partially_bind]
    exact (partially_true _).mono (fun s _ => rfl)
  have e : (execAll (BufferedDigest.new d capacity) ops >>= fun b => b.flush >>= fun b' => .ret b'.digest) =
      ((execAll (BufferedDigest.new d capacity) ops >>= fun b => b.flush) >>= fun b' => .ret b'.digest) := (bind_assoc' _ _ _).symm
  rw [e] at r2 r3
  rw [partially_bind] at r3
  refine le_trans ?_ r2
  rw [Rat.cast_le, exp_bind (execAll (BufferedDigest.new d capacity) ops >>= fun b => b.flush)]
  refine exp_mono ((hbuf.and r3).mono ?_)
  rintro b ⟨hb, hn⟩
  rw [exp_ret]
  by_cases hq : RelV (itemsOf ops) ε c b.digest
  · rw [if_pos (buffered_relV b hb hn hq)]; split <;> norm_num
  · rw [if_neg hq]; split <;> norm_num

open Classical in
/-- C170, value queries, for an `RCSketch` used within its declared length. -/
theorem C170_buffered_rcsketch_values (n k : Nat) (hk : 1 ≤ k) (hk2 : k % 2 = 0) (hn : n < 2 ^ 32) (capacity : Nat) (hc : capacity ≠ 0)
    (ops : List (Op (Fl ℚ))) (hins : ∀ o ∈ ops, (∃ x, o = .add x) ∨ ∃ xs, o = .addBuffer xs)
    (hlen : (itemsOf ops).length ≤ n) (hnan : ∀ y ∈ itemsOf ops, y ≠ .nan) (hne : itemsOf ops ≠ [])
    (ε : ℚ) (hε : 0 ≤ ε) (hε1 : ε ≤ 1 / 9) (j : Nat) (hpow : ((itemsOf ops).length : ℚ) ≤ (1 + ε) ^ j) :
    ((exp (execAll (BufferedDigest.new (RCSketch.fresh n k : RCSketch ℚ) capacity) ops >>= fun b => b.flush)
      (fun b => if RelV (itemsOf ops) ε 1 b then 0 else 1) : ℚ) : ℝ) ≤
      2 * (j + 1) * relFail (k * (max (2 * k * Nat.clog 2 (n / k)) (2 * k) : Nat)) (Nat.clog 2 (n / k)) ε :=
  C170_buffered_values (RCSketch.fresh n k : RCSketch ℚ) capacity hc ops hins ε 1 _
    (fun os h1 h2 => rc_add_nothing n k hk hn os h1 (by rw [h2]; exact hlen) (by rw [h2]; exact hnan))
    (fun os h1 h2 => (rc_side_rel n k hk hk2 hn os h1 (by rw [h2]; exact hlen) (by rw [h2]; exact hnan) (by rw [h2]; exact hne) ε hε hε1 j
      (by rw [h2]; exact hpow)).2.2)

open Classical in
/-- C170, value queries, for an `RCSketch2`. -/
theorem C170_buffered_rcsketch2_values {sec : Nat → Nat} {k : Nat} (hk : Spec.Sections sec k) (capacity : Nat) (hc : capacity ≠ 0)
    (ops : List (Op (Fl ℚ))) (hins : ∀ o ∈ ops, (∃ x, o = .add x) ∨ ∃ xs, o = .addBuffer xs)
    (hlen : (itemsOf ops).length < 2 ^ 32) (hnan : ∀ y ∈ itemsOf ops, y ≠ .nan) (hne : itemsOf ops ≠ [])
    (ε : ℚ) (hε : 0 ≤ ε) (hε1 : ε ≤ 1 / 9) (j : Nat) (hpow : ((itemsOf ops).length : ℚ) ≤ (1 + ε) ^ j) :
    ((exp (execAll (BufferedDigest.new (RC2.new sec k : RC2 sec ℚ) capacity) ops >>= fun b => b.flush)
      (fun b => if RelV (itemsOf ops) ε (1 - 3 * ε) b then 0 else 1) : ℚ) : ℝ) ≤
      2 * (j + 1) * (2 * Real.exp (-(3 * (ε : ℝ) ^ 2 * k / 16)) + 22 * Real.exp (-(3 * (k : ℝ) / 16))) :=
  C170_buffered_values (RC2.new sec k : RC2 sec ℚ) capacity hc ops hins ε _ _
    (fun os h1 h2 => rc2_add_nothing hk os h1)
    (fun os h1 h2 => (rc2_side_rel hk os h1 (by rw [h2]; exact hlen) (by rw [h2]; exact hnan) (by rw [h2]; exact hne) ε hε hε1 j
      (by rw [h2]; exact hpow)).2.2)
end
end AQ

/-
Property C167: with overwhelming probability all answers of a `SymDigest` of two relative-error sketches are accurate towards both ends at once.
-/
import Verif.Props.SymRC2
import Verif.Props.RCRelTail
import Verif.Props.RC2RelTail

set_option linter.unusedSectionVars false
set_option linter.unusedVariables false

namespace AQ
open Spec Prog

section
variable [FloatFmt ℚ] [FloatFmt.Exact ℚ]
variable {D : Type} [Digest D (Fl ℚ)]

/-- All quantile queries of one side, fed `I`, are within the fraction `3 ε` of the rank. -/
def RelQ (I : List (Fl ℚ)) (ε : ℚ) (s : D) : Prop :=
  ∀ x : Fl ℚ, x ≠ .nan → ∃ A : ℚ, Digest.estQuantileAtValue s x = .ret ((.fin (A / I.length) : Fl ℚ), s) ∧ |A - rank I x| ≤ 3 * ε * rank I x

/-- All value queries of one side, fed `I`, return an item of about the right rank. -/
def RelV (I : List (Fl ℚ)) (ε c : ℚ) (s : D) : Prop :=
  ∀ q : ℚ, 0 ≤ q → q ≤ 1 → ∃ v ∈ I, Digest.estValueAtQuantile s (.fin q : Fl ℚ) = .ret (v, s) ∧
    (1 - 3 * ε) * (I.countP (fun y => y < v) : ℚ) ≤ q * I.length ∧ c * (q * I.length) ≤ (1 + 3 * ε) * (rank I v : ℚ)

open Classical in
/-- The two sides fail with at most the sum of the probabilities. -/
theorem sym_union (l0 h0 : D) (ops : List (Op (Fl ℚ))) (hins : ∀ o ∈ ops, (∃ x, o = .add x) ∨ ∃ xs, o = .addBuffer xs)
    (G H : D → Prop) (good : SymDigest D → Prop) (hg : ∀ l h, G l → H h → good ⟨l, h⟩) (P : ℝ)
    (nl : Always (execAll l0 ops) (fun _ => True)) (nh : Always (execAll h0 (ops.map mirrorOp)) (fun _ => True))
    (hl : ((exp (execAll l0 ops) (fun s => if G s then 0 else 1) : ℚ) : ℝ) ≤ P)
    (hh : ((exp (execAll h0 (ops.map mirrorOp)) (fun s => if H s then 0 else 1) : ℚ) : ℝ) ≤ P) :
    ((exp (execAll (SymDigest.new l0 h0) ops) (fun d => if good d then 0 else 1) : ℚ) : ℝ) ≤ 2 * P := by
  have e := SymDigest.exp_sides ops hins l0 h0 (fun l h => if good ⟨l, h⟩ then (0 : ℚ) else 1)
  have e' : exp (execAll (SymDigest.new l0 h0) ops) (fun d => if good d then (0 : ℚ) else 1) =
      exp (execAll l0 ops) (fun l' => exp (execAll h0 (ops.map mirrorOp)) (fun h' => if good ⟨l', h'⟩ then 0 else 1)) := e
  rw [e']
  have h1 : exp (execAll l0 ops) (fun l => exp (execAll h0 (ops.map mirrorOp)) (fun h => if good ⟨l, h⟩ then 0 else 1)) ≤
      exp (execAll l0 ops) (fun s => if G s then 0 else 1) + exp (execAll h0 (ops.map mirrorOp)) (fun s => if H s then 0 else 1) := by
    have h2 : ∀ l, exp (execAll h0 (ops.map mirrorOp)) (fun h => if good ⟨l, h⟩ then 0 else 1) ≤
        (if G l then 0 else 1) + exp (execAll h0 (ops.map mirrorOp)) (fun s => if H s then 0 else 1) := by
      intro l
      rw [← exp_const nh (if G l then (0 : ℚ) else 1), ← exp_add]
      refine exp_mono ((partially_true _).mono (fun h _ => ?_))
      by_cases a : G l
      · by_cases b : H h
        · rw [if_pos (hg l h a b), if_pos a, if_pos b]; norm_num
        · rw [if_neg b, if_pos a]; split <;> norm_num
      · rw [if_neg a]; split <;> split <;> norm_num
    refine (exp_mono ((partially_true _).mono (fun l _ => h2 l))).trans ?_
    rw [exp_add, exp_const nl]
  have h3 : ((exp (execAll l0 ops) (fun l => exp (execAll h0 (ops.map mirrorOp)) (fun h => if good ⟨l, h⟩ then 0 else 1)) : ℚ) : ℝ) ≤
      ((exp (execAll l0 ops) (fun s => if G s then 0 else 1) : ℚ) : ℝ) +
      ((exp (execAll h0 (ops.map mirrorOp)) (fun s => if H s then 0 else 1) : ℚ) : ℝ) := by exact_mod_cast h1
  linarith

/-- What is claimed of every quantile query: the answer, in ranks, is within `6 ε min(#(≤ x), #(≥ x))` of a number between `#(< x)` and `#(≤ x)`. -/
def SymAccurate (I : List (Fl ℚ)) (ε : ℚ) (d : SymDigest D) : Prop :=
  ∀ x : Fl ℚ, x ≠ .nan → ∃ a t : ℚ, d.estQuantileAtValue x = .ret ((.fin a : Fl ℚ), d) ∧
    (I.countP (fun y => y < x) : ℚ) ≤ t ∧ t ≤ (I.countP (fun y => y ≤ x) : ℚ) ∧
    |a * I.length - t| ≤ 6 * ε * min (I.countP (fun y => y ≤ x) : ℚ) (I.countP (fun y => x ≤ y) : ℚ)

/-- What is claimed of every value query off the median. -/
def SymValues (I : List (Fl ℚ)) (ε c : ℚ) (d : SymDigest D) : Prop :=
  ∀ q : ℚ, (0 ≤ q → q < 1 / 2 → ∃ v ∈ I, d.estValueAtQuantile (.fin q : Fl ℚ) = .ret (v, d) ∧
      (1 - 3 * ε) * (I.countP (fun y => y < v) : ℚ) ≤ q * I.length ∧
      c * (q * I.length) ≤ (1 + 3 * ε) * (I.countP (fun y => y ≤ v) : ℚ)) ∧
    (1 / 2 < q → q ≤ 1 → ∃ v ∈ I, d.estValueAtQuantile (.fin q : Fl ℚ) = .ret (v, d) ∧
      (1 - 3 * ε) * (I.countP (fun y => v < y) : ℚ) ≤ (1 - q) * I.length ∧
      c * ((1 - q) * I.length) ≤ (1 + 3 * ε) * (I.countP (fun y => v ≤ y) : ℚ))

theorem sym_accurate {I : List (Fl ℚ)} (hI : I ≠ []) (hnan : ∀ y ∈ I, y ≠ .nan) {ε : ℚ} (hε : 0 ≤ ε) (hε1 : ε ≤ 1 / 9) {l h : D}
    (hl : RelQ I ε l) (hh : RelQ (I.map (fun y => -y)) ε h) : SymAccurate I ε (⟨l, h⟩ : SymDigest D) := by
  intro x hx
  have hN : (0 : ℚ) < I.length := Nat.cast_pos.2 (List.length_pos_of_ne_nil hI)
  obtain ⟨A, hA, hA'⟩ := hl x hx
  obtain ⟨B, hB, hB'⟩ := hh (-x) (by cases x <;> simp_all)
  rw [List.length_map] at hB
  rw [(mirror_rank I hnan x hx).1] at hB'
  have hlt := below_eq hnan x hx
  have hle : (I.countP (fun y => y < x) : ℚ) ≤ rank I x := by
    have : I.countP (fun y => y < x) ≤ rank I x :=
      List.countP_mono_left (fun y _ h => by simp only [decide_eq_true_eq] at h ⊢; exact h.le)
    exact_mod_cast this
  have ans := sym_answer_of hN hA hB
  have hRe : (I.countP (fun y => decide (y ≤ x)) : ℚ) = (rank I x : ℚ) := rfl
  rw [hRe]
  have hR0 : (0 : ℚ) ≤ rank I x := Nat.cast_nonneg _
  have hT0 : (0 : ℚ) ≤ (I.countP (fun y => x ≤ y) : ℚ) := Nat.cast_nonneg _
  generalize (rank I x : ℚ) = R at *
  generalize (I.countP (fun y => decide (x ≤ y)) : ℚ) = T at *
  generalize (I.countP (fun y => decide (y < x)) : ℚ) = S at *
  generalize (I.length : ℚ) = N at *
  have c1 : ∀ a : ℚ, a / N * N = a := fun a => div_mul_cancel₀ _ hN.ne'
  obtain ⟨a1, a2⟩ := abs_le.1 hA'
  obtain ⟨b1, b2⟩ := abs_le.1 hB'
  have p1 : 3 * ε * R ≤ 1 / 3 * R := mul_le_mul_of_nonneg_right (by linarith) hR0
  have p2 : 3 * ε * T ≤ 1 / 3 * T := mul_le_mul_of_nonneg_right (by linarith) hT0
  have low : A ≤ B → R ≤ 2 * T := fun h => by linarith
  have high : B ≤ A → T ≤ 2 * R := fun h => by linarith
  have m1 : A ≤ B → 3 * ε * R ≤ 6 * ε * min R T := fun h => by
    rw [mul_min_of_nonneg _ _ (by positivity : 0 ≤ 6 * ε)]
    refine le_min (by nlinarith) ?_
    have := mul_le_mul_of_nonneg_left (low h) (by positivity : 0 ≤ 3 * ε)
    linarith
  have m2 : B ≤ A → 3 * ε * T ≤ 6 * ε * min R T := fun h => by
    rw [mul_min_of_nonneg _ _ (by positivity : 0 ≤ 6 * ε)]
    refine le_min ?_ (by nlinarith)
    have := mul_le_mul_of_nonneg_left (high h) (by positivity : 0 ≤ 3 * ε)
    linarith
  rcases lt_trichotomy A B with h | h | h
  · rw [if_pos h] at ans
    refine ⟨A / N, R, ans, hle, le_rfl, ?_⟩
    rw [c1]; exact hA'.trans (m1 h.le)
  · rw [if_neg (by linarith), if_neg (by linarith)] at ans
    refine ⟨_, (R + S) / 2, ans, by linarith, by linarith, ?_⟩
    have e : (A / N + (1 - B / N)) / 2 * N = (A + (N - B)) / 2 := by field_simp
    rw [e, abs_le]
    have q1 := m1 h.le
    have q2 := m2 h.ge
    constructor <;> linarith
  · rw [if_neg (by linarith), if_pos h] at ans
    refine ⟨_, S, ans, le_rfl, hle, ?_⟩
    have e : (1 - B / N) * N = N - B := by field_simp
    have q2 := m2 h.le
    rw [e, abs_le]
    constructor <;> linarith

theorem sym_values {I : List (Fl ℚ)} (hnan : ∀ y ∈ I, y ≠ .nan) {ε c : ℚ} {l h : D}
    (hl : RelV I ε c l) (hh : RelV (I.map (fun y => -y)) ε c h) : SymValues I ε c (⟨l, h⟩ : SymDigest D) := by
  intro q
  constructor
  · intro h0 h1
    obtain ⟨v, hvI, hv, b1, b2⟩ := hl q h0 (by linarith)
    obtain ⟨w, hwI, hw, -, -⟩ := hh (1 - q) (by linarith) (by linarith)
    refine ⟨v, hvI, ?_, b1, b2⟩
    unfold SymDigest.estValueAtQuantile
    simp only [hv, bind_ret, Fl.lit_exact, Fl.sub_exact, hw]
    unfold SymDigest.chooseValue
    rw [Fl.lit_exact, Fl.cmp_fin, compare_lt_iff_lt.2 h1]
    rfl
  · intro h0 h1
    obtain ⟨v, hvI, hv, -, -⟩ := hl q (by linarith) h1
    obtain ⟨w, hwI, hw, b1, b2⟩ := hh (1 - q) (by linarith) (by linarith)
    obtain ⟨u, huI, rfl⟩ := List.mem_map.1 hwI
    have hu := hnan u huI
    have e1 : (I.map (fun x => -x)).countP (fun y => y < -u) = I.countP (fun y => u < y) := by
      rw [List.countP_map]
      refine List.countP_congr (fun y hy => ?_)
      simp only [Function.comp, decide_eq_true_eq]
      exact Fl.neg_lt_neg_iff (hnan y hy) hu
    rw [e1, List.length_map] at b1
    rw [(mirror_rank _ hnan u hu).1, List.length_map] at b2
    refine ⟨u, huI, ?_, b1, b2⟩
    unfold SymDigest.estValueAtQuantile
    simp only [hv, bind_ret, Fl.lit_exact, Fl.sub_exact, hw]
    unfold SymDigest.chooseValue
    rw [Fl.lit_exact, Fl.cmp_fin, compare_gt_iff_gt.2 h0]
    show Prog.ret ((- -u : Fl ℚ), _) = _
    rw [Fl.neg_neg']

/-! ### RCSketch -/

section
variable (n k : Nat) (hk : 1 ≤ k) (hk2 : k % 2 = 0) (hn : n < 2 ^ 32)
    (ops : List (Op (Fl ℚ))) (hins : ∀ o ∈ ops, (∃ x, o = .add x) ∨ ∃ xs, o = .addBuffer xs)
    (hlen : (itemsOf ops).length ≤ n) (hnan : ∀ y ∈ itemsOf ops, y ≠ .nan) (hne : itemsOf ops ≠ [])
    (ε : ℚ) (hε : 0 ≤ ε) (hε1 : ε ≤ 1 / 9) (m : Nat) (hpow : ((itemsOf ops).length : ℚ) ≤ (1 + ε) ^ m)
include hk hk2 hn hins hlen hnan hne hε hε1 hpow

open Classical in
theorem rc_side_rel :
    Always (execAll (RCSketch.fresh n k : RCSketch ℚ) ops) (fun _ => True) ∧
    ((exp (execAll (RCSketch.fresh n k : RCSketch ℚ) ops) (fun s => if RelQ (itemsOf ops) ε s then 0 else 1) : ℚ) : ℝ) ≤
      2 * (m + 1) * relFail (k * (max (2 * k * Nat.clog 2 (n / k)) (2 * k) : Nat)) (Nat.clog 2 (n / k)) ε ∧
    ((exp (execAll (RCSketch.fresh n k : RCSketch ℚ) ops) (fun s => if RelV (itemsOf ops) ε 1 s then 0 else 1) : ℚ) : ℝ) ≤
      2 * (m + 1) * relFail (k * (max (2 * k * Nat.clog 2 (n / k)) (2 * k) : Nat)) (Nat.clog 2 (n / k)) ε := by
  have hside := fun x hx => (rc_side n k hk hk2 hn ops hins hlen hnan hne x hx).1
  obtain ⟨iops, hrun, hit, hmeth, hfast⟩ := rc_trait_run n k hk ops hins
  have hans : Partially (execAll (RCSketch.fresh n k : RCSketch ℚ) ops) (fun s => ∀ x : Fl ℚ, x ≠ .nan →
      Digest.estQuantileAtValue s x = .ret ((.fin ((weightedRank s.buffers x : ℚ) / (itemsOf ops).length) : Fl ℚ), s)) := by
    refine Prog.partially_forall (fun x => ?_)
    by_cases hx : x = .nan
    · exact (partially_true _).mono (fun s _ h => absurd hx h)
    · exact (hside x hx).partially.mono (fun s hs _ => hs.1)
  refine ⟨(hside (.fin 0) (by simp)).mono (fun _ _ => trivial), ?_, ?_⟩
  · rw [hrun] at hans ⊢
    rw [← hit] at hlen hnan hne hans hpow ⊢
    have h := rel_all n k k hk hk2 hk hn iops hmeth hlen hnan
      (fun x => (RCSketch.odd_paid n k iops hmeth hlen hnan x).mono (fun s hs => hs.2 hfast)) hne ε hε (by linarith) m hpow
    refine le_trans ?_ h
    rw [Rat.cast_le]
    refine exp_mono (hans.mono (fun s hs => ?_))
    split
    · split <;> norm_num
    · rename_i hc
      rw [if_pos]
      by_contra hall
      push Not at hall
      exact hc (fun x hx => ⟨_, hs x hx, hall x⟩)
  · rw [hrun]
    rw [← hit] at hlen hnan hne hpow ⊢
    have h := C164_all_values n k hk hk2 hn iops hmeth hlen hnan hfast hne (fun m _ => FloatFmt.Exact.rnd_eq _) ε hε (by linarith) m hpow
    refine le_trans ?_ h
    rw [Rat.cast_le]
    refine exp_mono ((partially_true _).mono (fun s _ => ?_))
    by_cases hc : RelV (insItems iops) ε 1 s
    · rw [if_pos hc]; split <;> norm_num
    · rw [if_neg hc, if_neg]
      intro hall
      refine hc (fun q h0 h1 => ?_)
      have hN : (0 : ℚ) ≤ (insItems iops).length := Nat.cast_nonneg _
      obtain ⟨v, hv, hvI, b1, b2⟩ := hall (.fin q) (q * (insItems iops).length) (by rw [Fl.ofNat_exact, Fl.mul_exact])
        (by positivity) (by nlinarith)
      simp only [Rat.cast_id] at b1 b2
      refine ⟨v, hvI, ?_, b1, by linarith⟩
      show (s.estValueAtQuantile _ >>= _) = _
      rw [hv]; rfl

open Classical in
/-- C167. A `SymDigest` of two `RCSketch`es `new(n, k)`, `k` even, given at most `n` items, `0 ≤ ε ≤ 1/9`, `(1 + ε)^m ≥ N`: except with
probability at most `4 (m + 1) (2 exp(-ε² k B / 32) + L exp(-k B / 32))` all quantile queries at once are off by at most
`6 ε min(#(≤ x), #(≥ x))` ranks. -/
theorem C167_all_quantiles :
    ((exp (symRC n k ops) (fun d => if SymAccurate (itemsOf ops) ε d then 0 else 1) : ℚ) : ℝ) ≤
      2 * (2 * (m + 1) * (2 * Real.exp (-((ε : ℝ) ^ 2 * (k * (max (2 * k * Nat.clog 2 (n / k)) (2 * k) : Nat)) / 32)) +
        Nat.clog 2 (n / k) * Real.exp (-((k * (max (2 * k * Nat.clog 2 (n / k)) (2 * k) : Nat) : ℝ) / 32)))) := by
  obtain ⟨l1, l2, -⟩ := rc_side_rel n k hk hk2 hn ops hins hlen hnan hne ε hε hε1 m hpow
  obtain ⟨r1, r2, -⟩ := rc_side_rel n k hk hk2 hn (ops.map mirrorOp) (mirror_ins hins) (by rw [mirror_items, List.length_map]; exact hlen)
    (by rw [mirror_items]; exact mirror_nan hnan) (by rw [mirror_items]; simpa using hne) ε hε hε1 m
    (by rw [mirror_items, List.length_map]; exact hpow)
  rw [mirror_items] at r2
  unfold symRC
  rw [RCSketch.new_eq (by omega), bind_ret, bind_ret]
  exact sym_union _ _ ops hins _ _ _ (fun l h a b => sym_accurate hne hnan hε hε1 a b) _ l1 r1 l2 r2

open Classical in
/-- C167, value queries: except with that probability, for all `q < 1/2` at once the answer is an item `v` with `(1 - 3 ε)` times the number of
items below `v` at most `q N` and `(1 + 3 ε)` times the number of items not above `v` at least `q N`; for all `q > 1/2` the same holds of the
items above `v` and not below `v`, with `1 - q`. -/
theorem C167_all_values :
    ((exp (symRC n k ops) (fun d => if SymValues (itemsOf ops) ε 1 d then 0 else 1) : ℚ) : ℝ) ≤
      2 * (2 * (m + 1) * (2 * Real.exp (-((ε : ℝ) ^ 2 * (k * (max (2 * k * Nat.clog 2 (n / k)) (2 * k) : Nat)) / 32)) +
        Nat.clog 2 (n / k) * Real.exp (-((k * (max (2 * k * Nat.clog 2 (n / k)) (2 * k) : Nat) : ℝ) / 32)))) := by
  obtain ⟨l1, -, l2⟩ := rc_side_rel n k hk hk2 hn ops hins hlen hnan hne ε hε hε1 m hpow
  obtain ⟨r1, -, r2⟩ := rc_side_rel n k hk hk2 hn (ops.map mirrorOp) (mirror_ins hins) (by rw [mirror_items, List.length_map]; exact hlen)
    (by rw [mirror_items]; exact mirror_nan hnan) (by rw [mirror_items]; simpa using hne) ε hε hε1 m
    (by rw [mirror_items, List.length_map]; exact hpow)
  rw [mirror_items] at r2
  unfold symRC
  rw [RCSketch.new_eq (by omega), bind_ret, bind_ret]
  exact sym_union _ _ ops hins _ _ _ (fun l h a b => sym_values hnan a b) _ l1 r1 l2 r2
end

/-! ### RCSketch2 -/

section
variable {sec : Nat → Nat} {k : Nat} (hk : Spec.Sections sec k)
    (ops : List (Op (Fl ℚ))) (hins : ∀ o ∈ ops, (∃ x, o = .add x) ∨ ∃ xs, o = .addBuffer xs)
    (hlen : (itemsOf ops).length < 2 ^ 32) (hnan : ∀ y ∈ itemsOf ops, y ≠ .nan) (hne : itemsOf ops ≠ [])
    (ε : ℚ) (hε : 0 ≤ ε) (hε1 : ε ≤ 1 / 9) (m : Nat) (hpow : ((itemsOf ops).length : ℚ) ≤ (1 + ε) ^ m)
include hk hins hlen hnan hne hε hε1 hpow

open Classical in
theorem rc2_side_rel :
    Always (execAll (RC2.new sec k : RC2 sec ℚ) ops) (fun _ => True) ∧
    ((exp (execAll (RC2.new sec k : RC2 sec ℚ) ops) (fun s => if RelQ (itemsOf ops) ε s then 0 else 1) : ℚ) : ℝ) ≤
      2 * (m + 1) * (2 * Real.exp (-(3 * (ε : ℝ) ^ 2 * k / 16)) + 22 * Real.exp (-(3 * (k : ℝ) / 16))) ∧
    ((exp (execAll (RC2.new sec k : RC2 sec ℚ) ops) (fun s => if RelV (itemsOf ops) ε (1 - 3 * ε) s then 0 else 1) : ℚ) : ℝ) ≤
      2 * (m + 1) * (2 * Real.exp (-(3 * (ε : ℝ) ^ 2 * k / 16)) + 22 * Real.exp (-(3 * (k : ℝ) / 16))) := by
  have hside := fun x hx => (rc2_side hk ops hins hlen hnan hne x hx).1
  obtain ⟨iops, hrun, hit, hmeth⟩ := rc2_trait_run (sec := sec) k ops hins
  have hans : Partially (execAll (RC2.new sec k : RC2 sec ℚ) ops) (fun s => ∀ x : Fl ℚ, x ≠ .nan →
      Digest.estQuantileAtValue s x = .ret ((.fin ((weightedRank (RCSketch2.buffers s) x : ℚ) / (itemsOf ops).length) : Fl ℚ), s)) := by
    refine Prog.partially_forall (fun x => ?_)
    by_cases hx : x = .nan
    · exact (partially_true _).mono (fun s _ h => absurd hx h)
    · exact (hside x hx).partially.mono (fun s hs _ => hs.1)
  refine ⟨(hside (.fin 0) (by simp)).mono (fun _ _ => trivial), ?_, ?_⟩
  · rw [hrun] at hans ⊢
    rw [← hit] at hlen hnan hne hans hpow ⊢
    rw [← relFail_k hk]
    refine le_trans ?_ (rel_all2 k iops (hk.size hlen) hmeth hlen hnan hne ε hε (by linarith) m hpow)
    rw [Rat.cast_le]
    refine exp_mono (hans.mono (fun s hs => ?_))
    by_cases hc : RelQ (D := RC2 sec ℚ) (insItems iops) ε s
    · rw [if_pos hc]; split <;> norm_num
    · rw [if_neg hc, if_pos]
      by_contra hall
      push Not at hall
      exact hc (fun x hx => ⟨_, hs x hx, hall x⟩)
  · rw [hrun]
    rw [← hit] at hlen hnan hne hpow ⊢
    have h := C166_all_values hk iops hmeth hlen hnan hne (fun m _ => FloatFmt.Exact.rnd_eq _) ε hε (by linarith) m hpow
    refine le_trans ?_ h
    rw [Rat.cast_le]
    refine exp_mono ((partially_true _).mono (fun s _ => ?_))
    by_cases hc : RelV (D := RC2 sec ℚ) (insItems iops) ε (1 - 3 * ε) s
    · rw [if_pos hc]; split <;> norm_num
    · rw [if_neg hc, if_neg]
      intro hall
      refine hc (fun q h0 h1 => ?_)
      have hN : (0 : ℚ) ≤ (insItems iops).length := Nat.cast_nonneg _
      obtain ⟨v, hv, hvI, b1, b2⟩ := hall (.fin q) (q * (insItems iops).length) (by rw [Fl.ofNat_exact, Fl.mul_exact])
        (by positivity) (by nlinarith)
      simp only [Rat.cast_id] at b1 b2
      refine ⟨v, hvI, ?_, b1, b2⟩
      show (RCSketch2.estValueAtQuantile s _ >>= _) = _
      rw [hv]; rfl

open Classical in
/-- C167 for two `RCSketch2`s: except with probability at most `4 (m + 1) (2 exp(-3 ε² k / 16) + 22 exp(-3 k / 16))` all quantile queries at once
are off by at most `6 ε min(#(≤ x), #(≥ x))` ranks. -/
theorem C167_all_quantiles_rc2 :
    ((exp (execAll (SymDigest.new (RC2.new sec k : RC2 sec ℚ) (RC2.new sec k)) ops)
      (fun d => if SymAccurate (itemsOf ops) ε d then 0 else 1) : ℚ) : ℝ) ≤
      2 * (2 * (m + 1) * (2 * Real.exp (-(3 * (ε : ℝ) ^ 2 * k / 16)) + 22 * Real.exp (-(3 * (k : ℝ) / 16)))) := by
  obtain ⟨l1, l2, -⟩ := rc2_side_rel hk ops hins hlen hnan hne ε hε hε1 m hpow
  obtain ⟨r1, r2, -⟩ := rc2_side_rel hk (ops.map mirrorOp) (mirror_ins hins) (by rw [mirror_items, List.length_map]; exact hlen)
    (by rw [mirror_items]; exact mirror_nan hnan) (by rw [mirror_items]; simpa using hne) ε hε hε1 m
    (by rw [mirror_items, List.length_map]; exact hpow)
  rw [mirror_items] at r2
  exact sym_union _ _ ops hins _ _ _ (fun l h a b => sym_accurate hne hnan hε hε1 a b) _ l1 r1 l2 r2

open Classical in
/-- C167 for two `RCSketch2`s, value queries (the target is reduced by the factor `1 - 3 ε` because stored weight may be missing). -/
theorem C167_all_values_rc2 :
    ((exp (execAll (SymDigest.new (RC2.new sec k : RC2 sec ℚ) (RC2.new sec k)) ops)
      (fun d => if SymValues (itemsOf ops) ε (1 - 3 * ε) d then 0 else 1) : ℚ) : ℝ) ≤
      2 * (2 * (m + 1) * (2 * Real.exp (-(3 * (ε : ℝ) ^ 2 * k / 16)) + 22 * Real.exp (-(3 * (k : ℝ) / 16)))) := by
  obtain ⟨l1, -, l2⟩ := rc2_side_rel hk ops hins hlen hnan hne ε hε hε1 m hpow
  obtain ⟨r1, -, r2⟩ := rc2_side_rel hk (ops.map mirrorOp) (mirror_ins hins) (by rw [mirror_items, List.length_map]; exact hlen)
    (by rw [mirror_items]; exact mirror_nan hnan) (by rw [mirror_items]; simpa using hne) ε hε hε1 m
    (by rw [mirror_items, List.length_map]; exact hpow)
  rw [mirror_items] at r2
  exact sym_union _ _ ops hins _ _ _ (fun l h a b => sym_values hnan a b) _ l1 r1 l2 r2
end

/-! ### A concrete case -/

open Classical in
/-- Two sketches `new(1000000, 100)` in a `SymDigest`, any million non-NaN items in one batch: with probability at least `1 - 2·10⁻⁵` every
quantile query whatsoever is off by at most 30% of the smaller of the two ranks: the 99.99th percentile by at most 30 of a million ranks. -/
theorem C167_example (xs : List (Fl ℚ)) (hl : xs.length = 1000000) (hxs : ∀ y ∈ xs, y ≠ .nan) :
    ((exp (symRC 1000000 100 [.addBuffer xs]) (fun d => if SymAccurate xs (1 / 20) d then 0 else 1) : ℚ) : ℝ) ≤ 2 / 10 ^ 5 := by
  have hB : max (2 * 100 * Nat.clog 2 (1000000 / 100)) (2 * 100) = 2800 := by decide +kernel
  have hL : Nat.clog 2 (1000000 / 100) = 14 := by decide +kernel
  have he : itemsOf [Op.addBuffer xs] = xs := by simp [itemsOf, Op.items]
  have h := C167_all_quantiles 1000000 100 (by norm_num) (by norm_num) (by norm_num) [.addBuffer xs] (by simp)
    (by rw [he, hl]) (by rw [he]; exact hxs) (by rw [he]; intro h; rw [h] at hl; simp at hl) (1 / 20)
    (by norm_num) (by norm_num) 284 (by rw [he, hl, show 284 = 71 * 4 by norm_num, pow_mul]; norm_num)
  rw [hB, hL, he] at h
  have h2 := mul_le_mul_of_nonneg_left relFail_million (show (0 : ℝ) ≤ 2 * (2 * ((284 : Nat) + 1)) by positivity)
  refine h.trans ?_
  rw [← mul_assoc]
  exact h2.trans (by norm_num)

end
end AQ

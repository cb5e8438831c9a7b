/-
`ParallelDigest` under rounding, for every way rayon may cut the sum.
-/
import Verif.Model.ParallelDigest
import Verif.Spec.Rounding
import Verif.Proofs.ParallelDigest
import Verif.Proofs.RCWeight
import Verif.Proofs.Linear
import Verif.Proofs.TDRound

set_option linter.unusedSectionVars false
set_option linter.unusedVariables false

namespace AQ
open Prog Spec
variable {K : Type} [Field K] [LinearOrder K] [IsStrictOrderedRing K] [FloatFmt K]
namespace ParallelDigest
variable {D : Type} [Digest D (Fl K)]

theorem rankLoop_eq_ranks (v : Fl K) : ∀ (ds : List D) (acc : Fl K),
    rankLoop v ds acc = ranks v ds >>= fun r => .ret (r.1.foldl (· + ·) acc, r.2)
  | [], acc => rfl
  | d :: ds, acc => by
    unfold rankLoop ranks
    rw [bind_assoc]
    congr 1; funext r
    rw [bind_assoc]
    congr 1; funext n
    rw [rankLoop_eq_ranks v ds, bind_assoc, bind_assoc]
    rfl

/-- The uncut sum is the sum of the sequential model. -/
theorem estQuantileSplit_leaf (p : ParallelDigest D K) (v : Fl K) : p.estQuantileSplit .leaf v = p.estQuantileAtValue v := by
  unfold estQuantileSplit estQuantileAtValue
  rw [rankLoop_eq_ranks, bind_assoc]
  rfl

theorem searchLoopSplit_congr {c : Nat → Split} (h : ∀ n (p : ParallelDigest D K) v, p.estQuantileSplit (c n) v = p.estQuantileAtValue v)
    (t : Fl K) : ∀ (n : Nat) (p : ParallelDigest D K) (s e m : Fl K), searchLoopSplit c t n p s e m = searchLoop t n p s e m
  | 0, _, _, _, _ => rfl
  | n + 1, p, s, e, m => by
    unfold searchLoopSplit searchLoop
    split
    · simp only [h]
      congr 1; funext r
      split
      · rfl
      · exact searchLoopSplit_congr h t n _ _ _ _
      · exact searchLoopSplit_congr h t n _ _ _ _
    · rfl

theorem estValueSplit_congr {c : Nat → Split} (h : ∀ n (p : ParallelDigest D K) v, p.estQuantileSplit (c n) v = p.estQuantileAtValue v)
    (p : ParallelDigest D K) (t : Fl K) : p.estValueSplit c t = p.estValueAtQuantile t := by
  unfold estValueSplit estValueAtQuantile
  rw [searchLoopSplit_congr h]
  simp only [h]

/-! ### Exact arithmetic -/

theorem add_assoc_exact [FloatFmt.Exact K] (a b c : Fl K) : a + b + c = a + (b + c) := by
  cases a <;> cases b <;> cases c <;>
    first | rfl | (simp only [Fl.add_exact]; rfl) | simp only [Fl.add_exact, add_assoc]

theorem zero_add_exact [FloatFmt.Exact K] (a : Fl K) : Fl.lit 0 + a = a := by
  rw [Fl.lit_exact]
  cases a <;> first | rfl | skip
  rw [Fl.add_exact, zero_add]

theorem foldl_add_exact [FloatFmt.Exact K] : ∀ (xs : List (Fl K)) (a : Fl K), xs.foldl (· + ·) a = a + xs.foldl (· + ·) (Fl.lit 0)
  | [], a => by
    rw [List.foldl_nil, List.foldl_nil, Fl.lit_exact]
    cases a <;> first | rfl | skip
    rw [Fl.add_exact, add_zero]
  | x :: xs, a => by
    rw [List.foldl_cons, List.foldl_cons, foldl_add_exact xs, foldl_add_exact xs (Fl.lit 0 + x), zero_add_exact, add_assoc_exact]

theorem reduce_exact [FloatFmt.Exact K] : ∀ (c : Split) (xs : List (Fl K)), c.reduce xs = xs.foldl (· + ·) (Fl.lit 0)
  | .leaf, _ => rfl
  | .node i l r, xs => by
    unfold Split.reduce
    rw [reduce_exact l, reduce_exact r, ← foldl_add_exact, ← List.foldl_append, List.take_append_drop]

/-! ### Rounding -/

theorem fin_of_between [FloatFmt.Mono K] {x l h : K} (h1 : Fl.fin l ≤ FloatFmt.rnd x) (h2 : FloatFmt.rnd x ≤ Fl.fin h) :
    ∃ y, FloatFmt.rnd x = .fin y ∧ l ≤ y ∧ y ≤ h := by
  have hn := FloatFmt.Mono.rnd_ne_nan x
  cases hx : FloatFmt.rnd x with
  | nan => exact absurd hx hn
  | ninf => rw [hx] at h1; exact absurd h1 (by simp)
  | pinf => rw [hx] at h2; exact absurd h2 (by simp)
  | fin y => rw [hx] at h1 h2; exact ⟨y, rfl, by simpa using h1, by simpa using h2⟩

theorem rnd_count [hm : FloatFmt.Mono K] {N n : Nat} (hc : ExactCounts K N) (hn : n ≤ N) {x : K} (h0 : 0 ≤ x) (h1 : x ≤ n) :
    ∃ y, FloatFmt.rnd x = .fin y ∧ 0 ≤ y ∧ y ≤ n := by
  refine fin_of_between ?_ ?_
  · rw [← hm.rnd_zero]; exact hm.rnd_mono _ _ h0
  · rw [← ExactCounts.rnd_nat hc hn]; exact hm.rnd_mono _ _ h1

/-- A term of the sum: between 0 and the count. -/
def Term (x : Fl K) (n : Nat) : Prop := ∃ t : K, x = .fin t ∧ 0 ≤ t ∧ t ≤ n

theorem foldl_range [hm : FloatFmt.Mono K] {N : Nat} (hc : ExactCounts K N) {xs : List (Fl K)} {ns : List Nat}
    (h : List.Forall₂ Term xs ns) : ∀ (a : Fl K) (n : Nat), Term a n → n + ns.sum ≤ N →
    Term (xs.foldl (· + ·) a) (n + ns.sum) := by
  induction h with
  | nil => intro a n ha _; simpa using ha
  | @cons x m xs ms hx hxs ih =>
    intro a n ha hn
    rw [List.sum_cons] at hn
    obtain ⟨t, rfl, t0, t1⟩ := hx
    obtain ⟨s, rfl, s0, s1⟩ := ha
    obtain ⟨y, hy, y0, y1⟩ := rnd_count hc (n := n + m) (by omega) (x := s + t) (by linarith) (by push_cast; linarith)
    rw [List.foldl_cons, Fl.add_fin, hy, List.sum_cons, ← add_assoc]
    exact ih _ _ ⟨y, rfl, y0, y1⟩ (by omega)

theorem reduce_range [hm : FloatFmt.Mono K] {N : Nat} (hc : ExactCounts K N) : ∀ (c : Split) {xs : List (Fl K)} {ns : List Nat},
    List.Forall₂ Term xs ns → ns.sum ≤ N → Term (c.reduce xs) ns.sum
  | .leaf, xs, ns, h, hn => by
    have := foldl_range hc h (Fl.lit 0) 0 ⟨0, hm.rnd_zero, le_rfl, by simp⟩ (by omega)
    simpa [Split.reduce] using this
  | .node i l r, xs, ns, h, hn => by
    have hs : (ns.take i).sum + (ns.drop i).sum = ns.sum := by rw [← List.sum_append, List.take_append_drop]
    obtain ⟨a, ha, a0, a1⟩ := reduce_range hc l (List.forall₂_take i h) (by omega)
    obtain ⟨b, hb, b0, b1⟩ := reduce_range hc r (List.forall₂_drop i h) (by omega)
    unfold Split.reduce
    rw [ha, hb, Fl.add_fin]
    exact rnd_count hc hn (by linarith) (by rw [← hs, Nat.cast_add]; linarith)

/-- The number of additions. -/
def ops : Split → Nat → Nat
  | .leaf, n => n
  | .node i l r, n => ops l (Min.min i n) + ops r (n - i) + 1

theorem foldl_near [hm : FloatFmt.Mono K] {N : Nat} (hc : ExactCounts K N) {u η R : K} (hr : RelErr u η R) (hR : (N : K) ≤ R)
    {xs : List (Fl K)} {ns : List Nat}
    (h : List.Forall₂ Term xs ns) : ∀ (a : Fl K) (n : Nat), Term a n → n + ns.sum ≤ N →
    |Fl.toK (xs.foldl (· + ·) a) - (a.toK + (xs.map Fl.toK).sum)| ≤ xs.length * (u * N + η) := by
  have hu := hr.u_nonneg
  induction h with
  | nil => intro a n ha _; simp
  | @cons x m xs ms hx hxs ih =>
    intro a n ha hn
    rw [List.sum_cons] at hn
    obtain ⟨t, rfl, t0, t1⟩ := hx
    obtain ⟨s, rfl, s0, s1⟩ := ha
    have hnm : ((n + m : ℕ) : K) ≤ N := by exact_mod_cast (by omega : n + m ≤ N)
    obtain ⟨y, hy, y0, y1⟩ := rnd_count hc (n := n + m) (by omega) (x := s + t) (by linarith) (by push_cast; linarith)
    push_cast at hnm
    have habs : |s + t| = s + t := abs_of_nonneg (by linarith)
    obtain ⟨y', hy', hy2⟩ := hr.near (s + t) (by rw [habs]; linarith)
    obtain rfl : y = y' := by rw [hy] at hy'; simpa using hy'
    have := ih (.fin y) (n + m) ⟨y, rfl, y0, y1⟩ (by omega)
    rw [List.foldl_cons, Fl.add_fin, hy, List.map_cons, List.sum_cons, List.length_cons]
    simp only [Fl.toK] at this ⊢
    rw [habs] at hy2
    have hb : u * (s + t) ≤ u * N := mul_le_mul_of_nonneg_left (by linarith) hu
    push_cast
    rw [abs_le] at this hy2 ⊢
    constructor <;> linarith [this.1, this.2, hy2.1, hy2.2]

theorem reduce_near [hm : FloatFmt.Mono K] {N : Nat} (hc : ExactCounts K N) {u η R : K} (hr : RelErr u η R) (hR : (N : K) ≤ R) :
    ∀ (c : Split) {xs : List (Fl K)} {ns : List Nat}, List.Forall₂ Term xs ns → ns.sum ≤ N →
    |(c.reduce xs).toK - (xs.map Fl.toK).sum| ≤ ops c xs.length * (u * N + η)
  | .leaf, xs, ns, h, hn => by
    have := foldl_near hc hr hR h (Fl.lit 0) 0 ⟨0, hm.rnd_zero, le_rfl, by simp⟩ (by omega)
    have e : (Fl.lit 0 : Fl K) = .fin 0 := hm.rnd_zero
    simpa [Split.reduce, ops, e, Fl.toK] using this
  | .node i l r, xs, ns, h, hn => by
    have hs : (ns.take i).sum + (ns.drop i).sum = ns.sum := by rw [← List.sum_append, List.take_append_drop]
    obtain ⟨a, ha, a0, a1⟩ := reduce_range hc l (List.forall₂_take i h) (by omega)
    obtain ⟨b, hb, b0, b1⟩ := reduce_range hc r (List.forall₂_drop i h) (by omega)
    have e1 := reduce_near hc hr hR l (List.forall₂_take i h) (by omega)
    have e2 := reduce_near hc hr hR r (List.forall₂_drop i h) (by omega)
    have hN : ((ns.take i).sum : K) + ((ns.drop i).sum : K) ≤ N := by exact_mod_cast (by omega : _ ≤ N)
    have habs : |a + b| = a + b := abs_of_nonneg (by linarith)
    obtain ⟨y, hy, hy2⟩ := hr.near (a + b) (by rw [habs]; linarith)
    have hsum : ((xs.take i).map Fl.toK).sum + ((xs.drop i).map Fl.toK).sum = (xs.map Fl.toK).sum := by
      rw [← List.sum_append, ← List.map_append, List.take_append_drop]
    rw [habs] at hy2
    have hb' : u * (a + b) ≤ u * N := mul_le_mul_of_nonneg_left (by linarith) hr.u_nonneg
    unfold Split.reduce ops
    rw [ha] at e1
    rw [hb] at e2
    rw [ha, hb, Fl.add_fin, hy, ← hsum]
    rw [List.length_take] at e1
    rw [List.length_drop] at e2
    simp only [Fl.toK] at e1 e2 ⊢
    push_cast
    rw [abs_le] at e1 e2 hy2 ⊢
    constructor <;> linarith [e1.1, e1.2, e2.1, e2.2, hy2.1, hy2.2]

/-- No piece is empty (rayon cuts in the middle of a piece of at least two). -/
def Split.Proper : Split → Nat → Prop
  | .leaf, _ => True
  | .node i l r, n => 0 < i ∧ i < n ∧ l.Proper i ∧ r.Proper (n - i)

theorem ops_le : ∀ (c : Split) (n : Nat), c.Proper n → ops c n ≤ 2 * n - 1
  | .leaf, n, _ => by unfold ops; omega
  | .node i l r, n, ⟨h1, h2, h3, h4⟩ => by
    have a := ops_le l i h3
    have b := ops_le r (n - i) h4
    unfold ops
    rw [min_eq_left h2.le]
    omega

/-! ### The search under rounding -/

/-- The loop condition of the search. -/
def wide (lo hi s e : Fl K) : Bool := Fl.lt (Fl.lit (1 / 1000000)) (Fl.fabs (e - s) / (Fl.fabs lo + Fl.fabs hi))

variable {u η R lo hi : K}

theorem _root_.AQ.Spec.SearchRoom.parts (h : SearchRoom u η R lo hi) {s e : K} (h1 : lo ≤ s) (h2 : s ≤ e) (h3 : e ≤ hi) :
    ∃ w M : K, Fl.fabs ((.fin e : Fl K) - .fin s) / (Fl.fabs (.fin lo) + Fl.fabs (.fin hi)) = FloatFmt.rnd (w / M) ∧
      0 < M ∧ 0 ≤ w ∧ |w - (e - s)| ≤ 1 / 2 ^ 24 * (e - s) + 1 / 2 ^ 30 * (|lo| + |hi|) ∧
      |M - (|lo| + |hi|)| ≤ (1 / 2 ^ 24 + 1 / 2 ^ 30) * (|lo| + |hi|) ∧ e - s ≤ |lo| + |hi| := by
  have hw : e - s ≤ |lo| + |hi| := by
    have := le_abs_self hi
    have := neg_abs_le lo
    linarith
  have hfits := h.fits
  have hpos := h.pos
  have hlarge : η ≤ 1 / 2 ^ 30 * (|lo| + |hi|) := by
    have := h.large
    rw [div_mul_eq_mul_div, one_mul, le_div_iff₀ (by positivity)]
    exact this
  have hw0 : |e - s| = e - s := abs_of_nonneg (by linarith)
  have hM0 : |(|lo| + |hi|)| = |lo| + |hi| := abs_of_nonneg hpos.le
  obtain ⟨w, hw1, hw2⟩ := h.err.near (e - s) (by rw [hw0]; linarith)
  obtain ⟨M, hM1, hM2⟩ := h.err.near (|lo| + |hi|) (by rw [hM0]; linarith)
  rw [hw0] at hw2
  rw [hM0] at hM2
  have a1 : u * (e - s) ≤ 1 / 2 ^ 24 * (e - s) := mul_le_mul_of_nonneg_right h.hu (by linarith)
  have a2 : u * (|lo| + |hi|) ≤ 1 / 2 ^ 24 * (|lo| + |hi|) := mul_le_mul_of_nonneg_right h.hu hpos.le
  have hMpos : 0 < M := by
    have := (abs_le.1 hM2).1
    norm_num at a2 hlarge
    linarith
  refine ⟨|w|, M, ?_, hMpos, abs_nonneg _, ?_, ?_, hw⟩
  · rw [Fl.sub_fin, hw1, Fl.fabs_fin, Fl.fabs_fin, Fl.fabs_fin, Fl.add_fin, hM1, Fl.div_fin_of_ne _ hMpos.ne']
  · have h5 : |(|w| - (e - s))| ≤ |w - (e - s)| := by
      have := abs_abs_sub_abs_le_abs_sub w (e - s)
      rwa [hw0] at this
    linarith
  · rw [add_mul]; linarith

theorem _root_.AQ.Spec.SearchRoom.narrow [hB : FloatFmt.Binary K] (h : SearchRoom u η R lo hi) {s e : K} (h1 : lo ≤ s) (h2 : s ≤ e) (h3 : e ≤ hi)
    (h4 : e - s ≤ 96 / 10 ^ 8 * (|lo| + |hi|)) : wide (.fin lo) (.fin hi) (.fin s) (.fin e : Fl K) = false := by
  obtain ⟨w, M, hq, hM, hw, hw2, hM2, -⟩ := h.parts h1 h2 h3
  have hpos := h.pos
  unfold wide
  rw [hq, show (Fl.lit (1 / 1000000) : Fl K) = FloatFmt.rnd (1 / 1000000) from rfl,
    Fl.lt_eq (hB.rnd_ne_nan _) (hB.rnd_ne_nan _), decide_eq_false_iff_not, not_lt]
  apply hB.rnd_mono
  rw [div_le_iff₀ hM]
  have b1 := (abs_le.1 hw2).2
  have b2 := (abs_le.1 hM2).1
  norm_num at b1 b2 h4 ⊢
  linarith

theorem _root_.AQ.Spec.SearchRoom.width [hB : FloatFmt.Binary K] (h : SearchRoom u η R lo hi) {s e : K} (h1 : lo ≤ s) (h2 : s ≤ e) (h3 : e ≤ hi)
    (h4 : wide (.fin lo) (.fin hi) (.fin s) (.fin e : Fl K) = false) : e - s ≤ 101 / 10 ^ 8 * (|lo| + |hi|) := by
  obtain ⟨w, M, hq, hM, hw, hw2, hM2, hws⟩ := h.parts h1 h2 h3
  have hpos := h.pos
  have b1 := abs_le.1 hw2
  have b2 := abs_le.1 hM2
  have hu := h.hu
  have heta := h.heta
  have htwo := h.two
  have hq0 : 0 ≤ w / M := div_nonneg hw hM.le
  have hq2 : w / M ≤ 2 := by
    rw [div_le_iff₀ hM]
    obtain ⟨-, b1⟩ := b1
    obtain ⟨b2, -⟩ := b2
    norm_num at b1 b2
    linarith
  have hqa : |w / M| = w / M := abs_of_nonneg hq0
  obtain ⟨q, hq3, hq4⟩ := h.err.near (w / M) (by rw [hqa]; linarith)
  have hla : |(1 / 1000000 : K)| = 1 / 1000000 := abs_of_nonneg (by positivity)
  obtain ⟨l, hl3, hl4⟩ := h.err.near (1 / 1000000) (by rw [hla]; norm_num; linarith)
  unfold wide at h4
  rw [hq, show (Fl.lit (1 / 1000000) : Fl K) = FloatFmt.rnd (1 / 1000000) from rfl, hq3, hl3, Fl.lt_fin,
    decide_eq_false_iff_not, not_lt] at h4
  rw [hqa] at hq4
  rw [hla] at hl4
  have c1 : u * (w / M) ≤ 1 / 2 ^ 24 * (w / M) := mul_le_mul_of_nonneg_right hu hq0
  have c2 : u * (1 / 1000000) ≤ 1 / 2 ^ 24 * (1 / 1000000) := mul_le_mul_of_nonneg_right hu (by positivity)
  have c3 : w / M ≤ 1001 / 10 ^ 9 := by
    have d1 := (abs_le.1 hq4).1
    have d2 := (abs_le.1 hl4).2
    norm_num at c1 c2 heta d1 d2 h4 ⊢
    linarith
  rw [div_le_iff₀ hM] at c3
  obtain ⟨b1, -⟩ := b1
  obtain ⟨-, b2⟩ := b2
  norm_num at b1 b2 c3 ⊢
  linarith

theorem _root_.AQ.Spec.SearchRoom.mid [hB : FloatFmt.Binary K] (h : SearchRoom u η R lo hi) {s e : K} (h1 : lo ≤ s) (h2 : s ≤ e) (h3 : e ≤ hi)
    (hs : (Fl.fin s).CanDouble) (he : (Fl.fin e).CanDouble) :
    ∃ v : K, ((.fin s : Fl K) + .fin e) / Fl.lit 2 = .fin v ∧ (Fl.fin v).CanDouble ∧ s ≤ v ∧ v ≤ e ∧
      |v - (s + e) / 2| ≤ 2 / 10 ^ 7 * (|lo| + |hi|) := by
  have hlit : (Fl.lit 2 : Fl K) = .fin 2 := hB.rnd_two
  have hof : (Fl.ofNat 2 : Fl K) = .fin 2 := by
    show FloatFmt.rnd ((2 : ℕ) : K) = _
    rw [Nat.cast_ofNat]; exact hB.rnd_two
  have hav := RCSketch.avg_mem hs he (Fl.fin_le_fin.2 h2)
  rw [hof, ← hlit] at hav
  obtain ⟨⟨v, hv, hv1, hv2⟩, h4, h5⟩ := hav
  rw [hv, Fl.fin_le_fin] at h4
  rw [hv, Fl.fin_le_fin] at h5
  refine ⟨v, hv, ⟨v, rfl, hv1, hv2⟩, h4, h5, ?_⟩
  have hpos := h.pos
  have hfits := h.fits
  have hu := h.hu
  have hη0 := h.err.eta_nonneg
  have hlarge : η ≤ 1 / 2 ^ 30 * (|lo| + |hi|) := by
    have := h.large
    rw [div_mul_eq_mul_div, one_mul, le_div_iff₀ (by positivity)]
    exact this
  have hse : |s + e| ≤ 2 * (|lo| + |hi|) := by
    have a1 := le_abs_self hi
    have a2 := neg_abs_le lo
    have a3 := abs_nonneg hi
    have a4 := abs_nonneg lo
    rw [abs_le]
    constructor <;> linarith
  obtain ⟨y, hy, hy2⟩ := h.err.near (s + e) (by linarith)
  have c1 : u * |s + e| ≤ 1 / 2 ^ 24 * (2 * (|lo| + |hi|)) := mul_le_mul hu hse (abs_nonneg _) (by positivity)
  have hyb : |y| ≤ |s + e| + (1 / 2 ^ 23 + 1 / 2 ^ 30) * (|lo| + |hi|) := by
    have := abs_sub_abs_le_abs_sub y (s + e)
    norm_num at c1 hlarge ⊢
    linarith
  have hy3 : |y / 2| ≤ 3 / 2 * (|lo| + |hi|) := by
    rw [abs_div, abs_two]
    norm_num at hyb ⊢
    linarith
  rw [Fl.add_fin, hy, hlit, Fl.div_fin_of_ne _ two_ne_zero] at hv
  obtain ⟨v', hv', hv3⟩ := h.err.near (y / 2) (by linarith)
  obtain rfl : v = v' := by rw [hv] at hv'; simpa using hv'
  have c2 : u * |y / 2| ≤ 1 / 2 ^ 24 * (3 / 2 * (|lo| + |hi|)) := mul_le_mul hu hy3 (abs_nonneg _) (by positivity)
  have c3 : |v - (s + e) / 2| ≤ |v - y / 2| + |y - (s + e)| / 2 := by
    have e1 : v - (s + e) / 2 = (v - y / 2) + (y - (s + e)) / 2 := by ring
    rw [e1]
    refine (abs_add_le _ _).trans ?_
    rw [abs_div, abs_two]
  norm_num at c1 c2 c3 hlarge ⊢
  linarith

theorem searchLoopSplit_succ (c : Nat → Split) (t : Fl K) (n : Nat) (p : ParallelDigest D K) (s e m : Fl K) :
    searchLoopSplit c t (n + 1) p s e m = if wide p.min p.max s e then (do
      let r ← p.estQuantileSplit (c n) ((s + e) / Fl.lit 2)
      match Fl.cmp r.1 t with
      | none => .fail .unwrap
      | some .gt => searchLoopSplit c t n r.2 s ((s + e) / Fl.lit 2) ((s + e) / Fl.lit 2)
      | some _ => searchLoopSplit c t n r.2 ((s + e) / Fl.lit 2) e ((s + e) / Fl.lit 2))
      else .ret (s, e, m, p) := rfl

theorem estQuantileSplit_limits (c : Split) (p : ParallelDigest D K) (v : Fl K) :
    Partially (p.estQuantileSplit c v) (fun r => r.2.min = p.min ∧ r.2.max = p.max) := by
  unfold estQuantileSplit
  rw [partially_bind]
  refine (partially_true _).mono ?_
  intro r _
  rw [partially_bind]
  exact (partially_true _).mono (fun _ _ => ⟨rfl, rfl⟩)

/-- The search under rounding: with `A x y` the possible answers `y` at `x`. -/
theorem searchLoopSplit_always [hB : FloatFmt.Binary K] (h : SearchRoom u η R lo hi) (c : Nat → Split) (I : List D → Prop)
    (A : K → K → Prop) (t : K)
    (hI : ∀ ds, I ds → ∀ x, lo ≤ x → x ≤ hi → ∀ n,
      Always ((⟨ds, .fin lo, .fin hi⟩ : ParallelDigest D K).estQuantileSplit (c n) (.fin x)) (fun r =>
        (∃ y, r.1 = .fin y ∧ A x y) ∧ I r.2.digests)) :
    ∀ (n fuel : Nat) (ds : List D) (s e m : K), I ds → n + 1 ≤ fuel → lo ≤ s → s ≤ e → e ≤ hi → s ≤ m → m ≤ e →
      (Fl.fin s).CanDouble → (Fl.fin e).CanDouble →
      e - s ≤ (4 / 10 ^ 7 + 56 / 10 ^ 8 * 2 ^ n) * (|lo| + |hi|) →
      (s = lo ∨ ∃ y, A s y ∧ y ≤ t) → (e = hi ∨ ∃ y, A e y ∧ t < y) →
      Always (searchLoopSplit c (.fin t) fuel ⟨ds, .fin lo, .fin hi⟩ (.fin s) (.fin e) (.fin m)) (fun r =>
        ∃ (s' e' m' : K) (ds' : List D), r = (.fin s', .fin e', .fin m', ⟨ds', .fin lo, .fin hi⟩) ∧ I ds' ∧
          lo ≤ s' ∧ s' ≤ m' ∧ m' ≤ e' ∧ e' ≤ hi ∧ e' - s' ≤ 101 / 10 ^ 8 * (|lo| + |hi|) ∧
          (s' = lo ∨ ∃ y, A s' y ∧ y ≤ t) ∧ (e' = hi ∨ ∃ y, A e' y ∧ t < y)) := by
  have hpos := h.pos
  intro n
  induction n with
  | zero =>
    intro fuel ds s e m hds hf h1 h2 h3 h4 h5 hs he h6 h7 h8
    obtain ⟨f, rfl⟩ : ∃ f, fuel = f + 1 := ⟨fuel - 1, by omega⟩
    have hno := h.narrow h1 h2 h3 (by norm_num at h6 ⊢; linarith)
    rw [searchLoopSplit_succ, hno]
    exact ⟨s, e, m, ds, rfl, hds, h1, h4, h5, h3, h.width h1 h2 h3 hno, h7, h8⟩
  | succ n ih =>
    intro fuel ds s e m hds hf h1 h2 h3 h4 h5 hs he h6 h7 h8
    obtain ⟨f, rfl⟩ : ∃ f, fuel = f + 1 := ⟨fuel - 1, by omega⟩
    rw [searchLoopSplit_succ]
    cases hcc : wide (.fin lo) (.fin hi) (.fin s) (.fin e : Fl K) with
    | false => exact ⟨s, e, m, ds, rfl, hds, h1, h4, h5, h3, h.width h1 h2 h3 hcc, h7, h8⟩
    | true =>
      rw [if_pos rfl]
      obtain ⟨v, hv, hv2, hm1, hm2, hv3⟩ := h.mid h1 h2 h3 hs he
      rw [hv, always_bind]
      refine ((hI ds hds v (by linarith) (by linarith) f).and (estQuantileSplit_limits (c f) _ _)).mono ?_
      rintro ⟨r, ⟨ds', mn, mx⟩⟩ ⟨⟨⟨y, hy, hA⟩, hds'⟩, hmn, hmx⟩
      obtain rfl : r = .fin y := hy
      obtain rfl : mn = .fin lo := hmn
      obtain rfl : mx = .fin hi := hmx
      rw [Fl.cmp_fin]
      have hv4 := abs_le.1 hv3
      have eP : (4 / 10 ^ 7 + 56 / 10 ^ 8 * 2 ^ n) * (|lo| + |hi|) =
          4 / 10 ^ 7 * (|lo| + |hi|) + 56 / 10 ^ 8 * (2 ^ n * (|lo| + |hi|)) := by ring
      have eQ : (4 / 10 ^ 7 + 56 / 10 ^ 8 * 2 ^ (n + 1)) * (|lo| + |hi|) =
          4 / 10 ^ 7 * (|lo| + |hi|) + 112 / 10 ^ 8 * (2 ^ n * (|lo| + |hi|)) := by ring
      rw [eQ] at h6
      have e1 : e - v ≤ (4 / 10 ^ 7 + 56 / 10 ^ 8 * 2 ^ n) * (|lo| + |hi|) := by
        have := hv4.1
        rw [eP]
        generalize 2 ^ n * (|lo| + |hi|) = P at h6 ⊢
        norm_num at this h6 ⊢
        linarith
      have e2 : v - s ≤ (4 / 10 ^ 7 + 56 / 10 ^ 8 * 2 ^ n) * (|lo| + |hi|) := by
        have := hv4.2
        rw [eP]
        generalize 2 ^ n * (|lo| + |hi|) = P at h6 ⊢
        norm_num at this h6 ⊢
        linarith
      rcases lt_trichotomy y t with hyt | hyt | hyt
      · rw [compare_lt_iff_lt.2 hyt]
        exact ih f ds' _ _ _ hds' (by omega) (by linarith) hm2 h3 le_rfl hm2 hv2 he e1 (Or.inr ⟨y, hA, hyt.le⟩) h8
      · rw [compare_eq_iff_eq.2 hyt]
        exact ih f ds' _ _ _ hds' (by omega) (by linarith) hm2 h3 le_rfl hm2 hv2 he e1 (Or.inr ⟨y, hA, hyt.le⟩) h8
      · rw [compare_gt_iff_gt.2 hyt]
        exact ih f ds' _ _ _ hds' (by omega) h1 hm1 (by linarith) hm1 le_rfl hs hv2 e2 h7 (Or.inr ⟨y, hA, hyt⟩)

end ParallelDigest
end AQ

/-
Properties C59, C81 and C82: the helpers of `src/util/mod.rs`.
-/
import Mathlib.Tactic.Linarith
import Mathlib.Tactic.FieldSimp
import Mathlib.Algebra.Order.Archimedean.Basic
import Mathlib.Data.Rat.Floor
import Verif.Model.Util
import Verif.Spec.Basic
import Verif.Spec.F64
import Verif.Proofs.Nondet

set_option linter.unusedSectionVars false
set_option linter.unusedVariables false

namespace AQ
open Prog Spec
variable {K : Type} [Field K] [LinearOrder K] [IsStrictOrderedRing K] [FloatFmt K]

namespace Spec

/-- `b` is a possible outcome of testing the parameter `p` once: for some generated data set, a digest created from it with
`p`, and an exact digest holding the same data. -/
def CanTest {D : Type} (create : List (Fl K) → Fl K → Prog D) (gen : Prog (List (Fl K)))
    (testFunc : D → LinearDigest K → Prog Bool) (p : K) (b : Bool) : Prop :=
  ∃ data d, CanReturn gen data ∧ CanReturn (create data (.fin p)) d ∧ CanReturn (testFunc d ⟨data⟩) b

/-- `count` tests of `p` can end with at least the share `ratio` of passes. -/
def CanPass {D : Type} (create : List (Fl K) → Fl K → Prog D) (gen : Prog (List (Fl K)))
    (testFunc : D → LinearDigest K → Prog Bool) (count : Nat) (ratio : Fl K) (p : K) : Prop :=
  ∃ bs : List Bool, bs.length = count ∧ (∀ b ∈ bs, CanTest create gen testFunc p b) ∧ count ≠ 0 ∧
    Fl.le ratio (.fin ((bs.count true : K) / (count : K))) = true

/-- `count` tests of `p` can end with less than the share `ratio` of passes (or there are no tests). -/
def CanMiss {D : Type} (create : List (Fl K) → Fl K → Prog D) (gen : Prog (List (Fl K)))
    (testFunc : D → LinearDigest K → Prog Bool) (count : Nat) (ratio : Fl K) (p : K) : Prop :=
  ∃ bs : List Bool, bs.length = count ∧ (∀ b ∈ bs, CanTest create gen testFunc p b) ∧
    (count ≠ 0 → Fl.le ratio (.fin ((bs.count true : K) / (count : K))) = false)

end Spec

/-- A round of the model with the required share of passes. -/
def RoundPass (test : Fl K → Prog Bool) (count : Nat) (ratio : Fl K) (p : K) : Prop :=
  ∃ c, CanReturn (passCount (test (.fin p)) count) c ∧ Fl.le ratio (passFraction c count) = true

/-- A round of the model without it. -/
def RoundMiss (test : Fl K → Prog Bool) (count : Nat) (ratio : Fl K) (p : K) : Prop :=
  ∃ c, CanReturn (passCount (test (.fin p)) count) c ∧ Fl.le ratio (passFraction c count) = false

theorem passCount_canReturn {test : Prog Bool} : ∀ {n c : Nat}, CanReturn (passCount test n) c →
    ∃ bs : List Bool, bs.length = n ∧ (∀ b ∈ bs, CanReturn test b) ∧ bs.count true = c
  | 0, c, h => ⟨[], rfl, by simp, h⟩
  | n + 1, c, h => by
    unfold passCount at h
    obtain ⟨b, hb, h⟩ := canReturn_bind.1 h
    obtain ⟨c', hc, h⟩ := canReturn_bind.1 h
    obtain ⟨bs, h1, h2, h3⟩ := passCount_canReturn hc
    refine ⟨b :: bs, by simp [h1], ?_, ?_⟩
    · intro x hx
      rcases List.mem_cons.1 hx with rfl | hx
      · exact hb
      · exact h2 x hx
    · have h : (if b then c' + 1 else c') = c := h
      cases b <;> simp_all

theorem optTest_canReturn {D : Type} {create : List (Fl K) → Fl K → Prog D} {gen : Prog (List (Fl K))}
    {testFunc : D → LinearDigest K → Prog Bool} {p : K} {b : Bool} (h : CanReturn (optTest create gen testFunc (.fin p)) b) :
    CanTest create gen testFunc p b := by
  unfold optTest at h
  obtain ⟨data, h1, h⟩ := canReturn_bind.1 h
  obtain ⟨d, h2, h⟩ := canReturn_bind.1 h
  exact ⟨data, d, h1, h2, by simpa [LinearDigest.new, LinearDigest.addBuffer] using h⟩

theorem optTest_always {D : Type} {create : List (Fl K) → Fl K → Prog D} {gen : Prog (List (Fl K))}
    {testFunc : D → LinearDigest K → Prog Bool} (hg : Always gen (fun _ => True))
    (hc : ∀ data p, Always (create data p) (fun _ => True)) (ht : ∀ d l, Always (testFunc d l) (fun _ => True)) (p : Fl K) :
    Always (optTest create gen testFunc p) (fun _ => True) := by
  unfold optTest
  simp only [always_bind]
  exact hg.mono (fun data _ => (hc data p).mono (fun d _ => ht d _))

section exact
variable [FloatFmt.Exact K] {D : Type} {create : List (Fl K) → Fl K → Prog D} {gen : Prog (List (Fl K))}
  {testFunc : D → LinearDigest K → Prog Bool} {count : Nat} {ratio : Fl K} {p : K}

theorem RoundPass.canPass (h : RoundPass (optTest create gen testFunc) count ratio p) :
    CanPass create gen testFunc count ratio p := by
  obtain ⟨c, hc, hp⟩ := h
  obtain ⟨bs, h1, h2, rfl⟩ := passCount_canReturn hc
  unfold passFraction at hp
  split at hp
  · simp at hp
  · rename_i h0
    exact ⟨bs, h1, fun b hb => optTest_canReturn (h2 b hb), h0, by simpa using hp⟩

theorem RoundMiss.canMiss (h : RoundMiss (optTest create gen testFunc) count ratio p) :
    CanMiss create gen testFunc count ratio p := by
  obtain ⟨c, hc, hp⟩ := h
  obtain ⟨bs, h1, h2, rfl⟩ := passCount_canReturn hc
  refine ⟨bs, h1, fun b hb => optTest_canReturn (h2 b hb), fun h0 => ?_⟩
  simpa [passFraction, h0] using hp
end exact

theorem passCount_always {test : Prog Bool} (h : Always test (fun _ => True)) : ∀ n, Always (passCount test n) (fun _ => True)
  | 0 => trivial
  | n + 1 => by
    unfold passCount
    rw [always_bind]
    refine h.mono (fun b _ => ?_)
    rw [always_bind]
    exact (passCount_always h n).mono (fun c _ => trivial)

section exact
variable [FloatFmt.Exact K]

/-- What is known at the start of a round. -/
structure OptInv (test : Fl K → Prog Bool) (count : Nat) (ratio : Fl K) (mx low high : K) : Prop where
  low0 : 0 ≤ low
  lt : low < high
  le : high ≤ mx
  hi : high = mx ∨ RoundPass test count ratio high
  lo : low = 0 ∨ RoundMiss test count ratio low

theorem OptInv.next {test : Fl K → Prog Bool} {count : Nat} {ratio : Fl K} {mx low high : K}
    (h : OptInv test count ratio mx low high) {c : Nat}
    (hc : CanReturn (passCount (test (.fin ((high + low) / 2))) count) c) :
    (Fl.le ratio (passFraction c count) = true → OptInv test count ratio mx low ((high + low) / 2)) ∧
    (Fl.le ratio (passFraction c count) = false → OptInv test count ratio mx ((high + low) / 2) high) := by
  have h1 := h.lt
  have h2 := h.low0
  have h3 := h.le
  refine ⟨fun hk => ⟨h2, by linarith, by linarith, Or.inr ⟨c, hc, hk⟩, h.lo⟩,
    fun hk => ⟨by linarith, by linarith, h3, h.hi, Or.inr ⟨c, hc, hk⟩⟩⟩

theorem optLoop_partial {test : Fl K → Prog Bool} {count : Nat} {ratio : Fl K} {mx ε : K} :
    ∀ (fuel : Nat) (low high : K), OptInv test count ratio mx low high →
    Partially (optLoop test count ratio (.fin ε) fuel (.fin low) (.fin high) (.fin ((high + low) / 2))) (fun r =>
      ∃ l h, r = .fin h ∧ OptInv test count ratio mx l h ∧ h - l < ε) := by
  intro fuel
  induction fuel with
  | zero => intro low high _; trivial
  | succ fuel ih =>
    intro low high hinv
    unfold optLoop
    rw [partially_iff]
    intro r hr
    obtain ⟨c, hc, hr⟩ := canReturn_bind.1 hr
    have hn := hinv.next hc
    revert hr
    dsimp only
    cases hk : Fl.le ratio (passFraction c count) with
    | true =>
      have h1 := hn.1 hk
      simp only [if_true, Fl.sub_exact, Fl.lt_fin, Fl.add_exact, Fl.lit_exact, Fl.div_exact _ (two_ne_zero (α := K))]
      split
      · rename_i hlt
        intro hr
        exact ⟨_, _, hr.symm, h1, by simpa using hlt⟩
      · intro hr
        exact (partially_iff _ _).1 (ih _ _ h1) r hr
    | false =>
      have h1 := hn.2 hk
      simp only [Bool.false_eq_true, if_false, Fl.sub_exact, Fl.lt_fin, Fl.add_exact, Fl.lit_exact,
        Fl.div_exact _ (two_ne_zero (α := K))]
      split
      · rename_i hlt
        intro hr
        exact ⟨_, _, hr.symm, h1, by simpa using hlt⟩
      · intro hr
        exact (partially_iff _ _).1 (ih _ _ h1) r hr

theorem optLoop_always {test : Fl K → Prog Bool} {count : Nat} {ratio : Fl K} {ε : K}
    (htest : ∀ p, Always (test p) (fun _ => True)) :
    ∀ (fuel : Nat) (low high : K), 1 ≤ fuel → high - low < ε * 2 ^ fuel →
    Always (optLoop test count ratio (.fin ε) fuel (.fin low) (.fin high) (.fin ((high + low) / 2))) (fun _ => True) := by
  intro fuel
  induction fuel with
  | zero => intro low high h; omega
  | succ fuel ih =>
    intro low high _ hw
    unfold optLoop
    rw [always_bind]
    refine (passCount_always (htest _) _).mono (fun c _ => ?_)
    dsimp only
    have hhalf : ∀ l h : K, h - l = (high - low) / 2 → ¬ (h - l < ε) →
        Always (optLoop test count ratio (.fin ε) fuel (.fin l) (.fin h) (.fin ((h + l) / 2))) (fun _ => True) := by
      intro l h he hge
      have hw' : h - l < ε * 2 ^ fuel := by
        rw [he]
        rw [pow_succ] at hw
        linarith
      refine ih l h ?_ hw'
      by_contra hf
      have : fuel = 0 := by omega
      rw [this, pow_zero, mul_one] at hw'
      exact hge hw'
    cases hk : Fl.le ratio (passFraction c count) with
    | true =>
      simp only [if_true, Fl.sub_exact, Fl.lt_fin, Fl.add_exact, Fl.lit_exact, Fl.div_exact _ (two_ne_zero (α := K))]
      split
      · trivial
      · rename_i hlt
        exact hhalf _ _ (by ring) (by simpa using hlt)
    | false =>
      simp only [Bool.false_eq_true, if_false, Fl.sub_exact, Fl.lt_fin, Fl.add_exact, Fl.lit_exact,
        Fl.div_exact _ (two_ne_zero (α := K))]
      split
      · trivial
      · rename_i hlt
        exact hhalf _ _ (by ring) (by simpa using hlt)

variable {D : Type} (create : List (Fl K) → Fl K → Prog D) (gen : Prog (List (Fl K)))
  (testFunc : D → LinearDigest K → Prog Bool)

/-- C59 in exact arithmetic (the full claim, in floating point, is false by `C59_f64_does_not_terminate`).
`opt_accuracy_parameter` with `epsilon > 0` and `max_param > 0` needs at most `m` rounds once
`max_param < epsilon * 2^m`, if no test panics. The result is in `(0, max_param]`; it is `max_param` or can pass its round of
tests, and less than `epsilon` below it is 0 or a parameter that can fail its round. -/
theorem C59_bracketed_partial (count : Nat) (ratio : Fl K) (mx ε : K) (m : Nat) (hε : 0 < ε) (hmx : 0 < mx) (hm : 1 ≤ m)
    (hw : mx < ε * 2 ^ m) (hgen : Always gen (fun _ => True)) (hcreate : ∀ data p, Always (create data p) (fun _ => True))
    (htest : ∀ d l, Always (testFunc d l) (fun _ => True)) :
    Always (optAccuracyParameter m create gen testFunc count ratio (.fin mx) (.fin ε)) (fun r =>
      ∃ h l : K, r = .fin h ∧ 0 < h ∧ h ≤ mx ∧ (h = mx ∨ CanPass create gen testFunc count ratio h) ∧
        0 ≤ l ∧ l < h ∧ h - l < ε ∧ (l = 0 ∨ CanMiss create gen testFunc count ratio l)) := by
  have e : optAccuracyParameter m create gen testFunc count ratio (.fin mx) (.fin ε) =
      optLoop (optTest create gen testFunc) count ratio (.fin ε) m (.fin 0) (.fin mx) (.fin ((mx + 0) / 2)) := by
    unfold optAccuracyParameter
    simp only [Fl.lit_exact, Fl.add_exact]
    rw [Fl.div_exact _ two_ne_zero]
  rw [e]
  refine ((optLoop_always (optTest_always hgen hcreate htest) m 0 mx hm (by linarith)).and (optLoop_partial m 0 mx
    ⟨le_refl _, hmx, le_refl _, Or.inl rfl, Or.inl rfl⟩)).mono ?_
  rintro r ⟨-, l, h, rfl, hi, hlt⟩
  exact ⟨h, l, rfl, lt_of_le_of_lt hi.low0 hi.lt, hi.le, hi.hi.imp_right (·.canPass), hi.low0, hi.lt, hlt,
    hi.lo.imp_right (·.canMiss)⟩

/-- A number of rounds that is enough always exists. -/
theorem C59_rounds_exist [Archimedean K] (mx ε : K) (hε : 0 < ε) : ∃ m : Nat, 1 ≤ m ∧ mx < ε * 2 ^ m := by
  obtain ⟨m, hm⟩ := pow_unbounded_of_one_lt (mx / ε) (one_lt_two (α := K))
  refine ⟨m + 1, by omega, ?_⟩
  rw [div_lt_iff₀ hε] at hm
  have : (0 : K) < 2 ^ m := by positivity
  rw [pow_succ]
  nlinarith

/-- C59. If every test passes exactly from the parameter `θ` on, the search finds `θ` up to `epsilon`. -/
theorem C59_finds_threshold (count : Nat) (hcount : 1 ≤ count) (ratio : K) (hr0 : 0 < ratio) (hr1 : ratio ≤ 1)
    (mx ε θ : K) (m : Nat) (hε : 0 < ε) (hm : 1 ≤ m) (hw : mx < ε * 2 ^ m) (hθ : 0 < θ) (hθm : θ ≤ mx)
    (hgen : Always gen (fun _ => True)) (hcreate : ∀ data p, Always (create data p) (fun _ => True))
    (htest : ∀ d l, Always (testFunc d l) (fun _ => True))
    (hθt : ∀ (p : K) (b : Bool), CanTest create gen testFunc p b → b = decide (θ ≤ p)) :
    Always (optAccuracyParameter m create gen testFunc count (.fin ratio) (.fin mx) (.fin ε)) (fun r =>
      ∃ h : K, r = .fin h ∧ θ ≤ h ∧ h < θ + ε) := by
  have hc0 : count ≠ 0 := by omega
  have hcK : (count : K) ≠ 0 := by exact_mod_cast hc0
  refine (C59_bracketed_partial create gen testFunc count (.fin ratio) mx ε m hε (by linarith) hm hw hgen hcreate htest).mono ?_
  rintro r ⟨h, l, rfl, h1, h2, h3, h4, h5, h6, h7⟩
  refine ⟨h, rfl, ?_, ?_⟩
  · rcases h3 with rfl | ⟨bs, hl, hb, -, hp⟩
    · exact hθm
    · by_contra hcon
      have h0 : bs.count true = 0 := by
        rw [List.count_eq_zero]
        intro hm
        have := hθt h true (hb true hm)
        simp [hcon] at this
      rw [h0] at hp
      simp at hp
      linarith
  · rcases h7 with rfl | ⟨bs, hl, hb, hp⟩
    · linarith
    · by_contra hcon
      have h0 : bs.count true = bs.length := by
        rw [List.count_eq_length]
        intro b hm
        have := hθt l b (hb b hm)
        simpa [show θ ≤ l by linarith, eq_comm] using this
      have hp := hp hc0
      rw [h0, hl, div_self hcK] at hp
      simp at hp
      linarith

/-- C59. The returned parameter need not have passed: when no test passes the result is `max_param`, which was never
tested. Also when `test_count` is 0. -/
theorem C59_untested_max (count : Nat) (ratio : K) (hr0 : 0 < ratio) (mx ε : K) (m : Nat) (hε : 0 < ε) (hmx : 0 < mx)
    (hm : 1 ≤ m) (hw : mx < ε * 2 ^ m) (hgen : Always gen (fun _ => True))
    (hcreate : ∀ data p, Always (create data p) (fun _ => True)) (htest : ∀ d l, Always (testFunc d l) (fun _ => True))
    (hno : count = 0 ∨ ∀ p : K, ¬ CanTest create gen testFunc p true) :
    Always (optAccuracyParameter m create gen testFunc count (.fin ratio) (.fin mx) (.fin ε)) (fun r => r = .fin mx) := by
  refine (C59_bracketed_partial create gen testFunc count (.fin ratio) mx ε m hε hmx hm hw hgen hcreate htest).mono ?_
  rintro r ⟨h, l, rfl, h1, h2, h3, -⟩
  rcases h3 with rfl | ⟨bs, hl, hb, h0, hp⟩
  · rfl
  · exfalso
    rcases hno with h0' | ht
    · exact h0 h0'
    · have h0' : bs.count true = 0 := by
        rw [List.count_eq_zero]
        exact fun hm => ht h (hb true hm)
      rw [h0'] at hp
      simp at hp
      linarith

/-- C59. With `epsilon ≤ 0` the search never returns, whatever the number of rounds and the outcome of the tests. -/
theorem C59_epsilon_not_positive (count : Nat) (ratio : Fl K) (mx ε : K) (hε : ε ≤ 0) (hmx : 0 < mx) (m : Nat) (r : Fl K) :
    ¬ CanReturn (optAccuracyParameter m create gen testFunc count ratio (.fin mx) (.fin ε)) r := by
  have key : ∀ (fuel : Nat) (low high : K), low < high →
      Partially (optLoop (optTest create gen testFunc) count ratio (.fin ε) fuel (.fin low) (.fin high)
        (.fin ((high + low) / 2))) (fun _ => False) := by
    intro fuel
    induction fuel with
    | zero => intro low high _; trivial
    | succ fuel ih =>
      intro low high hlt
      unfold optLoop
      rw [partially_bind]
      refine (partially_true _).mono (fun c _ => ?_)
      dsimp only
      cases hk : Fl.le ratio (passFraction c count) with
      | true =>
        simp only [if_true, Fl.sub_exact, Fl.lt_fin, Fl.add_exact, Fl.lit_exact, Fl.div_exact _ (two_ne_zero (α := K))]
        rw [if_neg (by simp; linarith)]
        exact ih _ _ (by linarith)
      | false =>
        simp only [Bool.false_eq_true, if_false, Fl.sub_exact, Fl.lt_fin, Fl.add_exact, Fl.lit_exact,
          Fl.div_exact _ (two_ne_zero (α := K))]
        rw [if_neg (by simp; linarith)]
        exact ih _ _ (by linarith)
  intro hr
  have e : optAccuracyParameter m create gen testFunc count ratio (.fin mx) (.fin ε) =
      optLoop (optTest create gen testFunc) count ratio (.fin ε) m (.fin 0) (.fin mx) (.fin ((mx + 0) / 2)) := by
    unfold optAccuracyParameter
    simp only [Fl.lit_exact, Fl.add_exact]
    rw [Fl.div_exact _ two_ne_zero]
  rw [e] at hr
  exact (partially_iff _ _).1 (key m 0 mx hmx) r hr

end exact

/-- C81. `sample_digest_accuracy` returns `test_count` errors (any arithmetic), each the error between the two answers on one
generated data set. -/
theorem C81_samples {D : Type} (create : List (Fl K) → Prog D) (gen : Prog (List (Fl K))) (testD : D → Prog (Fl K))
    (testL : LinearDigest K → Prog (Fl K)) (err : Fl K → Fl K → Fl K) (n : Nat) :
    Partially (sampleDigestAccuracy create gen testD testL err n) (fun es =>
      es.length = n ∧ ∀ e ∈ es, ∃ data d a b, CanReturn gen data ∧ CanReturn (create data) d ∧ CanReturn (testD d) a ∧
        CanReturn (testL ⟨data⟩) b ∧ e = err a b) := by
  induction n with
  | zero => exact ⟨rfl, by simp⟩
  | succ n ih =>
    unfold sampleDigestAccuracy
    rw [partially_iff]
    intro es hes
    obtain ⟨x, hx, hes⟩ := canReturn_bind.1 hes
    obtain ⟨xs, hxs, hes⟩ := canReturn_bind.1 hes
    have hes : x :: xs = es := hes
    subst hes
    obtain ⟨h1, h2⟩ := (partially_iff _ _).1 ih xs hxs
    refine ⟨by simp [h1], ?_⟩
    intro e he
    rcases List.mem_cons.1 he with rfl | he
    · unfold sampleOnce at hx
      obtain ⟨data, hd, hx⟩ := canReturn_bind.1 hx
      obtain ⟨d, hd', hx⟩ := canReturn_bind.1 hx
      obtain ⟨a, ha, hx⟩ := canReturn_bind.1 hx
      obtain ⟨b, hb, hx⟩ := canReturn_bind.1 hx
      exact ⟨data, d, a, b, hd, hd', ha, by simpa [LinearDigest.new, LinearDigest.addBuffer] using hb, hx.symm⟩
    · exact h2 e he

/-- C81. If no closure panics, neither does `sample_digest_accuracy`. -/
theorem C81_returns {D : Type} (create : List (Fl K) → Prog D) (gen : Prog (List (Fl K))) (testD : D → Prog (Fl K))
    (testL : LinearDigest K → Prog (Fl K)) (err : Fl K → Fl K → Fl K) (n : Nat) (h1 : Always gen (fun _ => True))
    (h2 : ∀ data, Always (create data) (fun _ => True)) (h3 : ∀ d, Always (testD d) (fun _ => True))
    (h4 : ∀ d, Always (testL d) (fun _ => True)) :
    Always (sampleDigestAccuracy create gen testD testL err n) (fun es => es.length = n) := by
  induction n with
  | zero => rfl
  | succ n ih =>
    unfold sampleDigestAccuracy sampleOnce
    simp only [always_bind]
    refine h1.mono (fun data _ => (h2 data).mono (fun d _ => (h3 d).mono (fun a _ => (h4 _).mono (fun b _ => ?_))))
    exact ih.mono (fun xs hxs => by show (_ :: xs).length = n + 1; simp [hxs])

/-- C81. A digest that answers like the exact digest has error `err x x` in every sample. -/
theorem C81_exact_digest (gen : Prog (List (Fl K))) (test : LinearDigest K → Fl K) (err : Fl K → Fl K → Fl K) (n : Nat)
    (z : Fl K) (hz : ∀ x, err x x = z) :
    Partially (sampleDigestAccuracy (fun data => .ret (LinearDigest.mk data)) gen (fun d => .ret (test d))
      (fun d => .ret (test d)) err n) (fun es => es = List.replicate n z) := by
  refine (C81_samples _ gen _ _ err n).mono ?_
  rintro es ⟨h1, h2⟩
  rw [List.eq_replicate_iff]
  refine ⟨h1, fun e he => ?_⟩
  obtain ⟨data, d, a, b, -, hd, ha, hb, rfl⟩ := h2 e he
  have hd : LinearDigest.mk data = d := hd
  subst hd
  have ha : test ⟨data⟩ = a := ha
  have hb : test ⟨data⟩ = b := hb
  rw [← ha, ← hb, hz]

/-- C82. `gen_asc_vec(size)` is `0, 1, .., size - 1` (empty for a negative size), and the centroid version has the same means
with weight one. -/
theorem C82_ascending [FloatFmt.Exact K] (size : Int) :
    (genAscVec size : List (Fl K)).length = size.toNat ∧
    (∀ i (h : i < (genAscVec size : List (Fl K)).length), (genAscVec size : List (Fl K))[i] = .fin (i : K)) ∧
    (genAscCentroidVec size : List (Centroid K)) = (genAscVec size).map (fun x => ⟨x, .fin 1⟩) := by
  refine ⟨by simp [genAscVec], ?_, ?_⟩
  · intro i h
    simp [genAscVec, Fl.ofNat]
  · simp [genAscVec, genAscCentroidVec, Function.comp_def]

/-- C82. `gen_growing_blocks_vec(size)` gives, whatever is drawn, `size` values, each equal to its predecessor or one more
(starting from 1). -/
theorem C82_growing_blocks [FloatFmt.Exact K] (size : Int) :
    Always (genGrowingBlocksVec size : Prog (List (Fl K))) (fun xs => xs.length = size.toNat ∧
      List.IsChain (fun a b => ∃ x : K, a = .fin x ∧ (b = .fin x ∨ b = .fin (x + 1))) (.fin 1 :: xs)) := by
  have key : ∀ (n : Nat) (v : K), Always (growingLoop n (.fin v) : Prog (List (Fl K))) (fun xs => xs.length = n ∧
      List.IsChain (fun a b => ∃ x : K, a = .fin x ∧ (b = .fin x ∨ b = .fin (x + 1))) (.fin v :: xs)) := by
    intro n
    induction n with
    | zero => intro v; exact ⟨rfl, by simp⟩
    | succ n ih =>
      intro v
      unfold growingLoop
      intro b
      cases b with
      | true =>
        simp only [if_true, Fl.lit_exact, Fl.add_exact]
        rw [always_bind]
        refine (ih (v + 1)).mono ?_
        rintro xs ⟨h1, h2⟩
        refine ⟨by simp [h1], ?_⟩
        rw [List.isChain_cons_cons]
        exact ⟨⟨v, rfl, Or.inr rfl⟩, h2⟩
      | false =>
        simp only [Bool.false_eq_true, if_false]
        rw [always_bind]
        refine (ih v).mono ?_
        rintro xs ⟨h1, h2⟩
        refine ⟨by simp [h1], ?_⟩
        rw [List.isChain_cons_cons]
        exact ⟨⟨v, rfl, Or.inl rfl⟩, h2⟩
  unfold genGrowingBlocksVec
  simp only [Fl.lit_exact]
  exact key _ 1

section examples
attribute [local instance] ratExact
attribute [local instance] ratExact_exact

/-- Passing exactly from 3/4 on, `max_param` 2, `epsilon` 1/8: the result is 3/4 + 0. -/
example : Always (optAccuracyParameter (K := ℚ) 5 (fun data p => .ret p) (.ret [.fin 1]) (fun p _ => .ret (Fl.le (.fin (3 / 4)) p))
    4 (.fin (1 / 2)) (.fin 2) (.fin (1 / 8))) (fun r => r = .fin (3 / 4)) := by decide +kernel

/-- Nothing passes: `max_param`. -/
example : Always (optAccuracyParameter (K := ℚ) 5 (fun data p => .ret p) (.ret [.fin 1]) (fun p _ => .ret false)
    4 (.fin (1 / 2)) (.fin 2) (.fin (1 / 8))) (fun r => r = .fin 2) := by decide +kernel

/-- Random tests: both 1 and 2 are possible results. -/
example : Always (optAccuracyParameter (K := ℚ) 3 (fun data p => .ret p) (.ret []) (fun p _ => .flip fun b => .ret b)
    1 (.fin (1 / 2)) (.fin 2) (.fin 2)) (fun r => r = .fin 1 ∨ r = .fin 2) := by decide +kernel

end examples

section f64
attribute [local instance] f64Fmt

/-- The test of the witness: pass exactly above 1. -/
def aboveOne : Fl ℚ → Prog Bool := optTest (fun _ p => .ret p) (.ret []) (fun p _ => .ret (Fl.lt (.fin 1) p))

theorem aboveOne_step (fuel : Nat) (low high cur : Fl ℚ) :
    optLoop aboveOne 1 (.fin 1) (.fin (1 / 2 ^ 60)) (fuel + 1) low high cur =
      (let high' := if Fl.lt (.fin 1) cur then cur else high
       let low' := if Fl.lt (.fin 1) cur then low else cur
       if Fl.lt (high' - low') (.fin (1 / 2 ^ 60)) then .ret high'
       else optLoop aboveOne 1 (.fin 1) (.fin (1 / 2 ^ 60)) fuel low' high' ((high' + low') / Fl.lit 2)) := by
  have h1 : Fl.le (.fin 1) (passFraction 1 1 : Fl ℚ) = true := by decide +kernel
  have h0 : Fl.le (.fin 1) (passFraction 0 1 : Fl ℚ) = false := by decide +kernel
  have hp : passCount (aboveOne cur) 1 = .ret (if Fl.lt (.fin 1) cur then 1 else 0) := rfl
  rw [optLoop, hp, bind_ret]
  cases Fl.lt (.fin 1) cur with
  | true => simp only [if_true, h1]
  | false => simp only [Bool.false_eq_true, if_false, h0]

/-- Two neighbouring numbers: no progress. -/
theorem aboveOne_stuck : ∀ (fuel : Nat) (r : Fl ℚ),
    ¬ CanReturn (optLoop aboveOne 1 (.fin 1) (.fin (1 / 2 ^ 60)) fuel (.fin 1) (.fin (1 + 1 / 2 ^ 52)) (.fin 1)) r
  | 0, r => fun h => h
  | fuel + 1, r => by
    have h1 : Fl.lt (.fin 1) (.fin 1 : Fl ℚ) = false := by decide +kernel
    have h2 : Fl.lt (.fin (1 + 1 / 2 ^ 52) - .fin 1) (.fin (1 / 2 ^ 60) : Fl ℚ) = false := by decide +kernel
    have h3 : (.fin (1 + 1 / 2 ^ 52) + .fin 1) / Fl.lit 2 = (.fin 1 : Fl ℚ) := by decide +kernel
    rw [aboveOne_step]
    simp only [h1, Bool.false_eq_true, if_false, h2, h3]
    exact aboveOne_stuck fuel r

theorem aboveOne_narrow (r : Fl ℚ) : ∀ (j : Nat), j ≤ 51 → ∀ fuel : Nat,
    ¬ CanReturn (optLoop aboveOne 1 (.fin 1) (.fin (1 / 2 ^ 60)) fuel (.fin 1) (.fin (1 + 1 / 2 ^ (51 - j)))
      (.fin (1 + 1 / 2 ^ (52 - j)))) r := by
  have facts : ∀ j ≤ 51, Fl.lt (.fin 1) (.fin (1 + 1 / 2 ^ (52 - j)) : Fl ℚ) = true ∧
      Fl.lt (.fin (1 + 1 / 2 ^ (52 - j)) - .fin 1) (.fin (1 / 2 ^ 60) : Fl ℚ) = false ∧
      (.fin (1 + 1 / 2 ^ (52 - j)) + .fin 1) / Fl.lit 2 =
        (.fin (if j = 0 then 1 else 1 + 1 / 2 ^ (52 - (j - 1))) : Fl ℚ) := by decide +kernel
  intro j
  induction j with
  | zero =>
    intro _ fuel
    cases fuel with
    | zero => exact fun h => h
    | succ fuel =>
      obtain ⟨h1, h2, h3⟩ := facts 0 (by omega)
      rw [aboveOne_step]
      simp only [h1, if_true, h2, h3, Bool.false_eq_true, if_false]
      exact aboveOne_stuck fuel r
  | succ j ih =>
    intro hj fuel
    cases fuel with
    | zero => exact fun h => h
    | succ fuel =>
      obtain ⟨h1, h2, h3⟩ := facts (j + 1) hj
      rw [aboveOne_step]
      simp only [h1, if_true, h2, h3, Bool.false_eq_true, if_false, Nat.add_eq_zero_iff, one_ne_zero, and_false,
        Nat.add_sub_cancel]
      rw [show 52 - (j + 1) = 51 - j by omega]
      exact ih (by omega) fuel

/-- C59. In `f64` a positive `epsilon` does not guarantee termination either: with the threshold just above 1, `max_param = 2`
and `epsilon = 2^-60`, the interval narrows to two neighbouring numbers and stays there, however many rounds are run. -/
theorem C59_f64_does_not_terminate (fuel : Nat) (r : Fl ℚ) :
    ¬ CanReturn (optAccuracyParameter fuel (fun _ p => .ret p) (.ret []) (fun p _ => .ret (Fl.lt (.fin 1) p))
      1 (.fin 1) (.fin 2) (.fin (1 / 2 ^ 60))) r := by
  cases fuel with
  | zero => exact fun h => h
  | succ fuel =>
    have h0 : ((.fin 2 + Fl.lit 0) / Fl.lit 2 : Fl ℚ) = .fin 1 := by decide +kernel
    have h1 : Fl.lt (.fin 1) (.fin 1 : Fl ℚ) = false := by decide +kernel
    have h2 : Fl.lt (.fin 2 - .fin 1) (.fin (1 / 2 ^ 60) : Fl ℚ) = false := by decide +kernel
    have h3 : (.fin 2 + .fin 1) / Fl.lit 2 = (.fin (1 + 1 / 2 ^ (52 - 51)) : Fl ℚ) := by decide +kernel
    have h4 : (.fin 2 : Fl ℚ) = .fin (1 + 1 / 2 ^ (51 - 51)) := by decide +kernel
    unfold optAccuracyParameter
    rw [h0, ← aboveOne, aboveOne_step]
    simp only [h1, Bool.false_eq_true, if_false, h2, h3]
    rw [h4]
    exact aboveOne_narrow r 51 (le_refl _) fuel

end f64
end AQ

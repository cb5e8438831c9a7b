/-
Properties C87 and C88: the t-digest in floating point, where every operation rounds.
-/
import Verif.Model.ScaleK0
import Verif.Proofs.F64Roomy
import Verif.Proofs.TDRoundQuery

set_option linter.unusedSectionVars false
set_option linter.unusedVariables false

namespace AQ
open Prog Spec
variable {K : Type} [Field K] [LinearOrder K] [IsStrictOrderedRing K] [FloatFmt K]

/-- C87. In any monotone rounding arithmetic with room for `N` items between `A` and `B`: a history supplying integer weights of at
most `N` in total, with means between `A` and `B`, never panics, for any scale functions and any sorting algorithm. The total weight
is exact, all centroids have means between `A` and `B` and positive integer weights, there is none only if nothing was supplied, and
`min` and `max` enclose everything supplied without leaving `A`, `B`. -/
theorem C87_insertion_safe [FloatFmt.Mono K] {N : Nat} {A B : K} (R : Roomy N A B) (s i : ScaleFn K) (cf : Fl K)
    (ops : List (TDigest.TOp K)) (hs : ∀ c ∈ TDigest.supplied ops, Within A B c) (hN : totalW (TDigest.supplied ops) ≤ N) :
    Always ((TDigest.new s i cf).execOps ops) (fun d =>
      d.totalWeight = .fin (totalW (TDigest.supplied ops)) ∧
      (∀ c ∈ d.centroids, Within A B c) ∧
      (d.centroids = [] ↔ TDigest.supplied ops = []) ∧
      (∀ c ∈ TDigest.supplied ops, .fin A ≤ d.min ∧ d.min ≤ c.mean ∧ c.mean ≤ d.max ∧ d.max ≤ .fin B)) := by
  refine (TDigest.execOps_rinv R ops _ [] (TDigest.new_rinv A B s i cf) (by simp) hs (by simpa using hN)).mono ?_
  intro d h
  simp only [List.nil_append] at h
  refine ⟨?_, h.within, h.empty, ?_⟩
  · rw [← h.weight]
    exact TDigest.weightSum_roomy R h.within (by rw [h.weight]; exact hN)
  · intro c hc
    have hne : TDigest.supplied ops ≠ [] := List.ne_nil_of_mem hc
    obtain ⟨⟨x, hx, hx1, -⟩, ⟨y, hy, hy1, -⟩⟩ := h.range
    have := h.limits c hc
    refine ⟨?_, this.1, this.2, ?_⟩
    · rw [hx]; exact Fl.fin_le_fin.2 (hx1 hne).1
    · rw [hy]; exact Fl.fin_le_fin.2 (hy1 hne).2

/-- C87. In the same arithmetic `count` is exact for plain items. -/
theorem C87_count [FloorRing K] [FloatFmt.Mono K] {N : Nat} {A B : K} (R : Roomy N A B) (h64 : N < 2 ^ 64) (s i : ScaleFn K)
    (cf : Fl K) (ops : List (TDigest.TOp K)) (hs : ∀ c ∈ TDigest.supplied ops, Within A B c)
    (hu : ∀ c ∈ TDigest.supplied ops, c.weight = .fin 1) (hN : (TDigest.supplied ops).length ≤ N) :
    Always ((TDigest.new s i cf).execOps ops) (fun d => d.count = .ret (TDigest.supplied ops).length) := by
  have hw : ∀ l : List (Centroid K), (∀ c ∈ l, c.weight = .fin 1) → totalW l = (l.length : K) := by
    intro l
    induction l with
    | nil => simp
    | cons a l ih =>
      intro h
      rw [totalW_cons, ih (fun c hc => h c (by simp [hc])), h a (by simp)]
      simp [Fl.toK, add_comm]
  refine (C87_insertion_safe R s i cf ops hs (by rw [hw _ hu]; exact_mod_cast hN)).mono ?_
  rintro d ⟨h, -⟩
  unfold TDigest.count
  rw [h, hw _ hu, TDigest.toUsize_nat (by omega)]
  rfl

/-- C88. In the same arithmetic every quantile query on a non-empty digest answers with a number between 0 and 1, without panic,
for every value except NaN. -/
theorem C88_quantile_is_probability [FloatFmt.Mono K] {N : Nat} {A B : K} (R : Roomy N A B) (s i : ScaleFn K) (cf : Fl K)
    (ops : List (TDigest.TOp K)) (hs : ∀ c ∈ TDigest.supplied ops, Within A B c) (hN : totalW (TDigest.supplied ops) ≤ N)
    (hne : TDigest.supplied ops ≠ []) :
    Always ((TDigest.new s i cf).execOps ops) (fun d => ∀ v : Fl K, v ≠ .nan →
      Always (d.estQuantileAtValue v) (fun r => ∃ p : K, r = .fin p ∧ 0 ≤ p ∧ p ≤ 1)) := by
  refine (TDigest.execOps_rinv R ops _ [] (TDigest.new_rinv A B s i cf) (by simp) hs (by simpa using hN)).mono ?_
  intro d h v hv
  simp only [List.nil_append] at h
  obtain ⟨⟨x, hx, hx1, -⟩, ⟨y, hy, hy1, -⟩⟩ := h.range
  exact TDigest.quantile_roomy R h.within (fun e => hne (h.empty.1 e)) (by rw [h.weight]; exact hN) hx hy (hx1 hne) (hy1 hne) hv

/-- C88. In the same arithmetic the answer is 0 below everything supplied down to `min`, 1 above `max`. -/
theorem C88_quantile_outside [FloatFmt.Mono K] {N : Nat} {A B : K} (R : Roomy N A B) (s i : ScaleFn K) (cf : Fl K)
    (ops : List (TDigest.TOp K)) (hs : ∀ c ∈ TDigest.supplied ops, Within A B c) (hN : totalW (TDigest.supplied ops) ≤ N)
    (hne : TDigest.supplied ops ≠ []) :
    Always ((TDigest.new s i cf).execOps ops) (fun d => ∀ v : Fl K, v ≠ .nan →
      (v < d.min → d.estQuantileAtValue v = .ret (.fin 0)) ∧ (d.max < v → d.estQuantileAtValue v = .ret (.fin 1))) := by
  refine (TDigest.execOps_rinv R ops _ [] (TDigest.new_rinv A B s i cf) (by simp) hs (by simpa using hN)).mono ?_
  intro d h v hv
  simp only [List.nil_append] at h
  obtain ⟨⟨x, hx, -, -⟩, ⟨y, hy, -, -⟩⟩ := h.range
  have hmm : d.min ≤ d.max := by
    obtain ⟨c, hc⟩ := List.exists_mem_of_ne_nil _ hne
    exact (h.limits c hc).1.trans (h.limits c hc).2
  have n1 : d.min ≠ .nan := by rw [hx]; simp
  have n2 : d.max ≠ .nan := by rw [hy]; simp
  have hcn : d.centroids ≠ [] := fun e => hne (h.empty.1 e)
  refine ⟨fun hlt => ?_, fun hlt => ?_⟩
  · have e1 : Fl.lt v d.min = true := by rw [Fl.lt_eq hv n1]; simpa using hlt
    unfold TDigest.estQuantileAtValue
    split
    · exact absurd ‹_› hcn
    · simp only [e1, if_true, lit_zero]
    · simp only [e1, if_true, lit_zero]
  · have e1 : Fl.lt v d.min = false := by rw [Fl.lt_eq hv n1]; simpa using hmm.trans hlt.le
    have e2 : Fl.lt d.max v = true := by rw [Fl.lt_eq n2 hv]; simpa using hlt
    unfold TDigest.estQuantileAtValue
    split
    · exact absurd ‹_› hcn
    · simp only [e1, e2, Bool.false_eq_true, if_false, if_true, TDigest.lit_one]
    · simp only [e1, e2, Bool.false_eq_true, if_false, if_true, TDigest.lit_one]

/-- C88. In the same arithmetic the extreme quantiles are the recorded `min` and `max`. -/
theorem C88_extreme_quantiles [FloorRing K] [FloatFmt.Mono K] {N : Nat} {A B : K} (R : Roomy N A B)
    (s i : ScaleFn K) (cf : Fl K) (ops : List (TDigest.TOp K)) (hs : ∀ c ∈ TDigest.supplied ops, Within A B c)
    (hN : totalW (TDigest.supplied ops) ≤ N) (hne : TDigest.supplied ops ≠ []) :
    Always ((TDigest.new s i cf).execOps ops) (fun d =>
      d.estValueAtQuantile (.fin 0) = .ret d.min ∧ d.estValueAtQuantile (.fin 1) = .ret d.max) := by
  refine (TDigest.execOps_rinv R ops _ [] (TDigest.new_rinv A B s i cf) (by simp) hs (by simpa using hN)).mono ?_
  intro d h
  simp only [List.nil_append] at h
  exact TDigest.value_ends R h.within (fun e => hne (h.empty.1 e)) (by rw [h.weight]; exact hN)

/-- C88. In the same arithmetic every value query on a non-empty digest returns for every `q` except NaN. -/
theorem C88_value_never_panics [FloorRing K] [FloatFmt.Mono K] {N : Nat} {A B : K} (R : Roomy N A B) (h64 : N < 2 ^ 64)
    (s i : ScaleFn K) (cf : Fl K) (ops : List (TDigest.TOp K)) (hs : ∀ c ∈ TDigest.supplied ops, Within A B c)
    (hN : totalW (TDigest.supplied ops) ≤ N) (hne : TDigest.supplied ops ≠ []) :
    Always ((TDigest.new s i cf).execOps ops) (fun d => ∀ q : Fl K, q ≠ .nan →
      Always (d.estValueAtQuantile q) (fun _ => True)) := by
  refine (TDigest.execOps_rinv R ops _ [] (TDigest.new_rinv A B s i cf) (by simp) hs (by simpa using hN)).mono ?_
  intro d h q hq
  simp only [List.nil_append] at h
  exact TDigest.value_roomy R h.within (fun e => hne (h.empty.1 e)) (by rw [h.weight]; exact hN) h64 hq

/-- C88. A value query for NaN panics, on every non-empty digest. -/
theorem C88_value_nan_panics [FloorRing K] [FloatFmt.Mono K] {N : Nat} {A B : K} (R : Roomy N A B) (h64 : N < 2 ^ 64)
    (s i : ScaleFn K) (cf : Fl K) (ops : List (TDigest.TOp K)) (hs : ∀ c ∈ TDigest.supplied ops, Within A B c)
    (hN : totalW (TDigest.supplied ops) ≤ N) (hne : TDigest.supplied ops ≠ []) :
    Always ((TDigest.new s i cf).execOps ops) (fun d => Panics (d.estValueAtQuantile .nan)) := by
  refine (TDigest.execOps_rinv R ops _ [] (TDigest.new_rinv A B s i cf) (by simp) hs (by simpa using hN)).mono ?_
  intro d h
  simp only [List.nil_append] at h
  exact TDigest.value_nan R h.within (fun e => hne (h.empty.1 e)) (by rw [h.weight]; exact hN) h64

section doubles
attribute [local instance] f64Fmt f64_mono

/-- C87 for `f64`: up to `2^52` doubles of magnitude at most `2^970`, inserted in any way. -/
theorem C87_f64 (s i : ScaleFn ℚ) (cf : Fl ℚ) (ops : List (TDigest.TOp ℚ))
    (hs : ∀ c ∈ TDigest.supplied ops, ∃ x : ℚ, c = ⟨.fin x, .fin 1⟩ ∧ |x| ≤ 2 ^ 970)
    (hN : (TDigest.supplied ops).length ≤ 2 ^ 52) :
    Always ((TDigest.new s i cf).execOps ops) (fun d =>
      d.count = .ret (TDigest.supplied ops).length ∧
      (∀ c ∈ d.centroids, ∃ m : ℚ, c.mean = .fin m ∧ |m| ≤ 2 ^ 970) ∧
      (∀ c ∈ TDigest.supplied ops, d.min ≤ c.mean ∧ c.mean ≤ d.max)) := by
  have hw := TDigest.within_of_unit hs
  have h1 := C87_count (f64_roomy (e := 970) (by norm_num) le_rfl) (by norm_num) s i cf ops hw.1
    (fun c hc => by obtain ⟨x, rfl, -⟩ := hs c hc; rfl) hN
  have h2 := C87_insertion_safe (f64_roomy (e := 970) (by norm_num) le_rfl) s i cf ops hw.1
    (by rw [hw.2]; exact_mod_cast hN)
  refine (h1.and h2.partially).mono ?_
  rintro d ⟨e1, -, e2, -, e3⟩
  refine ⟨e1, ?_, fun c hc => ⟨(e3 c hc).2.1, (e3 c hc).2.2.1⟩⟩
  intro c hc
  obtain ⟨m, w, hm, hA, hB, -⟩ := e2 c hc
  exact ⟨m, hm, abs_le.2 ⟨by exact_mod_cast hA, by exact_mod_cast hB⟩⟩

/-- C88 for `f64`: after such a history quantile queries answer in the unit interval and value queries return. -/
theorem C88_f64 (s i : ScaleFn ℚ) (cf : Fl ℚ) (ops : List (TDigest.TOp ℚ))
    (hs : ∀ c ∈ TDigest.supplied ops, ∃ x : ℚ, c = ⟨.fin x, .fin 1⟩ ∧ |x| ≤ 2 ^ 970)
    (hN : (TDigest.supplied ops).length ≤ 2 ^ 52) (hne : TDigest.supplied ops ≠ []) :
    Always ((TDigest.new s i cf).execOps ops) (fun d => ∀ v : Fl ℚ, v ≠ .nan →
      Always (d.estQuantileAtValue v) (fun r => ∃ p : ℚ, r = .fin p ∧ 0 ≤ p ∧ p ≤ 1) ∧
      Always (d.estValueAtQuantile v) (fun _ => True)) := by
  have hw := TDigest.within_of_unit hs
  have R := f64_roomy (e := 970) (by norm_num) le_rfl
  have h1 := C88_quantile_is_probability R s i cf ops hw.1 (by rw [hw.2]; exact_mod_cast hN) hne
  have h2 := C88_value_never_panics R (by norm_num) s i cf ops hw.1 (by rw [hw.2]; exact_mod_cast hN) hne
  refine (h1.and h2.partially).mono ?_
  intro d hd v hv
  exact ⟨hd.1 v hv, hd.2 v hv⟩

/-- The hypotheses of C87 and C88 are met by a history in which the arithmetic does round: thrice 0.1, then 0.05. -/
def dOps : List (TDigest.TOp ℚ) :=
  [.addBuffer [Ieee.double.rnd (1 / 10), Ieee.double.rnd (1 / 10), Ieee.double.rnd (1 / 10)], .add (Ieee.double.rnd (1 / 20))]

def dTenth : ℚ := 3602879701896397 / 36028797018963968
def dTwentieth : ℚ := 3602879701896397 / 72057594037927936

theorem C87_example : TDigest.supplied dOps = [⟨.fin dTenth, .fin 1⟩, ⟨.fin dTenth, .fin 1⟩, ⟨.fin dTenth, .fin 1⟩,
    ⟨.fin dTwentieth, .fin 1⟩] ∧
    (∀ c ∈ TDigest.supplied dOps, ∃ x : ℚ, c = ⟨.fin x, .fin 1⟩ ∧ |x| ≤ 2 ^ 970) ∧
    (TDigest.supplied dOps).length ≤ 2 ^ 52 ∧
    Always ((TDigest.new k0 invK0 (.fin 1) : TDigest ℚ).execOps dOps) (fun d => d.totalWeight = .fin 4 ∧ .fin dTenth < d.max) := by
  have e : TDigest.supplied dOps = [⟨.fin dTenth, .fin 1⟩, ⟨.fin dTenth, .fin 1⟩, ⟨.fin dTenth, .fin 1⟩,
    ⟨.fin dTwentieth, .fin 1⟩] := by decide +kernel
  refine ⟨e, ?_, by rw [e]; decide, by decide +kernel⟩
  have h1 : |dTenth| ≤ 2 ^ 970 := by decide +kernel
  have h2 : |dTwentieth| ≤ 2 ^ 970 := by decide +kernel
  intro c hc
  rw [e] at hc
  simp only [List.mem_cons, List.not_mem_nil, or_false] at hc
  rcases hc with rfl | rfl | rfl | rfl
  · exact ⟨_, rfl, h1⟩
  · exact ⟨_, rfl, h1⟩
  · exact ⟨_, rfl, h1⟩
  · exact ⟨_, rfl, h2⟩

/-- Without a bound on the magnitude C87 is false: the largest doubles, merged, overflow to infinity, the merge of both
infinities is NaN, and the next insertion panics. -/
theorem C87_overflow_panics :
    Panics ((TDigest.new k0 invK0 (.fin 1) : TDigest ℚ).execOps
      [.addBuffer [Fl.maxValue, Fl.maxValue], .addBuffer [Fl.minValue, Fl.minValue], .add (.fin 0)]) := by decide +kernel

/-- C31 does not carry over to `f64`: after one batch, four times 0.1, the centroids are not sorted, because the mean of the first
three is rounded up. -/
theorem C31_unsorted_with_rounding :
    Always ((TDigest.new k0 invK0 (.fin (8 / 3)) : TDigest ℚ).addBuffer (List.replicate 4 (Ieee.double.rnd (1 / 10))))
      (fun d => ∃ a b, d.centroids = [a, b] ∧ b.mean < a.mean) := by
  have h : Always ((TDigest.new k0 invK0 (.fin (8 / 3)) : TDigest ℚ).addBuffer (List.replicate 4 (Ieee.double.rnd (1 / 10))))
      (fun d => d.centroids = [⟨.fin (7205759403792795 / 72057594037927936), .fin 3⟩, ⟨.fin dTenth, .fin 1⟩]) := by
    decide +kernel
  refine h.mono ?_
  intro d hd
  exact ⟨_, _, hd, by rw [Fl.fin_lt_fin]; unfold dTenth; norm_num⟩

end doubles
end AQ

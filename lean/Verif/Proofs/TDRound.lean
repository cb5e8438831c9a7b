/-
TDigest in rounding arithmetic.
-/
import Verif.Spec.Rounding
import Verif.Spec.TDigest
import Verif.Proofs.TDMerge

set_option linter.unusedSectionVars false
set_option linter.unusedVariables false

namespace AQ
open Prog Spec
variable {K : Type} [Field K] [LinearOrder K] [IsStrictOrderedRing K] [FloatFmt K]

namespace Spec

/-- Rounding does not leave an interval with exact ends. -/
theorem rnd_between [FloatFmt.Mono K] {l x u : K} (hl : FloatFmt.rnd l = .fin l) (hu : FloatFmt.rnd u = .fin u) (h1 : l ≤ x)
    (h2 : x ≤ u) : ∃ y, FloatFmt.rnd x = .fin y ∧ l ≤ y ∧ y ≤ u := by
  have a := FloatFmt.Mono.rnd_mono l x h1
  have b := FloatFmt.Mono.rnd_mono x u h2
  rw [hl] at a
  rw [hu] at b
  cases hx : FloatFmt.rnd x with
  | nan => exact absurd hx (FloatFmt.Mono.rnd_ne_nan x)
  | ninf => rw [hx] at a; exact absurd a (Fl.fin_not_le_ninf l)
  | pinf => rw [hx] at b; exact absurd b (Fl.pinf_not_le_fin u)
  | fin y =>
    rw [hx] at a b
    exact ⟨y, rfl, Fl.fin_le_fin.1 a, Fl.fin_le_fin.1 b⟩

theorem ExactCounts.rnd_nat {N : Nat} (h : ExactCounts K N) {m : Nat} (hm : m ≤ N) : FloatFmt.rnd (m : K) = .fin (m : K) := by
  have := h (2 * m) (by omega)
  have e : ((2 * m : ℕ) : K) / 2 = m := by push_cast; field_simp
  rwa [e] at this

theorem Within.mean_ne_nan {A B : K} {c : Centroid K} (h : Within A B c) : c.mean ≠ .nan := by
  obtain ⟨m, w, h, -⟩ := h; rw [h]; simp

theorem Within.nat {A B : K} {c : Centroid K} (h : Within A B c) : ∃ w : Nat, c.weight = .fin (w : K) ∧ 1 ≤ w := by
  obtain ⟨m, w, -, -, -, h⟩ := h; exact ⟨w, h⟩

/-- Total weights are natural numbers. -/
theorem totalW_nat {A B : K} : ∀ {l : List (Centroid K)}, (∀ c ∈ l, Within A B c) → ∃ n : Nat, totalW l = (n : K) ∧ l.length ≤ n
  | [], _ => ⟨0, by simp⟩
  | c :: l, h => by
    obtain ⟨n, hn, hl⟩ := totalW_nat (l := l) (fun d hd => h d (by simp [hd]))
    obtain ⟨w, hw, h1⟩ := (h c (by simp)).nat
    refine ⟨w + n, ?_, by simp; omega⟩
    rw [totalW_cons, hn, hw]
    simp [Fl.toK]

end Spec

namespace TDigest

theorem foldl_add64_roomy {A B : K} {N : Nat} (R : Roomy N A B) : ∀ (cs : List (Centroid K)) (a : Nat), (∀ c ∈ cs, Within A B c) →
    (a : K) + totalW cs ≤ N → (cs.map (·.weight)).foldl Fl.add64 (.fin (a : K)) = .fin ((a : K) + totalW cs)
  | [], a, _, _ => by simp
  | c :: cs, a, h, hN => by
    obtain ⟨w, hw, h1⟩ := (h c (by simp)).nat
    have hcs : ∀ d ∈ cs, Within A B d := fun d hd => h d (by simp [hd])
    obtain ⟨n, hn, -⟩ := totalW_nat hcs
    rw [totalW_cons, hw, hn] at hN
    simp only [Fl.toK] at hN
    have hN' : a + (w + n) ≤ N := by exact_mod_cast hN
    have e : Fl.add64 (.fin (a : K)) (.fin (w : K)) = .fin ((a + w : ℕ) : K) := by
      show FloatFmt.rnd64 ((a : K) + w) = _
      rw [← Nat.cast_add]
      exact R.counts64 _ (by omega)
    rw [List.map_cons, List.foldl_cons, hw, e, foldl_add64_roomy R cs _ hcs (by rw [hn]; exact_mod_cast (by omega : a + w + n ≤ N)),
      totalW_cons, hw]
    simp only [Fl.toK]
    push_cast
    rw [add_assoc]

theorem weightSum_roomy {A B : K} {N : Nat} (R : Roomy N A B) {cs : List (Centroid K)} (h : ∀ c ∈ cs, Within A B c)
    (hN : totalW cs ≤ N) : weightSum cs = .fin (totalW cs) := by
  unfold weightSum Fl.sum64
  have := foldl_add64_roomy R cs 0 h (by simpa using hN)
  rw [Nat.cast_zero, zero_add] at this
  rw [this]
  obtain ⟨n, hn, -⟩ := totalW_nat h
  rw [hn] at hN ⊢
  exact R.counts.rnd_nat (by exact_mod_cast hN)

/-- The merge loop neither leaves the range nor loses weight. -/
theorem mergeLoop_roomy [FloatFmt.Mono K] {A B : K} {N : Nat} (R : Roomy N A B) (limit : Fl K → Fl K) :
    ∀ (cs : List (Centroid K)) (w0 wl : Fl K) (mw : Nat) (ms : K), 1 ≤ mw → A * mw ≤ ms → ms ≤ B * mw →
      (∀ c ∈ cs, Within A B c) → (mw : K) + totalW cs ≤ N →
      (∀ c ∈ mergeLoop limit w0 wl (.fin (mw : K)) (.fin ms) cs, Within A B c) ∧
      totalW (mergeLoop limit w0 wl (.fin (mw : K)) (.fin ms) cs) = mw + totalW cs
  | [], w0, wl, mw, ms, h1, hA, hB, _, hN => by
    rw [totalW_nil, add_zero] at hN
    have hmw : mw ≤ N := by exact_mod_cast hN
    have hpos : (0 : K) < mw := by exact_mod_cast h1
    have eA := R.lo 1 (by omega)
    have eB := R.hi 1 (by omega)
    rw [Nat.cast_one, mul_one] at eA eB
    obtain ⟨y, hy, y1, y2⟩ := rnd_between eA eB ((le_div_iff₀ hpos).2 hA) ((div_le_iff₀ hpos).2 hB)
    have e : mergeLoop limit w0 wl (.fin (mw : K)) (.fin ms) [] = [⟨.fin y, .fin (mw : K)⟩] := by
      unfold mergeLoop
      rw [Fl.div_fin_of_ne _ hpos.ne', hy]
    rw [e]
    refine ⟨?_, by simp [Fl.toK]⟩
    intro c hc
    simp only [List.mem_singleton] at hc
    subst hc
    exact ⟨y, mw, rfl, y1, y2, rfl, h1⟩
  | c :: cs, w0, wl, mw, ms, h1, hA, hB, hcs, hN => by
    have hcs' : ∀ d ∈ cs, Within A B d := fun d hd => hcs d (by simp [hd])
    obtain ⟨m, w, hm, m1, m2, hw, w1⟩ := hcs c (by simp)
    obtain ⟨n, hn, -⟩ := totalW_nat hcs'
    have hcw : c.weight.toK = (w : K) := by rw [hw]; rfl
    rw [totalW_cons, hcw, hn] at hN
    have hN' : mw + (w + n) ≤ N := by exact_mod_cast hN
    have hpos : (0 : K) < mw := by exact_mod_cast h1
    have hwpos : (0 : K) ≤ w := by positivity
    have eW : (.fin (mw : K) : Fl K) + .fin (w : K) = .fin ((mw + w : ℕ) : K) := by
      rw [Fl.add_fin, ← Nat.cast_add]
      exact R.counts.rnd_nat (by omega)
    obtain ⟨p, hp, p1, p2⟩ := rnd_between (x := m * w) (R.lo w (by omega)) (R.hi w (by omega))
      (mul_le_mul_of_nonneg_right m1 hwpos) (mul_le_mul_of_nonneg_right m2 hwpos)
    have eP : c.mean * c.weight = .fin p := by rw [hm, hw, Fl.mul_fin, hp]
    unfold mergeLoop
    simp only []
    rw [eP, hw, eW]
    split
    · obtain ⟨s, hs, s1, s2⟩ := rnd_between (x := ms + p) (R.lo (mw + w) (by omega)) (R.hi (mw + w) (by omega))
        (by push_cast; linarith) (by push_cast; linarith)
      rw [Fl.add_fin, hs]
      obtain ⟨r1, r2⟩ := mergeLoop_roomy R limit cs w0 wl (mw + w) s (by omega) s1 s2 hcs'
        (by rw [hn]; exact_mod_cast (by omega : mw + w + n ≤ N))
      refine ⟨r1, ?_⟩
      rw [r2, totalW_cons, hcw]
      push_cast
      rw [add_assoc]
    · have eA := R.lo 1 (by omega)
      have eB := R.hi 1 (by omega)
      rw [Nat.cast_one, mul_one] at eA eB
      obtain ⟨y, hy, y1, y2⟩ := rnd_between eA eB ((le_div_iff₀ hpos).2 hA) ((div_le_iff₀ hpos).2 hB)
      rw [Fl.div_fin_of_ne _ hpos.ne', hy]
      obtain ⟨r1, r2⟩ := mergeLoop_roomy R limit cs (w0 + .fin (mw : K)) (limit (w0 + .fin (mw : K)) - (w0 + .fin (mw : K))) w p w1 p1 p2 hcs'
        (by rw [hn]; exact_mod_cast (by omega : w + n ≤ N))
      refine ⟨?_, ?_⟩
      · intro d hd
        rcases List.mem_cons.1 hd with rfl | hd
        · exact ⟨y, mw, rfl, y1, y2, rfl, h1⟩
        · exact r1 d hd
      · rw [totalW_cons, r2, totalW_cons, hcw]
        simp only [Fl.toK]

/-- What every history keeps in rounding arithmetic; `all` is everything supplied so far. -/
structure RInv (A B : K) (d : TDigest K) (all : List (Centroid K)) : Prop where
  within : ∀ c ∈ d.centroids, Within A B c
  weight : totalW d.centroids = totalW all
  empty : d.centroids = [] ↔ all = []
  limits : ∀ c ∈ all, d.min ≤ c.mean ∧ c.mean ≤ d.max
  range : (∃ x, d.min = .fin x ∧ (all ≠ [] → A ≤ x ∧ x ≤ B) ∧ (all = [] → x = FloatFmt.maxVal)) ∧
    (∃ x, d.max = .fin x ∧ (all ≠ [] → A ≤ x ∧ x ≤ B) ∧ (all = [] → x = -FloatFmt.maxVal))

theorem new_rinv (A B : K) (s i : ScaleFn K) (cf : Fl K) : RInv A B (TDigest.new s i cf) [] where
  within := by simp [new]
  weight := rfl
  empty := by simp [new]
  limits := by simp
  range := ⟨⟨_, rfl, by simp, by simp⟩, ⟨_, rfl, by simp, by simp⟩⟩

theorem addCentroidBuffer_rinv [FloatFmt.Mono K] {A B : K} {N : Nat} (R : Roomy N A B) {d : TDigest K} {all : List (Centroid K)}
    (h : RInv A B d all) (hall : ∀ c ∈ all, Within A B c) (b : List (Centroid K)) (hb : ∀ c ∈ b, Within A B c)
    (hN : totalW (all ++ b) ≤ N) : Always (d.addCentroidBuffer b) (fun d' => RInv A B d' (all ++ b)) := by
  have hg : ∀ c ∈ b ++ d.centroids, Within A B c := by
    intro c hc
    rcases List.mem_append.1 hc with hc | hc
    · exact hb c hc
    · exact h.within c hc
  unfold addCentroidBuffer
  rw [always_bind]
  refine (sortUnstable_spec Centroid.mean _ (fun c hc => (hg c hc).mean_ne_nan)).mono ?_
  rintro l ⟨h1, h2⟩
  have hW : totalW l = totalW (all ++ b) := by
    rw [totalW_perm h1, totalW_append, totalW_append, h.weight, add_comm]
  cases l with
  | nil =>
    have e := h1.nil_eq
    obtain ⟨e1, e2⟩ := List.append_eq_nil_iff.1 e.symm
    subst e1
    rw [List.append_nil]
    exact h
  | cons c cs =>
    have hl : ∀ a ∈ c :: cs, Within A B a := fun a ha => hg a (h1.mem_iff.1 ha)
    obtain ⟨m, w, hm, m1, m2, hw, w1⟩ := hl c (by simp)
    have hcs : ∀ a ∈ cs, Within A B a := fun a ha => hl a (by simp [ha])
    obtain ⟨n, hn, -⟩ := totalW_nat hcs
    have hcw : c.weight.toK = (w : K) := by rw [hw]; rfl
    have hN2 : (w : K) + totalW cs ≤ N := by
      rw [← hcw, ← totalW_cons, hW]; exact hN
    have hN' : w + n ≤ N := by rw [hn] at hN2; exact_mod_cast hN2
    have hwpos : (0 : K) ≤ w := by positivity
    obtain ⟨p, hp, p1, p2⟩ := rnd_between (x := m * w) (R.lo w (by omega)) (R.hi w (by omega))
      (mul_le_mul_of_nonneg_right m1 hwpos) (mul_le_mul_of_nonneg_right m2 hwpos)
    have eP : c.mean * c.weight = .fin p := by rw [hm, hw, Fl.mul_fin, hp]
    obtain ⟨r1, r2⟩ := mergeLoop_roomy R (d.wLimit (weightSum (c :: cs))) cs (Fl.lit 0) (d.wLimit (weightSum (c :: cs)) (Fl.lit 0))
      w p w1 p1 p2 hcs hN2
    have hne : b ++ d.centroids ≠ [] := by
      intro e; rw [e] at h1; exact absurd h1.symm.nil_eq (by simp)
    have hne2 : all ++ b ≠ [] := by
      intro e
      obtain ⟨e1, e2⟩ := List.append_eq_nil_iff.1 e
      exact hne (by rw [e2, h.empty.2 e1]; rfl)
    obtain ⟨hl1, hl2⟩ := List.pairwise_cons.1 h2
    have hfirst : ∀ a ∈ c :: cs, c.mean ≤ a.mean := by
      intro a ha
      rcases List.mem_cons.1 ha with rfl | ha
      · exact le_rfl
      · exact hl1 a ha
    have hlast : ∀ a ∈ c :: cs, a.mean ≤ ((c :: cs).getLast (by simp)).mean := by
      intro a ha
      have := List.pairwise_iff_getElem.1 h2
      obtain ⟨i, hi, rfl⟩ := List.getElem_of_mem ha
      rw [List.getLast_eq_getElem]
      rcases Nat.lt_or_ge i ((c :: cs).length - 1) with h3 | h3
      · exact this i _ hi (by simp) h3
      · have : i = (c :: cs).length - 1 := by omega
        subst this
        exact le_rfl
    obtain ⟨M, Wl, hM, M1, M2, -, -⟩ := hl _ (List.getLast_mem (l := c :: cs) (by simp))
    obtain ⟨⟨mn, hmn, mn1, mn2⟩, ⟨mx, hmx, mx1, mx2⟩⟩ := h.range
    have emin : (d.mergeSorted (c :: cs)).min = .fin (Min.min mn m) := by
      show Fl.fmin d.min c.mean = _
      rw [hmn, hm, Fl.fmin_fin]
    have emax : (d.mergeSorted (c :: cs)).max = .fin (Max.max mx M) := by
      show Fl.fmax d.max _ = _
      rw [hmx, hM, Fl.fmax_fin]
    have ecs : (d.mergeSorted (c :: cs)).centroids = mergeLoop (d.wLimit (weightSum (c :: cs))) (Fl.lit 0)
        (d.wLimit (weightSum (c :: cs)) (Fl.lit 0)) (.fin (w : K)) (.fin p) cs := by
      show mergeLoop _ _ _ c.weight (c.mean * c.weight) cs = _
      rw [eP, hw]
    show RInv A B (d.mergeSorted (c :: cs)) (all ++ b)
    refine ⟨?_, ?_, ?_, ?_, ?_⟩
    · rw [ecs]; exact r1
    · rw [ecs, r2, ← hcw, ← totalW_cons, hW]
    · refine iff_of_false ?_ hne2
      rw [ecs]
      intro e
      rw [e, totalW_nil, hn] at r2
      have : ((0 : ℕ) : K) = ((w + n : ℕ) : K) := by push_cast; exact r2
      have := Nat.cast_injective this
      omega
    · intro a ha
      rw [emin, emax]
      rcases List.mem_append.1 ha with ha | ha
      · obtain ⟨a1, a2⟩ := h.limits a ha
        rw [hmn] at a1
        rw [hmx] at a2
        exact ⟨le_trans (Fl.fin_le_fin.2 (min_le_left _ _)) a1, le_trans a2 (Fl.fin_le_fin.2 (le_max_left _ _))⟩
      · have ha' : a ∈ c :: cs := h1.mem_iff.2 (by simp [ha])
        have a1 := hfirst a ha'
        have a2 := hlast a ha'
        rw [hm] at a1
        rw [hM] at a2
        exact ⟨le_trans (Fl.fin_le_fin.2 (min_le_right _ _)) a1, le_trans a2 (Fl.fin_le_fin.2 (le_max_right _ _))⟩
    · refine ⟨⟨_, emin, fun _ => ?_, fun e => absurd e hne2⟩, ⟨_, emax, fun _ => ?_, fun e => absurd e hne2⟩⟩
      · refine ⟨le_min ?_ m1, (min_le_right _ _).trans m2⟩
        by_cases he : all = []
        · rw [mn2 he]; exact R.range.2.1.trans R.range.2.2
        · exact (mn1 he).1
      · refine ⟨M1.trans (le_max_right _ _), max_le ?_ M2⟩
        by_cases he : all = []
        · rw [mx2 he]; exact R.range.1.trans R.range.2.1
        · exact (mx1 he).2

theorem lit_one [FloatFmt.Mono K] : (Fl.lit 1 : Fl K) = .fin 1 := FloatFmt.Mono.rnd_one

theorem TOp.exec_eq [FloatFmt.Mono K] (d : TDigest K) (o : TOp K) : o.exec d = d.addCentroidBuffer o.supplied := by
  cases o with
  | add x =>
    show d.addCentroidBuffer [unit x] = _
    rw [unit, lit_one]; rfl
  | addBuffer xs =>
    have : (unit : Fl K → Centroid K) = fun x => ⟨x, .fin 1⟩ := by funext x; simp [unit, lit_one]
    show d.addCentroidBuffer (xs.map unit) = _
    rw [this]; rfl
  | addCentroids cs => rfl

theorem execOps_rinv [FloatFmt.Mono K] {A B : K} {N : Nat} (R : Roomy N A B) : ∀ (ops : List (TOp K)) (d : TDigest K)
    (all : List (Centroid K)), RInv A B d all → (∀ c ∈ all, Within A B c) → (∀ c ∈ supplied ops, Within A B c) →
    totalW (all ++ supplied ops) ≤ N → Always (d.execOps ops) (fun d' => RInv A B d' (all ++ supplied ops))
  | [], d, all, h, _, _, _ => by
    simp only [execOps, supplied, List.flatMap_nil, List.append_nil]
    exact h
  | o :: os, d, all, h, hall, hs, hN => by
    have e : supplied (o :: os) = o.supplied ++ supplied os := by simp [supplied]
    rw [e, ← List.append_assoc] at hN ⊢
    rw [e] at hs
    have ho : ∀ c ∈ o.supplied, Within A B c := fun c hc => hs c (by simp [hc])
    have hos : ∀ c ∈ supplied os, Within A B c := fun c hc => hs c (by simp [hc])
    have h1 : totalW (all ++ o.supplied) ≤ N := by
      refine le_trans ?_ hN
      rw [totalW_append _ (supplied os)]
      obtain ⟨n, hn, -⟩ := totalW_nat hos
      rw [hn]
      have : (0 : K) ≤ n := by positivity
      linarith
    unfold execOps
    rw [always_bind, TOp.exec_eq]
    refine (addCentroidBuffer_rinv R h hall _ ho h1).mono ?_
    intro d' h'
    refine execOps_rinv R os d' _ h' ?_ hos hN
    intro c hc
    rcases List.mem_append.1 hc with hc | hc
    · exact hall c hc
    · exact ho c hc

end TDigest
end AQ

/-
TDigests in which no two items have been merged, in rounding arithmetic.
-/
import Verif.Proofs.TDRound
import Verif.Proofs.TDRoundQuery
import Verif.Proofs.TDExact
import Verif.Proofs.Linear

set_option linter.unusedSectionVars false
set_option linter.unusedVariables false

namespace AQ
open Prog Spec
variable {K : Type} [Field K] [LinearOrder K] [IsStrictOrderedRing K] [FloatFmt K]

namespace TDigest

/-- The centroid of one item. -/
def one (x : K) : Centroid K := ⟨.fin x, .fin 1⟩

theorem mergeLoop_length (limit : Fl K → Fl K) : ∀ (cs : List (Centroid K)) (w0 wl mw ms : Fl K),
    (mergeLoop limit w0 wl mw ms cs).length ≤ cs.length + 1
  | [], w0, wl, mw, ms => by simp [mergeLoop]
  | c :: cs, w0, wl, mw, ms => by
    unfold mergeLoop
    simp only
    split
    · have := mergeLoop_length limit cs w0 wl (mw + c.weight) (ms + c.mean * c.weight)
      simp only [List.length_cons]; omega
    · simp only [List.length_cons]
      exact Nat.add_le_add_right (mergeLoop_length limit cs _ _ _ _) 1

/-- A merge that leaves as many centroids as there were items leaves the items. -/
theorem mergeLoop_plain (limit : Fl K → Fl K) : ∀ (l : List K) (x : K) (w0 wl : Fl K),
    (∀ y ∈ x :: l, FloatFmt.rnd y = .fin y) → (mergeLoop limit w0 wl (.fin 1) (.fin x) (l.map one)).length = l.length + 1 →
    mergeLoop limit w0 wl (.fin 1) (.fin x) (l.map one) = one x :: l.map one
  | [], x, w0, wl, h, hl => by
    simp only [mergeLoop, List.map_nil, one]
    rw [Fl.div_fin_of_ne _ one_ne_zero, div_one, h x (by simp)]
  | y :: l, x, w0, wl, h, hl => by
    rw [List.map_cons] at hl ⊢
    unfold mergeLoop at hl ⊢
    simp only at hl ⊢
    split at hl
    · exfalso
      have := mergeLoop_length limit (l.map one) w0 wl (.fin 1 + (one y).weight) (.fin x + (one y).mean * (one y).weight)
      simp only [List.length_map, List.length_cons] at this hl
      omega
    · next hle =>
      rw [if_neg hle]
      have e : (one y).mean * (one y).weight = (.fin y : Fl K) := by
        show (.fin y : Fl K) * .fin 1 = _
        rw [Fl.mul_fin, mul_one, h y (by simp)]
      have e1 : (one y).weight = (.fin 1 : Fl K) := rfl
      rw [e, e1] at hl ⊢
      simp only [List.length_cons, Nat.add_right_cancel_iff] at hl
      rw [mergeLoop_plain limit l y _ _ (fun z hz => h z (by simp at hz ⊢; tauto)) hl]
      congr 1
      rw [Fl.div_fin_of_ne _ one_ne_zero, div_one, h x (by simp)]
      rfl

/-- Either two items have been merged, or the digest holds the items and their limits. -/
def Plain (d : TDigest K) (xs : List K) : Prop :=
  d.centroids.length ≤ xs.length ∧ (d.centroids.length = xs.length → ∃ l : List K, l.Perm xs ∧ l.Pairwise (· ≤ ·) ∧ d.centroids = l.map one ∧
    d.min = l.head?.elim Fl.maxValue .fin ∧ d.max = l.getLast?.elim Fl.minValue .fin)

theorem new_plain (s i : ScaleFn K) (cf : Fl K) : Plain (TDigest.new s i cf) [] :=
  ⟨by simp [new], fun _ => ⟨[], List.Perm.refl _, List.Pairwise.nil, rfl, rfl, rfl⟩⟩

theorem units_of_perm {S : List (Centroid K)} {l : List K} (h : S.Perm (l.map one)) :
    S = (S.map (fun c => c.mean.toK)).map one ∧ (S.map (fun c => c.mean.toK)).Perm l := by
  constructor
  · rw [List.map_map]
    refine (List.map_id S).symm.trans (List.map_congr_left ?_)
    intro c hc
    obtain ⟨x, hx, rfl⟩ := List.mem_map.1 (h.mem_iff.1 hc)
    rfl
  · have := h.map (fun c => c.mean.toK)
    rw [List.map_map] at this
    refine this.trans (List.Perm.of_eq ?_)
    refine Eq.trans (List.map_congr_left ?_) (List.map_id l)
    intro x _
    rfl

theorem addCentroidBuffer_plain {d : TDigest K} {xs ys : List K} (h : Plain d xs)
    (hr : ∀ x ∈ xs ++ ys, FloatFmt.rnd x = .fin x ∧ -FloatFmt.maxVal ≤ x ∧ x ≤ FloatFmt.maxVal) :
    Partially (d.addCentroidBuffer (ys.map one)) (fun d' => Plain d' (xs ++ ys)) := by
  obtain ⟨h1, h2⟩ := h
  unfold addCentroidBuffer
  rw [partially_bind]
  refine (sortUnstable_partially Centroid.mean (ys.map one ++ d.centroids)).mono ?_
  rintro S ⟨hp, hs⟩
  have hlen : S.length = ys.length + d.centroids.length := by rw [hp.length_eq, List.length_append, List.length_map]
  show Plain (d.mergeSorted S) (xs ++ ys)
  cases S with
  | nil =>
    simp only [List.length_nil] at hlen
    have hy : ys = [] := List.length_eq_zero_iff.1 (by omega)
    subst hy
    rw [List.append_nil]
    exact ⟨h1, h2⟩
  | cons c cs =>
    have hle : (d.mergeSorted (c :: cs)).centroids.length ≤ (c :: cs).length := mergeLoop_length _ _ _ _ _ _
    refine ⟨by rw [List.length_append]; omega, ?_⟩
    intro heq
    rw [List.length_append] at heq
    obtain ⟨l, p1, p2, p3, p4, p5⟩ := h2 (by omega)
    rw [p3, ← List.map_append] at hp
    obtain ⟨e1, q1⟩ := units_of_perm hp
    generalize hL : (c :: cs).map (fun c => c.mean.toK) = L at e1 q1
    cases L with
    | nil => simp at hL
    | cons x L =>
      rw [List.map_cons, List.cons.injEq] at e1
      obtain ⟨rfl, rfl⟩ := e1
      have qall : (x :: L).Perm (xs ++ ys) := q1.trans (List.perm_append_comm.trans (p1.append_right ys))
      have hrep : ∀ y ∈ x :: L, FloatFmt.rnd y = .fin y ∧ -FloatFmt.maxVal ≤ y ∧ y ≤ FloatFmt.maxVal := fun y hy => hr y (qall.mem_iff.1 hy)
      have hsort : (x :: L).Pairwise (· ≤ ·) := by
        rw [← List.map_cons, List.pairwise_map] at hs
        exact hs.imp (fun h => Fl.fin_le_fin.1 h)
      have hcl : (d.mergeSorted (one x :: L.map one)).centroids = (x :: L).map one := by
        have e : (one x).mean * (one x).weight = (.fin x : Fl K) := by
          show (.fin x : Fl K) * .fin 1 = _
          rw [Fl.mul_fin, mul_one, (hrep x (by simp)).1]
        have hh : (d.mergeSorted (one x :: L.map one)).centroids.length = L.length + 1 := by
          rw [heq, ← List.length_append, ← qall.length_eq]; rfl
        show mergeLoop _ _ _ (one x).weight ((one x).mean * (one x).weight) (L.map one) = _
        change (mergeLoop _ _ _ (one x).weight ((one x).mean * (one x).weight) (L.map one)).length = _ at hh
        rw [e] at hh ⊢
        exact mergeLoop_plain _ L x _ _ (fun y hy => (hrep y hy).1) hh
      refine ⟨x :: L, qall, hsort, hcl, ?_, ?_⟩
      · show Fl.fmin d.min (.fin x) = .fin x
        rw [p4]
        cases l with
        | nil =>
          show Fl.fmin (.fin FloatFmt.maxVal) (.fin x) = _
          rw [Fl.fmin_fin, min_eq_right (hrep x (by simp)).2.2]
        | cons y l =>
          show Fl.fmin (.fin y) (.fin x) = _
          rw [Fl.fmin_fin, min_eq_right]
          have hy : y ∈ x :: L := q1.mem_iff.2 (by simp)
          rcases List.mem_cons.1 hy with rfl | hy
          · exact le_rfl
          · exact (List.pairwise_cons.1 hsort).1 y hy
      · show Fl.fmax d.max ((one x :: L.map one).getLast (by simp)).mean = (x :: L).getLast?.elim _ _
        have hlast : ((one x :: L.map one).getLast (by simp)).mean = .fin ((x :: L).getLast (by simp)) := by
          have : (one x :: L.map one).getLast (by simp) = one ((x :: L).getLast (by simp)) := by
            have := List.getLast_map (f := (one : K → Centroid K)) (l := x :: L) (by simp)
            simpa using this
          rw [this]; rfl
        rw [hlast, List.getLast?_eq_some_getLast (by simp), p5]
        have hm : (x :: L).getLast (by simp) ∈ x :: L := List.getLast_mem _
        cases hl : l.getLast? with
        | none =>
          show Fl.fmax (.fin (-FloatFmt.maxVal)) _ = .fin _
          rw [Fl.fmax_fin, max_eq_right (hrep _ hm).2.1]
        | some y =>
          show Fl.fmax (.fin y) _ = .fin _
          rw [Fl.fmax_fin, max_eq_right]
          have hy : y ∈ x :: L := q1.mem_iff.2 (List.mem_append_right _ (List.mem_of_getLast? hl))
          obtain ⟨i, hi, rfl⟩ := List.getElem_of_mem hy
          rw [List.getLast_eq_getElem]
          rcases (Nat.le_sub_one_of_lt hi).lt_or_eq with h3 | h3
          · exact List.pairwise_iff_getElem.1 hsort i _ hi (by simp) h3
          · exact le_of_eq (by congr 1)

theorem execOps_plain [FloatFmt.Mono K] : ∀ (ops : List (TOp K)) (d : TDigest K) (xs ys : List K), Plain d xs → supplied ops = ys.map one →
    (∀ x ∈ xs ++ ys, FloatFmt.rnd x = .fin x ∧ -FloatFmt.maxVal ≤ x ∧ x ≤ FloatFmt.maxVal) → Partially (d.execOps ops) (fun d' => Plain d' (xs ++ ys))
  | [], d, xs, ys, h, hs, hr => by
    have hy : ys = [] := by
      have : ys.map one = ([] : List (Centroid K)) := hs.symm
      simpa using this
    subst hy
    rw [List.append_nil]
    exact h
  | o :: os, d, xs, ys, h, hs, hr => by
    have e : supplied (o :: os) = o.supplied ++ supplied os := by simp [supplied]
    rw [e] at hs
    obtain ⟨y1, y2, rfl, e1, e2⟩ := List.map_eq_append_iff.1 hs.symm
    unfold execOps
    rw [partially_bind, TOp.exec_eq, ← e1]
    refine (addCentroidBuffer_plain h (fun x hx => hr x (by simp only [List.mem_append] at hx ⊢; tauto))).mono ?_
    intro d' h'
    rw [← List.append_assoc] at hr ⊢
    exact execOps_plain os d' (xs ++ y1) y2 h' e2.symm hr

/-! ### the quantile query -/

theorem midK_nil (x : K) : midK [] x = 0 := by simp [midK]

theorem equalWeight_plain [FloatFmt.Mono K] {N : Nat} (hc : ExactCounts K N) (x : K) : ∀ (l : List K) (j : Nat), l.Pairwise (· ≤ ·) →
    (∀ y ∈ l, x ≤ y) → j + l.length ≤ N → equalWeight (.fin x) (.fin (j : K)) (l.map one) = .fin ((j + l.countP (fun y => y = x) : ℕ) : K)
  | [], j, _, _, _ => by simp [equalWeight]
  | y :: l, j, hs, hx, hN => by
    rw [List.map_cons]
    unfold equalWeight
    simp only [List.length_cons] at hN
    obtain ⟨hs1, hs2⟩ := List.pairwise_cons.1 hs
    by_cases h : y = x
    · have e : Fl.feq (one y).mean (.fin x) = true := by simp [one, h]
      rw [if_pos e, show (.fin (j : K) : Fl K) + (one y).weight = .fin ((j + 1 : ℕ) : K) by
        show (.fin (j : K) : Fl K) + .fin 1 = _
        rw [Fl.add_fin, ← Nat.cast_one, ← Nat.cast_add, hc.rnd_nat (by omega)]]
      rw [equalWeight_plain hc x l (j + 1) hs2 (fun z hz => hx z (by simp [hz])) (by omega), List.countP_cons_of_pos (by simpa using h)]
      congr 2
      omega
    · have e : ¬ Fl.feq (one y).mean (.fin x) = true := by simp [one, h]
      rw [if_neg e]
      have h0 : (y :: l).countP (fun y => y = x) = 0 := by
        rw [List.countP_eq_zero]
        intro z hz
        simp only [decide_eq_true_eq]
        rintro rfl
        rcases List.mem_cons.1 hz with rfl | hz
        · exact h rfl
        · exact h (le_antisymm (hs1 z hz) (hx y (by simp)))
      rw [h0, Nat.add_zero]

theorem between_plain [FloatFmt.Mono K] {N : Nat} (hc : ExactCounts K N) {x n y z : K} {j : Nat} (hj : j + 1 ≤ N) :
    between (.fin x) (.fin (j : K)) (.fin n) (one y) (one z) = (.fin ((j + 1 : ℕ) : K) : Fl K) / .fin n := by
  unfold between
  have e1 : (Fl.lit 1 : Fl K) = .fin 1 := FloatFmt.Mono.rnd_one
  have e2 : (Fl.lit 2 : Fl K) = .fin 2 := FloatFmt.Mono.rnd_two
  have e3 : (.fin (j : K) : Fl K) + .fin 1 = .fin ((j + 1 : ℕ) : K) := by
    rw [Fl.add_fin, ← Nat.cast_one, ← Nat.cast_add, hc.rnd_nat hj]
  split
  · rw [if_pos (by simp [one, e1]), e1, e3]
  · have e4 : ((one y).weight + (one z).weight) / Fl.lit 2 = (.fin 1 : Fl K) := by
      show ((.fin 1 : Fl K) + .fin 1) / Fl.lit 2 = _
      rw [Fl.add_fin, show (1 : K) + 1 = 2 by norm_num, FloatFmt.Mono.rnd_two, e2, Fl.div_fin_of_ne _ two_ne_zero, div_self two_ne_zero,
        FloatFmt.Mono.rnd_one]
    simp only [e4, e3]

theorem quantileLoop_plain [FloatFmt.Mono K] {N : Nat} (hc : ExactCounts K N) {x : K} {n : Nat} (hn : n ≠ 0) : ∀ (l : List K) (j : Nat) (hl : l ≠ []),
    l.Pairwise (· ≤ ·) → (∀ a ∈ l.head?, a ≤ x) → x ≤ l.getLast hl → j + l.length ≤ N →
    quantileLoop (.fin x) (.fin (n : K)) (.fin (j : K)) (l.map one) = .inl (FloatFmt.rnd ((j + midK l x) / n)) ∨
    quantileLoop (.fin x) (.fin (n : K)) (.fin (j : K)) (l.map one) = .inr (.fin ((j : K) + midK l x)) ∧ x = l.getLast hl
  | [y], j, hl, hs, h1, h2, hN => by
    right
    have hy : x = y := le_antisymm h2 (h1 y (by simp))
    subst hy
    refine ⟨?_, rfl⟩
    simp [quantileLoop, midK]
  | y :: z :: l, j, hl, hs, h1, h2, hN => by
    have hn' : (n : K) ≠ 0 := Nat.cast_ne_zero.2 hn
    obtain ⟨hs1, hs2⟩ := List.pairwise_cons.1 hs
    have hyx : y ≤ x := h1 y (by simp)
    simp only [List.length_cons] at hN
    have e1 : (Fl.lit 1 : Fl K) = .fin 1 := FloatFmt.Mono.rnd_one
    have e2 : (Fl.lit 2 : Fl K) = .fin 2 := FloatFmt.Mono.rnd_two
    have e0 : (Fl.lit 0 : Fl K) = .fin ((0 : ℕ) : K) := by rw [Nat.cast_zero]; exact FloatFmt.Mono.rnd_zero
    rw [List.map_cons, List.map_cons]
    unfold quantileLoop
    by_cases h : y = x
    · subst h
      left
      rw [if_pos (by simp [one])]
      have hge : ∀ w ∈ y :: z :: l, y ≤ w := by
        intro w hw
        rcases List.mem_cons.1 hw with rfl | hw
        · exact le_rfl
        · exact hs1 w hw
      have hdw := equalWeight_plain hc y (y :: z :: l) 0 hs hge (by simp only [List.length_cons]; omega)
      rw [Nat.zero_add, List.map_cons, List.map_cons] at hdw
      have hlt : (y :: z :: l).countP (fun w => decide (w < y)) = 0 := by
        rw [List.countP_eq_zero]
        intro w hw
        simpa using hge w hw
      rw [e0, hdw]
      have hcpos : 1 ≤ (y :: z :: l).countP (fun w => decide (w = y)) := by
        rw [List.countP_cons_of_pos (by simp)]; omega
      have hcle : (y :: z :: l).countP (fun w => decide (w = y)) ≤ l.length + 2 := by
        have := List.countP_le_length (p := fun w => decide (w = y)) (l := y :: z :: l)
        simpa using this
      generalize hm : (y :: z :: l).countP (fun w => decide (w = y)) = m at *
      simp only [one, e1, e2, Fl.feq_fin]
      by_cases h2m : 2 ≤ m
      · rw [if_neg (by
          simp only [Bool.and_eq_true, decide_eq_true_eq, not_and]
          intro _ h4
          have : m = 1 := by exact_mod_cast h4
          omega)]
        congr 1
        have hmid : midK (y :: z :: l) y = (m : K) / 2 := by
          unfold midK; rw [hlt, hm, if_pos h2m]; simp
        rw [hmid, Fl.div_fin_of_ne _ two_ne_zero, hc m (by omega), Fl.add_fin,
          show (j : K) + m / 2 = ((2 * j + m : ℕ) : K) / 2 by push_cast; ring, hc _ (by omega), Fl.div_fin_of_ne _ hn']
      · have hm1 : m = 1 := by omega
        subst hm1
        rw [if_pos (by simp)]
        congr 1
        have hmid : midK (y :: z :: l) y = 0 := by
          unfold midK; rw [hlt, hm, if_neg (by omega)]; simp
        rw [hmid, add_zero, Fl.div_fin_of_ne _ hn']
    · have hlt : y < x := lt_of_le_of_ne hyx h
      rw [if_neg (by simp [one, h])]
      by_cases hxz : x < z
      · left
        rw [if_pos (by simp [one, hyx, hxz]), between_plain hc (by omega), Fl.div_fin_of_ne _ hn']
        congr 3
        have hgt : ∀ w ∈ z :: l, x < w := by
          intro w hw
          rcases List.mem_cons.1 hw with rfl | hw
          · exact hxz
          · exact hxz.trans_le ((List.pairwise_cons.1 hs2).1 w hw)
        have c1 : (y :: z :: l).countP (fun w => decide (w < x)) = 1 := by
          rw [List.countP_cons_of_pos (by simpa using hlt), List.countP_eq_zero.2 (by intro w hw; simpa using (hgt w hw).le)]
        have c2 : (y :: z :: l).countP (fun w => decide (w = x)) = 0 := by
          rw [List.countP_cons_of_neg (by simpa using h), List.countP_eq_zero.2 (by intro w hw; simpa using (hgt w hw).ne')]
        unfold midK
        rw [c1, c2]
        simp
      · rw [if_neg (by simp [one, hxz])]
        have hadd : (.fin (j : K) : Fl K) + (one y).weight = .fin ((j + 1 : ℕ) : K) := by
          show (.fin (j : K) : Fl K) + .fin 1 = _
          rw [Fl.add_fin, ← Nat.cast_one, ← Nat.cast_add, hc.rnd_nat (by omega)]
        rw [hadd]
        have hmid : midK (y :: z :: l) x = 1 + midK (z :: l) x := by
          unfold midK
          rw [List.countP_cons_of_pos (p := fun w => decide (w < x)) (by simpa using hlt),
            List.countP_cons_of_neg (p := fun w => decide (w = x)) (by simpa using h)]
          push_cast
          ring
        have ih := quantileLoop_plain hc hn (z :: l) (j + 1) (by simp) hs2 (by
          intro a ha
          simp only [List.head?_cons, Option.mem_def, Option.some.injEq] at ha
          subst ha
          exact not_lt.1 hxz) (by rwa [List.getLast_cons (by simp)] at h2) (by simp only [List.length_cons]; omega)
        rw [List.map_cons] at ih
        rw [hmid]
        rcases ih with ih | ⟨ih, hx⟩
        · left
          rw [ih]
          congr 3
          push_cast
          ring
        · right
          refine ⟨?_, by rw [List.getLast_cons (by simp)]; exact hx⟩
          rw [ih]
          congr 2
          push_cast
          ring

/-- The quantile query on a digest that holds its items. -/
theorem estQuantile_plain [FloatFmt.Mono K] {A B : K} {N : Nat} (R : Roomy N A B) {d : TDigest K} {l : List K} (hs : l.Pairwise (· ≤ ·))
    (hcs : d.centroids = l.map one) (hmin : d.min = l.head?.elim Fl.maxValue .fin) (hmax : d.max = l.getLast?.elim Fl.minValue .fin)
    (hr : ∀ x ∈ l, A ≤ x ∧ x ≤ B) (h2 : 2 ≤ l.length) (hN : l.length ≤ N) (x : K) :
    d.estQuantileAtValue (.fin x) = .ret (FloatFmt.rnd (midK l x / l.length)) := by
  have hc := R.counts
  have htot : d.totalWeight = .fin (l.length : K) := by
    have hw : ∀ c ∈ d.centroids, Within A B c := by
      intro c hcm
      rw [hcs] at hcm
      obtain ⟨y, hy, rfl⟩ := List.mem_map.1 hcm
      exact ⟨y, 1, rfl, (hr y hy).1, (hr y hy).2, by simp [one], le_rfl⟩
    have ht : totalW d.centroids = (l.length : K) := by
      rw [hcs]
      clear hs hcs hmin hmax hr h2 hN hw
      induction l with
      | nil => simp
      | cons a l ih => rw [List.map_cons, totalW_cons, ih]; simp [one, Fl.toK, add_comm]
    unfold totalWeight
    rw [weightSum_roomy R hw (by rw [ht]; exact_mod_cast hN), ht]
  have e1 : (Fl.lit 1 : Fl K) = .fin 1 := FloatFmt.Mono.rnd_one
  have e0 : (Fl.lit 0 : Fl K) = .fin ((0 : ℕ) : K) := by rw [Nat.cast_zero]; exact FloatFmt.Mono.rnd_zero
  obtain ⟨y, z, l, rfl⟩ : ∃ y z l', l = y :: z :: l' := by
    match l, h2 with
    | y :: z :: l', _ => exact ⟨y, z, l', rfl⟩
  have hn' : (((y :: z :: l).length : ℕ) : K) ≠ 0 := Nat.cast_ne_zero.2 (by simp)
  have hmin' : d.min = .fin y := hmin
  have hmax' : d.max = .fin ((y :: z :: l).getLast (by simp)) := by rw [hmax, List.getLast?_eq_some_getLast (by simp)]; rfl
  have hlast : ∀ h, ((one y :: one z :: l.map one).getLast h) = one ((y :: z :: l).getLast (by simp)) := by
    intro h
    have := List.getLast_map (f := (one : K → Centroid K)) (l := y :: z :: l) (by simp)
    simpa using this
  have hge : ∀ w ∈ y :: z :: l, y ≤ w := by
    intro w hw
    rcases List.mem_cons.1 hw with rfl | hw
    · exact le_rfl
    · exact (List.pairwise_cons.1 hs).1 w hw
  have hle : ∀ w ∈ y :: z :: l, w ≤ (y :: z :: l).getLast (by simp) := by
    intro w hw
    obtain ⟨i, hi, rfl⟩ := List.getElem_of_mem hw
    rw [List.getLast_eq_getElem]
    rcases (Nat.le_sub_one_of_lt hi).lt_or_eq with h3 | h3
    · exact List.pairwise_iff_getElem.1 hs i _ hi (by simp) h3
    · exact le_of_eq (by congr 1)
  unfold estQuantileAtValue
  rw [hcs]
  simp only [List.map_cons]
  rw [hmin', hmax', hlast]
  by_cases hx1 : x < y
  · rw [if_pos (by simpa using hx1), e0]
    have : midK (y :: z :: l) x = 0 := by
      unfold midK
      rw [List.countP_eq_zero.2 (by intro w hw; simpa using hx1.le.trans (hge w hw)),
        List.countP_eq_zero.2 (by intro w hw; simpa using (hx1.trans_le (hge w hw)).ne')]
      simp
    rw [this, zero_div, FloatFmt.Mono.rnd_zero, Nat.cast_zero]
  · rw [if_neg (by simpa using hx1)]
    by_cases hx2 : (y :: z :: l).getLast (by simp) < x
    · rw [if_pos (by simpa using hx2), e1]
      have : midK (y :: z :: l) x = ((y :: z :: l).length : K) := by
        unfold midK
        rw [List.countP_eq_length.2 (by intro w hw; simpa using (hle w hw).trans_lt hx2),
          List.countP_eq_zero.2 (by intro w hw; simpa using ((hle w hw).trans_lt hx2).ne)]
        simp
      rw [this, div_self hn', FloatFmt.Mono.rnd_one]
    · rw [if_neg (by simpa using hx2), if_neg (by simpa [one] using hx1), if_neg (by simpa [one] using hx2), htot, e0]
      have key := quantileLoop_plain hc (x := x) (n := (y :: z :: l).length) (by simp) (y :: z :: l) 0 (by simp) hs (by
        intro a ha
        simp only [List.head?_cons, Option.mem_def, Option.some.injEq] at ha
        subst ha
        exact not_lt.1 hx1) (not_lt.1 hx2) (by rw [Nat.zero_add]; exact hN)
      rw [List.map_cons, List.map_cons] at key
      rcases key with key | ⟨key, hx⟩
      · rw [key, Nat.cast_zero, zero_add]
      · rw [key]
        simp only
        rw [if_pos (by simp [one, hx]), if_pos (by simp [one, e1]), Nat.cast_zero, zero_add, Fl.div_fin_of_ne _ hn']

/-! ### the value query -/

theorem valueLoop_plain [FloatFmt.Mono K] [FloorRing K] {N : Nat} (hc : ExactCounts K N) (hd : CloseExact K N) {l : List K} {t : K} (ht : FloatFmt.rnd t = .fin t)
    (h1 : 1 ≤ t) (h2 : t ≤ (l.length : K) - 1) (hN : l.length ≤ N) : ∀ (steps i : Nat), l.length ≤ i + 1 + steps → (i : K) + 1 / 2 ≤ t →
    ∃ (v : K) (h : ⌊t⌋₊ < l.length), v = l[⌊t⌋₊] ∧ valueLoop (l.map one) (.fin t) steps i (.fin ((i : K) + 1 / 2)) = .ret (some (.fin v))
  | 0, i, hst, hi => by
    exfalso
    have : (l.length : K) ≤ i + 1 := by exact_mod_cast hst
    linarith
  | steps + 1, i, hst, hi => by
    have hil : i + 1 < l.length := by
      have : (i : K) + 1 < l.length := by linarith
      exact_mod_cast this
    have e2 : (Fl.lit 2 : Fl K) = .fin 2 := FloatFmt.Mono.rnd_two
    have e1 : (Fl.lit 1 : Fl K) = .fin 1 := FloatFmt.Mono.rnd_one
    have eh : (Fl.lit (1 / 2) : Fl K) = .fin (1 / 2) := FloatFmt.Mono.rnd_half
    unfold valueLoop
    rw [idx_eq (show i < (l.map one).length by rw [List.length_map]; omega), idx_eq (show i + 1 < (l.map one).length by rw [List.length_map]; omega)]
    simp only [bind_ret, List.getElem_map]
    have e4 : ((one l[i]).weight + (one l[i + 1]).weight) / Fl.lit 2 = (.fin 1 : Fl K) := by
      show ((.fin 1 : Fl K) + .fin 1) / Fl.lit 2 = _
      rw [Fl.add_fin, show (1 : K) + 1 = 2 by norm_num, FloatFmt.Mono.rnd_two, e2, Fl.div_fin_of_ne _ two_ne_zero, div_self two_ne_zero,
        FloatFmt.Mono.rnd_one]
    have e5 : (.fin ((i : K) + 1 / 2) : Fl K) + .fin 1 = .fin (((i + 1 : ℕ) : K) + 1 / 2) := by
      rw [Fl.add_fin, show (i : K) + 1 / 2 + 1 = ((2 * i + 3 : ℕ) : K) / 2 by push_cast; ring, hc _ (by omega)]
      congr 1
      push_cast
      ring
    rw [e4, e5, e1, eh]
    by_cases hlt : t < ((i + 1 : ℕ) : K) + 1 / 2
    · rw [if_pos (by simpa using hlt)]
      have hlt' := hlt
      push_cast at hlt'
      have e6 : (.fin t : Fl K) - .fin ((i : K) + 1 / 2) = .fin (t - ((i : K) + 1 / 2)) := by
        rw [Fl.sub_fin]
        have := (hd t (2 * i + 1) (by omega) ht h1 (by
          rw [abs_le]
          push_cast
          constructor <;> linarith)).1
        rw [show (((2 * i + 1 : ℕ) : K)) / 2 = (i : K) + 1 / 2 by push_cast; ring] at this
        exact this
      have e7 : (.fin (((i + 1 : ℕ) : K) + 1 / 2) : Fl K) - .fin t = .fin (((i + 1 : ℕ) : K) + 1 / 2 - t) := by
        rw [Fl.sub_fin]
        have := (hd t (2 * i + 3) (by omega) ht h1 (by
          rw [abs_le]
          push_cast
          constructor <;> linarith)).2
        rw [show (((2 * i + 3 : ℕ) : K)) / 2 = ((i + 1 : ℕ) : K) + 1 / 2 by push_cast; ring] at this
        exact this
      rw [e6, e7]
      by_cases h3 : t < (i : K) + 1
      · have hfl : ⌊t⌋₊ = i := (Nat.floor_eq_iff (by linarith)).2 ⟨by linarith, h3⟩
        refine ⟨l[i], by omega, by simp only [hfl], ?_⟩
        rw [if_pos (by
          simp only [one, Fl.feq_fin, Fl.lt_fin, Bool.and_eq_true, decide_eq_true_eq, true_and]
          linarith)]
        rfl
      · have hfl : ⌊t⌋₊ = i + 1 := (Nat.floor_eq_iff (by linarith)).2 ⟨by push_cast; linarith, by push_cast; linarith⟩
        refine ⟨l[i + 1], by omega, by simp only [hfl], ?_⟩
        rw [if_neg (by
          simp only [one, Fl.feq_fin, Fl.lt_fin, Bool.and_eq_true, decide_eq_true_eq, true_and]
          linarith), if_pos (by
          simp only [one, Fl.feq_fin, Fl.le_fin, Bool.and_eq_true, decide_eq_true_eq, true_and]
          push_cast
          linarith)]
        rfl
    · rw [if_neg (by simpa using hlt)]
      exact valueLoop_plain hc hd ht h1 h2 hN steps (i + 1) (by omega) (by simpa using hlt)

theorem totalWeight_plain [FloatFmt.Mono K] {A B : K} {N : Nat} (R : Roomy N A B) {d : TDigest K} {l : List K}
    (hcs : d.centroids = l.map one) (hr : ∀ x ∈ l, A ≤ x ∧ x ≤ B) (hN : l.length ≤ N) : d.totalWeight = .fin (l.length : K) := by
  have hw : ∀ c ∈ d.centroids, Within A B c := by
    intro c hcm
    rw [hcs] at hcm
    obtain ⟨y, hy, rfl⟩ := List.mem_map.1 hcm
    exact ⟨y, 1, rfl, (hr y hy).1, (hr y hy).2, by simp [one], le_rfl⟩
  have ht : totalW d.centroids = (l.length : K) := by
    rw [hcs]
    clear hcs hr hN hw
    induction l with
    | nil => simp
    | cons a l ih => rw [List.map_cons, totalW_cons, ih]; simp [one, Fl.toK, add_comm]
  unfold totalWeight
  rw [weightSum_roomy R hw (by rw [ht]; exact_mod_cast hN), ht]

/-- The value query on a digest that holds its items. -/
theorem estValue_plain [FloatFmt.Mono K] [FloorRing K] {A B : K} {N : Nat} (R : Roomy N A B) (hN64 : N < 2 ^ 64) (hd : CloseExact K N) {d : TDigest K} {l : List K}
    (hcs : d.centroids = l.map one) (hmin : d.min = l.head?.elim Fl.maxValue .fin) (hmax : d.max = l.getLast?.elim Fl.minValue .fin)
    (hr : ∀ x ∈ l, A ≤ x ∧ x ≤ B) (h0 : 0 < l.length) (hN : l.length ≤ N) {q t : K} (hq : FloatFmt.rnd ((l.length : K) * q) = .fin t)
    (ht : FloatFmt.rnd t = .fin t) :
    d.estValueAtQuantile (.fin q) = .ret (.fin (l[Min.min ⌊t⌋₊ (l.length - 1)]'(by omega))) := by
  have hc := R.counts
  have e2 : (Fl.lit 2 : Fl K) = .fin 2 := FloatFmt.Mono.rnd_two
  have e1 : (Fl.lit 1 : Fl K) = .fin 1 := FloatFmt.Mono.rnd_one
  unfold estValueAtQuantile
  simp only [totalWeight_plain R hcs hr hN, Fl.mul_fin, hq, e1, e2]
  by_cases h1 : t < 1
  · rw [if_pos (by simpa using h1), hmin]
    have hfl : ⌊t⌋₊ = 0 := Nat.floor_eq_zero.2 h1
    simp only [hfl, Nat.zero_min]
    cases l with
    | nil => simp at h0
    | cons a l => rfl
  · rw [if_neg (by simpa using h1), hcs]
    have h1' : 1 ≤ t := not_lt.1 h1
    rw [idx_eq (show 0 < (l.map one).length by rw [List.length_map]; omega)]
    simp only [bind_ret, List.getElem_map]
    rw [if_neg (by simp [one])]
    have en : (.fin (l.length : K) : Fl K) - .fin 1 = .fin ((l.length : K) - 1) := by
      rw [Fl.sub_fin, show (l.length : K) - 1 = ((l.length - 1 : ℕ) : K) by push_cast [Nat.cast_sub (show 1 ≤ l.length from h0)]; ring, hc.rnd_nat (by omega)]
    rw [en]
    by_cases h2 : (l.length : K) - 1 < t
    · rw [if_pos (by simpa using h2), hmax, List.getLast?_eq_some_getLast (by rintro rfl; simp at h0)]
      have hfl : l.length - 1 ≤ ⌊t⌋₊ := by
        rw [Nat.le_floor_iff (by linarith)]
        push_cast [Nat.cast_sub (show 1 ≤ l.length from h0)]
        exact h2.le
      simp only [Nat.min_eq_right hfl, List.getLast_eq_getElem]
      rfl
    · rw [if_neg (by simpa using h2), List.getLast?_eq_some_getLast (by rintro h; rw [List.map_eq_nil_iff] at h; subst h; simp at h0)]
      simp only [unwrap, bind_ret]
      rw [if_neg (by rw [List.getLast_map]; simp [one])]
      have hst : (Fl.fin (l.length : K)).toUsize = some l.length := toUsize_nat (by omega)
      rw [hst]
      simp only [bind_ret]
      have e6 : (one l[0]).weight / (.fin 2 : Fl K) = .fin (((0 : ℕ) : K) + 1 / 2) := by
        show (.fin 1 : Fl K) / .fin 2 = _
        rw [Fl.div_fin_of_ne _ two_ne_zero, FloatFmt.Mono.rnd_half, Nat.cast_zero, zero_add]
      rw [e6]
      obtain ⟨v, hf, hv, he⟩ := valueLoop_plain hc hd ht h1' (not_lt.1 h2) hN l.length 0 (by omega) (by rw [Nat.cast_zero]; linarith)
      rw [he]
      simp only [bind_ret, hv, Nat.min_eq_left (Nat.le_sub_one_of_lt hf)]

end TDigest
end AQ

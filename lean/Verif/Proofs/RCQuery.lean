/-
Queries shared by `RCSketch` and `RCSketch2`.
-/
import Verif.Proofs.Sort
import Verif.Model.Compaction
import Verif.Spec.RCSketch
import Mathlib.Algebra.BigOperators.Group.List.Lemmas
import Mathlib.Tactic.Ring

set_option linter.unusedSectionVars false
set_option linter.unusedVariables false

namespace AQ
open Prog Spec
variable {K : Type} [Field K] [LinearOrder K] [IsStrictOrderedRing K] [FloatFmt K]

/-! ### Arithmetic monotonicity -/

theorem Fl.le_eq_right {a b : Fl K} (hb : b ≠ .nan) : Fl.le a b = decide (a ≤ b) := by
  cases a with
  | nan => cases b <;> simp_all
  | _ => exact Fl.le_eq (by simp) hb

theorem Fl.lt_mono_left {a b c : Fl K} (hab : a ≤ b) (h : Fl.lt b c = true) : Fl.lt a c = true := by
  have hc : c ≠ .nan := by rintro rfl; simp at h
  have hb : b ≠ .nan := by rintro rfl; simp at h
  have ha : a ≠ .nan := by rintro rfl; exact hb (le_antisymm (Fl.le_nan b) hab)
  rw [Fl.lt_eq hb hc, decide_eq_true_eq] at h
  rw [Fl.lt_eq ha hc, decide_eq_true_eq]
  exact hab.trans_lt h

theorem Fl.le_pinf_of_ne_nan {a : Fl K} (h : a ≠ .nan) : a ≤ .pinf := by
  cases a with
  | nan => exact absurd rfl h
  | ninf => simp
  | fin a => simp
  | pinf => exact le_refl _

theorem Fl.ofNat_mono [FloatFmt.Mono K] {a b : Nat} (h : a ≤ b) : (Fl.ofNat a : Fl K) ≤ Fl.ofNat b :=
  FloatFmt.Mono.rnd_mono _ _ (by exact_mod_cast h)

theorem Fl.ofNat_nonneg [FloatFmt.Mono K] (a : Nat) : Fl.fin (0 : K) ≤ Fl.ofNat a := by
  rw [← FloatFmt.Mono.rnd_zero]; exact FloatFmt.Mono.rnd_mono _ _ (by positivity)

theorem Fl.ofNat_ne_nan [FloatFmt.Mono K] (a : Nat) : (Fl.ofNat a : Fl K) ≠ .nan := FloatFmt.Mono.rnd_ne_nan _

theorem Fl.one_le_ofNat [FloatFmt.Mono K] {a : Nat} (h : 1 ≤ a) : Fl.fin (1 : K) ≤ Fl.ofNat a := by
  rw [← FloatFmt.Mono.rnd_one]; exact FloatFmt.Mono.rnd_mono _ _ (by exact_mod_cast h)

theorem Fl.mul_mono_right [FloatFmt.Mono K] {a b : Fl K} {c : K} (hc : 0 < c) (h : a ≤ b) : a * .fin c ≤ b * .fin c := by
  have hs : signInf c = .pinf := by simp [signInf, hc]
  have hs' : signInf (-c) = .ninf := by
    have : ¬ (0 : K) < -c := by simp [hc.le]
    simp [signInf, hc.le, hc]
  have e1 : (Fl.pinf : Fl K) * .fin c = .pinf := hs
  have e2 : (Fl.ninf : Fl K) * .fin c = .ninf := hs'
  have hr : ∀ x : K, FloatFmt.rnd x ≤ (Fl.pinf : Fl K) := fun x => Fl.le_pinf_of_ne_nan (FloatFmt.Mono.rnd_ne_nan x)
  cases a with
  | nan => have : b = .nan := le_antisymm (Fl.le_nan b) h
           subst this; exact le_refl _
  | ninf => rw [e2]; simp
  | fin x =>
    cases b with
    | nan => simp
    | ninf => simp at h
    | fin y => exact FloatFmt.Mono.rnd_mono _ _ (mul_le_mul_of_nonneg_right (by simpa using h) hc.le)
    | pinf => rw [e1]; exact hr _
  | pinf =>
    cases b with
    | nan => simp
    | ninf => simp at h
    | fin y => simp at h
    | pinf => exact le_refl _

theorem Fl.div_mono_right [FloatFmt.Mono K] {a b : Fl K} {c : K} (hc : 0 < c) (h : a ≤ b) : a / .fin c ≤ b / .fin c := by
  have e1 : (Fl.pinf : Fl K) / .fin c = .pinf := if_neg (not_lt.2 hc.le)
  have e2 : (Fl.ninf : Fl K) / .fin c = .ninf := if_neg (not_lt.2 hc.le)
  have hr : ∀ x : K, FloatFmt.rnd x ≤ (Fl.pinf : Fl K) := fun x => Fl.le_pinf_of_ne_nan (FloatFmt.Mono.rnd_ne_nan x)
  cases a with
  | nan => have : b = .nan := le_antisymm (Fl.le_nan b) h
           subst this; exact le_refl _
  | ninf => rw [e2]; simp
  | fin x =>
    cases b with
    | nan => simp
    | ninf => simp at h
    | fin y =>
      rw [Fl.div_fin_of_ne _ hc.ne', Fl.div_fin_of_ne _ hc.ne']
      exact FloatFmt.Mono.rnd_mono _ _ (div_le_div_of_nonneg_right (by simpa using h) hc.le)
    | pinf => rw [e1, Fl.div_fin_of_ne _ hc.ne']; exact hr _
  | pinf =>
    cases b with
    | nan => simp
    | ninf => simp at h
    | fin y => simp at h
    | pinf => exact le_refl _

/-! ### Rank query -/

theorem countP_le_eq (b : List (Fl K)) {x : Fl K} (hx : x ≠ .nan) : b.countP (fun y => Fl.le y x) = rank b x := by
  unfold rank
  apply List.countP_congr
  intro y _
  rw [Fl.le_eq_right hx]

theorem rankFrom_eq {x : Fl K} (hx : x ≠ .nan) : ∀ (L : List (List (Fl K))) (i acc : Nat), i + L.length ≤ 64 →
    rankFrom x i acc L = .ret (acc + 2 ^ i * weightedRank L x) := by
  intro L
  induction L with
  | nil => intro i acc _; simp [rankFrom, weightedRank, wsum]
  | cons b L ih =>
    intro i acc h
    simp only [List.length_cons] at h
    rw [rankFrom, if_pos (by omega), ih (i + 1) _ (by omega), countP_le_eq b hx]
    simp only [weightedRank, List.map_cons, wsum]
    congr 1
    ring

theorem rankFrom_partially {x : Fl K} (hx : x ≠ .nan) : ∀ (L : List (List (Fl K))) (i acc : Nat),
    Partially (rankFrom x i acc L) (fun r => r = acc + 2 ^ i * weightedRank L x) := by
  intro L
  induction L with
  | nil => intro i acc; simp [rankFrom, weightedRank, wsum]
  | cons b L ih =>
    intro i acc
    rw [rankFrom]
    split
    · refine (ih (i + 1) _).mono ?_
      intro r hr
      rw [hr, countP_le_eq b hx]
      simp only [weightedRank, List.map_cons, wsum]
      ring
    · simp

theorem rank_mono (b : List (Fl K)) {x y : Fl K} (h : x ≤ y) : rank b x ≤ rank b y := by
  unfold rank
  apply List.countP_mono_left
  intro a _ ha
  simp only [decide_eq_true_eq] at ha ⊢
  exact ha.trans h

theorem wsum_map_mono : ∀ (L : List (List (Fl K))) (f g : List (Fl K) → Nat), (∀ b ∈ L, f b ≤ g b) →
    wsum (L.map f) ≤ wsum (L.map g) := by
  intro L
  induction L with
  | nil => intro f g _; simp
  | cons b L ih =>
    intro f g h
    have h1 := ih f g (fun b hb => h b (by simp [hb]))
    have h2 := h b (by simp)
    simp only [List.map_cons, wsum]
    omega

theorem weightedRank_mono (L : List (List (Fl K))) {x y : Fl K} (h : x ≤ y) : weightedRank L x ≤ weightedRank L y :=
  wsum_map_mono L _ _ (fun b _ => rank_mono b h)

theorem weightedRank_le (L : List (List (Fl K))) (x : Fl K) : weightedRank L x ≤ wsum (L.map List.length) :=
  wsum_map_mono L _ _ (fun b _ => List.countP_le_length)

theorem weightedRank_top (L : List (List (Fl K))) (x : Fl K) (h : ∀ b ∈ L, ∀ y ∈ b, y ≤ x) :
    weightedRank L x = wsum (L.map List.length) := by
  unfold weightedRank
  congr 1
  apply List.map_congr_left
  intro b hb
  unfold rank
  rw [List.countP_eq_length]
  intro y hy
  simpa using h b hb y hy

theorem estQuantile_partially {x : Fl K} (hx : x ≠ .nan) (L : List (List (Fl K))) (n : Nat) :
    Partially (estQuantileFrom L n x) (fun r => r = Fl.ofNat (weightedRank L x) / Fl.ofNat n) := by
  unfold estQuantileFrom
  rw [partially_bind]
  refine (rankFrom_partially hx L 0 0).mono ?_
  rintro r rfl
  simp

theorem estQuantile_eq {x : Fl K} (hx : x ≠ .nan) (L : List (List (Fl K))) (n : Nat) (hL : L.length ≤ 64) :
    estQuantileFrom L n x = .ret (Fl.ofNat (weightedRank L x) / Fl.ofNat n) := by
  unfold estQuantileFrom
  rw [rankFrom_eq hx L 0 0 (by omega)]
  simp

theorem quantile_div_mono [FloatFmt.Mono K] {r r' n : Nat} (hn : 1 ≤ n) (hf : ∃ c : K, FloatFmt.rnd (n : K) = .fin c)
    (h : r ≤ r') : (Fl.ofNat r / Fl.ofNat n : Fl K) ≤ Fl.ofNat r' / Fl.ofNat n := by
  obtain ⟨c, hc⟩ := hf
  have h1 := Fl.one_le_ofNat (K := K) hn
  unfold Fl.ofNat at h1 ⊢
  rw [hc] at h1 ⊢
  have : 0 < c := lt_of_lt_of_le one_pos (by simpa using h1)
  exact Fl.div_mono_right this (FloatFmt.Mono.rnd_mono _ _ (by exact_mod_cast h))

theorem quantile_div_self [FloatFmt.Mono K] {n : Nat} (hn : 1 ≤ n) (hf : ∃ c : K, FloatFmt.rnd (n : K) = .fin c) :
    (Fl.ofNat n / Fl.ofNat n : Fl K) = .fin 1 := by
  obtain ⟨c, hc⟩ := hf
  have h1 := Fl.one_le_ofNat (K := K) hn
  unfold Fl.ofNat at h1 ⊢
  rw [hc] at h1 ⊢
  have : 0 < c := lt_of_lt_of_le one_pos (by simpa using h1)
  rw [Fl.div_fin_of_ne _ this.ne', div_self this.ne', FloatFmt.Mono.rnd_one]

theorem quantile_div_nonneg [FloatFmt.Mono K] (r : Nat) {n : Nat} (hn : 1 ≤ n) (hf : ∃ c : K, FloatFmt.rnd (n : K) = .fin c) :
    Fl.fin (0 : K) ≤ Fl.ofNat r / Fl.ofNat n := by
  obtain ⟨c, hc⟩ := hf
  have h1 := Fl.one_le_ofNat (K := K) hn
  have h0 := quantile_div_mono (K := K) (r := 0) (r' := r) hn ⟨c, hc⟩ (Nat.zero_le _)
  refine le_trans ?_ h0
  unfold Fl.ofNat at h1 ⊢
  rw [hc] at h1 ⊢
  have : 0 < c := lt_of_lt_of_le one_pos (by simpa using h1)
  rw [Nat.cast_zero, FloatFmt.Mono.rnd_zero, Fl.div_fin_of_ne _ this.ne', zero_div, FloatFmt.Mono.rnd_zero]

/-! ### Value query -/

/-- All stored items of a list of levels. -/
def storedItems (L : List (List (Fl K))) : List (Fl K) := L.flatten

theorem levelCentroids_cases (i : Nat) (b : List (Fl K)) :
    (∃ e, levelCentroids i b = .fail e) ∨
      ∃ cs : List (Centroid K), levelCentroids i b = .ret cs ∧ cs.map Centroid.mean = b := by
  unfold levelCentroids levelWeight
  split
  · right; exact ⟨[], rfl, by simp [*]⟩
  · split
    · right; exact ⟨_, rfl, by simp [Function.comp_def]⟩
    · split
      · right; exact ⟨_, rfl, by simp [Function.comp_def]⟩
      · left; exact ⟨_, rfl⟩

theorem weightedFrom_cases : ∀ (L : List (List (Fl K))) (i : Nat),
    (∃ e, weightedFrom i L = .fail e) ∨
      ∃ cs : List (Centroid K), weightedFrom i L = .ret cs ∧ cs.map Centroid.mean = L.flatten := by
  intro L
  induction L with
  | nil => intro i; right; exact ⟨[], rfl, rfl⟩
  | cons b L ih =>
    intro i
    rw [weightedFrom]
    rcases levelCentroids_cases i b with ⟨e, h⟩ | ⟨cs, h, h'⟩
    · left; exact ⟨e, by rw [h]; rfl⟩
    · rcases ih (i + 1) with ⟨e, h2⟩ | ⟨cs2, h2, h2'⟩
      · left; exact ⟨e, by rw [h, bind_ret, h2]; rfl⟩
      · right; exact ⟨cs ++ cs2, by rw [h, bind_ret, h2]; rfl, by simp [h', h2']⟩

theorem weightedFrom_partially (L : List (List (Fl K))) (i : Nat) :
    Partially (weightedFrom i L) (fun cs => cs.map Centroid.mean = L.flatten) := by
  rcases weightedFrom_cases L i with ⟨e, h⟩ | ⟨cs, h, h'⟩
  · rw [h]; simp
  · rw [h]; exact h'

/-- Sorted, weighted view (partial correctness, any rounding). -/
theorem sortedWeighted_partially (L : List (List (Fl K))) :
    Partially (sortedWeightedValues L) (fun cs =>
      (cs.map Centroid.mean).Perm L.flatten ∧ cs.Pairwise (fun a b => a.mean ≤ b.mean)) := by
  unfold sortedWeightedValues
  rw [partially_bind]
  refine (weightedFrom_partially L 0).mono ?_
  intro cs hcs
  refine (sortByKey_partially _ _).mono ?_
  rintro r rfl
  exact ⟨hcs ▸ (sorted_perm Centroid.mean cs).map _, sorted_pairwise _ _⟩

theorem valueSearch_mem (t : Fl K) : ∀ (cs : List (Centroid K)) (tot : Fl K) (last : Option (Fl K)),
    Partially (valueSearch t tot last cs) (fun v => v ∈ cs.map Centroid.mean ∨ last = some v) := by
  intro cs
  induction cs with
  | nil => intro tot last; cases last <;> simp [valueSearch]
  | cons c cs ih =>
    intro tot last
    rw [valueSearch]
    split
    · simp
    · refine (ih _ _).mono ?_
      rintro v (h | h)
      · left; simp [h]
      · left; simp at h; simp [h]

theorem valueSearch_returns (t : Fl K) : ∀ (cs : List (Centroid K)) (tot : Fl K) (last : Option (Fl K)),
    cs ≠ [] ∨ last ≠ none → ∃ v, valueSearch t tot last cs = .ret v := by
  intro cs
  induction cs with
  | nil =>
    intro tot last h
    cases last with
    | none => simp at h
    | some v => exact ⟨v, rfl⟩
  | cons c cs ih =>
    intro tot last h
    rw [valueSearch]
    split
    · exact ⟨_, rfl⟩
    · exact ih _ _ (Or.inr (by simp))

/-- A later target gives a later value. -/
theorem valueSearch_mono {t t' : Fl K} (h : t ≤ t') : ∀ (cs : List (Centroid K)) (tot : Fl K) (last : Option (Fl K)),
    cs.Pairwise (fun a b => a.mean ≤ b.mean) →
    Partially (valueSearch t tot last cs) (fun v => Partially (valueSearch t' tot last cs) (fun v' => v ≤ v')) := by
  intro cs
  induction cs with
  | nil => intro tot last _; cases last <;> simp [valueSearch]
  | cons c cs ih =>
    intro tot last hs
    rw [List.pairwise_cons] at hs
    rw [valueSearch, valueSearch]
    by_cases h' : Fl.lt t' (c.weight + tot) = true
    · rw [if_pos h', if_pos (Fl.lt_mono_left h h')]; simp
    · rw [if_neg h']
      split
      · rw [partially_ret]
        refine (valueSearch_mem t' cs _ _).mono ?_
        rintro v' (h2 | h2)
        · obtain ⟨d, hd, rfl⟩ := List.mem_map.1 h2
          exact hs.1 d hd
        · simp at h2; simp [h2]
      · exact ih _ _ hs.2

theorem estValue_mem (L : List (List (Fl K))) (n : Nat) (q : Fl K) :
    Partially (estValueFrom L n q) (fun v => v ∈ L.flatten) := by
  unfold estValueFrom
  rw [partially_bind]
  refine (sortedWeighted_partially L).mono ?_
  rintro cs ⟨h1, -⟩
  refine (valueSearch_mem _ cs _ _).mono ?_
  rintro v (h | h)
  · exact h1.mem_iff.1 h
  · simp at h

theorem estValue_mono [FloatFmt.Mono K] (L : List (List (Fl K))) {n : Nat} (hn : 1 ≤ n)
    (hf : ∃ c : K, FloatFmt.rnd (n : K) = .fin c) {q q' : Fl K} (h : q ≤ q') :
    Partially (estValueFrom L n q) (fun v => Partially (estValueFrom L n q') (fun v' => v ≤ v')) := by
  have ht : q * Fl.ofNat n ≤ q' * Fl.ofNat n := by
    obtain ⟨c, hc⟩ := hf
    have h1 := Fl.one_le_ofNat (K := K) hn
    unfold Fl.ofNat at h1 ⊢
    rw [hc] at h1 ⊢
    exact Fl.mul_mono_right (lt_of_lt_of_le one_pos (by simpa using h1)) h
  unfold estValueFrom sortedWeightedValues
  rcases weightedFrom_cases L 0 with ⟨e, hcase⟩ | ⟨cs, hcase, -⟩
  · rw [hcase]; simp
  · rw [hcase]
    simp only [bind_ret]
    have hs := sortByKey_partially Centroid.mean cs
    cases hsc : sortByKey Centroid.mean cs with
    | fail e => simp
    | flip f => unfold sortByKey at hsc; split at hsc <;> simp at hsc
    | ret r =>
      rw [hsc, partially_ret] at hs
      simp only [bind_ret]
      subst hs
      exact valueSearch_mono ht _ _ _ (sorted_pairwise _ _)

/-! ### Value query, total correctness -/

/-- Numeric weight of a centroid. -/
def Centroid.wt (c : Centroid K) : K := match c.weight with
  | .fin w => w
  | _ => 0

/-- Weight of the centroids with mean `≤ x`. -/
def wrank (cs : List (Centroid K)) (x : Fl K) : K := ((cs.filter (fun c => c.mean ≤ x)).map Centroid.wt).sum

theorem wrank_append (a b : List (Centroid K)) (x : Fl K) : wrank (a ++ b) x = wrank a x + wrank b x := by
  simp [wrank, List.sum_append]

theorem wrank_perm {a b : List (Centroid K)} (h : a.Perm b) (x : Fl K) : wrank a x = wrank b x :=
  ((h.filter _).map _).sum_eq

theorem wrank_cons (c : Centroid K) (cs : List (Centroid K)) (x : Fl K) :
    wrank (c :: cs) x = (if c.mean ≤ x then c.wt else 0) + wrank cs x := by
  unfold wrank
  by_cases h : c.mean ≤ x <;> simp [h]

theorem wrank_level (b : List (Fl K)) (w : K) (x : Fl K) :
    wrank (b.map (fun y => (⟨y, .fin w⟩ : Centroid K))) x = w * rank b x := by
  induction b with
  | nil => simp [wrank, rank]
  | cons a b ih =>
    rw [List.map_cons, wrank_cons, ih]
    by_cases h : a ≤ x
    · simp [h, rank, Centroid.wt]; ring
    · simp [h, rank]

/-- The weighted list: levels up to 31 whose weights are representable. -/
theorem weightedFrom_eq : ∀ (L : List (List (Fl K))) (i : Nat), i + L.length ≤ 31 →
    (∀ j b, L[j]? = some b → b ≠ [] → FloatFmt.rnd ((2 ^ (i + j) : Nat) : K) = .fin ((2 ^ (i + j) : Nat) : K)) →
    ∃ cs : List (Centroid K), weightedFrom i L = .ret cs ∧ cs.map Centroid.mean = L.flatten ∧
      (∀ c ∈ cs, ∃ j : Nat, c.weight = .fin ((2 ^ j : Nat) : K)) ∧
      ∀ x, wrank cs x = ((2 ^ i * weightedRank L x : Nat) : K) := by
  intro L
  induction L with
  | nil => intro i _ _; exact ⟨[], by simp [weightedFrom, wrank, weightedRank, wsum]⟩
  | cons b L ih =>
    intro i hi hr
    simp only [List.length_cons] at hi
    obtain ⟨cs, h1, h2, h3, h4⟩ := ih (i + 1) (by omega) (fun j b' hj hj' => by
      have := hr (j + 1) b' (by simpa using hj) hj'
      rwa [show i + 1 + j = i + (j + 1) by omega])
    have hstep : ∀ x, ((2 ^ i * rank b x : Nat) : K) + wrank cs x = ((2 ^ i * weightedRank (b :: L) x : Nat) : K) := by
      intro x
      rw [h4, ← Nat.cast_add]
      congr 1
      simp only [weightedRank, List.map_cons, wsum]
      ring
    cases b with
    | nil =>
      refine ⟨cs, by rw [weightedFrom, levelCentroids, if_pos rfl, bind_ret, h1]; simp, by simpa using h2, h3, fun x => ?_⟩
      rw [← hstep x]; simp [rank]
    | cons a b =>
      refine ⟨(a :: b).map (fun y => (⟨y, .fin ((2 ^ i : Nat) : K)⟩ : Centroid K)) ++ cs, ?_, ?_, ?_, fun x => ?_⟩
      · rw [weightedFrom, levelCentroids, if_neg (by simp)]
        simp only [levelWeight, if_pos (show i < 31 by omega), bind_ret, h1, Fl.ofNat]
        rw [show FloatFmt.rnd ((2 ^ i : Nat) : K) = .fin ((2 ^ i : Nat) : K) from hr 0 (a :: b) (by simp) (by simp)]
      · simp [h2, Function.comp_def]
      · intro c hc
        rcases List.mem_append.1 hc with hc | hc
        · obtain ⟨y, _, rfl⟩ := List.mem_map.1 hc; exact ⟨i, rfl⟩
        · exact h3 c hc
      · rw [wrank_append, wrank_level, ← hstep x]; push_cast; ring

theorem wrank_nonneg {cs : List (Centroid K)} (h : ∀ c ∈ cs, ∃ j : Nat, c.weight = .fin ((2 ^ j : Nat) : K)) (x : Fl K) :
    0 ≤ wrank cs x := by
  induction cs with
  | nil => simp [wrank]
  | cons c cs ih =>
    rw [wrank_cons]
    obtain ⟨j, hj⟩ := h c (by simp)
    have : (0 : K) ≤ c.wt := by simp [Centroid.wt, hj]
    have := ih (fun c hc => h c (by simp [hc]))
    split <;> linarith

theorem sum_nonneg' : ∀ (l : List K), (∀ a ∈ l, 0 ≤ a) → 0 ≤ l.sum := by
  intro l
  induction l with
  | nil => simp
  | cons a l ih =>
    intro h
    have h1 := h a (by simp)
    have h2 := ih (fun a ha => h a (by simp [ha]))
    rw [List.sum_cons]; linarith

theorem wrank_le_sum {cs : List (Centroid K)} (h : ∀ c ∈ cs, ∃ j : Nat, c.weight = .fin ((2 ^ j : Nat) : K)) (x : Fl K) :
    wrank cs x ≤ (cs.map Centroid.wt).sum := by
  induction cs with
  | nil => simp [wrank]
  | cons c cs ih =>
    rw [wrank_cons, List.map_cons, List.sum_cons]
    obtain ⟨j, hj⟩ := h c (by simp)
    have : (0 : K) ≤ c.wt := by simp [Centroid.wt, hj]
    have := ih (fun c hc => h c (by simp [hc]))
    split <;> linarith

theorem wrank_all {cs : List (Centroid K)} (x : Fl K) (h : ∀ c ∈ cs, c.mean ≤ x) :
    wrank cs x = (cs.map Centroid.wt).sum := by
  induction cs with
  | nil => simp [wrank]
  | cons c cs ih =>
    rw [wrank_cons, if_pos (h c (by simp)), ih (fun c hc => h c (by simp [hc]))]; simp

/-- Correctness of the search loop on a sorted list; `p` is the part already passed. -/
theorem valueSearch_correct (t : Fl K) (ht : t ≠ .nan) (N : Nat) (hN : ∀ m : Nat, m ≤ N → FloatFmt.rnd (m : K) = .fin (m : K)) :
    ∀ (cs p : List (Centroid K)) (m : Nat),
    (p ++ cs).Pairwise (fun a b => a.mean ≤ b.mean) →
    (∀ c ∈ p ++ cs, ∃ j : Nat, c.weight = .fin ((2 ^ j : Nat) : K)) →
    (p.map Centroid.wt).sum = (m : K) → ((p ++ cs).map Centroid.wt).sum ≤ (N : K) →
    (p = [] ∨ ¬ t < .fin (m : K)) → (p ++ cs) ≠ [] →
    ∃ v, valueSearch t (.fin (m : K)) (p.getLast?.map Centroid.mean) cs = .ret v ∧ v ∈ (p ++ cs).map Centroid.mean ∧
      ((t < .fin (wrank (p ++ cs) v) ∧ ∀ c ∈ p ++ cs, t < .fin (wrank (p ++ cs) c.mean) → v ≤ c.mean) ∨
       ((∀ c ∈ p ++ cs, ¬ t < .fin (wrank (p ++ cs) c.mean)) ∧ ∀ c ∈ p ++ cs, c.mean ≤ v)) := by
  intro cs
  induction cs with
  | nil =>
    intro p m hs hw hm hle hp hne
    simp only [List.append_nil] at *
    obtain ⟨l, hl⟩ : ∃ l, p.getLast? = some l := by
      cases hp2 : p.getLast? with
      | none => exact absurd (List.getLast?_eq_none_iff.1 hp2) hne
      | some l => exact ⟨l, rfl⟩
    have hp := hp.resolve_left hne
    refine ⟨l.mean, by rw [hl]; rfl, List.mem_map.2 ⟨l, List.mem_of_getLast? hl, rfl⟩, Or.inr ⟨?_, ?_⟩⟩
    · intro c hc h
      apply hp
      refine h.trans_le ?_
      rw [Fl.fin_le_fin, ← hm]
      exact wrank_le_sum hw _
    · intro c hc
      obtain ⟨q, rfl⟩ : ∃ q, p = q ++ [l] := ⟨p.dropLast, by
        rw [← List.dropLast_append_getLast? l hl]; simp⟩
      rcases List.mem_append.1 hc with h | h
      · exact (List.pairwise_append.1 hs).2.2 c h l (by simp)
      · simp at h; rw [h]
  | cons c cs ih =>
    intro p m hs hw hm hle hp hne
    obtain ⟨j, hj⟩ := hw c (by simp)
    have hcw : c.wt = ((2 ^ j : Nat) : K) := by simp [Centroid.wt, hj]
    have hpc : ((p ++ [c]).map Centroid.wt).sum = ((m + 2 ^ j : Nat) : K) := by
      rw [List.map_append, List.sum_append, hm]; simp [hcw]
    have hass : p ++ c :: cs = (p ++ [c]) ++ cs := by simp
    have hmN : m + 2 ^ j ≤ N := by
      have h1 : ((p ++ [c]).map Centroid.wt).sum ≤ ((p ++ c :: cs).map Centroid.wt).sum := by
        rw [hass, List.map_append (l₁ := p ++ [c]), List.sum_append]
        have : 0 ≤ (cs.map Centroid.wt).sum := by
          apply sum_nonneg'
          intro a ha
          obtain ⟨d, hd, rfl⟩ := List.mem_map.1 ha
          obtain ⟨j', hj'⟩ := hw d (by simp [hd])
          simp [Centroid.wt, hj']
        linarith
      have := h1.trans hle
      rw [hpc] at this
      exact_mod_cast this
    have hadd : c.weight + .fin (m : K) = .fin ((m + 2 ^ j : Nat) : K) := by
      rw [hj, Fl.add_fin, ← Nat.cast_add, Nat.add_comm, hN _ hmN]
    have hadd' : .fin (m : K) + c.weight = .fin ((m + 2 ^ j : Nat) : K) := by
      rw [hj, Fl.add_fin, ← Nat.cast_add, hN _ hmN]
    rw [valueSearch, hadd, Fl.lt_eq ht (by simp)]
    by_cases hlt : t < .fin ((m + 2 ^ j : Nat) : K)
    · rw [if_pos (by simpa using hlt)]
      refine ⟨c.mean, rfl, by simp, Or.inl ⟨?_, ?_⟩⟩
      · refine hlt.trans_le ?_
        rw [Fl.fin_le_fin, ← hpc, hass, wrank_append]
        have h1 : wrank (p ++ [c]) c.mean = ((p ++ [c]).map Centroid.wt).sum := by
          apply wrank_all
          intro d hd
          rcases List.mem_append.1 hd with h | h
          · exact (List.pairwise_append.1 hs).2.2 d h c (by simp)
          · simp at h; rw [h]
        have h2 := wrank_nonneg (cs := cs) (fun d hd => hw d (by simp [hd])) c.mean
        linarith
      · intro d hd h
        by_contra hcon
        rw [not_le] at hcon
        have hdp : d ∈ p := by
          rcases List.mem_append.1 hd with h | h
          · exact h
          · exfalso
            rcases List.mem_cons.1 h with rfl | h
            · exact lt_irrefl _ hcon
            · have := (List.pairwise_cons.1 (List.pairwise_append.1 hs).2.1).1 d h
              exact absurd hcon (not_lt.2 this)
        have hpne : p ≠ [] := by rintro rfl; simp at hdp
        apply hp.resolve_left hpne
        refine h.trans_le ?_
        rw [Fl.fin_le_fin, wrank_append]
        have h1 : wrank (c :: cs) d.mean = 0 := by
          unfold wrank
          have : (c :: cs).filter (fun e => decide (e.mean ≤ d.mean)) = [] := by
            rw [List.filter_eq_nil_iff]
            intro e he
            have : c.mean ≤ e.mean := by
              rcases List.mem_cons.1 he with rfl | he
              · exact le_refl _
              · exact (List.pairwise_cons.1 (List.pairwise_append.1 hs).2.1).1 e he
            simp only [decide_eq_true_eq, not_le]
            exact hcon.trans_le this
          rw [this]; simp
        have h2 := wrank_le_sum (cs := p) (fun d hd => hw d (by simp [hd])) d.mean
        rw [hm] at h2
        rw [h1]; linarith
    · rw [if_neg (by simpa using hlt), hadd']
      have := ih (p ++ [c]) (m + 2 ^ j) (by rw [← hass]; exact hs) (by rw [← hass]; exact hw) hpc (by rw [← hass]; exact hle)
        (Or.inr hlt) (by simp)
      rw [← hass] at this
      simpa using this

theorem two_pow_le_weight (L : List (List (Fl K))) (j : Nat) (h : j < L.length) (hne : L[j] ≠ []) :
    2 ^ j ≤ wsum (L.map List.length) := by
  induction L generalizing j with
  | nil => simp at h
  | cons b L ih =>
    simp only [List.map_cons, wsum]
    cases j with
    | zero =>
      have : 0 < b.length := List.length_pos_of_ne_nil (by simpa using hne)
      simp; omega
    | succ j =>
      have := ih j (by simpa using h) (by simpa using hne)
      rw [pow_succ]; omega

/-- The value query is correct (and returns) for any rounding exact on the integers up to the total stored weight. -/
theorem estValue_correct (L : List (List (Fl K))) (n : Nat) (q : Fl K) (hL : L.length ≤ 31) (hnan : ∀ y ∈ L.flatten, y ≠ .nan)
    (hne : L.flatten ≠ []) (hex : ∀ m : Nat, m ≤ wsum (L.map List.length) → FloatFmt.rnd (m : K) = .fin (m : K))
    (ht : q * Fl.ofNat n ≠ .nan) :
    ∃ v, estValueFrom L n q = .ret v ∧ IsWeightedStat L (q * Fl.ofNat n) v := by
  obtain ⟨cs, h1, h2, h3, h4⟩ := weightedFrom_eq L 0 (by omega) (fun j b hj hb => by
    obtain ⟨hj1, hj2⟩ := List.getElem?_eq_some_iff.1 hj
    rw [Nat.zero_add]
    exact hex _ (two_pow_le_weight L j hj1 (by rw [hj2]; exact hb)))
  have h4' : ∀ x, wrank cs x = (weightedRank L x : K) := by intro x; rw [h4]; simp
  have hp := sorted_perm Centroid.mean cs
  have hcn : ∀ c ∈ cs, c.mean ≠ .nan := fun c hc => hnan _ (by rw [← h2]; exact List.mem_map.2 ⟨c, hc, rfl⟩)
  have hmem : ∀ y, y ∈ L.flatten ↔ ∃ c ∈ sorted Centroid.mean cs, c.mean = y := by
    intro y; rw [← h2, List.mem_map]; simp only [hp.mem_iff]
  have hsum : ((sorted Centroid.mean cs).map Centroid.wt).sum ≤ ((wsum (L.map List.length) : Nat) : K) := by
    rw [(hp.map _).sum_eq, ← wrank_all (.nan) (fun c _ => Fl.le_nan _), h4']
    exact_mod_cast weightedRank_le L .nan
  have hcsne : cs ≠ [] := by rintro rfl; exact hne (by rw [← h2]; rfl)
  obtain ⟨v, hv1, hv2, hv3⟩ := valueSearch_correct (q * Fl.ofNat n) ht _ hex (sorted Centroid.mean cs) [] 0
    (by simpa using sorted_pairwise Centroid.mean cs) (by simpa [hp.mem_iff] using h3) (by simp) (by simpa using hsum)
    (Or.inl rfl) (by
      intro h
      exact hcsne (List.Perm.eq_nil ((hp.symm.trans (by rw [show sorted Centroid.mean cs = [] by simpa using h])))))
  refine ⟨v, ?_, ?_⟩
  · unfold estValueFrom sortedWeightedValues
    rw [h1, bind_ret, sortByKey_of_no_nan _ _ hcn, bind_ret]
    have h0 : (Fl.lit 0 : Fl K) = .fin ((0 : Nat) : K) := by
      have := hex 0 (Nat.zero_le _)
      unfold Fl.lit; simpa using this
    rw [h0]; exact hv1
  · simp only [List.nil_append, wrank_perm hp, h4'] at hv2 hv3
    refine ⟨by rw [hmem]; simpa using hv2, ?_⟩
    rcases hv3 with ⟨h5, h6⟩ | ⟨h5, h6⟩
    · left
      refine ⟨h5, fun y hy h7 => ?_⟩
      obtain ⟨c, hc, rfl⟩ := (hmem y).1 hy
      exact h6 c hc h7
    · right
      refine ⟨fun y hy => ?_, fun y hy => ?_⟩
      · obtain ⟨c, hc, rfl⟩ := (hmem y).1 hy
        exact h5 c hc
      · obtain ⟨c, hc, rfl⟩ := (hmem y).1 hy
        exact h6 c hc

/-- The value query returns on non-empty NaN-free data with at most 31 levels, whatever the rounding. -/
theorem estValue_returns (L : List (List (Fl K))) (n : Nat) (q : Fl K) (hL : L.length ≤ 31) (hnan : ∀ y ∈ L.flatten, y ≠ .nan)
    (hne : L.flatten ≠ []) : ∃ v, estValueFrom L n q = .ret v := by
  have key : ∀ (L : List (List (Fl K))) (i : Nat), i + L.length ≤ 31 → ∃ cs : List (Centroid K), weightedFrom i L = .ret cs := by
    intro L
    induction L with
    | nil => intro i _; exact ⟨[], rfl⟩
    | cons b L ih =>
      intro i hi
      simp only [List.length_cons] at hi
      obtain ⟨cs, h⟩ := ih (i + 1) (by omega)
      have : ∃ here : List (Centroid K), levelCentroids i b = .ret here := by
        unfold levelCentroids levelWeight
        rw [if_pos (show i < 31 by omega)]
        split
        · exact ⟨_, rfl⟩
        · exact ⟨_, rfl⟩
      obtain ⟨here, h'⟩ := this
      exact ⟨here ++ cs, by rw [weightedFrom, h', bind_ret, h]; rfl⟩
  obtain ⟨cs, h1⟩ := key L 0 (by omega)
  have h2 : cs.map Centroid.mean = L.flatten := by
    have := weightedFrom_partially L 0
    rw [h1] at this; exact this
  have hcn : ∀ c ∈ cs, c.mean ≠ .nan := fun c hc => hnan _ (by rw [← h2]; exact List.mem_map.2 ⟨c, hc, rfl⟩)
  unfold estValueFrom sortedWeightedValues
  rw [h1, bind_ret, sortByKey_of_no_nan _ _ hcn, bind_ret]
  apply valueSearch_returns
  left
  intro h
  have := (sorted_perm Centroid.mean cs).length_eq
  rw [h] at this
  have : cs = [] := List.length_eq_zero_iff.1 this.symm
  subst this
  exact hne (by rw [← h2]; rfl)

end AQ

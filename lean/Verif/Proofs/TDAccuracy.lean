/-
Rank error of the quantile query of a digest whose centroids are the means of consecutive runs of the sorted data.
-/
import Mathlib.Tactic.Linarith
import Mathlib.Tactic.FieldSimp
import Verif.Proofs.TDQuery2

set_option linter.unusedSectionVars false
set_option linter.unusedVariables false

namespace AQ
open Prog Spec
variable {K : Type} [Field K] [LinearOrder K] [IsStrictOrderedRing K] [FloatFmt K]

namespace TDigest

/-- Items strictly below `x`. -/
def lts (x : K) (l : List K) : K := (l.countP (fun y => y < x) : ℕ)

/-- Items at most `x`. -/
def les (x : K) (l : List K) : K := (l.countP (fun y => y ≤ x) : ℕ)

/-- Length as a number. -/
def len (l : List K) : K := (l.length : ℕ)

/-- Mean and weight of a run of items. -/
def mw (r : List K) : K × K := (r.sum / len r, len r)

theorem lts_append (x : K) (l m : List K) : lts x (l ++ m) = lts x l + lts x m := by simp [lts]
theorem les_append (x : K) (l m : List K) : les x (l ++ m) = les x l + les x m := by simp [les]
theorem len_append (l m : List K) : len (l ++ m) = len l + len m := by simp [len]
theorem lts_nonneg (x : K) (l : List K) : 0 ≤ lts x l := Nat.cast_nonneg _
theorem les_nonneg (x : K) (l : List K) : 0 ≤ les x l := Nat.cast_nonneg _
theorem len_nonneg (l : List K) : 0 ≤ len l := Nat.cast_nonneg _
theorem lts_le_len (x : K) (l : List K) : lts x l ≤ len l := Nat.cast_le.2 List.countP_le_length
theorem les_le_len (x : K) (l : List K) : les x l ≤ len l := Nat.cast_le.2 List.countP_le_length
theorem lts_le_les (x : K) (l : List K) : lts x l ≤ les x l := by
  apply Nat.cast_le.2
  apply List.countP_mono_left
  intro y _ h
  simp only [decide_eq_true_eq] at h ⊢
  exact h.le

theorem lts_zero {x : K} {l : List K} (h : ∀ y ∈ l, x ≤ y) : lts x l = 0 := by
  unfold lts
  rw [List.countP_eq_zero.2]
  · simp
  · intro y hy; simpa using h y hy

theorem les_zero {x : K} {l : List K} (h : ∀ y ∈ l, x < y) : les x l = 0 := by
  unfold les
  rw [List.countP_eq_zero.2]
  · simp
  · intro y hy; simpa using h y hy

theorem les_all {x : K} {l : List K} (h : ∀ y ∈ l, y ≤ x) : les x l = len l := by
  unfold les len
  rw [List.countP_eq_length.2]
  intro y hy; simpa using h y hy

theorem lts_all {x : K} {l : List K} (h : ∀ y ∈ l, y < x) : lts x l = len l := by
  unfold lts len
  rw [List.countP_eq_length.2]
  intro y hy; simpa using h y hy

theorem one_le_les {x : K} {l : List K} (h : ∃ y ∈ l, y ≤ x) : 1 ≤ les x l := by
  unfold les
  have : 0 < l.countP (fun y => y ≤ x) := List.countP_pos_iff.2 (by simpa using h)
  exact_mod_cast this

theorem lts_lt_len {x : K} {l : List K} (h : ∃ y ∈ l, x ≤ y) : lts x l + 1 ≤ len l := by
  unfold lts len
  have : l.countP (fun y => y < x) < l.length := by
    refine lt_of_le_of_ne List.countP_le_length ?_
    intro he
    obtain ⟨y, hy, hxy⟩ := h
    have := List.countP_eq_length.1 he y hy
    simp only [decide_eq_true_eq] at this
    exact absurd this (not_lt.2 hxy)
  exact_mod_cast this

theorem one_le_len {l : List K} (h : l ≠ []) : 1 ≤ len l := by
  unfold len
  exact_mod_cast List.length_pos_of_ne_nil h

theorem sum_le_len {m : K} : ∀ {l : List K}, (∀ y ∈ l, y ≤ m) → l.sum ≤ len l * m
  | [], _ => by simp [len]
  | y :: l, h => by
    have := sum_le_len (l := l) (fun z hz => h z (by simp [hz]))
    have := h y (by simp)
    simp only [List.sum_cons, len, List.length_cons] at *
    push_cast
    linarith

theorem len_le_sum {m : K} : ∀ {l : List K}, (∀ y ∈ l, m ≤ y) → len l * m ≤ l.sum
  | [], _ => by simp [len]
  | y :: l, h => by
    have := len_le_sum (l := l) (fun z hz => h z (by simp [hz]))
    have := h y (by simp)
    simp only [List.sum_cons, len, List.length_cons] at *
    push_cast
    linarith

theorem sum_lt_len {m : K} : ∀ {l : List K}, l ≠ [] → (∀ y ∈ l, y < m) → l.sum < len l * m
  | [], h, _ => absurd rfl h
  | y :: l, _, h => by
    have := sum_le_len (l := l) (fun z hz => (h z (by simp [hz])).le)
    have := h y (by simp)
    simp only [List.sum_cons, len, List.length_cons] at *
    push_cast
    linarith

theorem len_lt_sum {m : K} : ∀ {l : List K}, l ≠ [] → (∀ y ∈ l, m < y) → len l * m < l.sum
  | [], h, _ => absurd rfl h
  | y :: l, _, h => by
    have := len_le_sum (l := l) (fun z hz => (h z (by simp [hz])).le)
    have := h y (by simp)
    simp only [List.sum_cons, len, List.length_cons] at *
    push_cast
    linarith

theorem len_mul_mean {r : List K} (h : r ≠ []) : len r * (mw r).1 = r.sum := by
  have := one_le_len h
  unfold mw
  field_simp

/-- Some item is at most the mean. -/
theorem exists_le_mean {r : List K} (h : r ≠ []) : ∃ y ∈ r, y ≤ (mw r).1 := by
  by_contra hc
  push Not at hc
  have := len_lt_sum h hc
  rw [len_mul_mean h] at this
  exact lt_irrefl _ this

/-- Some item is at least the mean. -/
theorem exists_mean_le {r : List K} (h : r ≠ []) : ∃ y ∈ r, (mw r).1 ≤ y := by
  by_contra hc
  push Not at hc
  have := sum_lt_len h hc
  rw [len_mul_mean h] at this
  exact lt_irrefl _ this

theorem all_le_mean {r : List K} (h : r ≠ []) (hg : ∀ y ∈ r, (mw r).1 ≤ y) : ∀ y ∈ r, y ≤ (mw r).1 := by
  intro y hy
  by_contra hc
  push Not at hc
  obtain ⟨s, t, rfl⟩ := List.append_of_mem hy
  have h1 := len_le_sum (l := s) (fun z hz => hg z (by simp [hz]))
  have h2 := len_le_sum (l := t) (fun z hz => hg z (by simp [hz]))
  have h3 := len_mul_mean h
  generalize (mw (s ++ y :: t)).1 = m at *
  simp only [len, List.length_append, List.length_cons, List.sum_append, List.sum_cons] at h1 h2 h3
  push_cast at h3
  linarith

theorem all_mean_le {r : List K} (h : r ≠ []) (hg : ∀ y ∈ r, y ≤ (mw r).1) : ∀ y ∈ r, (mw r).1 ≤ y := by
  intro y hy
  by_contra hc
  push Not at hc
  obtain ⟨s, t, rfl⟩ := List.append_of_mem hy
  have h1 := sum_le_len (l := s) (fun z hz => hg z (by simp [hz]))
  have h2 := sum_le_len (l := t) (fun z hz => hg z (by simp [hz]))
  have h3 := len_mul_mean h
  generalize (mw (s ++ y :: t)).1 = m at *
  simp only [len, List.length_append, List.length_cons, List.sum_append, List.sum_cons] at h1 h2 h3
  push_cast at h3
  linarith

/-- `E` is a good estimate of the number of items of `runs` below `x`: it lies between the number of items `< x` and the number
of items `≤ x`, or it is off by at most three halves of the larger of at most two neighbouring runs which contain the
position of `x`. -/
def Close (E x : K) (runs : List (List K)) : Prop :=
  (lts x runs.flatten ≤ E ∧ E ≤ les x runs.flatten) ∨
  ∃ (pre mid post : List (List K)) (m : K), runs = pre ++ mid ++ post ∧ mid.length ≤ 2 ∧ (∃ r ∈ mid, m = len r) ∧
    len pre.flatten + 1 ≤ les x runs.flatten ∧ lts x runs.flatten + 1 ≤ len pre.flatten + len mid.flatten ∧
    E ≤ les x runs.flatten + 3 / 2 * m ∧ lts x runs.flatten ≤ E + 3 / 2 * m

theorem Close.cons {E x : K} {r : List K} {runs : List (List K)} (hr : ∀ y ∈ r, y ≤ x) (h : Close E x runs) :
    Close (len r + E) x (r :: runs) := by
  have e1 : les x (r :: runs).flatten = len r + les x runs.flatten := by
    rw [List.flatten_cons, les_append, les_all hr]
  have e2 : lts x (r :: runs).flatten ≤ len r + lts x runs.flatten := by
    rw [List.flatten_cons, lts_append]; linarith [lts_le_len x r]
  rcases h with ⟨h1, h2⟩ | ⟨pre, mid, post, m, rfl, h1, h2, h3, h4, h5, h6⟩
  · left
    rw [e1]
    exact ⟨by linarith, by linarith⟩
  · right
    have e3 : len (r :: pre).flatten = len r + len pre.flatten := by rw [List.flatten_cons, len_append]
    refine ⟨r :: pre, mid, post, m, by simp, h1, h2, ?_, ?_, ?_, ?_⟩
    · rw [e1, e3]; linarith
    · rw [e3]; linarith
    · rw [e1]; linarith
    · linarith

/-- One run contains the position of `x`. -/
theorem close_one {E x : K} {r : List K} {rest : List (List K)} (h1 : ∃ y ∈ r, y ≤ x) (h2 : ∃ y ∈ r, x ≤ y)
    (h3 : ∀ y ∈ rest.flatten, x ≤ y) (h4 : 0 ≤ E) (h5 : E ≤ len r) : Close E x (r :: rest) := by
  right
  have e : lts x (r :: rest).flatten = lts x r := by rw [List.flatten_cons, lts_append, lts_zero h3, add_zero]
  have h6 := one_le_les h1
  have h7 := lts_lt_len h2
  have e2 : les x r ≤ les x (r :: rest).flatten := by
    rw [List.flatten_cons, les_append]; linarith [les_nonneg x rest.flatten]
  have h8 := len_nonneg r
  refine ⟨[], [r], rest, len r, by simp, by simp, ⟨r, by simp, rfl⟩, ?_, ?_, ?_, ?_⟩
  · simp only [List.flatten_nil, len, List.length_nil, Nat.cast_zero, zero_add]; linarith
  · rw [e]; simpa [len] using h7
  · linarith
  · rw [e]; linarith

/-- Two neighbouring runs contain the position of `x`. -/
theorem close_two {E x : K} {r n : List K} {rest : List (List K)} (h1 : ∃ y ∈ r, y ≤ x) (h2 : ∃ y ∈ n, x ≤ y)
    (h3 : ∀ y ∈ rest.flatten, x ≤ y) (h4 : len r / 2 ≤ E) (h5 : E ≤ len r + len n / 2) : Close E x (r :: n :: rest) := by
  right
  have e : lts x (r :: n :: rest).flatten = lts x r + lts x n := by
    rw [List.flatten_cons, List.flatten_cons, lts_append, lts_append, lts_zero h3, add_zero]
  have h6 := one_le_les h1
  have h7 := lts_lt_len h2
  have e2 : les x r ≤ les x (r :: n :: rest).flatten := by
    rw [List.flatten_cons, les_append]; linarith [les_nonneg x (n :: rest).flatten]
  have h8 := len_nonneg r
  have h9 := len_nonneg n
  have h10 := lts_le_len x r
  refine ⟨[], [r, n], rest, Max.max (len r) (len n), by simp, by simp, ?_, ?_, ?_, ?_, ?_⟩
  · rcases le_total (len r) (len n) with h | h
    · exact ⟨n, by simp, max_eq_right h⟩
    · exact ⟨r, by simp, max_eq_left h⟩
  · simp only [List.flatten_nil, len, List.length_nil, Nat.cast_zero, zero_add]; linarith
  · rw [e]
    have : len ([] : List (List K)).flatten + len [r, n].flatten = len r + len n := by simp [len]
    rw [this]; linarith
  · linarith [le_max_left (len r) (len n), le_max_right (len r) (len n)]
  · rw [e]; linarith [le_max_left (len r) (len n), le_max_right (len r) (len n)]

/-- Leading runs with mean `x`, all of whose items are at least `x`, consist of items equal to `x`. -/
theorem equalW_le_les {x : K} : ∀ {runs : List (List K)}, (∀ r ∈ runs, r ≠ []) → (∀ y ∈ runs.flatten, x ≤ y) →
    equalW x (runs.map mw) ≤ les x runs.flatten
  | [], _, _ => by simp [equalW, les]
  | r :: runs, hne, h => by
    simp only [List.map_cons, equalW]
    split
    · rename_i hr
      have ih := equalW_le_les (runs := runs) (fun s hs => hne s (by simp [hs])) (fun y hy => h y (by
        rw [List.flatten_cons]; exact List.mem_append_right _ hy))
      have : ∀ y ∈ r, y ≤ x := by
        rw [← hr]
        exact all_le_mean (hne r (by simp)) (fun y hy => by
          rw [hr]; exact h y (by rw [List.flatten_cons]; exact List.mem_append_left _ hy))
      rw [List.flatten_cons, les_append, les_all this]
      show len r + _ ≤ _
      linarith
    · exact les_nonneg _ _

theorem wbelow_close (x : K) : ∀ (runs : List (List K)) (s : K) (hne : runs ≠ []), (∀ r ∈ runs, r ≠ []) →
    runs.flatten.Pairwise (· ≤ ·) → (mw (runs.head hne)).1 ≤ x → x ≤ (mw (runs.getLast hne)).1 →
    Close (wbelow x s (runs.map mw) - s) x runs
  | [], _, hne, _, _, _, _ => absurd rfl hne
  | [r], s, _, hr, hp, h1, h2 => by
    simp only [List.head_cons, List.getLast_singleton] at h1 h2
    have hx : x = (mw r).1 := le_antisymm h2 h1
    have hrn := hr r (by simp)
    have hl := one_le_len hrn
    obtain ⟨y, hy, hyx⟩ := exists_le_mean hrn
    obtain ⟨z, hz, hxz⟩ := exists_mean_le hrn
    refine close_one ⟨y, hy, hx ▸ hyx⟩ ⟨z, hz, hx ▸ hxz⟩ (by simp) ?_ ?_
    · simp only [List.map_cons, List.map_nil, wbelow]
      show 0 ≤ (if len r = 1 then s else s + len r - 1 / 2) - s
      split <;> linarith
    · simp only [List.map_cons, List.map_nil, wbelow]
      show (if len r = 1 then s else s + len r - 1 / 2) - s ≤ len r
      split <;> linarith
  | r :: n :: rest, s, _, hr, hp, h1, h2 => by
    simp only [List.head_cons] at h1
    have hrn := hr r (by simp)
    have hnn := hr n (by simp)
    have hl := one_le_len hrn
    have hln := one_le_len hnn
    rw [List.flatten_cons, List.pairwise_append] at hp
    obtain ⟨hp1, hp2, hp3⟩ := hp
    have hp2' := hp2
    rw [List.flatten_cons, List.pairwise_append] at hp2'
    obtain ⟨hp4, hp5, hp6⟩ := hp2'
    obtain ⟨y, hy, hyx⟩ := exists_le_mean hrn
    obtain ⟨z, hz, hxz⟩ := exists_mean_le hrn
    obtain ⟨y', hy', hyx'⟩ := exists_le_mean hnn
    obtain ⟨z', hz', hxz'⟩ := exists_mean_le hnn
    have hnm : ∀ u ∈ n, u ∈ (n :: rest).flatten := fun u hu => by
      rw [List.flatten_cons]; exact List.mem_append_left _ hu
    have hr' : ∀ u ∈ rest.flatten, u ∈ (n :: rest).flatten := fun u hu => by
      rw [List.flatten_cons]; exact List.mem_append_right _ hu
    simp only [List.map_cons, wbelow]
    by_cases hc : (mw r).1 = x
    · rw [if_pos hc]
      have hge : ∀ u ∈ (n :: rest).flatten, x ≤ u := fun u hu => (hc ▸ hxz).trans (hp3 z hz u hu)
      by_cases hn : (mw n).1 = x
      · -- several runs of items equal to `x`
        have hall : ∀ u ∈ r, x ≤ u := by
          rw [← hc]
          exact all_mean_le hrn (fun u hu => by
            rw [hc, ← hn]; exact (hp3 u hu y' (hnm y' hy')).trans hyx')
        have hall2 : ∀ u ∈ (r :: n :: rest).flatten, x ≤ u := by
          intro u hu
          rw [List.flatten_cons] at hu
          rcases List.mem_append.1 hu with hu | hu
          · exact hall u hu
          · exact hge u hu
        have hE := equalW_le_les hr hall2
        simp only [List.map_cons] at hE
        have hE2 : len r + len n ≤ equalW x (mw r :: mw n :: rest.map mw) := by
          have hpos : ∀ p ∈ rest.map (mw (K := K)), 0 < p.2 := by
            intro p hp
            obtain ⟨u, hu, rfl⟩ := List.mem_map.1 hp
            have := one_le_len (hr u (by simp [hu]))
            show 0 < len u
            linarith
          have := equalW_nonneg hpos x
          simp only [equalW, hc, hn, if_true]
          show len r + len n ≤ len r + (len n + _)
          linarith
        rw [if_neg (by rintro ⟨-, h⟩; linarith)]
        left
        rw [lts_zero hall2]
        constructor <;> linarith
      · have hw : equalW x (mw r :: mw n :: rest.map mw) = len r := by
          simp only [equalW, hc, hn, if_true, if_false, add_zero]; rfl
        rw [hw]
        refine close_one ⟨y, hy, hc ▸ hyx⟩ ⟨z, hz, hc ▸ hxz⟩ hge ?_ ?_
        · split <;> linarith
        · split <;> linarith
    · rw [if_neg hc]
      by_cases hb : (mw r).1 ≤ x ∧ x < (mw n).1
      · rw [if_pos hb]
        have hbb := btw_bounds (x := x) (s := s) (c := mw r) (n := mw n) hl hln hb.1 hb.2
        have e1 := exl_nonneg (mw r) (mw n)
        have e2 := exr_nonneg (mw r) (mw n)
        refine close_two ⟨y, hy, hyx.trans h1⟩ ⟨z', hz', hb.2.le.trans hxz'⟩
          (fun u hu => (hb.2.le.trans hxz').trans (hp6 z' hz' u hu)) ?_ ?_
        · have : s + len r / 2 + exl (mw r) (mw n) ≤ btw x s (mw r) (mw n) := hbb.1
          linarith
        · have : btw x s (mw r) (mw n) ≤ s + len r + len n / 2 - exr (mw r) (mw n) := hbb.2
          linarith
      · rw [if_neg hb]
        have hnx : (mw n).1 ≤ x := by
          by_contra h
          exact hb ⟨h1, not_le.1 h⟩
        have ih := wbelow_close x (n :: rest) (s + len r) (by simp) (fun u hu => hr u (by simp [hu])) hp2 hnx (by simpa using h2)
        have := ih.cons (r := r) (fun u hu => (hp3 u hu y' (hnm y' hy')).trans (hyx'.trans hnx))
        simp only [List.map_cons] at this
        have e : wbelow x (s + (mw r).2) (mw n :: rest.map mw) - s =
            len r + (wbelow x (s + len r) (mw n :: rest.map mw) - (s + len r)) := by
          show wbelow x (s + len r) (mw n :: rest.map mw) - s = _
          ring
        rw [e]
        exact this

theorem wt_mw : ∀ (runs : List (List K)), wt (runs.map mw) = len runs.flatten
  | [] => by simp [len]
  | r :: runs => by
    rw [List.map_cons, wt_cons, wt_mw runs, List.flatten_cons, len_append]; rfl

/-- The last run contains the position of `x`. -/
theorem close_last {E x : K} {pre : List (List K)} {r : List K} (h1 : ∀ y ∈ pre.flatten, y ≤ x) (h2 : ∃ y ∈ r, y ≤ x)
    (h3 : ∃ y ∈ r, x ≤ y) (h4 : 0 ≤ E) (h5 : E ≤ len r) : Close (len pre.flatten + E) x (pre ++ [r]) := by
  induction pre with
  | nil => simpa [len] using close_one h2 h3 (by simp) h4 h5
  | cons p pre ih =>
    have h6 := ih (fun y hy => h1 y (by rw [List.flatten_cons]; exact List.mem_append_right _ hy))
    have := h6.cons (r := p) (fun y hy => h1 y (by rw [List.flatten_cons]; exact List.mem_append_left _ hy))
    rw [List.flatten_cons, len_append, add_assoc]
    exact this

/-- The quantile estimate, as a weight, is close to the true rank. -/
theorem estQ_close {runs : List (List K)} (hne : runs.map mw ≠ []) (hr : ∀ r ∈ runs, r ≠ []) (hp : runs.flatten.Pairwise (· ≤ ·))
    {a b : K} (ha : a ∈ runs.flatten) (hb : b ∈ runs.flatten) (ham : ∀ y ∈ runs.flatten, a ≤ y)
    (hbm : ∀ y ∈ runs.flatten, y ≤ b) (x : K) :
    Close (len runs.flatten * estQ (runs.map mw) hne a b x) x runs := by
  have hne' : runs ≠ [] := by rintro rfl; exact hne rfl
  have hW : (0 : K) < len runs.flatten := by
    have := one_le_len (List.ne_nil_of_mem ha); linarith
  have key : ∀ e : K, len runs.flatten * (e / len runs.flatten) = e := fun e => by field_simp
  have key1 : ∀ e : K, len runs.flatten * (1 - e / len runs.flatten) = len runs.flatten - e := fun e => by field_simp
  unfold estQ
  rw [wt_mw]
  by_cases h1 : x < a
  · rw [if_pos h1, mul_zero]
    left
    rw [lts_zero (fun y hy => h1.le.trans (ham y hy)), les_zero (fun y hy => h1.trans_le (ham y hy))]
    exact ⟨le_refl _, le_refl _⟩
  rw [if_neg h1]
  by_cases h2 : b < x
  · rw [if_pos h2, mul_one]
    left
    rw [lts_all (fun y hy => (hbm y hy).trans_lt h2), les_all (fun y hy => ((hbm y hy).trans_lt h2).le)]
    exact ⟨le_refl _, le_refl _⟩
  rw [if_neg h2]
  rw [not_lt] at h1 h2
  have e1 : (runs.map mw).head hne = mw (runs.head hne') := by rw [List.head_map]
  have e2 : (runs.map mw).getLast hne = mw (runs.getLast hne') := by rw [List.getLast_map]
  rw [e1, e2]
  by_cases h3 : x < (mw (runs.head hne')).1
  · rw [if_pos h3]
    obtain ⟨r, rest, rfl⟩ : ∃ r rest, runs = r :: rest := by
      cases runs with
      | nil => exact absurd rfl hne'
      | cons r rest => exact ⟨r, rest, rfl⟩
    simp only [List.head_cons] at h3 ⊢
    have hrn := hr r (by simp)
    have hl := one_le_len hrn
    rw [List.flatten_cons, List.pairwise_append] at hp
    obtain ⟨z, hz, hxz⟩ := exists_mean_le hrn
    have har : ∃ y ∈ r, y ≤ x := by
      rw [List.flatten_cons] at ha
      rcases List.mem_append.1 ha with ha | ha
      · exact ⟨a, ha, h1⟩
      · obtain ⟨y, hy⟩ := List.exists_mem_of_ne_nil _ hrn
        exact ⟨y, hy, (hp.2.2 y hy a ha).trans h1⟩
    have hw : 2 ≤ len r := by
      by_contra hc
      have h5 : r.length = 1 := by
        have h6 := List.length_pos_of_ne_nil hrn
        by_contra h7
        apply hc
        unfold len
        exact_mod_cast (by omega : 2 ≤ r.length)
      obtain ⟨c, rfl⟩ := List.length_eq_one_iff.1 h5
      obtain ⟨y, hy, hyx⟩ := har
      rw [List.mem_singleton] at hy
      have : (mw [c]).1 = c := by simp [mw, len]
      rw [this] at h3
      rw [hy] at hyx
      exact absurd h3 (not_lt.2 hyx)
    have hge : ∀ y ∈ rest.flatten, x ≤ y := fun y hy => (h3.le.trans hxz).trans (hp.2.2 z hz y hy)
    have lb := left_bounds (w := len r) h1 h3 hw
    split
    · rw [key]
      exact close_one har ⟨z, hz, h3.le.trans hxz⟩ hge (by norm_num) (by linarith)
    · rw [key]
      exact close_one har ⟨z, hz, h3.le.trans hxz⟩ hge (by
        show 0 ≤ 1 + (x - a) / ((mw r).1 - a) * (len r / 2 - 1); linarith) (by
        show 1 + (x - a) / ((mw r).1 - a) * (len r / 2 - 1) ≤ len r; linarith)
  rw [if_neg h3]
  by_cases h4 : (mw (runs.getLast hne')).1 < x
  · rw [if_pos h4]
    obtain ⟨pre, r, rfl⟩ : ∃ pre r, runs = pre ++ [r] := ⟨runs.dropLast, runs.getLast hne', (List.dropLast_append_getLast hne').symm⟩
    simp only [List.getLast_append_singleton] at h4 ⊢
    have hrn := hr r (by simp)
    have hl := one_le_len hrn
    have ef : (pre ++ [r]).flatten = pre.flatten ++ r := by simp
    rw [ef] at hp ha hb ham hbm hW key key1 ⊢
    rw [List.pairwise_append] at hp
    obtain ⟨z, hz, hxz⟩ := exists_le_mean hrn
    have har : ∃ y ∈ r, x ≤ y := by
      rcases List.mem_append.1 hb with hb | hb
      · obtain ⟨y, hy⟩ := List.exists_mem_of_ne_nil _ hrn
        exact ⟨y, hy, h2.trans (hp.2.2 b hb y hy)⟩
      · exact ⟨b, hb, h2⟩
    have hw : 2 ≤ len r := by
      by_contra hc
      have h5 : r.length = 1 := by
        have h6 := List.length_pos_of_ne_nil hrn
        by_contra h7
        apply hc
        unfold len
        exact_mod_cast (by omega : 2 ≤ r.length)
      obtain ⟨c, rfl⟩ := List.length_eq_one_iff.1 h5
      obtain ⟨y, hy, hyx⟩ := har
      rw [List.mem_singleton] at hy
      have : (mw [c]).1 = c := by simp [mw, len]
      rw [this] at h4
      rw [hy] at hyx
      exact absurd h4 (not_lt.2 hyx)
    have hge : ∀ y ∈ pre.flatten, y ≤ x := fun y hy => (hp.2.2 y hy z hz).trans (hxz.trans h4.le)
    have ht0 : 0 ≤ (b - x) / (b - (mw r).1) := div_nonneg (by linarith) (by linarith)
    have ht1 : (b - x) / (b - (mw r).1) ≤ 1 := (div_le_one (by linarith)).2 (by linarith)
    have h5 := mul_nonneg ht0 (by linarith : (0 : K) ≤ len r / 2 - 1)
    have h6 := mul_le_of_le_one_left (by linarith : (0 : K) ≤ len r / 2 - 1) ht1
    split
    · rw [key1, len_append]
      have := close_last (E := len r - 1 / 2) hge ⟨z, hz, hxz.trans h4.le⟩ har (by linarith) (by linarith)
      rwa [← add_sub_assoc] at this
    · rw [key1, len_append]
      have := close_last (E := len r - (1 + (b - x) / (b - (mw r).1) * (len r / 2 - 1))) hge ⟨z, hz, hxz.trans h4.le⟩ har
        (by linarith) (by linarith)
      rwa [← add_sub_assoc] at this
  rw [if_neg h4, key]
  have := wbelow_close x runs 0 hne' hr hp (not_lt.1 h3) (not_lt.1 h4)
  rwa [sub_zero] at this

end TDigest
end AQ

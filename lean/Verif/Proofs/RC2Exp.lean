/-
Expectation and variance of `RCSketch2` ranks; low-end exactness; `add_buffer` against repeated `add`; section sizes.
-/
import Verif.Proofs.RC2Hist

set_option linter.unusedSectionVars false
set_option linter.unusedVariables false

namespace AQ
open Prog Spec
variable {K : Type} [Field K] [LinearOrder K] [IsStrictOrderedRing K] [FloatFmt K]

namespace RCSketch2
open RCSketch (everyOther_length_eq averagePairs_length everyOther_rank everyOther_sum GoodFor goodFor_default)
variable {sec : Nat → Nat} {fast : Bool} {m : CompactionMethod}

/-- A compaction with the default method is one coin flip between the two alternating subsequences of the upper part. -/
theorem compactLevel_flip (hs : SecOK sec) {G : Fl K → Prop} (hG : GoodFor G .default) {size N : Nat} {l : Level2 K}
    {ls : List (Level2 K)} (h : Ok G size N (l :: ls)) (hfull : cap sec l ≤ l.buf.length) :
    ∃ (low upper : List (Fl K)) (l2 : Level2 K), (low ++ upper).Perm l.buf ∧ upper.Pairwise (· ≤ ·) ∧ l2.buf = low ∧
      l2.compactions = l.compactions + 1 ∧ l2.log = upper :: l.log ∧
      compactLevel sec fast .default l = .flip (fun b => .ret (everyOther b upper, upper.length, l2)) := by
  have hal := ok_level (fast := fast) (m := .default) hs hG h hfull
  have hb : ∀ l' : Level2 K, l'.buf = l.buf → ∀ ci, Always (compactBuffer l' ci .default) (fun _ => True) →
      ∃ low upper, (low ++ upper).Perm l.buf ∧ upper.Pairwise (· ≤ ·) ∧
      compactBuffer l' ci .default = .flip (fun b => .ret (everyOther b upper, upper.length,
        { l' with buf := low, compactions := l'.compactions + 1, log := upper :: l'.log })) := by
    intro l' hl' ci hal
    unfold compactBuffer at hal ⊢
    have hnan : ∀ x ∈ l.buf, x ≠ .nan := fun x hx => hG.1 x (h.good l (by simp) x hx)
    simp only [hl', sortFl, sortByKey_of_no_nan id l.buf (by simpa using hnan), bind_ret] at hal ⊢
    split at hal
    · rename_i hci
      rw [if_pos hci]
      refine ⟨(sorted id l.buf).take ci, (sorted id l.buf).drop ci, ?_, ?_, ?_⟩
      · rw [List.take_append_drop]; exact sorted_perm id _
      · exact (sorted_pairwise id l.buf).sublist (List.drop_sublist _ _)
      · rfl
    · simp at hal
  have hu : ∀ l : Level2 K, (updateSections l).buf = l.buf ∧ (updateSections l).compactions = l.compactions ∧
      (updateSections l).log = l.log := by
    intro l; unfold updateSections; split <;> exact ⟨rfl, rfl, rfl⟩
  unfold compactLevel at hal ⊢
  cases fast with
  | true =>
    simp only [if_true, bind_ret] at hal ⊢
    rw [always_bind] at hal
    obtain ⟨low, upper, h1, h2, h3⟩ := hb l rfl _ (hal.mono (fun _ _ => trivial))
    exact ⟨low, upper, updateSections { l with buf := low, compactions := l.compactions + 1, log := upper :: l.log }, h1, h2,
      (hu _).1, (hu _).2.1, (hu _).2.2, by rw [h3]; rfl⟩
  | false =>
    simp only [Bool.false_eq_true, if_false, getCompactIndex] at hal ⊢
    unfold usub at hal ⊢
    split at hal
    · rename_i h1
      rw [if_pos h1]
      simp only [bind_ret] at hal ⊢
      split at hal
      · rename_i h2
        rw [if_pos h2]
        simp only [bind_ret] at hal ⊢
        split at hal
        · rename_i h3
          rw [if_pos h3]
          simp only [bind_ret] at hal ⊢
          rw [always_bind] at hal
          obtain ⟨low, upper, g1, g2, g3⟩ := hb { l with counter := l.counter + 1 } rfl _ (hal.mono (fun _ _ => trivial))
          exact ⟨low, upper, updateSections { l with
            buf := low, counter := l.counter + 1, compactions := l.compactions + 1, log := upper :: l.log }, g1, g2, (hu _).1, (hu _).2.1, (hu _).2.2, by rw [g3]; rfl⟩
        · simp at hal
      · simp at hal
    · simp at hal

/-- `Σ_h 4^h · compactions`. -/
def comps4 (ls : List (Level2 K)) : Nat := wsum4 (ls.map Level2.compactions)

theorem comps4_ext (carry : Option (List (Fl K))) (ls : List (Level2 K)) : comps4 (ext carry ls) = comps4 ls := by
  cases ls <;> cases carry <;> simp [ext, comps4, newLevel, extend, wsum4]

theorem rank_flip (upper : List (Fl K)) (hs : upper.Pairwise (· ≤ ·)) (x : Fl K) :
    ∃ ε : ℚ, |ε| ≤ 1 ∧ 2 * (rank (everyOther false upper) x : ℚ) = rank upper x + ε ∧
      2 * (rank (everyOther true upper) x : ℚ) = rank upper x - ε := by
  obtain ⟨⟨h1, h2⟩, h3, h4⟩ := everyOther_rank hs x
  have h5 : rank (everyOther false upper) x + rank (everyOther true upper) x = rank upper x := by
    unfold rank; exact everyOther_sum _ upper
  refine ⟨2 * (rank (everyOther false upper) x : ℚ) - rank upper x, ?_, by ring, ?_⟩
  · rw [abs_le]
    constructor
    · have : (rank upper x : ℚ) ≤ 2 * rank (everyOther false upper) x := by exact_mod_cast h1
      linarith
    · have : 2 * (rank (everyOther false upper) x : ℚ) ≤ rank upper x + 1 := by exact_mod_cast h2
      linarith
  · have : (rank (everyOther false upper) x : ℚ) + rank (everyOther true upper) x = rank upper x := by exact_mod_cast h5
    linarith

theorem Wt_cons (g : List (Fl K) → Nat) (l : Level2 K) (ls : List (Level2 K)) : Wt g (l :: ls) = g l.buf + 2 * Wt g ls := rfl

theorem comps4_cons (l : Level2 K) (ls : List (Level2 K)) : comps4 (l :: ls) = l.compactions + 4 * comps4 ls := rfl

/-- The variance potential `(a + c·rank)² − v·Σ 4^h compactions`, and (`v = 0` is not used) its linear companion. -/
theorem compress_lin (hs : SecOK sec) {G : Fl K → Prop} (hG : GoodFor G .default) (x : Fl K) (ls : List (Level2 K)) (size N : Nat)
    (a c : ℚ) (h : Ok G size N ls) :
    exp (compressFrom sec fast .default size none ls) (fun r => a + c * (Wt (fun b => rank b x) r.2 : ℚ)) ≤
      a + c * Wt (fun b => rank b x) ls := by
  have := compress_super (fast := fast) hs hG (S := ℚ × ℚ) (fun s ls => s.1 + s.2 * (Wt (fun b => rank b x) ls : ℚ))
    (fun s l => (s.1 + s.2 * rank l.buf x, 2 * s.2)) ?_ ?_ ls size N none (a, c) (by simpa using h)
  · simpa using this
  · intro s l ls; simp only [Wt_cons]; push_cast; ring
  · intro s size N l ls hok hfull
    obtain ⟨low, upper, l2, hp, hsrt, hlow, -, -, he⟩ := compactLevel_flip (fast := fast) hs hG hok hfull
    rw [he, exp_flip]
    simp only [exp_ret, Wt_ext (additive_rank x), Option.getD_some, Wt_cons, hlow]
    obtain ⟨ε, -, h0, h1⟩ := rank_flip upper hsrt x
    have hr : (rank l.buf x : ℚ) = rank low x + rank upper x := by
      have : rank l.buf x = rank low x + rank upper x := by
        rw [← (additive_rank x).app]; exact ((additive_rank x).perm _ _ hp).symm
      exact_mod_cast this
    push_cast
    rw [hr]
    apply le_of_eq
    have e0 : (rank (everyOther false upper) x : ℚ) = (rank upper x + ε) / 2 := by linarith
    have e1 : (rank (everyOther true upper) x : ℚ) = (rank upper x - ε) / 2 := by linarith
    rw [e0, e1]; ring

theorem compress_var (hs : SecOK sec) {G : Fl K → Prop} (hG : GoodFor G .default) (x : Fl K) (ls : List (Level2 K)) (size N : Nat)
    (a : ℚ) (h : Ok G size N ls) :
    exp (compressFrom sec fast .default size none ls) (fun r => (a + Wt (fun b => rank b x) r.2 : ℚ) ^ 2 - comps4 r.2) ≤
      (a + Wt (fun b => rank b x) ls) ^ 2 - comps4 ls := by
  have := compress_super (fast := fast) hs hG (S := ℚ × ℚ × ℚ)
    (fun s ls => (s.1 + s.2.1 * (Wt (fun b => rank b x) ls : ℚ)) ^ 2 - s.2.1 ^ 2 * comps4 ls - s.2.2)
    (fun s l => (s.1 + s.2.1 * rank l.buf x, 2 * s.2.1, s.2.2 + s.2.1 ^ 2 * l.compactions)) ?_ ?_ ls size N none (a, 1, 0)
    (by simpa using h)
  · simpa using this
  · intro s l ls; simp only [Wt_cons, comps4_cons]; push_cast; ring
  · intro s size N l ls hok hfull
    obtain ⟨low, upper, l2, hp, hsrt, hlow, hc, -, he⟩ := compactLevel_flip (fast := fast) hs hG hok hfull
    rw [he, exp_flip]
    simp only [exp_ret, Wt_ext (additive_rank x), Option.getD_some, Wt_cons, comps4_cons, comps4_ext, hlow, hc]
    obtain ⟨ε, hε, h0, h1⟩ := rank_flip upper hsrt x
    have hr : (rank l.buf x : ℚ) = rank low x + rank upper x := by
      have : rank l.buf x = rank low x + rank upper x := by
        rw [← (additive_rank x).app]; exact ((additive_rank x).perm _ _ hp).symm
      exact_mod_cast this
    push_cast
    rw [hr]
    have e0 : (rank (everyOther false upper) x : ℚ) = (rank upper x + ε) / 2 := by linarith
    have e1 : (rank (everyOther true upper) x : ℚ) = (rank upper x - ε) / 2 := by linarith
    rw [e0, e1]
    have hε2 : ε ^ 2 ≤ 1 := by
      have := abs_le.1 hε
      nlinarith
    have : s.2.1 ^ 2 * ε ^ 2 ≤ s.2.1 ^ 2 * 1 := mul_le_mul_of_nonneg_left hε2 (sq_nonneg _)
    nlinarith

theorem Wt_push {g : List (Fl K) → Nat} (hg : Additive g) {ls : List (Level2 K)} (h : ls ≠ []) (xs : List (Fl K)) :
    Wt g (pushLv ls xs) = Wt g ls + g xs := by
  cases ls with
  | nil => exact absurd rfl h
  | cons l ls => simp only [pushLv, Wt_cons, hg.app]; omega

theorem comps_push (ls : List (Level2 K)) (xs : List (Fl K)) : comps (pushLv ls xs) = comps ls ∧ comps4 (pushLv ls xs) = comps4 ls := by
  cases ls with
  | nil => exact ⟨rfl, rfl⟩
  | cons l ls => exact ⟨rfl, rfl⟩

theorem rank_super2 (hs : SecOK sec) (x : Fl K) (σ : ℚ) : Super2 (K := K) sec (· ≠ .nan) (fun _ m => m = .default)
    (fun l ls => σ * ((Wt (fun b => rank b x) ls : ℚ) - rank l x)) where
  good fast m hm := hm ▸ goodFor_default (fun _ h => h)
  push l ls xs hne := by
    rw [Wt_push (additive_rank x) hne, RCSketch.rank_append]; push_cast; apply le_of_eq; ring
  comp l ls size N fast m hm h := by
    subst hm
    have := compress_lin (fast := fast) hs (goodFor_default (fun _ h => h)) x ls size N (- σ * rank l x) σ h
    have e : ∀ w : ℚ, σ * (w - rank l x) = - σ * rank l x + σ * w := by intro w; ring
    simp only [e]; exact this

theorem var_super2 (hs : SecOK sec) (x : Fl K) : Super2 (K := K) sec (· ≠ .nan) (fun _ m => m = .default)
    (fun l ls => ((Wt (fun b => rank b x) ls : ℚ) - rank l x) ^ 2 - comps4 ls) where
  good fast m hm := hm ▸ goodFor_default (fun _ h => h)
  push l ls xs hne := by
    rw [Wt_push (additive_rank x) hne, RCSketch.rank_append, (comps_push ls xs).2]; push_cast; apply le_of_eq; ring
  comp l ls size N fast m hm h := by
    subst hm
    have := compress_var (fast := fast) hs (goodFor_default (fun _ h => h)) x ls size N (- rank l x) h
    have e : ∀ w : ℚ, w - rank l x = - rank l x + w := by intro w; ring
    simp only [e]; exact this

/-! ### The low end -/

theorem compressFrom_zero {g : List (Fl K) → Nat} (hg : Additive g) {A : Fl K → Prop}
    (hA : ∀ u out : List (Fl K), u.Pairwise (· ≤ ·) → (∀ y ∈ u, A y) → IsOut m u out →
      (∀ y ∈ out, A y) ∧ g u ≤ 2 * g out + 1 ∧ 2 * g out ≤ g u + 1)
    (ls : List (Level2 K)) (size : Nat) (carry : Option (List (Fl K))) (hin : ∀ l ∈ ext carry ls, ∀ y ∈ l.buf, A y)
    (h0 : ∀ l ∈ ext carry ls, g l.buf = 0) :
    Partially (compressFrom sec fast m size carry ls) (fun r => ∀ l ∈ r.2, g l.buf = 0) := by
  refine (compress_rule (P := fun size carry ls size' ls' => (∀ l ∈ ext carry ls, ∀ y ∈ l.buf, A y) →
    (∀ l ∈ ext carry ls, g l.buf = 0) → (∀ l ∈ ls', g l.buf = 0)) ?_ ?_ ?_ ?_ ls size carry).mono (fun r h => h hin h0)
  · intro size _ _; simp
  · intro size out _ h; exact h
  · intro size carry l ls size' ls' _ ih h h0
    rw [ext_none] at ih
    rw [ext_cons] at h h0
    intro l' hl'
    rcases List.mem_cons.1 hl' with rfl | hl'
    · exact h0 _ (by simp)
    · exact ih (fun l hl => h l (by simp [hl])) (fun l hl => h0 l (by simp [hl])) l' hl'
  · intro size carry l ls out u l2 size' ls' _ hr hu ih h h0
    obtain ⟨low, upper, hlow, hp, hs, hul, ho, hc⟩ := hr.split
    rw [ext_cons] at h h0
    have h1 : ∀ y ∈ low ++ upper, A y := fun y hy => h _ (by simp) y (hp.mem_iff.1 hy)
    obtain ⟨hA1, hA2, hA3⟩ := hA upper out ((List.pairwise_append.1 hs).2.1) (fun y hy => h1 y (by simp [hy])) ho
    have hz := h0 (extend l carry) (by simp)
    rw [← hg.perm _ _ hp, hg.app] at hz
    have hcase : ∀ {p : Level2 K → Prop}, (p (newLevel out)) → (∀ l' ∈ ls, p l' ∧ p (extend l' (some out))) →
        ∀ l' ∈ ext (some out) ls, p l' := by
      intro p hn hl
      cases ls with
      | nil => intro l' hl'; simp [ext] at hl'; subst hl'; exact hn
      | cons l0 ls =>
        intro l' hl'
        rw [ext_cons] at hl'
        rcases List.mem_cons.1 hl' with rfl | hl'
        · exact (hl l0 (by simp)).2
        · exact (hl l' (by simp [hl'])).1
    intro l' hl'
    rcases List.mem_cons.1 hl' with rfl | hl'
    · rw [hlow]; omega
    · refine ih ?_ ?_ l' hl'
      · refine hcase (p := fun l => ∀ y ∈ l.buf, A y) (by simpa [newLevel] using hA1) ?_
        intro l' hl'
        have := h l' (by simp [hl'])
        refine ⟨this, fun y hy => ?_⟩
        simp only [extend, List.mem_append] at hy
        rcases hy with hy | hy
        · exact this y hy
        · exact hA1 y hy
      · refine hcase (p := fun l => g l.buf = 0) (by simp only [newLevel]; omega) ?_
        intro l' hl'
        have := h0 l' (by simp [hl'])
        refine ⟨this, ?_⟩
        simp only [extend, hg.app]; omega

/-- The levels above the first hold nothing of rank at most `P`, and the first level holds all of it. -/
def LowOK (P : Nat) (x : Fl K) (l : List (Fl K)) (ls : List (Level2 K)) : Prop :=
  rank l x ≤ P → ∃ l0 ls', ls = l0 :: ls' ∧ rank l0.buf x = rank l x ∧ ∀ lv ∈ ls', rank lv.buf x = 0

/-- One `compress` keeps the low end, provided the first level keeps `P` items whenever it is compacted. -/
theorem compress_low {A : Fl K → Prop} (x : Fl K)
    (hA : ∀ u out : List (Fl K), u.Pairwise (· ≤ ·) → (∀ y ∈ u, A y) → IsOut m u out →
      (∀ y ∈ out, A y) ∧ rank u x ≤ 2 * rank out x + 1 ∧ 2 * rank out x ≤ rank u x + 1)
    (l0 : Level2 K) (ls : List (Level2 K)) (size P : Nat) (hin : ∀ l ∈ l0 :: ls, ∀ y ∈ l.buf, A y)
    (hkeep : ∀ r, CompactRel sec fast m l0 r → cap sec l0 ≤ l0.buf.length → P ≤ r.2.2.buf.length)
    (hP : rank l0.buf x ≤ P) (h0 : ∀ l ∈ ls, rank l.buf x = 0) :
    Partially (compressFrom sec fast m size none (l0 :: ls)) (fun r =>
      ∃ l0' ls', r.2 = l0' :: ls' ∧ rank l0'.buf x = rank l0.buf x ∧ ∀ lv ∈ ls', rank lv.buf x = 0) := by
  rw [compressFrom]
  have e : extend l0 none = l0 := rfl
  rw [e]
  split
  · rename_i hfull
    rw [partially_bind]
    refine (compactLevel_partially _).mono ?_
    rintro ⟨out, u, l2⟩ hr
    have hk := hkeep _ hr hfull
    rw [partially_bind]
    unfold usub
    split
    · rename_i hu
      rw [partially_ret, partially_bind]
      obtain ⟨low, upper, hlow, hp, hs, hul, ho, hc⟩ := hr.split
      have h1 : ∀ y ∈ low ++ upper, A y := fun y hy => hin _ (by simp) y (hp.mem_iff.1 hy)
      obtain ⟨hA1, hA2, hA3⟩ := hA upper out ((List.pairwise_append.1 hs).2.1) (fun y hy => h1 y (by simp [hy])) ho
      simp only [hlow] at hk
      have hrk : rank low x + rank upper x = rank l0.buf x := by
        rw [← (additive_rank x).app]; exact ((additive_rank x).perm _ _ hp)
      have hup : rank upper x = 0 := by
        have := RCSketch.rank_drop_zero hs (x := x) (c := low.length) (by
          rw [(additive_rank x).app]; omega)
        simpa using this
      have houtz : rank out x = 0 := by omega
      refine (compressFrom_zero (additive_rank x) hA ls _ (some out) ?_ ?_).mono ?_
      · cases ls with
        | nil => intro l hl y hy; simp [ext, newLevel] at hl; subst hl; exact hA1 y hy
        | cons a ls =>
          rw [ext_cons]
          intro l' hl' y hy
          rcases List.mem_cons.1 hl' with rfl | hl'
          · simp only [extend, List.mem_append] at hy
            rcases hy with hy | hy
            · exact hin a (by simp) y hy
            · exact hA1 y hy
          · exact hin l' (by simp [hl']) y hy
      · cases ls with
        | nil => intro l hl; simp [ext] at hl; subst hl; exact houtz
        | cons a ls =>
          rw [ext_cons]
          intro l' hl'
          rcases List.mem_cons.1 hl' with rfl | hl'
          · simp only [extend, (additive_rank x).app, houtz, h0 a (by simp)]
          · exact h0 l' (by simp [hl'])
      · intro r hr'
        exact ⟨l2, r.2, rfl, by rw [hlow]; omega, hr'⟩
    · simp
  · rw [partially_bind]
    refine (compressFrom_zero (additive_rank x) hA ls _ none (by rw [ext_none]; exact fun l hl => hin l (by simp [hl]))
      (by rw [ext_none]; exact h0)).mono ?_
    intro r hr'
    exact ⟨l0, r.2, rfl, rfl, hr'⟩

/-! ### Section sizes in exact arithmetic -/

theorem realSec_ok {k : Nat} (hk : 4 ≤ k) : SecOK (realSec k) := by
  constructor
  · intro j hj
    unfold realSec
    rw [Nat.le_sqrt']
    have : 2 ^ j ≤ 2 ^ 4 := Nat.pow_le_pow_right (by norm_num) hj
    have h2 : 4 ^ 2 ≤ k ^ 2 := Nat.pow_le_pow_left hk 2
    rw [Nat.le_div_iff_mul_le (by positivity)]
    omega
  · intro j hj
    unfold realSec
    -- sqrt (4 b) ≤ 2 sqrt b + 1, so compare squares
    set b := k ^ 2 / 2 ^ (j + 1) with hb
    have hab : k ^ 2 / 2 ^ j ≤ 2 * b + 1 := by
      rw [hb, pow_succ 2 j, ← Nat.div_div_eq_div_mul]; omega
    have hb1 : 1 ≤ b := by
      rw [hb, Nat.le_div_iff_mul_le (by positivity)]
      have : 2 ^ (j + 1) ≤ 2 ^ 4 := Nat.pow_le_pow_right (by norm_num) (by omega)
      have h2 : 4 ^ 2 ≤ k ^ 2 := Nat.pow_le_pow_left hk 2
      omega
    have h1 : Nat.sqrt b ≥ 1 := by rw [ge_iff_le, Nat.le_sqrt']; omega
    by_contra hcon
    push Not at hcon
    have h3 : (2 * Nat.sqrt b + 1) ^ 2 ≤ k ^ 2 / 2 ^ j := by rw [← Nat.le_sqrt']; omega
    have h4 : b < (Nat.sqrt b + 1) ^ 2 := Nat.lt_succ_sqrt' b
    nlinarith

/-! ### `add_buffer` is repeated `add` -/

theorem bind_congr_partially {α β : Type} {p : Prog α} {f g : α → Prog β} (h : Partially p (fun a => f a = g a)) :
    p >>= f = p >>= g := by
  induction p with
  | ret a => exact h
  | fail e => rfl
  | flip k ih => 
    rw [bind_flip, bind_flip]
    congr 1
    funext b
    exact ih b (h b)

/-- `insert` for every item in turn. -/
def insertAll2 (sec : Nat → Nat) (fast : Bool) (m : CompactionMethod) : List (Fl K) → RCSketch2 K → Prog (RCSketch2 K)
  | [], s => .ret s
  | x :: xs, s => insert sec fast m x s >>= insertAll2 sec fast m xs

theorem pushLv_append (ls : List (Level2 K)) (xs ys : List (Fl K)) : pushLv (pushLv ls xs) ys = pushLv ls (xs ++ ys) := by
  cases ls <;> simp [pushLv]

theorem capacity_push {s : RCSketch2 K} (xs : List (Fl K)) (n : Nat) :
    capacity sec { s with levels := pushLv s.levels xs, sketchSize := n } = capacity sec s := caps_push _ _

/-- Up to the capacity, inserting one at a time is pushing all and compressing once at the end if full. -/
theorem insertAll2_push (xs : List (Fl K)) : ∀ s : RCSketch2 K, s.levels ≠ [] → s.sketchSize < capacity sec s →
    s.sketchSize + xs.length ≤ capacity sec s →
    insertAll2 sec fast m xs s = pushAll s xs >>= compressIfFull sec fast m := by
  induction xs with
  | nil =>
    intro s hne hlt _
    rw [pushAll_eq hne, bind_ret]
    have e : pushLv s.levels [] = s.levels := by cases s.levels <;> simp [pushLv]
    have : { s with levels := pushLv s.levels [], sketchSize := s.sketchSize + ([] : List (Fl K)).length } = s := by
      rw [e]; rfl
    rw [this]
    unfold compressIfFull
    rw [if_neg (by omega)]; rfl
  | cons x xs ih =>
    intro s hne hlt hle
    rw [insertAll2]
    unfold insert
    rw [pushAll_eq hne, bind_ret]
    cases xs with
    | nil =>
      rw [pushAll_eq hne, bind_ret]
      have : insertAll2 sec fast m ([] : List (Fl K)) = Prog.ret := by funext s; rfl
      rw [this, bind_ret_right]
    | cons y ys =>
      simp only [List.length_cons] at hle
      have hcap := capacity_push (sec := sec) (s := s) [x] (s.sketchSize + [x].length)
      unfold compressIfFull
      rw [if_neg (by rw [hcap]; simp only [List.length_singleton]; omega), bind_ret, ih _ (push_ne hne _)
        (by rw [hcap]; simp only [List.length_singleton]; omega)
        (by rw [hcap]; simp only [List.length_cons, List.length_nil]; omega),
        pushAll_eq (push_ne hne _), bind_ret, pushAll_eq hne, bind_ret]
      simp only [pushLv_append, List.singleton_append, List.length_cons, List.length_nil]
      have e : s.sketchSize + (0 + 1) + (ys.length + 1) = s.sketchSize + (ys.length + 1 + 1) := by omega
      rw [e]
      rfl

theorem insertAll2_append (xs ys : List (Fl K)) : ∀ s : RCSketch2 K,
    insertAll2 sec fast m (xs ++ ys) s = insertAll2 sec fast m xs s >>= insertAll2 sec fast m ys := by
  induction xs with
  | nil => intro s; rfl
  | cons x xs ih =>
    intro s
    rw [List.cons_append, insertAll2, insertAll2, bind_assoc']
    congr 1
    funext s'
    exact ih s'

theorem insertBatchLoop_eq (hs : SecOK sec) (f : Nat) : ∀ (xs : List (Fl K)) (N : Nat) (s : RCSketch2 K), xs.length ≤ f →
    Core sec N s → lens s.levels < caps sec s.levels → insertBatchLoop sec fast m f xs s = insertAll2 sec fast m xs s := by
  induction f with
  | zero =>
    intro xs N s hf hc hlt
    cases xs with
    | nil => rfl
    | cons x xs => simp at hf
  | succ f ih =>
    intro xs N s hf hc hlt
    cases xs with
    | nil => rfl
    | cons x xs =>
      have hsz := hc.size
      have hcap : capacity sec s = caps sec s.levels := rfl
      rw [insertBatchLoop, if_pos (by omega), ← bind_assoc']
      conv_rhs => rw [← List.take_append_drop (capacity sec s - s.sketchSize) (x :: xs), insertAll2_append]
      rw [insertAll2_push _ s hc.ne (by omega) (by rw [List.length_take]; omega)]
      apply bind_congr_partially
      rw [pushAll_eq hc.ne, bind_ret]
      refine (compressIfFull_core hs (core_push hc _) ?_).mono ?_
      · simp only [lens_push hc.ne, caps_push]
        rw [List.length_take]; omega
      · rintro s' ⟨h1, h2⟩
        exact ih _ _ s' (by rw [List.length_drop]; simp only [List.length_cons] at hf ⊢; omega) h1 h2

/-- The count is only written by the outer functions. -/
theorem insert_count (c : Nat) (x : Fl K) (s : RCSketch2 K) :
    insert sec fast m x { s with count := c } = insert sec fast m x s >>= fun s' => .ret { s' with count := c } := by
  unfold insert pushAll
  cases hl : s.levels with
  | nil => rfl
  | cons l ls =>
    simp only [bind_ret]
    unfold compressIfFull capacity
    simp only
    split
    · unfold compress
      simp only [bind_assoc', bind_ret]
    · rfl

theorem insertAll2_count (c : Nat) (xs : List (Fl K)) : ∀ s : RCSketch2 K,
    insertAll2 sec fast m xs { s with count := c } = insertAll2 sec fast m xs s >>= fun s' => .ret { s' with count := c } := by
  induction xs with
  | nil => intro s; rfl
  | cons x xs ih =>
    intro s
    rw [insertAll2, insertAll2, insert_count, bind_assoc', bind_assoc']
    congr 1
    funext s'
    rw [bind_ret, ih]

theorem insert_keeps_count (x : Fl K) (s : RCSketch2 K) : Partially (insert sec fast m x s) (fun s' => s'.count = s.count) := by
  unfold insert pushAll
  cases hl : s.levels with
  | nil => simp
  | cons l ls =>
    simp only [bind_ret]
    unfold compressIfFull
    split
    · unfold compress
      rw [partially_bind]
      exact (partially_true _).mono (fun _ _ => rfl)
    · rfl

theorem addEach_insertAll2 (xs : List (Fl K)) : ∀ s : RCSketch2 K,
    addEach sec s xs = insertAll2 sec false .default xs s >>= fun s' => .ret { s' with count := s.count + xs.length } := by
  induction xs with
  | nil => intro s; rfl
  | cons x xs ih =>
    intro s
    rw [addEach, insertAll2]
    unfold add
    rw [bind_assoc', bind_assoc']
    apply bind_congr_partially
    refine (insert_keeps_count x s).mono ?_
    intro s' hs'
    rw [bind_ret, ih, insertAll2_count, bind_assoc']
    congr 1
    funext s''
    rw [bind_ret, hs']
    simp only [List.length_cons]
    congr 2
    omega

/-- `add_buffer(xs)` is `add` for every item in turn (the same program, coin for coin). -/
theorem addBuffer_eq (hs : SecOK sec) {N : Nat} {s : RCSketch2 K} (hc : Core sec N s) (hlt : lens s.levels < caps sec s.levels)
    (xs : List (Fl K)) : s.addBuffer sec xs = addEach sec s xs := by
  rw [addEach_insertAll2]
  unfold addBuffer insertBatch
  rw [insertBatchLoop_eq hs _ xs N s (le_refl _) hc hlt]
  apply bind_congr_partially
  have : ∀ (xs : List (Fl K)) (s : RCSketch2 K), Partially (insertAll2 sec false .default xs s) (fun s' => s'.count = s.count) := by
    intro xs
    induction xs with
    | nil => intro s; rfl
    | cons x xs ih =>
      intro s
      rw [insertAll2, partially_bind]
      refine (insert_keeps_count x s).mono ?_
      intro s' hs'
      exact (ih s').mono (fun s'' h => h.trans hs')
  refine (this xs s).mono ?_
  intro s' h
  rw [h]

end RCSketch2
end AQ

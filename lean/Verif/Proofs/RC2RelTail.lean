/-
Exponential tails of the rank error of RCSketch2 relative to the rank itself, as for RCSketch in Proofs/RCRelTail.
-/
import Verif.Proofs.RCRelTail
import Verif.Proofs.RC2Tail
import Verif.Proofs.RC2Relative

set_option linter.unusedSectionVars false
set_option linter.unusedVariables false

namespace AQ
open Prog Spec
variable {K : Type} [Field K] [LinearOrder K] [IsStrictOrderedRing K] [FloatFmt K]

/-! ### From exponential moments on calm paths to relative errors -/

section
variable {S : Type} (p : Prog S) (U : Nat → S → Nat) (R : Nat) (hR : 0 < R) (M : Nat) (c : ℝ) (hc : 0 < c)
  (hM : (M : ℝ) ≤ 16 * (R : ℝ) ^ 2 / c)

/-- No level below `h` has seen more than `2R`. -/
def CalmAt (U : Nat → S → Nat) (R h : Nat) (s : S) : Prop := ∀ j < h, U j s ≤ 2 * R

open Classical in
/-- Exponential moments of level `h` on calm paths. -/
def CalmMgf (p : Prog S) (U : Nat → S → Nat) (R M : Nat) : Prop :=
  ∀ (a : ℚ) (σ : ℤ) (h : Nat), 1 ≤ a → |σ| = 1 →
    exp p (fun s => if CalmAt U R h s then a ^ (σ * ((U h s : ℤ) - R)) else 0) ≤ rcosh a ^ M

variable (hmgf : CalmMgf p U R M)
include hR hc hM hmgf

open Classical in
theorem calmAt_tail {σ : ℤ} (hσ : |σ| = 1) (h : Nat) (ε : ℚ) (hε : 0 ≤ ε) :
    ((exp p (fun s => if CalmAt U R h s ∧ ε * R ≤ ((σ * ((U h s : ℤ) - R) : ℤ) : ℚ) then 1 else 0) : ℚ) : ℝ) ≤
      Real.exp (-((ε : ℝ) ^ 2 * c / 32)) := by
  have hRr : (0 : ℝ) < R := by exact_mod_cast hR
  have h1 := tail_on p (CalmAt U R h) (fun s => σ * ((U h s : ℤ) - R)) M _ hM (fun a ha => hmgf a σ h ha hσ) (ε * R) (by positivity)
  have e : (((ε * R : ℚ) : ℝ)) ^ 2 / (2 * (16 * (R : ℝ) ^ 2 / c)) = (ε : ℝ) ^ 2 * c / 32 := by
    push_cast
    rw [mul_pow, div_eq_div_iff (by positivity) (by norm_num)]
    field_simp
    ring
  rw [e] at h1
  exact h1

open Classical in
theorem not_calmAt : ∀ h : Nat, ((exp p (fun s => if CalmAt U R h s then 0 else 1) : ℚ) : ℝ) ≤ h * Real.exp (-(c / 32)) := by
  intro h
  induction h with
  | zero =>
    have : (fun s : S => if CalmAt U R 0 s then (0 : ℚ) else 1) = fun _ => 0 := by
      funext s; rw [if_pos (show CalmAt U R 0 s from fun j hj => absurd hj (by omega))]
    rw [this]
    have hz : exp p (fun _ => (0 : ℚ)) = 0 := by simpa using exp_mul_left p 0 (fun _ => 0)
    rw [hz]; simp
  | succ h ih =>
    have h1 := calmAt_tail p U R hR M c hc hM hmgf (σ := 1) (by simp) h 1 (by norm_num)
    have e : ((1 : ℚ) : ℝ) ^ 2 * c / 32 = c / 32 := by push_cast; ring
    rw [e] at h1
    have h2 : exp p (fun s => if CalmAt U R (h + 1) s then 0 else 1) ≤
        exp p (fun s => if CalmAt U R h s then 0 else 1) +
        exp p (fun s => if CalmAt U R h s ∧ (1 : ℚ) * R ≤ ((1 * ((U h s : ℤ) - R) : ℤ) : ℚ) then 1 else 0) := by
      rw [← exp_add]
      refine exp_mono ((partially_true _).mono (fun s _ => ?_))
      by_cases c1 : CalmAt U R h s
      · by_cases c2 : U h s ≤ 2 * R
        · have c3 : CalmAt U R (h + 1) s := by
            intro j hj
            rcases Nat.lt_or_ge j h with hj' | hj'
            · exact c1 j hj'
            · obtain rfl : j = h := by omega
              exact c2
          rw [if_pos c3, if_pos c1]
          split <;> norm_num
        · have c4 : (1 : ℚ) * R ≤ ((1 * ((U h s : ℤ) - R) : ℤ) : ℚ) := by
            have : (R : ℤ) ≤ 1 * ((U h s : ℤ) - R) := by omega
            rw [one_mul]
            exact_mod_cast this
          rw [if_neg (show ¬CalmAt U R (h + 1) s from fun c => c2 (c h (by omega))), if_pos c1, if_pos (And.intro c1 c4)]
          norm_num
      · rw [if_neg c1]
        split <;> split <;> norm_num
    have h3 : ((exp p (fun s => if CalmAt U R (h + 1) s then 0 else 1) : ℚ) : ℝ) ≤
        ((exp p (fun s => if CalmAt U R h s then 0 else 1) : ℚ) : ℝ) +
        ((exp p (fun s => if CalmAt U R h s ∧ (1 : ℚ) * R ≤ ((1 * ((U h s : ℤ) - R) : ℤ) : ℚ) then 1 else 0) : ℚ) : ℝ) := by
      exact_mod_cast h2
    push_cast
    linarith

open Classical in
/-- If the estimate `E` is `U H`, its error relative to `R` has exponential tails. -/
theorem calm_relative (E : S → Nat) (H : Nat) (hE : Partially p (fun s => U H s = E s)) (ε : ℚ) (hε : 0 ≤ ε) :
    ((exp p (fun s => if ε * R ≤ |(E s : ℚ) - R| then 1 else 0) : ℚ) : ℝ) ≤
      2 * Real.exp (-((ε : ℝ) ^ 2 * c / 32)) + H * Real.exp (-(c / 32)) := by
  have h1 := calmAt_tail p U R hR M c hc hM hmgf (σ := 1) (by simp) H ε hε
  have h2 := calmAt_tail p U R hR M c hc hM hmgf (σ := -1) (by simp) H ε hε
  have h3 := not_calmAt p U R hR M c hc hM hmgf H
  have h4 : exp p (fun s => if ε * R ≤ |(E s : ℚ) - R| then 1 else 0) ≤
      exp p (fun s => if CalmAt U R H s ∧ ε * R ≤ ((1 * ((U H s : ℤ) - R) : ℤ) : ℚ) then 1 else 0) +
      (exp p (fun s => if CalmAt U R H s ∧ ε * R ≤ ((-1 * ((U H s : ℤ) - R) : ℤ) : ℚ) then 1 else 0) +
      exp p (fun s => if CalmAt U R H s then 0 else 1)) := by
    rw [← exp_add, ← exp_add]
    refine exp_mono (hE.mono (fun s hs => ?_))
    rw [← hs]
    generalize U H s = w
    by_cases c1 : CalmAt U R H s
    · rw [if_pos c1]
      split
      · rename_i h
        rcases le_abs.1 h with h | h
        · rw [if_pos ⟨c1, by push_cast; linarith⟩]
          split <;> norm_num
        · have h6 : CalmAt U R H s ∧ ε * (R : ℚ) ≤ ((-1 * ((w : ℤ) - R) : ℤ) : ℚ) := ⟨c1, by push_cast; linarith⟩
          rw [if_pos h6]
          split <;> norm_num
      · split <;> split <;> norm_num
    · rw [if_neg c1]
      split <;> split <;> split <;> norm_num
  have h5 : ((exp p (fun s => if ε * R ≤ |(E s : ℚ) - R| then 1 else 0) : ℚ) : ℝ) ≤
      ((exp p (fun s => if CalmAt U R H s ∧ ε * R ≤ ((1 * ((U H s : ℤ) - R) : ℤ) : ℚ) then 1 else 0) : ℚ) : ℝ) +
      (((exp p (fun s => if CalmAt U R H s ∧ ε * R ≤ ((-1 * ((U H s : ℤ) - R) : ℤ) : ℚ) then 1 else 0) : ℚ) : ℝ) +
      ((exp p (fun s => if CalmAt U R H s then 0 else 1) : ℚ) : ℝ)) := by
    exact_mod_cast h4
  linarith
end

namespace RCSketch2
open RCSketch (everyOther_rank everyOther_sum GoodFor goodFor_default)
variable {sec : Nat → Nat} {fast : Bool}

theorem rank_flip_oddZ (upper : List (Fl K)) (hs : upper.Pairwise (· ≤ ·)) (x : Fl K) :
    2 * (rank (everyOther false upper) x : ℤ) = rank upper x + (rank upper x % 2 : Nat) ∧
      2 * (rank (everyOther true upper) x : ℤ) = rank upper x - (rank upper x % 2 : Nat) := by
  obtain ⟨⟨h1, h2⟩, h3, h4⟩ := everyOther_rank hs x
  have h5 : rank (everyOther false upper) x + rank (everyOther true upper) x = rank upper x := by
    unfold rank; exact everyOther_sum _ upper
  constructor <;> omega

/-- Potential of the exponential moments below level `d` (`none`: the level has been passed): offset, level, variance so far. -/
def relPot (a : ℚ) (σ : ℤ) (x : Fl K) : ℤ × Nat × Nat × Option Nat → List (Level2 K) → ℚ
  | (z, h, v, none), _ => a ^ (σ * z) / rcosh a ^ v
  | (z, h, v, some d), ls => a ^ (σ * (z + 2 ^ h * (U2 x d ls : ℤ))) / rcosh a ^ (v + 4 ^ h * V2 x d ls)

def relStep (x : Fl K) : ℤ × Nat × Nat × Option Nat → Level2 K → ℤ × Nat × Nat × Option Nat
  | (z, h, v, none), _ => (z, h, v, none)
  | (z, h, v, some 0), l => (z + 2 ^ h * (rank l.buf x + moved2 x l.log : Nat), h, v, none)
  | (z, h, v, some (d + 1)), l => (z + 2 ^ h * rank l.buf x, h + 1, v + 4 ^ h * odd2 x l.log, some d)

theorem rel_cons (a : ℚ) (σ : ℤ) (x : Fl K) (s : ℤ × Nat × Nat × Option Nat) (l : Level2 K) (ls : List (Level2 K)) :
    relPot a σ x s (l :: ls) = relPot a σ x (relStep x s l) ls := by
  obtain ⟨z, h, v, d⟩ := s
  rcases d with - | d
  · rfl
  · cases d with
    | zero => simp [relPot, relStep, U2, V2]
    | succ d =>
      simp only [relPot, relStep, U2, V2]
      congr 2
      · push_cast; ring
      · ring

theorem compress_rel (hs : SecOK sec) {G : Fl K → Prop} (hG : GoodFor G .default) (x : Fl K) {a : ℚ} (ha : 1 ≤ a) {σ : ℤ} (hσ : |σ| = 1)
    (ls : List (Level2 K)) (size N : Nat) (z : ℤ) (d : Nat) (h : Ok G size N ls) :
    exp (compressFrom sec fast .default size none ls) (fun r => a ^ (σ * (z + (U2 x d r.2 : ℤ))) / rcosh a ^ V2 x d r.2) ≤
      a ^ (σ * (z + (U2 x d ls : ℤ))) / rcosh a ^ V2 x d ls := by
  have ha0 : 0 < a := by linarith
  have hc0 : 0 < rcosh a := lt_of_lt_of_le zero_lt_one (one_le_rcosh ha0)
  have := compress_super (fast := fast) hs hG (relPot a σ x) (relStep x) (rel_cons a σ x) ?_ ls size N none (z, 0, 0, some d)
    (by simpa using h)
  · simpa [relPot] using this
  · intro s size N l ls hok hfull
    obtain ⟨low, upper, l2, hp, hsrt, hlow, -, hlog, he⟩ := compactLevel_flip (fast := fast) hs hG hok hfull
    have hr := rank_perm_split hp x
    rw [he, exp_flip, rel_cons]
    simp only [exp_ret]
    obtain ⟨z, h, v, d⟩ := s
    rcases d with - | d
    · simp [relPot, relStep]
    · cases d with
      | zero =>
        have e : rank l2.buf x + moved2 x l2.log = rank l.buf x + moved2 x l.log := by
          rw [hlow, hlog, hr]; simp only [moved2, List.map_cons, List.sum_cons]; omega
        simp only [relPot, relStep, e]
        apply le_of_eq; ring
      | succ d =>
        obtain ⟨h0, h1⟩ := rank_flip_oddZ upper hsrt x
        have e3 : odd2 x l2.log = rank upper x % 2 + odd2 x l.log := by rw [hlog]; simp [odd2]
        simp only [relPot, relStep, U2_ext, V2_ext, e3, hlow, hr]
        have key : (a ^ (σ * (2 ^ h * (rank upper x % 2 : Nat) : ℤ)) + a ^ (-(σ * (2 ^ h * (rank upper x % 2 : Nat) : ℤ)))) / 2 ≤
            rcosh a ^ (4 ^ h * (rank upper x % 2)) := by
          rcases Nat.mod_two_eq_zero_or_one (rank upper x) with h2 | h2
          · rw [h2]; simp
          · rw [h2, Nat.mul_one]
            refine zpow_sym_le ha ?_
            rw [abs_mul, hσ, one_mul]
            simp
        generalize rank upper x % 2 = o at *
        push_cast
        generalize (U2 x d ls : ℤ) = w at *
        generalize V2 x d ls = q
        have e0 : σ * (z + 2 ^ h * (rank low x : ℤ) + 2 ^ (h + 1) * (w + (rank (everyOther false upper) x : ℤ))) =
            σ * (z + 2 ^ h * ((rank low x : ℤ) + rank upper x) + 2 ^ (h + 1) * w) + σ * (2 ^ h * (o : ℤ)) := by
          have : (2 : ℤ) ^ (h + 1) * (rank (everyOther false upper) x : ℤ) = 2 ^ h * (rank upper x + o) := by rw [← h0]; ring
          rw [mul_add ((2 : ℤ) ^ (h + 1)), this]; ring
        have e1 : σ * (z + 2 ^ h * (rank low x : ℤ) + 2 ^ (h + 1) * (w + (rank (everyOther true upper) x : ℤ))) =
            σ * (z + 2 ^ h * ((rank low x : ℤ) + rank upper x) + 2 ^ (h + 1) * w) + -(σ * (2 ^ h * (o : ℤ))) := by
          have : (2 : ℤ) ^ (h + 1) * (rank (everyOther true upper) x : ℤ) = 2 ^ h * (rank upper x - o) := by rw [← h1]; ring
          rw [mul_add ((2 : ℤ) ^ (h + 1)), this]; ring
        have e2 : v + 4 ^ h * (o + odd2 x l.log) + 4 ^ (h + 1) * q = (v + 4 ^ h * odd2 x l.log + 4 ^ (h + 1) * q) + 4 ^ h * o := by ring
        rw [e0, e1, e2, zpow_add₀ ha0.ne', zpow_add₀ ha0.ne', pow_add (rcosh a)]
        have hA : 0 < a ^ (σ * (z + 2 ^ h * ((rank low x : ℤ) + rank upper x) + 2 ^ (h + 1) * w)) := zpow_pos ha0 _
        generalize a ^ (σ * (z + 2 ^ h * ((rank low x : ℤ) + rank upper x) + 2 ^ (h + 1) * w)) = A at *
        have h4 : 0 < rcosh a ^ (4 ^ h * o) := by positivity
        have hq : 0 < rcosh a ^ (v + 4 ^ h * odd2 x l.log + 4 ^ (h + 1) * q) := by positivity
        generalize rcosh a ^ (4 ^ h * o) = C at *
        generalize rcosh a ^ (v + 4 ^ h * odd2 x l.log + 4 ^ (h + 1) * q) = D at *
        generalize a ^ (σ * (2 ^ h * (o : ℤ))) = y at *
        generalize a ^ (-(σ * (2 ^ h * (o : ℤ)))) = y' at *
        have : (A * y / (D * C) + A * y' / (D * C)) / 2 = A * ((y + y') / 2) / (D * C) := by ring
        rw [this, div_le_div_iff₀ (by positivity) hq]
        have := mul_le_mul_of_nonneg_left key (mul_nonneg hA.le hq.le)
        nlinarith

theorem rel_super2 (hs : SecOK sec) (x : Fl K) {a : ℚ} (ha : 1 ≤ a) {σ : ℤ} (hσ : |σ| = 1) (d : Nat) :
    Super2 (K := K) sec (· ≠ .nan) (fun _ m => m = .default)
    (fun l ls => a ^ (σ * ((U2 x d ls : ℤ) - rank l x)) / rcosh a ^ V2 x d ls) where
  good fast m hm := hm ▸ goodFor_default (fun _ h => h)
  push l ls xs hne := by
    rw [(U2_push x d hne xs).1, (U2_push x d hne xs).2, RCSketch.rank_append]; push_cast; apply le_of_eq; congr 2; ring
  comp l ls size N fast m hm h := by
    subst hm
    have := compress_rel (fast := fast) hs (goodFor_default (fun _ h => h)) x ha hσ ls size N (- rank l x) d h
    have e : ∀ w : ℤ, w - rank l x = - rank l x + w := by intro w; ring
    simp only [e]; exact this

/-- The variance accumulated below level `d` while no level below has seen more than `X`. -/
theorem V2_good {P : Nat} {x : Fl K} : ∀ (d : Nat) (ls : List (Level2 K)) (X : Nat), (∀ l ∈ ls, Keep P x l) →
    (∀ j < d, U2 x j ls ≤ X) → ∃ S, (S = 0 ∨ S + P ≤ 2 * X) ∧ P * V2 x d ls ≤ X * S := by
  intro d
  induction d with
  | zero => intro ls X _ _; exact ⟨0, Or.inl rfl, by cases ls <;> simp [V2]⟩
  | succ d ih =>
    intro ls X hk hU
    cases ls with
    | nil => exact ⟨0, Or.inl rfl, by simp [V2]⟩
    | cons l ls =>
      obtain ⟨S, h1, h2⟩ := ih ls (X / 2) (fun l hl => hk l (by simp [hl])) (fun j hj => by
        have := hU (j + 1) (by omega)
        simp only [U2] at this
        omega)
      have h3 := hU 0 (by omega)
      simp only [U2] at h3
      have h4 := odd2_le_moved x l.log
      have h5 : ∃ P', (P' = 0 ∨ (P' = P ∧ P ≤ X)) ∧ P * odd2 x l.log ≤ X * P' := by
        rcases Nat.eq_zero_or_pos (odd2 x l.log) with h0 | h0
        · exact ⟨0, Or.inl rfl, by rw [h0]; simp⟩
        · have := (hk l (by simp)).1 (by omega)
          refine ⟨P, Or.inr ⟨rfl, by omega⟩, ?_⟩
          rw [Nat.mul_comm X]
          exact Nat.mul_le_mul_left _ (by omega)
      obtain ⟨P', h5, h6⟩ := h5
      refine ⟨P' + 2 * S, by omega, ?_⟩
      simp only [V2]
      have h7 : 4 * (P * V2 x d ls) ≤ X * (2 * S) := by
        calc 4 * (P * V2 x d ls) ≤ 4 * (X / 2 * S) := Nat.mul_le_mul_left _ h2
          _ = (2 * (X / 2)) * (2 * S) := by ring
          _ ≤ X * (2 * S) := Nat.mul_le_mul_right _ (by omega)
      rw [Nat.mul_add, Nat.mul_add, Nat.mul_left_comm P 4]
      omega

open Classical in
/-- Relative error of the stored rank. -/
theorem relative_tail2 {w c M : Nat} (hs : SecOK sec) (hw : ∀ j, j ≤ 4 → w ≤ sec j) (hc : c ≤ 6 * sec 0) (k : Nat)
    (ops : List (InsOp K)) (hm : ∀ o ∈ ops, o.method = .default) (hlen : (insItems ops).length < 2 ^ 32)
    (hnan : ∀ y ∈ insItems ops, y ≠ .nan) (x : Fl K)
    (hL : Partially (runHist sec k ops) (fun s => s.levels.length ≤ M + 1)) (hR : 0 < rank (insItems ops) x) (ε : ℚ) (hε : 0 ≤ ε) :
    ((exp (runHist sec k ops) (fun s => if ε * rank (insItems ops) x ≤ |(weightedRank s.buffers x : ℚ) - rank (insItems ops) x|
        then 1 else 0) : ℚ) : ℝ) ≤
      2 * Real.exp (-((ε : ℝ) ^ 2 * (6 * sec 0) / 32)) + M * Real.exp (-((6 * sec 0 : ℝ) / 32)) := by
  have h0 : 0 < sec 0 := hs.one 0 (by omega)
  have h0r : (0 : ℝ) < sec 0 := by exact_mod_cast h0
  have hkeep := hist2_partially (keep_hist (K := K) hs x) k ops (fun _ _ => trivial)
    ⟨by simp [lvlOK_new], by intro l hl; simp at hl; subst hl; exact ⟨by simp [newLevel, moved2], by simp [newLevel]⟩⟩
  have hgeo := hist2_partially (geoC_hist (K := K) (w := w) (c := c) hs hw hc) k ops (fun _ _ => trivial)
    ⟨by simp [lvlOK_new], 0, 0, by simp [newLevel], by simp [newLevel], by simp, by simp, by simp [newLevel], trivial⟩
  refine calm_relative (runHist sec k ops) (fun d s => U2 x d s.levels) (rank (insItems ops) x) hR
    (16 * rank (insItems ops) x ^ 2 / (6 * sec 0)) _ (by positivity) ?_ ?_ (fun s => weightedRank s.buffers x) M ?_ ε hε
  · refine le_trans Nat.cast_div_le (le_of_eq ?_)
    push_cast; rfl
  · intro a σ d ha hσ
    have ha0 : 0 < a := by linarith
    have hc1 := one_le_rcosh ha0
    have hc0 : 0 < rcosh a := lt_of_lt_of_le zero_lt_one hc1
    have h1 := hist2_exp hs (rel_super2 hs x ha hσ d) k ops (fun o ho => hm o ho) hlen hnan
    have e0 : a ^ (σ * ((U2 x d [newLevel ([] : List (Fl K))] : ℤ) - rank ([] : List (Fl K)) x)) /
        rcosh a ^ V2 x d [newLevel ([] : List (Fl K))] = 1 := by
      cases d <;> simp [U2, V2, newLevel, rank, moved2, odd2]
    rw [e0] at h1
    generalize rank (insItems ops) x = R at *
    have h2 : exp (runHist sec k ops) (fun s => (rcosh a ^ (16 * R ^ 2 / (6 * sec 0)))⁻¹ *
        (if CalmAt (fun d s => U2 x d s.levels) R d s then a ^ (σ * ((U2 x d s.levels : ℤ) - R)) else 0)) ≤ 1 := by
      refine le_trans (exp_mono (hkeep.mono ?_)) h1
      rintro s ⟨-, -, hk⟩
      split
      · rename_i hcalm
        obtain ⟨S, s1, s2⟩ := V2_good d s.levels (2 * R) hk hcalm
        rw [mul_comm, ← div_eq_mul_inv]
        refine div_le_div_of_nonneg_left (zpow_pos ha0 _).le (by positivity) (pow_le_pow_right₀ hc1 ?_)
        rw [Nat.le_div_iff_mul_le (by omega)]
        have s3 : S ≤ 4 * R := by omega
        calc V2 x d s.levels * (6 * sec 0) = 2 * (3 * sec 0 * V2 x d s.levels) := by ring
          _ ≤ 2 * (2 * R * S) := Nat.mul_le_mul_left _ s2
          _ ≤ 2 * (2 * R * (4 * R)) := Nat.mul_le_mul_left _ (Nat.mul_le_mul_left _ s3)
          _ = 16 * R ^ 2 := by ring
      · rw [mul_zero]
        have := zpow_pos ha0 (σ * ((U2 x d s.levels : ℤ) - R))
        positivity
    rw [exp_mul_left, inv_mul_le_iff₀ (by positivity), mul_one] at h2
    convert h2
  · refine (hL.and (hkeep.and hgeo)).mono ?_
    rintro s ⟨h1, ⟨-, -, h2⟩, -, -, h3⟩
    show U2 x M s.levels = _
    rw [U2_top M s.levels _ h3 h2 h1]
    simp [Wt, weightedRank, RCSketch2.buffers, Function.comp_def]

end RCSketch2
end AQ

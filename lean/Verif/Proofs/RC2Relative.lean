/-
Error of `RCSketch2` relative to the rank itself: only compactions that move an odd number of items `≤ x` change the estimated rank of
`x`, and a level that moves items `≤ x` keeps at least `3 sec 0` of them.
-/
import Verif.Proofs.RC2Rank
import Verif.Proofs.RCRelative

set_option linter.unusedSectionVars false
set_option linter.unusedVariables false

namespace AQ
open Prog Spec
variable {K : Type} [Field K] [LinearOrder K] [IsStrictOrderedRing K] [FloatFmt K]

namespace RCSketch2
open RCSketch (everyOther_length_eq averagePairs_length everyOther_rank everyOther_sum GoodFor goodFor_default)
variable {sec : Nat → Nat} {fast : Bool} {m : CompactionMethod}

/-- Items `≤ x` moved by the compactions of a level. -/
def moved2 (x : Fl K) (log : List (List (Fl K))) : Nat := (log.map (fun u => rank u x)).sum

/-- Compactions of a level that moved an odd number of items `≤ x`. -/
def odd2 (x : Fl K) (log : List (List (Fl K))) : Nat := (log.map (fun u => rank u x % 2)).sum

theorem odd2_le_moved (x : Fl K) (log : List (List (Fl K))) : odd2 x log ≤ moved2 x log := by
  induction log with
  | nil => simp [odd2, moved2]
  | cons u log ih => simp only [odd2, moved2, List.map_cons, List.sum_cons] at ih ⊢; omega

/-- The estimated rank that ignores the compactions from level `d` on. -/
def U2 (x : Fl K) : Nat → List (Level2 K) → Nat
  | _, [] => 0
  | 0, l :: _ => rank l.buf x + moved2 x l.log
  | d + 1, l :: ls => rank l.buf x + 2 * U2 x d ls

/-- `Σ 4^i` over the odd compactions below level `d`. -/
def V2 (x : Fl K) : Nat → List (Level2 K) → Nat
  | _, [] => 0
  | 0, _ => 0
  | d + 1, l :: ls => odd2 x l.log + 4 * V2 x d ls

theorem U2_ext (x : Fl K) (d : Nat) (out : List (Fl K)) (ls : List (Level2 K)) :
    U2 x d (ext (some out) ls) = U2 x d ls + rank out x := by
  cases ls with
  | nil => cases d <;> simp [ext, U2, newLevel, moved2]
  | cons l ls =>
    rw [ext_cons]
    cases d <;> simp only [U2, extend, RCSketch.rank_append] <;> omega

theorem V2_ext (x : Fl K) (d : Nat) (out : List (Fl K)) (ls : List (Level2 K)) : V2 x d (ext (some out) ls) = V2 x d ls := by
  cases ls with
  | nil => cases d <;> simp [ext, V2, newLevel, odd2]
  | cons l ls =>
    rw [ext_cons]
    cases d <;> simp [V2, extend]

theorem U2_push (x : Fl K) (d : Nat) {ls : List (Level2 K)} (h : ls ≠ []) (xs : List (Fl K)) :
    U2 x d (pushLv ls xs) = U2 x d ls + rank xs x ∧ V2 x d (pushLv ls xs) = V2 x d ls := by
  cases ls with
  | nil => exact absurd rfl h
  | cons l ls => cases d <;> simp only [pushLv, U2, V2, RCSketch.rank_append] <;> constructor <;> first | omega | trivial

/-- One compaction: an odd number of moved items `≤ x` costs `±1`, an even number nothing. -/
theorem rank_flip_odd (upper : List (Fl K)) (hs : upper.Pairwise (· ≤ ·)) (x : Fl K) :
    ∃ ε : ℚ, ε ^ 2 = (rank upper x % 2 : Nat) ∧ 2 * (rank (everyOther false upper) x : ℚ) = rank upper x + ε ∧
      2 * (rank (everyOther true upper) x : ℚ) = rank upper x - ε := by
  obtain ⟨⟨h1, h2⟩, h3, h4⟩ := everyOther_rank hs x
  have h5 : rank (everyOther false upper) x + rank (everyOther true upper) x = rank upper x := by
    unfold rank; exact everyOther_sum _ upper
  refine ⟨(rank upper x % 2 : Nat), ?_, ?_, ?_⟩
  · rcases Nat.mod_two_eq_zero_or_one (rank upper x) with h | h <;> rw [h] <;> norm_num
  · have : 2 * rank (everyOther false upper) x = rank upper x + rank upper x % 2 := by omega
    exact_mod_cast this
  · have : 2 * rank (everyOther true upper) x + rank upper x % 2 = rank upper x := by omega
    have h6 : 2 * (rank (everyOther true upper) x : ℚ) + (rank upper x % 2 : Nat) = rank upper x := by exact_mod_cast this
    linarith

/-- Potential of the variance below level `d` (`none`: the level has been passed). -/
def psi2 (x : Fl K) : ℚ × ℚ × ℚ × Option Nat → List (Level2 K) → ℚ
  | (a, c, v, none), _ => a ^ 2 - v
  | (a, c, v, some d), ls => (a + c * U2 x d ls) ^ 2 - c ^ 2 * V2 x d ls - v

def psiStep (x : Fl K) : ℚ × ℚ × ℚ × Option Nat → Level2 K → ℚ × ℚ × ℚ × Option Nat
  | (a, c, v, none), _ => (a, c, v, none)
  | (a, c, v, some 0), l => (a + c * (rank l.buf x + moved2 x l.log : Nat), c, v, none)
  | (a, c, v, some (d + 1)), l => (a + c * rank l.buf x, 2 * c, v + c ^ 2 * odd2 x l.log, some d)

theorem psi_cons (x : Fl K) (s : ℚ × ℚ × ℚ × Option Nat) (l : Level2 K) (ls : List (Level2 K)) :
    psi2 x s (l :: ls) = psi2 x (psiStep x s l) ls := by
  obtain ⟨a, c, v, d⟩ := s
  rcases d with - | d
  · rfl
  · cases d with
    | zero => simp [psi2, psiStep, U2, V2]
    | succ d => simp only [psi2, psiStep, U2, V2]; push_cast; ring

theorem rank_perm_split {l : Level2 K} {low upper : List (Fl K)} (hp : (low ++ upper).Perm l.buf) (x : Fl K) :
    rank l.buf x = rank low x + rank upper x := by
  rw [← (additive_rank x).app]; exact ((additive_rank x).perm _ _ hp).symm

theorem compress_psi (hs : SecOK sec) {G : Fl K → Prop} (hG : GoodFor G .default) (x : Fl K) (ls : List (Level2 K)) (size N : Nat)
    (a : ℚ) (d : Nat) (h : Ok G size N ls) :
    exp (compressFrom sec fast .default size none ls) (fun r => (a + U2 x d r.2 : ℚ) ^ 2 - V2 x d r.2) ≤
      (a + U2 x d ls) ^ 2 - V2 x d ls := by
  have := compress_super (fast := fast) hs hG (psi2 x) (psiStep x) (psi_cons x) ?_ ls size N none (a, 1, 0, some d)
    (by simpa using h)
  · simpa [psi2] using this
  · intro s size N l ls hok hfull
    obtain ⟨low, upper, l2, hp, hsrt, hlow, -, hlog, he⟩ := compactLevel_flip (fast := fast) hs hG hok hfull
    have hr := rank_perm_split hp x
    rw [he, exp_flip, psi_cons]
    simp only [exp_ret]
    obtain ⟨a, c, v, d⟩ := s
    rcases d with - | d
    · simp [psi2, psiStep]
    · cases d with
      | zero =>
        have e : rank l2.buf x + moved2 x l2.log = rank l.buf x + moved2 x l.log := by
          rw [hlow, hlog, hr]; simp only [moved2, List.map_cons, List.sum_cons]; omega
        simp only [psi2, psiStep, e]
        apply le_of_eq; ring
      | succ d =>
        obtain ⟨ε, hε, h0, h1⟩ := rank_flip_odd upper hsrt x
        have e3 : odd2 x l2.log = rank upper x % 2 + odd2 x l.log := by rw [hlog]; simp [odd2]
        simp only [psi2, psiStep, U2_ext, V2_ext, e3, hlow, hr]
        have e0 : (rank (everyOther false upper) x : ℚ) = (rank upper x + ε) / 2 := by linarith
        have e1 : (rank (everyOther true upper) x : ℚ) = (rank upper x - ε) / 2 := by linarith
        have e4 : ((rank upper x % 2 + odd2 x l.log : Nat) : ℚ) = ε ^ 2 + odd2 x l.log := by rw [hε]; push_cast; ring
        rw [e4]
        push_cast
        rw [e0, e1]
        apply le_of_eq
        ring

/-- Potential of the mean. -/
def mu2 (x : Fl K) : ℚ × ℚ × Option Nat → List (Level2 K) → ℚ
  | (a, c, none), _ => a
  | (a, c, some d), ls => a + c * U2 x d ls

def muStep (x : Fl K) : ℚ × ℚ × Option Nat → Level2 K → ℚ × ℚ × Option Nat
  | (a, c, none), _ => (a, c, none)
  | (a, c, some 0), l => (a + c * (rank l.buf x + moved2 x l.log : Nat), c, none)
  | (a, c, some (d + 1)), l => (a + c * rank l.buf x, 2 * c, some d)

theorem mu_cons (x : Fl K) (s : ℚ × ℚ × Option Nat) (l : Level2 K) (ls : List (Level2 K)) :
    mu2 x s (l :: ls) = mu2 x (muStep x s l) ls := by
  obtain ⟨a, c, d⟩ := s
  rcases d with - | d
  · rfl
  · cases d with
    | zero => simp [mu2, muStep, U2]
    | succ d => simp only [mu2, muStep, U2]; push_cast; ring

theorem compress_mu (hs : SecOK sec) {G : Fl K → Prop} (hG : GoodFor G .default) (x : Fl K) (ls : List (Level2 K)) (size N : Nat)
    (a c : ℚ) (d : Nat) (h : Ok G size N ls) :
    exp (compressFrom sec fast .default size none ls) (fun r => a + c * (U2 x d r.2 : ℚ)) ≤ a + c * U2 x d ls := by
  have := compress_super (fast := fast) hs hG (mu2 x) (muStep x) (mu_cons x) ?_ ls size N none (a, c, some d)
    (by simpa using h)
  · simpa [mu2] using this
  · intro s size N l ls hok hfull
    obtain ⟨low, upper, l2, hp, hsrt, hlow, -, hlog, he⟩ := compactLevel_flip (fast := fast) hs hG hok hfull
    have hr := rank_perm_split hp x
    rw [he, exp_flip, mu_cons]
    simp only [exp_ret]
    obtain ⟨a, c, d⟩ := s
    rcases d with - | d
    · simp [mu2, muStep]
    · cases d with
      | zero =>
        have e : rank l2.buf x + moved2 x l2.log = rank l.buf x + moved2 x l.log := by
          rw [hlow, hlog, hr]; simp only [moved2, List.map_cons, List.sum_cons]; omega
        simp only [mu2, muStep, e]
        apply le_of_eq; ring
      | succ d =>
        obtain ⟨ε, hε, h0, h1⟩ := rank_flip_odd upper hsrt x
        simp only [mu2, muStep, U2_ext, hlow, hr]
        have e0 : (rank (everyOther false upper) x : ℚ) = (rank upper x + ε) / 2 := by linarith
        have e1 : (rank (everyOther true upper) x : ℚ) = (rank upper x - ε) / 2 := by linarith
        push_cast
        rw [e0, e1]
        apply le_of_eq
        ring

theorem mu_super2 (hs : SecOK sec) (x : Fl K) (d : Nat) : Super2 (K := K) sec (· ≠ .nan) (fun _ m => m = .default)
    (fun l ls => (U2 x d ls : ℚ) - rank l x) where
  good fast m hm := hm ▸ goodFor_default (fun _ h => h)
  push l ls xs hne := by
    rw [(U2_push x d hne xs).1, RCSketch.rank_append]; push_cast; apply le_of_eq; ring
  comp l ls size N fast m hm h := by
    subst hm
    have := compress_mu (fast := fast) hs (goodFor_default (fun _ h => h)) x ls size N (- rank l x) 1 d h
    have e : ∀ w : ℚ, w - rank l x = - rank l x + 1 * w := by intro w; ring
    simp only [e]; exact this

theorem psi_super2 (hs : SecOK sec) (x : Fl K) (d : Nat) : Super2 (K := K) sec (· ≠ .nan) (fun _ m => m = .default)
    (fun l ls => ((U2 x d ls : ℚ) - rank l x) ^ 2 - V2 x d ls) where
  good fast m hm := hm ▸ goodFor_default (fun _ h => h)
  push l ls xs hne := by
    rw [(U2_push x d hne xs).1, (U2_push x d hne xs).2, RCSketch.rank_append]; push_cast; apply le_of_eq; ring
  comp l ls size N fast m hm h := by
    subst hm
    have := compress_psi (fast := fast) hs (goodFor_default (fun _ h => h)) x ls size N (- rank l x) d h
    have e : ∀ w : ℚ, w - rank l x = - rank l x + w := by intro w; ring
    simp only [e]; exact this

/-! ### The price of an odd compaction -/

/-- A level that has moved items `≤ x` keeps at least `P` of them; only levels with a compaction have moved any. -/
def Keep (P : Nat) (x : Fl K) (l : Level2 K) : Prop :=
  (moved2 x l.log ≠ 0 → P ≤ rank l.buf x) ∧ (l.compactions = 0 → l.log = [])

theorem keep_extend {P : Nat} {x : Fl K} {l : Level2 K} (h : Keep P x l) (out : List (Fl K)) : Keep P x { l with buf := l.buf ++ out } :=
  ⟨fun hm => by have := h.1 hm; simp only [RCSketch.rank_append]; omega, h.2⟩

theorem keep_ext {P : Nat} {x : Fl K} {ls : List (Level2 K)} (h : ∀ l ∈ ls, Keep P x l) (out : List (Fl K)) :
    ∀ l ∈ ext (some out) ls, Keep P x l := by
  cases ls with
  | nil => intro l hl; simp [ext] at hl; subst hl; exact ⟨by simp [newLevel, moved2], by simp [newLevel]⟩
  | cons a ls =>
    rw [ext_cons]
    intro l hl
    rcases List.mem_cons.1 hl with rfl | hl
    · exact keep_extend (h a (by simp)) out
    · exact h l (by simp [hl])

theorem CompactRel.splitLog {l : Level2 K} {out : List (Fl K)} {u : Nat} {l2 : Level2 K}
    (h : CompactRel sec fast m l (out, u, l2)) :
    ∃ low upper, l2.buf = low ∧ (low ++ upper).Perm l.buf ∧ (low ++ upper).Pairwise (· ≤ ·) ∧ l2.log = upper :: l.log := by
  obtain ⟨ci, c, out', hi, hci, hn, ho, he⟩ := h
  simp only [Prod.mk.injEq] at he
  obtain ⟨rfl, rfl, rfl⟩ := he
  refine ⟨(sorted id l.buf).take ci, (sorted id l.buf).drop ci, ?_, ?_, ?_, ?_⟩
  · unfold updateSections; split <;> rfl
  · rw [List.take_append_drop]; exact sorted_perm id _
  · rw [List.take_append_drop]; exact sorted_pairwise id _
  · unfold updateSections; split <;> rfl

/-- When some of the removed part is `≤ x`, all of the kept part is. -/
theorem rank_low_full {low upper : List (Fl K)} (hs : (low ++ upper).Pairwise (· ≤ ·)) {x : Fl K} (h : rank upper x ≠ 0) :
    rank low x = low.length := by
  obtain ⟨y, hy, hyx⟩ := List.countP_pos_iff.1 (Nat.pos_of_ne_zero h)
  refine List.countP_eq_length.2 (fun z hz => ?_)
  have : z ≤ y := (List.pairwise_append.1 hs).2.2 z hz y hy
  simp only [decide_eq_true_eq] at hyx ⊢
  exact this.trans hyx

theorem CompactRel.keep (hs : SecOK sec) {x : Fl K} {l l2 : Level2 K} {out : List (Fl K)} {u : Nat}
    (hr : CompactRel sec fast m l (out, u, l2)) (hl : LvlOK l) (hfull : cap sec l ≤ l.buf.length) (h : Keep (3 * sec 0) x l) :
    Keep (3 * sec 0) x l2 := by
  obtain ⟨low, upper, hlow, hp, hsrt, hlog⟩ := hr.splitLog
  have h1 := (hr.removed hs hl hfull).2.2.2.2
  have h2 := cap_ge hs hl
  have h3 := rank_perm_split hp x
  refine ⟨fun hm => ?_, fun hc => absurd hc (by rw [hr.compactions]; omega)⟩
  rw [hlow] at h1 ⊢
  by_cases hu : rank upper x = 0
  · have : moved2 x l.log ≠ 0 := by
      rw [hlog] at hm; simpa [moved2, hu] using hm
    have := h.1 this
    omega
  · rw [rank_low_full hsrt hu]; omega

theorem compressFrom_keep (hs : SecOK sec) (x : Fl K) (ls : List (Level2 K)) (size : Nat) (hl : ∀ l ∈ ls, LvlOK l)
    (hk : ∀ l ∈ ls, Keep (3 * sec 0) x l) :
    Partially (compressFrom sec fast m size none ls) (fun r => ∀ l ∈ r.2, Keep (3 * sec 0) x l) := by
  refine (compress_rule (P := fun size carry ls size' ls' => (∀ l ∈ ext carry ls, LvlOK l) →
    (∀ l ∈ ext carry ls, Keep (3 * sec 0) x l) → ∀ l ∈ ls', Keep (3 * sec 0) x l) ?_ ?_ ?_ ?_ ls size none).mono
    (fun r h => h (by simpa using hl) (by simpa using hk))
  · intro size _ h; exact h
  · intro size out _ h; exact h
  · intro size carry l ls size' ls' hfull ih hl hk
    rw [ext_cons] at hl hk
    rw [ext_none] at ih
    have := ih (fun l hl' => hl l (by simp [hl'])) (fun l hl' => hk l (by simp [hl']))
    intro l' hl'
    rcases List.mem_cons.1 hl' with rfl | hl'
    · exact hk _ (by simp)
    · exact this l' hl'
  · intro size carry l ls out u l2 size' ls' hfull hr hu ih hl hk
    rw [ext_cons] at hl hk
    have := ih (lvlOK_ext (fun l hl' => hl l (by simp [hl']))) (keep_ext (fun l hl' => hk l (by simp [hl'])) out)
    intro l' hl'
    rcases List.mem_cons.1 hl' with rfl | hl'
    · exact hr.keep hs (hl _ (by simp)) hfull (hk _ (by simp))
    · exact this l' hl'

theorem keep_hist (hs : SecOK sec) (x : Fl K) :
    Hist2 (K := K) sec (fun _ _ => True) (fun _ ls => (∀ lv ∈ ls, LvlOK lv) ∧ ∀ lv ∈ ls, Keep (3 * sec 0) x lv) where
  push l ls xs h := by
    refine ⟨push_lvl h.1 xs, ?_⟩
    cases ls with
    | nil => simp [pushLv]
    | cons a ls =>
      intro lv hlv
      rcases List.mem_cons.1 hlv with rfl | hlv
      · exact keep_extend (h.2 a (by simp)) xs
      · exact h.2 lv (by simp [hlv])
  comp l ls size fast m _ h := ((compressFrom_lvl hs ls size h.1).and (compressFrom_keep hs x ls size h.1 h.2)).mono (fun r hr => hr)

/-- The odd compactions of level `d`, in terms of the estimate that ignores the compactions from `d` on. -/
theorem odd_price2 {P : Nat} {x : Fl K} : ∀ (d : Nat) (ls : List (Level2 K)), (∀ l ∈ ls, Keep P x l) →
    (4 * P : ℚ) * V2 x (d + 1) ls ≤ 4 * P * V2 x d ls + (U2 x d ls : ℚ) ^ 2 := by
  intro d
  induction d with
  | zero =>
    intro ls h
    cases ls with
    | nil => simp [V2, U2]
    | cons l ls =>
      have hz : V2 x 0 ls = 0 := by cases ls <;> rfl
      have hz' : V2 x 0 (l :: ls) = 0 := rfl
      simp only [V2, U2, hz]
      have h1 : (odd2 x l.log : ℚ) ≤ moved2 x l.log := by exact_mod_cast odd2_le_moved x l.log
      have hP0 : (0 : ℚ) ≤ P := Nat.cast_nonneg _
      have hm0 : (0 : ℚ) ≤ moved2 x l.log := Nat.cast_nonneg _
      push_cast
      by_cases h0 : moved2 x l.log = 0
      · rw [h0] at h1 ⊢
        push_cast at h1 ⊢
        nlinarith [mul_nonneg hP0 (sub_nonneg.2 h1), sq_nonneg (rank l.buf x : ℚ)]
      · have h2 : (P : ℚ) ≤ rank l.buf x := by exact_mod_cast (h l (by simp)).1 h0
        have h3 := mul_le_mul_of_nonneg_left h1 hP0
        have h4 := mul_le_mul_of_nonneg_right h2 hm0
        nlinarith [sq_nonneg ((rank l.buf x : ℚ) - moved2 x l.log)]
  | succ d ih =>
    intro ls h
    cases ls with
    | nil => simp [V2, U2]
    | cons l ls =>
      have := ih ls (fun l hl => h l (by simp [hl]))
      rw [show V2 x (d + 1 + 1) (l :: ls) = odd2 x l.log + 4 * V2 x (d + 1) ls from rfl,
        show V2 x (d + 1) (l :: ls) = odd2 x l.log + 4 * V2 x d ls from rfl,
        show U2 x (d + 1) (l :: ls) = rank l.buf x + 2 * U2 x d ls from rfl]
      push_cast
      have hb : (0 : ℚ) ≤ rank l.buf x := Nat.cast_nonneg _
      have hu : (0 : ℚ) ≤ U2 x d ls := Nat.cast_nonneg _
      nlinarith [mul_nonneg hb hu, sq_nonneg (rank l.buf x : ℚ)]

/-- With at most `M + 1` levels, the last of them never compacted, `U2 M` is the estimated rank. -/
theorem U2_top {w c P : Nat} {x : Fl K} : ∀ (M : Nat) (ls : List (Level2 K)) (N : Nat), GeoC w c N ls → (∀ l ∈ ls, Keep P x l) →
    ls.length ≤ M + 1 → U2 x M ls = Wt (fun b => rank b x) ls := by
  intro M
  induction M with
  | zero =>
    intro ls N hg hk hL
    cases ls with
    | nil => rfl
    | cons l ls =>
      have : ls = [] := by simpa using hL
      subst this
      obtain ⟨r, N', -, -, -, -, h5, -⟩ := hg
      have := (hk l (by simp)).2 (h5 rfl)
      simp [U2, this, moved2, Wt, wsum]
  | succ M ih =>
    intro ls N hg hk hL
    cases ls with
    | nil => rfl
    | cons l ls =>
      obtain ⟨r, N', -, -, -, -, -, h6⟩ := hg
      have := ih ls N' h6 (fun l hl => hk l (by simp [hl])) (by simpa using hL)
      rw [Wt_cons, ← this]
      rfl

/-- Mean squared error relative to the rank, if only `M` levels are compacted. -/
theorem relative_error2 {w c M : Nat} (hs : SecOK sec) (hw : ∀ j, j ≤ 4 → w ≤ sec j) (hc : c ≤ 6 * sec 0) (k : Nat)
    (ops : List (InsOp K)) (hm : ∀ o ∈ ops, o.method = .default) (hlen : (insItems ops).length < 2 ^ 32)
    (hnan : ∀ y ∈ insItems ops, y ≠ .nan) (x : Fl K)
    (hL : Partially (runHist sec k ops) (fun s => s.levels.length ≤ M + 1)) :
    exp (runHist sec k ops) (fun s => ((weightedRank s.buffers x : ℚ) - rank (insItems ops) x) ^ 2) ≤
      (rank (insItems ops) x : ℚ) ^ 2 * ((1 + 1 / (12 * sec 0 : Nat)) ^ M - 1) := by
  set R : ℚ := ((rank (insItems ops) x : Nat) : ℚ) with hR
  have hal : Always (runHist sec k ops) (fun _ => True) :=
    hist2_always (G := (· ≠ .nan)) hs k ops (fun o ho => by rw [hm o ho]; exact goodFor_default (fun _ h => h)) hlen hnan
  have h0 : 0 < sec 0 := hs.one 0 (by omega)
  have hkeep := hist2_partially (keep_hist (K := K) hs x) k ops (fun _ _ => trivial)
    ⟨by simp [lvlOK_new], by intro l hl; simp at hl; subst hl; exact ⟨by simp [newLevel, moved2], by simp [newLevel]⟩⟩
  have hgeo := hist2_partially (geoC_hist (K := K) (w := w) (c := c) hs hw hc) k ops (fun _ _ => trivial)
    ⟨by simp [lvlOK_new], 0, 0, by simp [newLevel], by simp [newLevel], by simp, by simp, by simp [newLevel], trivial⟩
  have hvar : ∀ d, exp (runHist sec k ops) (fun s => ((U2 x d s.levels : ℚ) - R) ^ 2) ≤
      exp (runHist sec k ops) (fun s => (V2 x d s.levels : ℚ)) := by
    intro d
    have := hist2_exp hs (psi_super2 hs x d) k ops (fun o ho => hm o ho) hlen hnan
    have e0 : ((U2 x d [newLevel ([] : List (Fl K))] : ℚ) - rank ([] : List (Fl K)) x) ^ 2 - V2 x d [newLevel ([] : List (Fl K))] = 0 := by
      cases d <;> simp [U2, V2, newLevel, rank, moved2, odd2]
    rw [e0] at this
    have e : (fun s : RCSketch2 K => ((U2 x d s.levels : ℚ) - rank (insItems ops) x) ^ 2 - V2 x d s.levels) =
        (fun s => ((U2 x d s.levels : ℚ) - R) ^ 2 + (-1) * (V2 x d s.levels : ℚ)) := by
      funext s; rw [sub_eq_add_neg, neg_one_mul]
    rw [e, exp_add, exp_mul_left] at this
    linarith
  have hmean : ∀ d, exp (runHist sec k ops) (fun s => (U2 x d s.levels : ℚ)) ≤ R := by
    intro d
    have := hist2_exp hs (mu_super2 hs x d) k ops (fun o ho => hm o ho) hlen hnan
    have e0 : (U2 x d [newLevel ([] : List (Fl K))] : ℚ) - rank ([] : List (Fl K)) x = 0 := by
      cases d <;> simp [U2, newLevel, rank, moved2]
    rw [e0] at this
    have e : (fun s : RCSketch2 K => (U2 x d s.levels : ℚ) - rank (insItems ops) x) =
        (fun s => (U2 x d s.levels : ℚ) + (-R)) := by
      funext s; rw [sub_eq_add_neg]
    rw [e, exp_add, exp_const hal] at this
    linarith
  have hRnn : 0 ≤ R := Nat.cast_nonneg _
  have hsq : ∀ d, exp (runHist sec k ops) (fun s => (U2 x d s.levels : ℚ) ^ 2) ≤
      R ^ 2 + exp (runHist sec k ops) (fun s => (V2 x d s.levels : ℚ)) := by
    intro d
    have e : (fun s : RCSketch2 K => (U2 x d s.levels : ℚ) ^ 2) =
        (fun s => ((U2 x d s.levels : ℚ) - R) ^ 2 + ((2 * R) * (U2 x d s.levels : ℚ) + (-R ^ 2))) := by
      funext s; ring
    rw [e, exp_add, exp_add, exp_mul_left, exp_const hal]
    have h1 := hvar d
    have h2 := mul_le_mul_of_nonneg_left (hmean d) (by linarith : 0 ≤ 2 * R)
    nlinarith
  have hy : (0 : ℚ) < (12 * sec 0 : Nat) := by exact_mod_cast (by omega : 0 < 12 * sec 0)
  have hrec := RCSketch.relative_rec (fun d => exp (runHist sec k ops) (fun s => (V2 x d s.levels : ℚ))) R (1 / (12 * sec 0 : Nat))
    (by positivity)
    (by
      have : (fun s : RCSketch2 K => (V2 x 0 s.levels : ℚ)) = fun _ => 0 := by
        funext s; cases s.levels <;> simp [V2]
      simp only [this]; rw [exp_const hal])
    (fun d => by
      have h1 : exp (runHist sec k ops) (fun s => (V2 x (d + 1) s.levels : ℚ)) ≤
          exp (runHist sec k ops) (fun s => (V2 x d s.levels : ℚ) + 1 / (12 * sec 0 : Nat) * (U2 x d s.levels : ℚ) ^ 2) := by
        refine exp_mono (hkeep.mono (fun s hs => ?_))
        have := odd_price2 d s.levels hs.2.2
        have e : (4 : ℚ) * (3 * sec 0 : Nat) = (12 * sec 0 : Nat) := by push_cast; ring
        rw [e] at this
        rw [← mul_le_mul_iff_right₀ hy]
        refine this.trans (le_of_eq ?_)
        rw [mul_add, ← mul_assoc, mul_one_div_cancel hy.ne', one_mul]
      rw [exp_add, exp_mul_left] at h1
      have := mul_le_mul_of_nonneg_left (hsq d) (by positivity : (0 : ℚ) ≤ 1 / (12 * sec 0 : Nat))
      linarith) M
  refine le_trans ?_ hrec
  refine le_trans (exp_mono ((hL.and (hkeep.and hgeo)).mono ?_)) (hvar M)
  rintro s ⟨h1, ⟨-, -, h2⟩, -, -, h3⟩
  rw [U2_top M s.levels _ h3 h2 h1]
  simp [Wt, weightedRank, RCSketch2.buffers, Function.comp_def, hR]

end RCSketch2
end AQ

/-
Number of levels of an `RCSketch2`, non-emptiness of its first level.
-/
import Verif.Proofs.RC2Exp

set_option linter.unusedSectionVars false
set_option linter.unusedVariables false

namespace AQ
open Prog Spec
variable {K : Type} [Field K] [LinearOrder K] [IsStrictOrderedRing K] [FloatFmt K]

namespace RCSketch2
open RCSketch (everyOther_length_eq averagePairs_length everyOther_rank everyOther_sum GoodFor goodFor_default)
variable {sec : Nat → Nat} {fast : Bool} {m : CompactionMethod}

theorem CompactRel.removed_sec {l l2 : Level2 K} {out : List (Fl K)} {u : Nat}
    (h : CompactRel sec fast m l (out, u, l2)) (hl : LvlOK l) (hfull : cap sec l ≤ l.buf.length) : sec l.divs ≤ u := by
  obtain ⟨ci, c, out', hi, hci, hn, -, he⟩ := h
  simp only [Prod.mk.injEq] at he
  obtain ⟨rfl, rfl, -⟩ := he
  have h2 : 1 ≤ 2 ^ l.divs := Nat.one_le_two_pow
  have e : cap sec l = 2 * (l.sections * sec l.divs) := by unfold cap; ring
  cases fast with
  | true =>
    have := hi.1
    have h3 : 1 * sec l.divs ≤ l.sections * sec l.divs := Nat.mul_le_mul_right _ (by rw [hl.sec]; omega)
    omega
  | false =>
    obtain ⟨b, hb1, hb2, -, -⟩ := hi
    have hb : (b + 1) * sec l.divs ≤ l.sections * sec l.divs := Nat.mul_le_mul_right _ (by omega)
    rw [Nat.succ_mul] at hb
    omega

/-- Geometric decay of what enters the levels: at most `p/q` of what leaves a level enters the next one, and a level with a
level above it has received at least `c` items. -/
def Geo (p q c : Nat) : Nat → List (Level2 K) → Prop
  | _, [] => True
  | N, l :: ls => ∃ r N', l.buf.length + r ≤ N ∧ q * N' ≤ p * r ∧ (ls ≠ [] → c ≤ l.buf.length + r) ∧ Geo p q c N' ls

variable {p q c : Nat}

theorem geo_ext {N u : Nat} {out : List (Fl K)} {ls : List (Level2 K)} (h : Geo p q c N ls) (hu : out.length ≤ u) :
    Geo p q c (N + u) (ext (some out) ls) := by
  cases ls with
  | nil => exact ⟨0, 0, by simp [newLevel]; omega, by omega, by simp, trivial⟩
  | cons l ls =>
    obtain ⟨r, N', h1, h2, h3, h4⟩ := h
    rw [ext_cons]
    exact ⟨r, N', by simp [extend]; omega, h2, fun hne => by have := h3 hne; simp [extend]; omega, h4⟩

theorem cap_ge (hs : SecOK sec) {l : Level2 K} (hl : LvlOK l) : 6 * sec 0 ≤ cap sec l := by
  unfold cap
  rw [hl.sec]
  have : ∀ j, j ≤ 4 → sec 0 ≤ 2 ^ j * sec j := by
    intro j
    induction j with
    | zero => intro _; simp
    | succ j ih =>
      intro hj
      have h1 := ih (by omega)
      have h2 := hs.half j (by omega)
      calc sec 0 ≤ 2 ^ j * sec j := h1
        _ ≤ 2 ^ j * (2 * sec (j + 1)) := Nat.mul_le_mul_left _ h2
        _ = _ := by rw [pow_succ]; ring
  have := this _ hl.div
  calc 6 * sec 0 ≤ 6 * (2 ^ l.divs * sec l.divs) := Nat.mul_le_mul_left _ this
    _ = _ := by ring

/-- `compress` keeps the decay. -/
theorem compressFrom_geo (hs : SecOK sec) (h2 : ∀ j, j ≤ 4 → ∀ u, sec j ≤ u → q * ((u + 1) / 2) ≤ p * u) (hc : c ≤ 6 * sec 0)
    (ls : List (Level2 K)) (size N : Nat)
    (hl : ∀ l ∈ ls, LvlOK l) (hg : Geo p q c N ls) :
    Partially (compressFrom sec fast m size none ls) (fun r => Geo p q c N r.2) := by
  refine (compress_rule (P := fun size carry ls size' ls' => ∀ N, (∀ l ∈ ext carry ls, LvlOK l) → Geo p q c N (ext carry ls) →
    Geo p q c N ls' ∧ (ls = [] → carry = none → ls' = [])) ?_ ?_ ?_ ?_ ls size none).mono
    (fun r h => (h N (by simpa using hl) (by simpa using hg)).1)
  · intro size N _ h; exact ⟨h, fun _ _ => rfl⟩
  · intro size out N _ h; exact ⟨h, fun _ h => by simp at h⟩
  · intro size carry l ls size' ls' hfull ih N hl hg
    rw [ext_cons] at hg hl
    rw [ext_none] at ih
    obtain ⟨r, N', f1, f2, f3, f4⟩ := hg
    obtain ⟨g1, g2⟩ := ih N' (fun l hl' => hl l (by simp [hl'])) f4
    refine ⟨⟨r, N', f1, f2, fun hne => f3 (fun h => hne (g2 h rfl)), g1⟩, by simp⟩
  · intro size carry l ls out u l2 size' ls' hfull hr hu ih N hl hg
    rw [ext_cons] at hg hl
    have hl0 := hl (extend l carry) (by simp)
    obtain ⟨r, N', f1, f2, f3, f4⟩ := hg
    obtain ⟨g1, g2, -, g4, -⟩ := hr.removed hs hl0 hfull
    have hsu := hr.removed_sec hl0 hfull
    have h2' := h2 _ hl0.div u hsu
    have hcg := cap_ge hs hl0
    obtain ⟨k1, -⟩ := ih (N' + out.length) (lvlOK_ext (fun l hl' => hl l (by simp [hl']))) (geo_ext f4 (le_refl _))
    refine ⟨⟨r + u, N' + out.length, by omega, ?_, fun _ => by omega, k1⟩, by simp⟩
    have : q * out.length ≤ q * ((u + 1) / 2) := Nat.mul_le_mul_left _ (by omega)
    rw [Nat.mul_add, Nat.mul_add]; omega

theorem Geo.length_bound : ∀ (ls : List (Level2 K)) (N : Nat), Geo p q c N ls → 2 ≤ ls.length →
    c * q ^ (ls.length - 2) ≤ N * p ^ (ls.length - 2) := by
  intro ls
  induction ls with
  | nil => intro N _ h; simp at h
  | cons l ls ih =>
    intro N h hlen
    obtain ⟨r, N', h1, h2, h3, h4⟩ := h
    have hne : ls ≠ [] := by rintro rfl; simp at hlen
    have h3 := h3 hne
    by_cases h5 : 2 ≤ ls.length
    · have := ih N' h4 h5
      have e : (l :: ls).length - 2 = (ls.length - 2) + 1 := by simp only [List.length_cons]; omega
      rw [e, pow_succ, pow_succ]
      have h6 : q * N' ≤ p * N := h2.trans (Nat.mul_le_mul_left _ (by omega))
      calc c * (q ^ (ls.length - 2) * q) = q * (c * q ^ (ls.length - 2)) := by ring
        _ ≤ q * (N' * p ^ (ls.length - 2)) := Nat.mul_le_mul_left _ this
        _ = (q * N') * p ^ (ls.length - 2) := by ring
        _ ≤ (p * N) * p ^ (ls.length - 2) := Nat.mul_le_mul_right _ h6
        _ = N * (p ^ (ls.length - 2) * p) := by ring
    · have e : (l :: ls).length - 2 = 0 := by simp only [List.length_cons]; omega
      rw [e, pow_zero, pow_zero]; omega

theorem Geo.levels {ls : List (Level2 K)} {N M : Nat} (h : Geo p q c N ls) (hpq : p ≤ q) (hq : 0 < q) (hM : N * p ^ M < c * q ^ M) :
    ls.length ≤ M + 1 := by
  by_contra hc
  have hb := h.length_bound ls N (by omega)
  obtain ⟨j, hj⟩ : ∃ j, ls.length - 2 = M + j := ⟨ls.length - 2 - M, by omega⟩
  rw [hj, pow_add, pow_add, ← Nat.mul_assoc, ← Nat.mul_assoc] at hb
  have h1 : N * p ^ M * p ^ j ≤ N * p ^ M * q ^ j := Nat.mul_le_mul_left _ (Nat.pow_le_pow_left hpq j)
  have h2 : N * p ^ M * q ^ j < c * q ^ M * q ^ j := Nat.mul_lt_mul_of_pos_right hM (by positivity)
  omega

theorem push_lvl {ls : List (Level2 K)} (h : ∀ l ∈ ls, LvlOK l) (xs : List (Fl K)) : ∀ l ∈ pushLv ls xs, LvlOK l := by
  cases ls with
  | nil => simp [pushLv]
  | cons l ls =>
    intro l' hl'
    simp only [pushLv, List.mem_cons] at hl'
    rcases hl' with rfl | hl'
    · have := h l (by simp); exact ⟨this.ctr, this.sec, this.div, this.c32⟩
    · exact h l' (by simp [hl'])

theorem compressFrom_lvl (hs : SecOK sec) (ls : List (Level2 K)) (size : Nat) (hl : ∀ l ∈ ls, LvlOK l) :
    Partially (compressFrom sec fast m size none ls) (fun r => ∀ l ∈ r.2, LvlOK l) := by
  have hf : ∃ N, Flow2 N ls := by
    clear hl
    induction ls with
    | nil => exact ⟨0, trivial⟩
    | cons l ls ih => 
      obtain ⟨N, h⟩ := ih
      exact ⟨l.buf.length + (l.counter + N), l.counter + N, le_refl _, by omega, h.mono (by omega)⟩
  obtain ⟨N, hf⟩ := hf
  exact (compressFrom_levels hs ls size none N (by simpa using hl) (by simpa using hf)).mono (fun r h => h.1)

theorem geo_hist (hs : SecOK sec) (h2 : ∀ j, j ≤ 4 → ∀ u, sec j ≤ u → q * ((u + 1) / 2) ≤ p * u) (hc : c ≤ 6 * sec 0) :
    Hist2 (K := K) sec (fun _ _ => True) (fun l ls => (∀ lv ∈ ls, LvlOK lv) ∧ Geo p q c l.length ls) where
  push l ls xs h := by
    refine ⟨push_lvl h.1 xs, ?_⟩
    have h' := h.2
    cases ls with
    | nil => trivial
    | cons a ls =>
      obtain ⟨r, N', f1, f2, f3, f4⟩ := h'
      exact ⟨r, N', by simp only [List.length_append]; omega, f2,
        fun hne => by have := f3 hne; simp only [List.length_append]; omega, f4⟩
  comp l ls size fast m _ h := ((compressFrom_lvl hs ls size h.1).and (compressFrom_geo hs h2 hc ls size _ h.1 h.2)).mono
    (fun r hr => hr)

/-- The first level is never empty once something was inserted. -/
theorem head_hist (hs : SecOK sec) : Hist2 (K := K) sec (fun _ _ => True)
    (fun l ls => (∀ lv ∈ ls, LvlOK lv) ∧ ls ≠ [] ∧ (l ≠ [] → ∃ l0 ls', ls = l0 :: ls' ∧ l0.buf ≠ [])) where
  push l ls xs h := by
    refine ⟨push_lvl h.1 xs, push_ne h.2.1 xs, ?_⟩
    obtain ⟨-, hne, hh⟩ := h
    cases ls with
    | nil => exact absurd rfl hne
    | cons a ls =>
      intro hl
      refine ⟨_, _, rfl, ?_⟩
      simp only [ne_eq, List.append_eq_nil_iff, not_and]
      intro ha hx
      have : l ≠ [] := by rintro rfl; exact hl (by simp [hx])
      obtain ⟨l0, ls', he, hne0⟩ := hh this
      obtain ⟨rfl, -⟩ := List.cons.inj he
      exact hne0 ha
  comp l ls size fast m _ h := by
    refine ((compressFrom_lvl hs ls size h.1).and ((compress_ne ls size).and
      (compress_rule (P := fun _ carry ls _ ls' => (∀ lv ∈ ext carry ls, LvlOK lv) →
        (∃ l0 l', ext carry ls = l0 :: l' ∧ l0.buf ≠ []) → ∃ l0 l', ls' = l0 :: l' ∧ l0.buf ≠ []) ?_ ?_ ?_ ?_ ls size none))).mono ?_
    · intro size _ h; simp at h
    · intro size out _ h; exact h
    · intro size carry l ls size' ls' _ _ _ h
      rw [ext_cons] at h
      obtain ⟨l0, l', he, h0⟩ := h
      obtain ⟨rfl, -⟩ := List.cons.inj he
      exact ⟨_, _, rfl, h0⟩
    · intro size carry l ls out u l2 size' ls' hfull hr hu _ hl _
      rw [ext_cons] at hl
      have hl0 := hl _ (by simp : extend l carry ∈ extend l carry :: ls)
      have := (hr.removed hs hl0 hfull).2.2.2.2
      have h6 := cap_pos hs hl0
      refine ⟨_, _, rfl, ?_⟩
      intro h0
      rw [h0] at this
      simp at this
      omega
    · rintro r ⟨h1, h2, h3⟩
      rw [ext_none] at h3
      refine ⟨h1, h2 h.2.1, fun hl => h3 h.1 (h.2.2 hl)⟩

/-- At most 64 levels for sections of at least two items and fewer than 2^32 items. -/
theorem levels64 (hs : SecOK sec) (h2 : ∀ j, j ≤ 4 → 2 ≤ sec j) (k : Nat) (ops : List (InsOp K)) (hlen : (insItems ops).length < 2 ^ 32) :
    Partially (runHist sec k ops) (fun s => s.levels.length ≤ 64) := by
  refine (hist2_partially (geo_hist (K := K) (p := 2) (q := 3) (c := 12) hs ?_ ?_) k ops (fun _ _ => trivial)
    ⟨by simp [lvlOK_new], 0, 0, by simp [newLevel], by simp, by simp, trivial⟩).mono ?_
  · intro j hj u hu; have := h2 j hj; omega
  · have := h2 0 (by omega); omega
  · rintro s ⟨-, -, h⟩
    refine h.levels (M := 63) (by norm_num) (by norm_num) ?_
    calc (insItems ops).length * 2 ^ 63 ≤ 2 ^ 32 * 2 ^ 63 := Nat.mul_le_mul_right _ hlen.le
      _ < 12 * 3 ^ 63 := by norm_num

/-- At most 31 levels for sections of at least eight items, starting from at least 32. -/
theorem levels31 (hs : SecOK sec) (h2 : ∀ j, j ≤ 4 → 8 ≤ sec j) (h0 : 32 ≤ sec 0) (k : Nat) (ops : List (InsOp K))
    (hlen : (insItems ops).length < 2 ^ 32) :
    Partially (runHist sec k ops) (fun s => s.levels.length ≤ 31) := by
  refine (hist2_partially (geo_hist (K := K) (p := 5) (q := 9) (c := 192) hs ?_ ?_) k ops (fun _ _ => trivial)
    ⟨by simp [lvlOK_new], 0, 0, by simp [newLevel], by simp, by simp, trivial⟩).mono ?_
  · intro j hj u hu; have := h2 j hj; omega
  · omega
  · rintro s ⟨-, -, h⟩
    refine h.levels (M := 30) (by norm_num) (by norm_num) ?_
    calc (insItems ops).length * 5 ^ 30 ≤ 2 ^ 32 * 5 ^ 30 := Nat.mul_le_mul_right _ hlen.le
      _ < 192 * 9 ^ 30 := by norm_num

/-- Low-end exactness over histories: items of rank at most half a new level's capacity stay in the first level. -/
theorem low_hist (hs : SecOK sec) {A : Fl K → Prop} (x : Fl K) : Hist2 (K := K) sec
    (fun _ m => ∀ u out : List (Fl K), u.Pairwise (· ≤ ·) → (∀ y ∈ u, A y) → IsOut m u out →
      (∀ y ∈ out, A y) ∧ rank u x ≤ 2 * rank out x + 1 ∧ 2 * rank out x ≤ rank u x + 1)
    (fun l ls => (∀ y ∈ l, A y) → (∀ lv ∈ ls, LvlOK lv) ∧ (∀ lv ∈ ls, ∀ y ∈ lv.buf, A y) ∧ LowOK (3 * sec 0) x l ls) where
  push l ls xs h hA := by
    obtain ⟨h1, h2, h3⟩ := h (fun y hy => hA y (by simp [hy]))
    refine ⟨push_lvl h1 xs, push_good h2 (fun y hy => hA y (by simp [hy])), ?_⟩
    intro hP
    rw [RCSketch.rank_append] at hP ⊢
    obtain ⟨l0, ls', rfl, h4, h5⟩ := h3 (by omega)
    exact ⟨_, _, rfl, by simp only [RCSketch.rank_append, h4], h5⟩
  comp l ls size fast m hm h := by
    by_cases hl : ∀ y ∈ l, A y
    · obtain ⟨h1, h2, h3⟩ := h hl
      have hp := compressFrom_pres (sec := sec) (fast := fast) (G := A) (m := m) (fun u out a b c => (hm u out a b c).1) ls size h2
      by_cases hP : rank l x ≤ 3 * sec 0
      · obtain ⟨l0, ls', rfl, h4, h5⟩ := h3 hP
        refine ((compressFrom_lvl hs _ size h1).and (hp.and (compress_low x hm l0 ls' size (3 * sec 0) h2 ?_ (by omega) h5))).mono ?_
        · rintro ⟨out, u, l2⟩ hr hfull
          have := (hr.removed hs (h1 l0 (by simp)) hfull).2.2.2.2
          have h6 := cap_ge hs (h1 l0 (by simp))
          simp only; omega
        · rintro r ⟨g1, g2, l0', ls'', e, g3, g4⟩ _
          exact ⟨g1, g2, fun _ => ⟨l0', ls'', e, g3.trans h4, g4⟩⟩
      · refine ((compressFrom_lvl hs _ size h1).and hp).mono ?_
        rintro r ⟨g1, g2⟩ _
        exact ⟨g1, g2, fun h => absurd h hP⟩
    · exact (partially_true _).mono (fun r _ h => absurd h hl)

end RCSketch2
end AQ

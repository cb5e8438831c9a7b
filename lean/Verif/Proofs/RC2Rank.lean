/-
Number of compactions of the levels of an `RCSketch2` in terms of the number of items.
-/
import Mathlib.Algebra.Order.Field.Basic
import Mathlib.Tactic.FieldSimp
import Mathlib.Tactic.LinearCombination
import Mathlib.Tactic.Positivity
import Verif.Proofs.RC2Levels

set_option linter.unusedSectionVars false
set_option linter.unusedVariables false

namespace AQ
open Prog Spec
variable {K : Type} [Field K] [LinearOrder K] [IsStrictOrderedRing K] [FloatFmt K]

namespace RCSketch2
variable {sec : Nat → Nat} {fast : Bool} {m : CompactionMethod} {w c : Nat}

theorem CompactRel.compactions {l l2 : Level2 K} {out : List (Fl K)} {u : Nat} (h : CompactRel sec fast m l (out, u, l2)) :
    l2.compactions = l.compactions + 1 := by
  obtain ⟨-, -, -, -, -, -, -, h⟩ := h.split
  exact h

/-- What has reached and left the levels: every compaction takes at least `w` items, passes on at most half of them rounded up;
a level with a level above it has received at least `c` items, the last level was never compacted. -/
def GeoC (w c : Nat) : Nat → List (Level2 K) → Prop
  | _, [] => True
  | N, l :: ls => ∃ r N', l.buf.length + r ≤ N ∧ w * l.compactions ≤ r ∧ 2 * N' ≤ r + l.compactions ∧
      (ls ≠ [] → c ≤ l.buf.length + r) ∧ (ls = [] → l.compactions = 0) ∧ GeoC w c N' ls

theorem geoC_ext {N u : Nat} {out : List (Fl K)} {ls : List (Level2 K)} (h : GeoC w c N ls) (hu : out.length ≤ u) :
    GeoC w c (N + u) (ext (some out) ls) := by
  cases ls with
  | nil => exact ⟨0, 0, by simp [newLevel]; omega, by simp [newLevel], by omega, by simp, by simp [newLevel], trivial⟩
  | cons l ls =>
    obtain ⟨r, N', h1, h2, h3, h4, h5, h6⟩ := h
    rw [ext_cons]
    exact ⟨r, N', by simp [extend]; omega, h2, h3, fun hne => by have := h4 hne; simp [extend]; omega, h5, h6⟩

theorem compressFrom_geoC (hs : SecOK sec) (hw : ∀ j, j ≤ 4 → w ≤ sec j) (hc : c ≤ 6 * sec 0)
    (ls : List (Level2 K)) (size N : Nat) (hl : ∀ l ∈ ls, LvlOK l) (hg : GeoC w c N ls) :
    Partially (compressFrom sec fast m size none ls) (fun r => GeoC w c N r.2) := by
  refine (compress_rule (P := fun size carry ls size' ls' => ∀ N, (∀ l ∈ ext carry ls, LvlOK l) → GeoC w c N (ext carry ls) →
    GeoC w c N ls' ∧ (ls = [] → carry = none → ls' = []) ∧ (ext carry ls ≠ [] → ls' ≠ [])) ?_ ?_ ?_ ?_ ls size none).mono
    (fun r h => (h N (by simpa using hl) (by simpa using hg)).1)
  · intro size N _ h; exact ⟨h, fun _ _ => rfl, fun h => h⟩
  · intro size out N _ h; exact ⟨h, fun _ h => by simp at h, by simp⟩
  · intro size carry l ls size' ls' hfull ih N hl hg
    rw [ext_cons] at hg hl
    rw [ext_none] at ih
    obtain ⟨r, N', f1, f2, f3, f4, f5, f6⟩ := hg
    obtain ⟨g1, g2, g3⟩ := ih N' (fun l hl' => hl l (by simp [hl'])) f6
    refine ⟨⟨r, N', f1, f2, f3, fun hne => f4 (fun h => hne (g2 h rfl)), fun h => f5 ?_, g1⟩, by simp, by simp⟩
    by_contra hne
    exact g3 hne h
  · intro size carry l ls out u l2 size' ls' hfull hr hu ih N hl hg
    rw [ext_cons] at hg hl
    have hl0 := hl (extend l carry) (by simp)
    obtain ⟨r, N', f1, f2, f3, f4, f5, f6⟩ := hg
    obtain ⟨g1, g2, -, g4, -⟩ := hr.removed hs hl0 hfull
    have hsu := hr.removed_sec hl0 hfull
    have hwu := hw _ hl0.div
    have hcg := cap_ge hs hl0
    have hcc := hr.compactions
    obtain ⟨k1, -, k3⟩ := ih (N' + out.length) (lvlOK_ext (fun l hl' => hl l (by simp [hl']))) (geoC_ext f6 (le_refl _))
    refine ⟨⟨r + u, N' + out.length, by omega, ?_, by omega, fun _ => by omega, fun h => absurd h (k3 ?_), k1⟩, by simp, by simp⟩
    · rw [hcc, Nat.mul_succ]
      have : (extend l carry).divs = l.divs := by cases carry <;> rfl
      omega
    · cases ls <;> simp [ext]

theorem geoC_hist (hs : SecOK sec) (hw : ∀ j, j ≤ 4 → w ≤ sec j) (hc : c ≤ 6 * sec 0) :
    Hist2 (K := K) sec (fun _ _ => True) (fun l ls => (∀ lv ∈ ls, LvlOK lv) ∧ GeoC w c l.length ls) where
  push l ls xs h := by
    refine ⟨push_lvl h.1 xs, ?_⟩
    have h' := h.2
    cases ls with
    | nil => trivial
    | cons a ls =>
      obtain ⟨r, N', f1, f2, f3, f4, f5, f6⟩ := h'
      exact ⟨r, N', by simp only [List.length_append]; omega, f2, f3,
        fun hne => by have := f4 hne; simp only [List.length_append]; omega, f5, f6⟩
  comp l ls size fast m _ h := ((compressFrom_lvl hs ls size h.1).and (compressFrom_geoC hs hw hc ls size _ h.1 h.2)).mono
    (fun r hr => hr)

/-- `Σ_{i<n} a^i`. -/
def geomSum (a : ℚ) : Nat → ℚ
  | 0 => 0
  | n + 1 => 1 + a * geomSum a n

theorem geomSum_nonneg {a : ℚ} (ha : 0 ≤ a) : ∀ n, 0 ≤ geomSum a n
  | 0 => le_refl _
  | n + 1 => by have := geomSum_nonneg ha n; have := mul_nonneg ha this; unfold geomSum; linarith

theorem geomSum_eq {a : ℚ} : ∀ n, geomSum a n * (a - 1) = a ^ n - 1
  | 0 => by simp [geomSum]
  | n + 1 => by
    have := geomSum_eq (a := a) n
    unfold geomSum
    rw [pow_succ]
    linear_combination a * this

/-- Compactions weighted by powers of `z` (`z = 2` for the sure error, `z = 4` for the variance). -/
theorem GeoC.weighted (hw : 0 < w) (z : ℚ) (hz : 0 ≤ z) (g : List Nat → ℚ) (g0 : g [] = 0)
    (g1 : ∀ a l, g (a :: l) = a + z * g l) : ∀ (ls : List (Level2 K)) (N : Nat), GeoC w c N ls →
    g (ls.map Level2.compactions) ≤ N / w * geomSum (z / 2 * (1 + 1 / w)) (ls.length - 1) := by
  have hwq : (0 : ℚ) < w := by exact_mod_cast hw
  have ha : (0 : ℚ) ≤ z / 2 * (1 + 1 / w) := by positivity
  intro ls
  induction ls with
  | nil => intro N _; simp [g0, geomSum]
  | cons l ls ih =>
    rintro N ⟨r, N', h1, h2, h3, h4, h5, h6⟩
    rw [List.map_cons, g1]
    have hr : (r : ℚ) ≤ N := by exact_mod_cast (by omega : r ≤ N)
    by_cases hls : ls = []
    · subst hls
      simp [g0, geomSum, h5 rfl]
    · obtain ⟨n, hn⟩ : ∃ n, ls.length = n + 1 := ⟨ls.length - 1, by have := List.length_pos_of_ne_nil hls; omega⟩
      have ih := ih N' h6
      have e1 : ls.length - 1 = n := by omega
      have e2 : (l :: ls).length - 1 = n + 1 := by simp [hn]
      rw [e1] at ih
      rw [e2]
      have hG := geomSum_nonneg ha n
      generalize hA : z / 2 * (1 + 1 / (w : ℚ)) = A at *
      have hc : (l.compactions : ℚ) ≤ r / w := by
        rw [le_div_iff₀ hwq]
        have : ((w * l.compactions : Nat) : ℚ) ≤ r := by exact_mod_cast h2
        push_cast at this; linarith
      have hN' : z * (N' : ℚ) ≤ r * A := by
        have h3' : (2 : ℚ) * N' ≤ r + l.compactions := by exact_mod_cast h3
        have : (2 : ℚ) * N' ≤ r + r / w := by linarith
        have h7 := mul_le_mul_of_nonneg_left this (by linarith : (0 : ℚ) ≤ z / 2)
        rw [← hA]
        calc z * (N' : ℚ) = z / 2 * (2 * N') := by ring
          _ ≤ z / 2 * (r + r / w) := h7
          _ = _ := by ring
      have h8 : z * g (ls.map Level2.compactions) ≤ r * A / w * geomSum A n := by
        calc z * g (ls.map Level2.compactions) ≤ z * (N' / w * geomSum A n) := mul_le_mul_of_nonneg_left ih hz
          _ = (z * N') / w * geomSum A n := by ring
          _ ≤ (r * A) / w * geomSum A n :=
            mul_le_mul_of_nonneg_right (div_le_div_of_nonneg_right hN' hwq.le) hG
      have h9 : (r : ℚ) / w * (1 + A * geomSum A n) ≤ N / w * (1 + A * geomSum A n) := by
        have : 0 ≤ A * geomSum A n := mul_nonneg ha hG
        exact mul_le_mul_of_nonneg_right (div_le_div_of_nonneg_right hr hwq.le) (by linarith)
      show (l.compactions : ℚ) + z * g (ls.map Level2.compactions) ≤ N / w * geomSum A (n + 1)
      unfold geomSum
      calc (l.compactions : ℚ) + z * g (ls.map Level2.compactions) ≤ r / w + r * A / w * geomSum A n := by linarith
        _ = r / w * (1 + A * geomSum A n) := by ring
        _ ≤ _ := h9

theorem GeoC.height (hw : 0 < w) : ∀ (ls : List (Level2 K)) (N : Nat), GeoC w c N ls → 2 ≤ ls.length →
    (c : ℚ) * 2 ^ (ls.length - 2) ≤ N * (1 + 1 / w) ^ (ls.length - 2) := by
  have hwq : (0 : ℚ) < w := by exact_mod_cast hw
  intro ls
  induction ls with
  | nil => intro N _ h; simp at h
  | cons l ls ih =>
    intro N h hlen
    obtain ⟨r, N', h1, h2, h3, h4, h5, h6⟩ := h
    have hne : ls ≠ [] := by rintro rfl; simp at hlen
    have h4 := h4 hne
    by_cases h7 : 2 ≤ ls.length
    · have := ih N' h6 h7
      have e : (l :: ls).length - 2 = (ls.length - 2) + 1 := by simp only [List.length_cons]; omega
      rw [e, pow_succ, pow_succ]
      have hr : (r : ℚ) ≤ N := by exact_mod_cast (by omega : r ≤ N)
      have hc : (l.compactions : ℚ) ≤ r / w := by
        rw [le_div_iff₀ hwq]
        have : ((w * l.compactions : Nat) : ℚ) ≤ r := by exact_mod_cast h2
        push_cast at this; linarith
      have h3' : (2 : ℚ) * N' ≤ r + l.compactions := by exact_mod_cast h3
      have h8 : (2 : ℚ) * N' ≤ N * (1 + 1 / w) := by
        have : (r : ℚ) / w ≤ N / w := div_le_div_of_nonneg_right hr hwq.le
        have e : (N : ℚ) * (1 + 1 / w) = N + N / w := by ring
        linarith
      have hp : (0 : ℚ) ≤ (1 + 1 / w) ^ (ls.length - 2) := by positivity
      generalize (1 + 1 / (w : ℚ)) = A at *
      calc (c : ℚ) * (2 ^ (ls.length - 2) * 2) = 2 * (c * 2 ^ (ls.length - 2)) := by ring
        _ ≤ 2 * (N' * A ^ (ls.length - 2)) := by linarith
        _ = (2 * N') * A ^ (ls.length - 2) := by ring
        _ ≤ (N * A) * A ^ (ls.length - 2) := mul_le_mul_of_nonneg_right h8 hp
        _ = _ := by ring
    · have e : (l :: ls).length - 2 = 0 := by simp only [List.length_cons]; omega
      rw [e]
      have : c ≤ N := by omega
      simpa using (by exact_mod_cast this : (c : ℚ) ≤ N)

/-- The sure error and the variance in terms of the number `M + 1` of levels. -/
theorem GeoC.bounds (hw : 0 < w) (hc : 0 < c) {ls : List (Level2 K)} {N M : Nat} (h : GeoC w c N ls) (hM : ls.length ≤ M + 1) :
    (comps ls : ℚ) ≤ N * ((1 + 1 / w) ^ M - 1) ∧
    (comps4 ls : ℚ) ≤ 2 * N ^ 2 * (1 + 1 / w) ^ (2 * (M - 1)) / (w * c) := by
  have hwq : (0 : ℚ) < w := by exact_mod_cast hw
  have hcq : (0 : ℚ) < c := by exact_mod_cast hc
  have h1 : (1 : ℚ) ≤ 1 + 1 / w := by have : (0 : ℚ) < 1 / w := by positivity
                                      linarith
  constructor
  · have h2 := h.weighted hw 2 (by norm_num) (fun l => (wsum l : ℚ)) (by simp [wsum]) (by intro a l; simp [wsum]) ls N
    have e := geomSum_eq (a := 2 / 2 * (1 + 1 / (w : ℚ))) (ls.length - 1)
    have e3 : (2 : ℚ) / 2 * (1 + 1 / w) = 1 + 1 / w := by ring
    rw [e3] at h2 e
    have e2 : (1 + 1 / (w : ℚ)) - 1 = 1 / w := by ring
    rw [e2] at e
    have h3 : (1 + 1 / (w : ℚ)) ^ (ls.length - 1) ≤ (1 + 1 / (w : ℚ)) ^ M := pow_le_pow_right₀ h1 (by omega)
    have hN : (0 : ℚ) ≤ N := Nat.cast_nonneg _
    calc (comps ls : ℚ) ≤ N / w * geomSum (1 + 1 / w) (ls.length - 1) := h2
      _ = N * (geomSum (1 + 1 / w) (ls.length - 1) * (1 / w)) := by ring
      _ = N * ((1 + 1 / w) ^ (ls.length - 1) - 1) := by rw [e]
      _ ≤ _ := mul_le_mul_of_nonneg_left (by linarith) hN
  · have h2 := h.weighted hw 4 (by norm_num) (fun l => (wsum4 l : ℚ)) (by simp [wsum4]) (by intro a l; simp [wsum4]) ls N
    have e3 : (4 : ℚ) / 2 * (1 + 1 / w) = 2 * (1 + 1 / w) := by ring
    rw [e3] at h2
    have hN : (0 : ℚ) ≤ N := Nat.cast_nonneg _
    have h2 : (comps4 ls : ℚ) ≤ N / w * geomSum (2 * (1 + 1 / w)) (ls.length - 1) := h2
    by_cases hL : 2 ≤ ls.length
    · have hh := h.height hw ls N hL
      obtain ⟨j, hj⟩ : ∃ j, ls.length = j + 2 := ⟨ls.length - 2, by omega⟩
      have ej : ls.length - 2 = j := by omega
      have ej1 : ls.length - 1 = j + 1 := by omega
      rw [ej] at hh
      rw [ej1] at h2
      have e := geomSum_eq (a := 2 * (1 + 1 / (w : ℚ))) (j + 1)
      have hpw : (1 + 1 / (w : ℚ)) ^ (2 * j) ≤ (1 + 1 / (w : ℚ)) ^ (2 * (M - 1)) := pow_le_pow_right₀ h1 (by omega)
      generalize (1 + 1 / (w : ℚ)) = A at *
      have hA0 : (0 : ℚ) < A := by linarith
      -- the geometric sum is at most twice its last term
      have hG : geomSum (2 * A) (j + 1) ≤ 2 * (2 * A) ^ j := by
        have h3 : 0 < 2 * A - 1 := by linarith
        rw [← mul_le_mul_iff_left₀ h3, e, pow_succ]
        have : (0 : ℚ) < (2 * A) ^ j := by positivity
        nlinarith [mul_nonneg this.le (by linarith : (0 : ℚ) ≤ A - 1)]
      have h5 : (2 * A) ^ j ≤ N * A ^ (2 * j) / c := by
        rw [le_div_iff₀ hcq, mul_pow, two_mul, pow_add]
        have : (0 : ℚ) ≤ A ^ j := by positivity
        calc 2 ^ j * A ^ j * (c : ℚ) = (c * 2 ^ j) * A ^ j := by ring
          _ ≤ (N * A ^ j) * A ^ j := mul_le_mul_of_nonneg_right hh this
          _ = _ := by ring
      calc (comps4 ls : ℚ) ≤ N / w * geomSum (2 * A) (j + 1) := h2
        _ ≤ N / w * (2 * (N * A ^ (2 * j) / c)) :=
          mul_le_mul_of_nonneg_left (hG.trans (by linarith)) (by positivity)
        _ ≤ N / w * (2 * (N * A ^ (2 * (M - 1)) / c)) :=
          mul_le_mul_of_nonneg_left (mul_le_mul_of_nonneg_left (div_le_div_of_nonneg_right
            (mul_le_mul_of_nonneg_left hpw hN) hcq.le) (by norm_num)) (by positivity)
        _ = _ := by field_simp
    · have e : ls.length - 1 = 0 := by omega
      rw [e] at h2
      simp only [geomSum, mul_zero] at h2
      exact h2.trans (by positivity)

/-- How many levels there can be. -/
theorem GeoC.levels (hw : 0 < w) {ls : List (Level2 K)} {N M : Nat} (h : GeoC w c N ls)
    (hM : (N : ℚ) * (1 + 1 / w) ^ M < c * 2 ^ M) : ls.length ≤ M + 1 := by
  have hwq : (0 : ℚ) < w := by exact_mod_cast hw
  by_contra hc
  have hh := h.height hw ls N (by omega)
  obtain ⟨j, hj⟩ : ∃ j, ls.length - 2 = M + j := ⟨ls.length - 2 - M, by omega⟩
  rw [hj, pow_add, pow_add] at hh
  have hA : (1 + 1 / (w : ℚ)) ≤ 2 := by
    have : (1 : ℚ) / w ≤ 1 := by rw [div_le_one hwq]; exact_mod_cast hw
    linarith
  have hA0 : (0 : ℚ) < 1 + 1 / w := by positivity
  generalize (1 + 1 / (w : ℚ)) = A at *
  have h1 : A ^ j ≤ 2 ^ j := pow_le_pow_left₀ hA0.le hA j
  have h2 : (0 : ℚ) < 2 ^ j := by positivity
  have h3 : (N : ℚ) * A ^ M * A ^ j ≤ N * A ^ M * 2 ^ j := mul_le_mul_of_nonneg_left h1 (by positivity)
  have h4 : (N : ℚ) * A ^ M * 2 ^ j < c * 2 ^ M * 2 ^ j := mul_lt_mul_of_pos_right hM h2
  linarith

end RCSketch2
end AQ

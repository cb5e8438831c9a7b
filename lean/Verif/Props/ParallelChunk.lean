/-
C124: the chunk length a ParallelDigest computes in f64.
-/
import Verif.Model.ParallelChunk
import Verif.Proofs.F64Error
import Verif.Props.ParallelDigest
import Verif.Proofs.ParallelExp

set_option linter.unusedSectionVars false
set_option linter.unusedVariables false

namespace AQ
open Prog Spec

section
attribute [local instance] f64Fmt f64_mono

theorem f64_nat {m : Nat} (hm : m ≤ 2 ^ 53) : (Fl.ofNat m : Fl ℚ) = .fin (m : ℚ) := by
  have hmax : (2 : ℚ) ^ 53 ≤ Ieee.double.max := by decide +kernel
  have h1 : (m : ℚ) ≤ 2 ^ 53 := by exact_mod_cast hm
  have h0 : (0 : ℚ) ≤ (m : ℚ) := by positivity
  refine Ieee.double.rnd_eq_fin (by decide) ⟨m, 0, ?_, by decide, ?_⟩ (by linarith) (by linarith)
  · rw [abs_of_nonneg (by omega)]
    show (m : ℤ) ≤ 2 ^ 53
    omega
  · rw [zpow_zero]; push_cast; ring

/-- The quotient of two lengths, rounded to `f64`, is never rounded down to the next integer. -/
theorem f64_div_ceil {a b c : Nat} (ha : a < 2 ^ 53) (hb : b ≤ 2 ^ 53) (hb0 : b ≠ 0) (h1 : a ≤ c * b) (h2 : c * b < a + b) (hc : 1 ≤ c) :
    ∃ y : ℚ, FloatFmt.rnd ((a : ℚ) / b) = .fin y ∧ (c : ℚ) - 1 < y ∧ y ≤ c := by
  have hbq : (0 : ℚ) < b := by exact_mod_cast Nat.pos_of_ne_zero hb0
  have hb53 : (b : ℚ) ≤ 2 ^ 53 := by exact_mod_cast hb
  have ha53 : (a : ℚ) + 1 ≤ 2 ^ 53 := by exact_mod_cast ha
  have haq : (0 : ℚ) ≤ a := by positivity
  have h1q : (a : ℚ) ≤ c * b := by exact_mod_cast h1
  have h2q : (c : ℚ) * b + 1 ≤ a + b := by exact_mod_cast h2
  have hab : (a : ℚ) / b ≤ c := (div_le_iff₀ hbq).2 h1q
  have hca : c ≤ 2 ^ 53 := by
    rcases Nat.lt_or_ge (2 ^ 53) c with h | h
    · have : c * 1 ≤ c * b := Nat.mul_le_mul_left _ (Nat.pos_of_ne_zero hb0)
      have h3 : (c - 1) * b < a := by rw [Nat.sub_mul]; omega
      have h4 : (c - 1) * 1 ≤ (c - 1) * b := Nat.mul_le_mul_left _ (Nat.pos_of_ne_zero hb0)
      omega
    · exact h
  have hmax : (2 : ℚ) ^ 53 ≤ Ieee.double.max := by decide +kernel
  have h0 : (0 : ℚ) ≤ (a : ℚ) / b := by positivity
  have hcq : (c : ℚ) ≤ 2 ^ 53 := by exact_mod_cast hca
  obtain ⟨y, hy, herr⟩ := f64_relErr.near ((a : ℚ) / b) (by rw [abs_of_nonneg h0]; linarith)
  refine ⟨y, hy, ?_, ?_⟩
  · rw [abs_of_nonneg h0] at herr
    have e1 := (abs_le.1 herr).1
    have e53 : (2 : ℚ) ^ (-53 : ℤ) = 1 / 2 ^ 53 := by decide +kernel
    have hη : (2 : ℚ) ^ (-1075 : ℤ) < 1 / 2 ^ 106 := by decide +kernel
    rw [e53] at e1
    generalize (2 : ℚ) ^ (-1075 : ℤ) = η at e1 hη
    have h3 : (c : ℚ) - 1 + 1 / b ≤ a / b := by
      rw [le_div_iff₀ hbq, add_mul, sub_mul, one_mul, div_mul_cancel₀ _ hbq.ne']
      linarith
    have h4 : 1 / 2 ^ 53 * ((a : ℚ) / b) ≤ 1 / b - 1 / 2 ^ 106 := by
      have h5 : (1 : ℚ) / 2 ^ 106 ≤ 1 / 2 ^ 53 * (1 / b) := by
        have : (1 : ℚ) / 2 ^ 53 ≤ 1 / b := one_div_le_one_div_of_le hbq hb53
        have := mul_le_mul_of_nonneg_left this (show (0 : ℚ) ≤ 1 / 2 ^ 53 by norm_num)
        refine le_trans (by norm_num) this
      have h6 : 1 / 2 ^ 53 * ((a : ℚ) / b) ≤ 1 / 2 ^ 53 * ((2 ^ 53 - 1) / b) := by
        refine mul_le_mul_of_nonneg_left ?_ (by norm_num)
        exact div_le_div_of_nonneg_right (by linarith) hbq.le
      have h7 : (1 : ℚ) / 2 ^ 53 * ((2 ^ 53 - 1) / b) = 1 / b - 1 / 2 ^ 53 * (1 / b) := by
        field_simp
      linarith
    linarith
  · have := FloatFmt.Mono.rnd_mono _ _ hab
    have hc' : (FloatFmt.rnd (c : ℚ) : Fl ℚ) = .fin (c : ℚ) := f64_nat hca
    rw [hy, hc'] at this
    exact Fl.fin_le_fin.1 this

/-- C124. The chunk length computed in `f64` is the number of items divided by the number of digests, rounded up, but at least 1. -/
theorem C124_chunk_length {len digests : Nat} (hl : len < 2 ^ 53) (hd : digests ≤ 2 ^ 53) (hd0 : digests ≠ 0) :
    ParallelDigest.chunkLen64 len digests = Max.max ((len + digests - 1) / digests) 1 := by
  unfold ParallelDigest.chunkLen64
  have hdq : (digests : ℚ) ≠ 0 := by exact_mod_cast hd0
  rw [f64_nat hl.le, f64_nat hd, Fl.div_fin_of_ne _ hdq]
  rcases Nat.eq_zero_or_pos len with rfl | hpos
  · rw [Nat.cast_zero, zero_div, FloatFmt.Mono.rnd_zero]
    have : (0 + digests - 1) / digests = 0 := Nat.div_eq_of_lt (by omega)
    rw [this]
    simp [Fl.fceil, Fl.asUsize]
  · obtain ⟨c, hc⟩ : ∃ c, c = (len + digests - 1) / digests := ⟨_, rfl⟩
    have hm := Nat.div_add_mod (len + digests - 1) digests
    have hlt := Nat.mod_lt (len + digests - 1) (Nat.pos_of_ne_zero hd0)
    rw [← hc, Nat.mul_comm] at hm
    have hc1 : 1 ≤ c := by
      rw [hc]
      exact (Nat.one_le_div_iff (Nat.pos_of_ne_zero hd0)).2 (by omega)
    obtain ⟨y, hy, y1, y2⟩ := f64_div_ceil (c := c) hl hd hd0 (by omega) (by omega) hc1
    have hceil : ⌈y⌉ = (c : ℤ) := by
      rw [Int.ceil_eq_iff]
      push_cast
      exact ⟨y1, y2⟩
    have hcl : c ≤ len := by
      have h4 : (c - 1) * 1 ≤ (c - 1) * digests := Nat.mul_le_mul_left _ (Nat.pos_of_ne_zero hd0)
      have h3 : (c - 1) * digests = c * digests - digests := by rw [Nat.sub_mul, Nat.one_mul]
      omega
    rw [hy, ← hc]
    show Max.max (Min.min ⌊((⌈y⌉ : ℤ) : ℚ)⌋₊ (2 ^ 64 - 1)) 1 = _
    rw [hceil]
    have : ⌊(((c : ℕ) : ℤ) : ℚ)⌋₊ = c := by rw [Int.cast_natCast]; exact Nat.floor_natCast c
    rw [this, Nat.min_eq_left (by omega)]

end

namespace ParallelDigest
variable {K : Type} [Field K] [LinearOrder K] [IsStrictOrderedRing K] [FloatFmt K] {D : Type} [Digest D (Fl K)]

theorem chunksAux_whole {α : Type} {c n : Nat} {l : List α} (hc : l.length ≤ c) (hn : l.length ≤ n) : chunksAux c n l = if l = [] then [] else [l] := by
  cases l with
  | nil => cases n <;> simp [chunksAux]
  | cons a l =>
    cases n with
    | zero => simp at hn
    | succ n =>
      simp only [chunksAux, reduceCtorEq, if_false]
      rw [List.take_of_length_le hc, List.drop_of_length_le hc]
      cases n <;> simp [chunksAux]

/-- Without digests the quotient is infinite and the whole slice is one chunk. -/
theorem chunkLen64_zero {len : Nat} (hl : len < 2 ^ 53) (h0 : len ≠ 0) : chunkLen64 len 0 = 2 ^ 64 - 1 := by
  unfold chunkLen64
  letI := f64Fmt
  rw [f64_nat hl.le, f64_nat (by norm_num), Fl.div_fin]
  have : (0 : ℚ) < len := by exact_mod_cast Nat.pos_of_ne_zero h0
  have hs : Fl.signInf (len : ℚ) = .pinf := by simp [Fl.signInf, h0]
  rw [Nat.cast_zero, if_pos rfl, hs]
  rfl

end ParallelDigest

variable {K : Type} [Field K] [LinearOrder K] [IsStrictOrderedRing K] [FloatFmt K] {D : Type} [Digest D (Fl K)]

/-- C124. For slices of fewer than `2^53` items the code does what the model with the exact quotient does, so C49, C50 and the other statements
about `ParallelDigest` are about the code as it computes. -/
theorem C124_add_buffer (p : ParallelDigest D K) (buffer : List (Fl K)) (hl : buffer.length < 2 ^ 53) (hd : p.digests.length ≤ 2 ^ 53) :
    p.addBuffer64 buffer = p.addBuffer buffer := by
  have key : chunks (ParallelDigest.chunkLen64 buffer.length p.digests.length) buffer =
      chunks (ParallelDigest.chunkLen buffer.length p.digests.length) buffer := by
    by_cases h0 : p.digests.length = 0
    · rw [h0]
      by_cases hb : buffer = []
      · subst hb
        have e : ∀ c, c ≠ 0 → chunks c ([] : List (Fl K)) = .ret [] := fun c hc => by simp [chunks, hc, chunksAux]
        rw [e _ (by unfold ParallelDigest.chunkLen64; exact (Nat.lt_of_lt_of_le Nat.zero_lt_one (Nat.le_max_right _ _)).ne'),
          e _ (ParallelDigest.chunkLen_ne_zero _ _)]
      · have hlen : buffer.length ≠ 0 := fun h => hb (List.length_eq_zero_iff.1 h)
        rw [ParallelDigest.chunkLen64_zero hl hlen]
        unfold chunks
        rw [if_neg (by norm_num), if_neg (ParallelDigest.chunkLen_ne_zero _ _), ParallelDigest.chunksAux_whole (by omega) le_rfl,
          ParallelDigest.chunksAux_whole (by unfold ParallelDigest.chunkLen; rw [if_pos rfl]; exact Nat.le_max_left _ _) le_rfl]
    · rw [C124_chunk_length hl hd h0]
      unfold ParallelDigest.chunkLen
      rw [if_neg h0]
  unfold ParallelDigest.addBuffer64 ParallelDigest.addBuffer
  rw [key]

theorem chunkLen64_limit : ParallelDigest.chunkLen64 (2 ^ 53 + 1) 1 = 2 ^ 53 := by decide +kernel

/-- C124. The bound is (up to one) sharp: of `2^53 + 1` items one inner digest receives only the first `2^53`. -/
theorem C124_limit (p : ParallelDigest D K) (d : D) (hd : p.digests = [d]) (buffer : List (Fl K)) (hl : buffer.length = 2 ^ 53 + 1) :
    Partially (p.addBuffer64 buffer) (fun p' => ∃ d', p'.digests = [d'] ∧ CanReturn (Digest.addBuffer d (buffer.take (2 ^ 53))) d') := by
  have hc : ∃ b bs, chunksAux (2 ^ 53) buffer.length buffer = buffer.take (2 ^ 53) :: b :: bs := by
    have h1 := chunksAux_length (2 ^ 53) (by norm_num) buffer.length buffer le_rfl
    rw [hl] at h1 ⊢
    have h2 := chunksAux_get (2 ^ 53) (by norm_num) (2 ^ 53 + 1) buffer 0 hl.le
    generalize chunksAux (2 ^ 53) (2 ^ 53 + 1) buffer = cs at h1 h2
    match cs, h1, h2 with
    | [], h1, _ => simp at h1
    | [a], h1, _ => simp at h1
    | a :: b :: bs, _, h2 =>
      rw [Nat.zero_mul, List.drop_zero, if_neg (by intro h; rw [h] at hl; simp at hl)] at h2
      simp only [List.getElem?_cons_zero, Option.some.injEq] at h2
      exact ⟨b, bs, by rw [h2]⟩
  obtain ⟨b, bs, hc⟩ := hc
  unfold ParallelDigest.addBuffer64 chunks
  rw [hd, hl, List.length_singleton, chunkLen64_limit, if_neg (by norm_num), ← hl, hc, bind_ret]
  simp only [ParallelDigest.feed, bind_assoc', bind_ret]
  rw [partially_bind, partially_iff]
  intro d' hd'
  show Partially (maxBy id buffer >>= _) _
  rw [partially_bind]
  refine (partially_true _).mono ?_
  intro mx _
  rw [partially_bind]
  refine (partially_true _).mono ?_
  intro bmx _
  rw [partially_bind]
  refine (partially_true _).mono ?_
  intro mn _
  rw [partially_bind]
  refine (partially_true _).mono ?_
  intro bmn _
  exact ⟨d', rfl, hd'⟩

/-- The hypotheses of C124 at work: 10 items for 4 digests go in chunks of 3, as `f64` computes. -/
example : ParallelDigest.chunkLen64 10 4 = 3 ∧ ParallelDigest.chunkLen64 12 4 = 3 ∧ ParallelDigest.chunkLen64 0 4 = 1 ∧
    ParallelDigest.chunkLen64 (3 * 2 ^ 50 + 1) 3 = 2 ^ 50 + 1 := by decide +kernel

end AQ

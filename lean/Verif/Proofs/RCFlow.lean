/-
For even `k` every compaction halves what it moves, so level `h` only ever receives a `2^-h` fraction of the input.
-/
import Verif.Proofs.RCInv

set_option linter.unusedSectionVars false
set_option linter.unusedVariables false

namespace AQ
open Prog Spec
variable {K : Type} [Field K] [LinearOrder K] [IsStrictOrderedRing K] [FloatFmt K]

namespace RCSketch
variable {n k N : Nat}

/-- `inflow r s P h`: what level `h` has received so far (still stored, pending, or moved up: `r h`). -/
def inflow (r : Nat → Nat) (s : RCSketch K) (P : List (Frame K)) (h : Nat) : Nat :=
  ((s.buffers[h]?).getD []).length + pend h P + r h

/-- Flow conservation. -/
structure Flow (N : Nat) (s : RCSketch K) (P : List (Frame K)) : Prop where
  kev : s.k % 2 = 0
  Bev : s.bufferSize % 4 = 0
  Bk : 2 * s.k ≤ s.bufferSize
  flow : ∃ r : Nat → Nat, (∀ h c, s.compactions[h]? = some c → s.k * c ≤ r h) ∧
    inflow r s P 0 ≤ N ∧ (∀ h, 2 * inflow r s P (h + 1) ≤ r h) ∧
    (∀ h, h + 1 < s.buffers.length → s.bufferSize ≤ inflow r s P h) ∧
    (∀ f ∈ P, ∀ h, f.lvl = h + 1 → s.bufferSize ≤ inflow r s P h) ∧
    (∀ h c, s.compactions[h]? = some c → c ≠ 0 → s.bufferSize ≤ inflow r s P h)

theorem inflow_ensure (r : Nat → Nat) (s : RCSketch K) (P : List (Frame K)) (h j : Nat) (hl : s.buffers.length = h) :
    inflow r (s.ensureLevel h) P j = inflow r s P j := by
  have e : (((s.ensureLevel h).buffers)[j]?).getD [] = ((s.buffers)[j]?).getD [] := by
    unfold ensureLevel
    rw [if_pos hl.le]
    rcases Nat.lt_or_ge j s.buffers.length with hj | hj
    · rw [List.getElem?_append_left hj]
    · rw [List.getElem?_append_right hj, List.getElem?_eq_none hj]
      rcases Nat.eq_zero_or_pos (j - s.buffers.length) with h0 | h0
      · simp [h0]
      · rw [List.getElem?_eq_none (by simp; omega)]
  unfold inflow; rw [e]

theorem Flow.ensure {s : RCSketch K} {h : Nat} {items : List (Fl K)} {rest : List (Frame K)}
    (hb : Base s (⟨h, items⟩ :: rest)) (hI : Flow N s (⟨h, items⟩ :: rest)) (hl : s.buffers.length = h) :
    Flow N (s.ensureLevel h) (⟨h, items⟩ :: rest) := by
  have ek : (s.ensureLevel h).k = s.k := by unfold ensureLevel; split <;> rfl
  have eB : (s.ensureLevel h).bufferSize = s.bufferSize := by unfold ensureLevel; split <;> rfl
  refine ⟨by rw [ek]; exact hI.kev, by rw [eB]; exact hI.Bev, by rw [ek, eB]; exact hI.Bk, ?_⟩
  obtain ⟨r, h1, h2, h3, h4, h5, h7⟩ := hI.flow
  refine ⟨r, ?_, ?_, ?_, ?_, ?_, ?_⟩
  · intro j c hj
    unfold ensureLevel at hj
    rw [if_pos hl.le] at hj
    rw [ek]
    simp only [List.getElem?_append] at hj
    split at hj
    · exact h1 j c hj
    · have : c = 0 := by
        rcases Nat.eq_zero_or_pos (j - s.compactions.length) with h0 | h0
        · rw [h0] at hj; simpa using hj.symm
        · rw [List.getElem?_eq_none (by simp; omega)] at hj; simp at hj
      subst this; simp
  · rw [inflow_ensure _ _ _ _ _ hl]; exact h2
  · intro j; rw [inflow_ensure _ _ _ _ _ hl]; exact h3 j
  · intro j hj
    rw [inflow_ensure _ _ _ _ _ hl, eB]
    rcases Nat.lt_or_ge (j + 1) s.buffers.length with h6 | h6
    · exact h4 j h6
    · unfold ensureLevel at hj
      rw [if_pos hl.le] at hj
      simp only [List.length_append, List.length_cons, List.length_nil] at hj
      exact h5 ⟨h, items⟩ (by simp) j (by simp only; omega)
  · intro f hf j hj
    rw [inflow_ensure _ _ _ _ _ hl, eB]; exact h5 f hf j hj
  · intro j c hj hc
    rw [inflow_ensure _ _ _ _ _ hl, eB]
    unfold ensureLevel at hj
    rw [if_pos hl.le] at hj
    simp only [List.getElem?_append] at hj
    split at hj
    · exact h7 j c hj hc
    · exfalso
      rcases Nat.eq_zero_or_pos (j - s.compactions.length) with h0 | h0
      · rw [h0] at hj; simp at hj; exact hc hj.symm
      · rw [List.getElem?_eq_none (by simp; omega)] at hj; simp at hj

theorem Flow.pop {s : RCSketch K} {h : Nat} {rest : List (Frame K)} (hI : Flow N s (⟨h, []⟩ :: rest)) :
    Flow N s rest := by
  have e : ∀ r j, inflow r s (⟨h, []⟩ :: rest) j = inflow r s rest j := by intro r j; simp [inflow, pend]
  refine ⟨hI.kev, hI.Bev, hI.Bk, ?_⟩
  obtain ⟨r, h1, h2, h3, h4, h5, h7⟩ := hI.flow
  simp only [e] at h2 h3 h4 h5 h7
  exact ⟨r, h1, h2, h3, h4, fun f hf => h5 f (by simp [hf]), h7⟩

theorem inflow_push (r : Nat → Nat) {s : RCSketch K} {h : Nat} {items buf : List (Fl K)} (rest : List (Frame K))
    (hget : s.buffers[h]? = some buf) (j : Nat) :
    inflow r (s.setBuf h (buf ++ items)) (⟨h, []⟩ :: rest) j = inflow r s (⟨h, items⟩ :: rest) j := by
  have hh : h < s.buffers.length := (List.getElem?_eq_some_iff.1 hget).1
  simp only [inflow, setBuf, set_get _ _ _ _ hh, pend]
  by_cases hj : j = h
  · subst hj; simp only [if_true, Option.getD_some, List.length_append, List.length_nil, hget]; omega
  · simp only [if_neg hj, if_neg (Ne.symm hj)]

theorem Flow.push {s : RCSketch K} {h : Nat} {items buf : List (Fl K)} {rest : List (Frame K)}
    (hI : Flow N s (⟨h, items⟩ :: rest)) (hget : s.buffers[h]? = some buf) :
    Flow N (s.setBuf h (buf ++ items)) (⟨h, []⟩ :: rest) := by
  refine ⟨hI.kev, hI.Bev, hI.Bk, ?_⟩
  obtain ⟨r, h1, h2, h3, h4, h5, h7⟩ := hI.flow
  refine ⟨r, h1, ?_, ?_, ?_, ?_, ?_⟩
  · rw [inflow_push r rest hget]; exact h2
  · intro j; rw [inflow_push r rest hget]; exact h3 j
  · intro j hj; rw [inflow_push r rest hget]; exact h4 j (by simpa [setBuf] using hj)
  · intro f hf j hj
    rw [inflow_push r rest hget]
    rcases List.mem_cons.1 hf with rfl | hf
    · exact h5 ⟨h, items⟩ (by simp) j hj
    · exact h5 f (by simp [hf]) j hj
  · intro j c hj hc; rw [inflow_push r rest hget]; exact h7 j c hj hc

theorem Flow.compact {s : RCSketch K} {h m : Nat} {fast : Bool} {meth : CompactionMethod} {items buf : List (Fl K)}
    {rest : List (Frame K)} {r : List (Fl K) × RCSketch K}
    (hI : Flow N s (⟨h, items⟩ :: rest)) (hb : Base s (⟨h, items⟩ :: rest))
    (hget : s.buffers[h]? = some buf) (hm : m ≤ items.length) (hlen : buf.length + m = s.bufferSize)
    (hr : CompactRel (s.setBuf h (buf ++ items.take m)) h fast meth (buf ++ items.take m) r) :
    Flow N r.2 (⟨h + 1, r.1⟩ :: ⟨h, items.drop m⟩ :: rest) := by
  obtain ⟨ci, ctrs, out, hi, hci, -, ho, rfl⟩ := hr
  have hh : h < s.buffers.length := (List.getElem?_eq_some_iff.1 hget).1
  have hB2 := hb.hB
  set full := buf ++ items.take m with hfull
  have hfl : full.length = s.bufferSize := by rw [hfull, List.length_append, List.length_take]; omega
  have hsl : (sorted id full).length = s.bufferSize := by rw [(sorted_perm id full).length_eq, hfl]
  have hkev := hI.kev
  have hBev := hI.Bev
  have hBk := hI.Bk
  have hup : s.k ≤ s.bufferSize - ci ∧ (s.bufferSize - ci) % 2 = 0 := by
    unfold IsIndex at hi
    split at hi
    · have : ci = s.bufferSize / 2 := hi.1
      omega
    · obtain ⟨c, _, h4, _⟩ := hi
      have h4 : ci + (trailingOnes c + 1) * s.k = full.length := h4
      have e1 : (trailingOnes c + 1) * s.k % 2 = 0 := by rw [Nat.mul_mod, hkev]; simp
      have e2 : s.k ≤ (trailingOnes c + 1) * s.k := Nat.le_mul_of_pos_left _ (by omega)
      omega
  have hol : 2 * out.length = s.bufferSize - ci := by
    have := isOut_two ho (by rw [List.length_drop, hsl]; exact hup.2)
    rw [List.length_drop, hsl] at this; exact this
  have hbuf : ∀ j, ((s.setBuf h full).afterSplit h ci full ctrs).buffers[j]? =
      if j = h then some ((sorted id full).take ci) else s.buffers[j]? := by
    intro j
    simp only [afterSplit, setBuf, List.set_set]
    exact set_get _ _ _ _ hh
  have htl : ((sorted id full).take ci).length = ci := by rw [List.length_take, hsl]; omega
  refine ⟨hI.kev, hI.Bev, hI.Bk, ?_⟩
  obtain ⟨q, h1, h2, h3, h4, h5, h7⟩ := hI.flow
  -- new outflow
  have hinf : ∀ j, inflow (fun j => if j = h then q h + (s.bufferSize - ci) else q j)
      ((s.setBuf h full).afterSplit h ci full ctrs) (⟨h + 1, out⟩ :: ⟨h, items.drop m⟩ :: rest) j =
      inflow q s (⟨h, items⟩ :: rest) j + if j = h + 1 then out.length else 0 := by
    intro j
    simp only [inflow, hbuf, pend]
    by_cases e : j = h
    · subst e
      rw [if_neg (by omega : ¬ j + 1 = j), if_neg (by omega : ¬ j = j + 1)]
      simp only [if_true, Option.getD_some, htl, hget, List.length_drop]
      have : ci ≤ s.bufferSize := by omega
      omega
    · by_cases e1 : j = h + 1
      · subst e1; simp only [if_true, if_neg e, if_neg (Ne.symm e)]; omega
      · simp only [if_neg e, if_neg (Ne.symm e), if_neg e1, if_neg (Ne.symm e1)]; omega
  refine ⟨fun j => if j = h then q h + (s.bufferSize - ci) else q j, ?_, ?_, ?_, ?_, ?_, ?_⟩
  · intro j c hj
    simp only [afterSplit, setBuf, List.getElem?_set] at hj
    change s.k * c ≤ _
    dsimp only
    by_cases e : h = j
    · subst e
      have hhc : h < s.compactions.length := by rw [hb.hg]; exact hh
      simp only [hhc, if_true, Option.some.injEq, List.getD, List.getElem?_eq_getElem hhc, Option.getD_some] at hj ⊢
      have g5 := h1 h _ (List.getElem?_eq_getElem hhc)
      rw [← hj, Nat.mul_add, Nat.mul_one]
      omega
    · rw [if_neg e] at hj
      rw [if_neg (Ne.symm e)]
      exact h1 j c hj
  · rw [hinf]; simpa using h2
  · intro j
    rw [hinf]
    have h3j := h3 j
    by_cases e : j = h
    · subst e; simp only [if_true]; omega
    · rw [if_neg (by omega)]; simp only [if_neg e]; omega
  · intro j hj
    rw [hinf]
    have := h4 j (by simpa [afterSplit, setBuf] using hj)
    change s.bufferSize ≤ _
    omega
  · intro f hf j hj
    rw [hinf]
    change s.bufferSize ≤ _
    rcases List.mem_cons.1 hf with rfl | hf
    · have : j = h := by simp only at hj; omega
      subst this
      have : s.bufferSize ≤ inflow q s (⟨j, items⟩ :: rest) j := by
        simp only [inflow, pend, hget, Option.getD_some, if_true]; omega
      omega
    · have : s.bufferSize ≤ inflow q s (⟨h, items⟩ :: rest) j := by
        rcases List.mem_cons.1 hf with rfl | hf
        · exact h5 ⟨h, items⟩ (by simp) j hj
        · exact h5 f (by simp [hf]) j hj
      omega
  · intro j c hj hc
    rw [hinf]
    change s.bufferSize ≤ _
    simp only [afterSplit, setBuf, List.getElem?_set] at hj
    by_cases e : h = j
    · subst e
      have : s.bufferSize ≤ inflow q s (⟨h, items⟩ :: rest) h := by
        simp only [inflow, pend, hget, Option.getD_some, if_true]; omega
      omega
    · rw [if_neg e] at hj
      have := h7 j c hj hc
      omega

theorem flowInv : HistInv (K := K) (fun _ _ => True) (fun l s P => Flow l.length s P) where
  closed l fast m _ :=
    { ensure := fun s h items rest hb hj hl => hj.ensure hb hl
      pop := fun s h rest hb hj hl => hj.pop
      push := fun s h items rest buf hb hj hg hl => hj.push hg
      compact := fun s h items rest buf n r hb hj hg hn hl hr => hj.compact hb hg hn hl hr }
  start l c s _ hb hj := by
    refine ⟨hj.kev, hj.Bev, hj.Bk, ?_⟩
    obtain ⟨r, h1, h2, h3, h4, h5, h7⟩ := hj.flow
    have e : ∀ j, inflow r s [⟨0, c⟩] j = inflow r s [] j + if j = 0 then c.length else 0 := by
      intro j
      simp only [inflow, pend]
      by_cases e : j = 0
      · subst e; simp only [if_true]; omega
      · simp only [if_neg e, if_neg (Ne.symm e)]; omega
    refine ⟨r, h1, ?_, ?_, ?_, ?_, ?_⟩
    · rw [e, List.length_append]; simp only [if_true]; omega
    · intro j; rw [e]; simpa using h3 j
    · intro j hj; rw [e]; have := h4 j hj; omega
    · intro f hf j hj; simp at hf; subst hf; simp at hj
    · intro j c hj hc; rw [e]; have := h7 j c hj hc; omega
  cnt l s n hj := ⟨hj.kev, hj.Bev, hj.Bk, hj.flow⟩

theorem flow_fresh {n k : Nat} (hk : k % 2 = 0) : Flow 0 (fresh n k : RCSketch K) [] :=
  ⟨hk, bsize_mod4 hk, bsize_ge n k, fun _ => 0, by simp [fresh], by simp [inflow, pend, fresh],
    by simp [inflow, pend, fresh], by simp [fresh], by simp, by simp [fresh]⟩

/-- Consequences: level `h` sees at most `N / 2^h` items, is compacted at most `N / (k 2^h)` times, and exists only if
the level below has been filled. -/
theorem Flow.bounds {s : RCSketch K} (hI : Flow N s []) :
    (∀ h c, s.compactions[h]? = some c → 2 ^ h * (s.k * c) ≤ N) ∧
    (∀ h, h + 1 < s.buffers.length → 2 ^ h * s.bufferSize ≤ N) ∧
    (∀ h c, s.compactions[h]? = some c → c ≠ 0 → 2 ^ h * s.bufferSize ≤ N) := by
  obtain ⟨r, h1, h2, h3, h4, -, h7⟩ := hI.flow
  have key : ∀ h, 2 ^ h * inflow r s [] h ≤ N := by
    intro h
    induction h with
    | zero => simpa using h2
    | succ h ih =>
      have h5 : r h ≤ inflow r s [] h := by unfold inflow; omega
      have : 2 ^ (h + 1) * inflow r s [] (h + 1) ≤ 2 ^ h * inflow r s [] h := by
        rw [pow_succ, Nat.mul_assoc]
        exact Nat.mul_le_mul_left _ ((h3 h).trans h5)
      omega
  refine ⟨fun h c hc => ?_, fun h hh => ?_, fun h c hc hc0 => ?_⟩
  · have h5 : r h ≤ inflow r s [] h := by unfold inflow; omega
    exact (Nat.mul_le_mul_left _ ((h1 h c hc).trans h5)).trans (key h)
  · exact (Nat.mul_le_mul_left _ (h4 h hh)).trans (key h)
  · exact (Nat.mul_le_mul_left _ (h7 h c hc hc0)).trans (key h)

end RCSketch
end AQ

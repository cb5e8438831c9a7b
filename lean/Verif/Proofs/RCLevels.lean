/-
RCSketch: how high an insertion can climb, and how often a level can be compacted, for sketches of any size.
-/
import Verif.Proofs.RCRange

set_option linter.unusedSectionVars false
set_option linter.unusedVariables false

namespace AQ
open Prog Spec
variable {K : Type} [Field K] [LinearOrder K] [IsStrictOrderedRing K] [FloatFmt K]

/-! ### Outputs are shorter -/

theorem everyOther_half {α : Type} (l : List α) : 2 * (everyOther false l).length ≤ l.length + 1 ∧ 2 * (everyOther true l).length ≤ l.length := by
  induction l with
  | nil => simp [everyOther]
  | cons a l ih => simp only [everyOther, List.length_cons]; omega

theorem isOut_half {m : CompactionMethod} {u out : List (Fl K)} (h : IsOut m u out) : 2 * out.length ≤ u.length + 1 := by
  cases m with
  | default =>
    obtain ⟨b, rfl⟩ := h
    have := everyOther_half u
    cases b <;> omega
  | averageNeighbour =>
    have h' : out = averagePairs u := h
    subst h'; have := RCSketch.averagePairs_length u; omega

namespace RCSketch

/-- What level `j` has received: `a j` at the start and the output `r (j-1)` of the level below. -/
def climbIn (a r : Nat → Nat) (j : Nat) : Nat := (if j = 0 then 0 else r (j - 1)) + a j

/-- Every level from `l` on below a pending or existing one has lost or kept an item. -/
def Climb (l : Nat) (a : Nat → Nat) (s : RCSketch K) (P : List (Frame K)) : Prop :=
  ∃ r : Nat → Nat, (∀ j, ((s.buffers[j]?).getD []).length + pend j P + r j ≤ climbIn a r j) ∧
    ∀ j, l ≤ j → ((∃ f ∈ P, j < f.lvl) ∨ j + 1 < s.buffers.length) → r j + 1 ≤ climbIn a r j

theorem Climb.closed (l : Nat) (a : Nat → Nat) (fast : Bool) (m : CompactionMethod) : Closed (K := K) fast m (Climb l a) where
  ensure s h items rest hb hj hl := by
    obtain ⟨r, h1, h2⟩ := hj
    refine ⟨r, fun j => ?_, fun j hj hc => ?_⟩
    · have := h1 j
      unfold ensureLevel
      rw [if_pos hl.le]
      rcases Nat.lt_or_ge j s.buffers.length with hj | hj
      · rw [List.getElem?_append_left hj]; exact this
      · have e : ((s.buffers ++ [[]])[j]?).getD [] = [] := by
          rw [List.getElem?_append_right hj]
          rcases Nat.eq_zero_or_pos (j - s.buffers.length) with h0 | h0
          · simp [h0]
          · rw [List.getElem?_eq_none (by simp; omega)]; rfl
        simp only [e]
        rw [List.getElem?_eq_none hj] at this
        exact this
    · refine h2 j hj ?_
      rcases hc with hc | hc
      · exact Or.inl hc
      · unfold ensureLevel at hc
        rw [if_pos hl.le] at hc
        simp only [List.length_append, List.length_cons, List.length_nil] at hc
        exact Or.inl ⟨⟨h, items⟩, by simp, by simp only; omega⟩
  pop s h rest hb hj hl := by
    obtain ⟨r, h1, h2⟩ := hj
    refine ⟨r, fun j => by have := h1 j; simpa [pend] using this, fun j hj hc => h2 j hj ?_⟩
    rcases hc with ⟨f, hf, hlt⟩ | hc
    · exact Or.inl ⟨f, by simp [hf], hlt⟩
    · exact Or.inr hc
  push s h items rest buf hb hj hg hl := by
    have hh : h < s.buffers.length := (List.getElem?_eq_some_iff.1 hg).1
    obtain ⟨r, h1, h2⟩ := hj
    refine ⟨r, fun j => ?_, fun j hj hc => h2 j hj ?_⟩
    · have := h1 j
      simp only [setBuf, set_get _ _ _ _ hh, pend] at this ⊢
      by_cases hj : j = h
      · subst hj
        simp only [if_true, Option.getD_some, List.length_append, List.length_nil, hg] at this ⊢; omega
      · rw [if_neg hj]
        rw [if_neg (Ne.symm hj)] at this ⊢
        exact this
    · rcases hc with ⟨f, hf, hlt⟩ | hc
      · rcases List.mem_cons.1 hf with rfl | hf
        · exact Or.inl ⟨⟨h, items⟩, by simp, hlt⟩
        · exact Or.inl ⟨f, by simp [hf], hlt⟩
      · simp only [setBuf, List.length_set] at hc
        exact Or.inr hc
  compact s h items rest buf m' r hb hj hget hm hlen hr := by
    obtain ⟨ci, ctrs, out, hi, hci, -, ho, rfl⟩ := hr
    have hh : h < s.buffers.length := (List.getElem?_eq_some_iff.1 hget).1
    have hB2 := hb.hB
    set full := buf ++ items.take m' with hfull
    have hfl : full.length = s.bufferSize := by rw [hfull, List.length_append, List.length_take]; omega
    have hsl : (sorted id full).length = s.bufferSize := by rw [(sorted_perm id full).length_eq, hfl]
    have hol : out.length ≤ s.bufferSize - ci := by
      have := isOut_length ho; rw [List.length_drop, hsl] at this; exact this
    have hol2 : 2 * out.length ≤ s.bufferSize - ci + 1 := by
      have := isOut_half ho; rw [List.length_drop, hsl] at this; exact this
    have hbuf : ∀ j, ((s.setBuf h full).afterSplit h ci full ctrs).buffers[j]? =
        if j = h then some ((sorted id full).take ci) else s.buffers[j]? := by
      intro j
      simp only [afterSplit, setBuf, List.set_set]
      exact set_get _ _ _ _ hh
    have hbl : ((s.setBuf h full).afterSplit h ci full ctrs).buffers.length = s.buffers.length := by simp [afterSplit, setBuf]
    have htl : ((sorted id full).take ci).length = ci := by rw [List.length_take, hsl]; omega
    obtain ⟨q, h1, h2⟩ := hj
    have hmono : ∀ j, climbIn a q j ≤ climbIn a (fun j => if j = h then q h + out.length else q j) j := by
      intro j; unfold climbIn
      dsimp only
      split
      · exact le_refl _
      · split
        · rename_i e; rw [e]; omega
        · exact le_refl _
    refine ⟨fun j => if j = h then q h + out.length else q j, fun j => ?_, fun j hj hc => ?_⟩
    · have h2h := h1 h
      have h2j := h1 j
      simp only [pend, hget, Option.getD_some, if_true] at h2h h2j
      simp only [hbuf, pend]
      by_cases e : j = h
      · subst e
        simp only [if_true, Option.getD_some, htl]
        rw [if_neg (by omega), List.length_drop]
        have := hmono j
        omega
      · rw [if_neg e, if_neg e]
        rw [if_neg (Ne.symm e)] at h2j ⊢
        by_cases e1 : h + 1 = j
        · subst e1
          unfold climbIn at h2j ⊢
          simp only [if_true, Nat.add_sub_cancel, Nat.add_eq_zero_iff, one_ne_zero, and_false, if_false] at h2j ⊢
          omega
        · rw [if_neg e1]
          have := hmono j
          omega
    · by_cases e : j = h
      · have h2h := h1 h
        simp only [pend, hget, Option.getD_some, if_true] at h2h
        have := hmono j
        subst e
        simp only [if_true]
        omega
      · have := hmono j
        have h3 : q j + 1 ≤ climbIn a q j := by
          refine h2 j hj ?_
          rcases hc with ⟨f, hf, hlt⟩ | hc
          · rcases List.mem_cons.1 hf with rfl | hf
            · simp only at hlt
              exact Or.inl ⟨⟨h, items⟩, by simp, by simp only; omega⟩
            · rcases List.mem_cons.1 hf with rfl | hf
              · exact Or.inl ⟨⟨h, items⟩, by simp, hlt⟩
              · exact Or.inl ⟨f, by simp [hf], hlt⟩
          · rw [hbl] at hc; exact Or.inr hc
        dsimp only
        rw [if_neg e]
        omega

/-- The output of a level is bounded by what came in at and below it. -/
theorem Climb.out_le {a r : Nat → Nat} {L : Nat → Nat} (h : ∀ j, L j + r j ≤ climbIn a r j) (j : Nat) :
    r j ≤ ((List.range (j + 1)).map a).sum := by
  induction j with
  | zero => have := h 0; simp [climbIn] at this ⊢; omega
  | succ j ih =>
    have := h (j + 1)
    simp only [climbIn, Nat.add_eq_zero_iff, one_ne_zero, and_false, if_false, Nat.add_sub_cancel] at this
    rw [List.range_succ, List.map_append, List.sum_append]
    simp only [List.map_cons, List.map_nil, List.sum_cons, List.sum_nil]
    omega

/-- With `T` items in all, none at the start from level `l` on, nothing climbs above `l + T`. -/
theorem Climb.height {l T : Nat} {a : Nat → Nat} (ha : ∀ j, l ≤ j → 1 ≤ j → a j = 0) (hT : ∀ j, ((List.range j).map a).sum ≤ T)
    {r : Nat → Nat} {L : Nat → Nat} (h1 : ∀ j, L j + r j ≤ climbIn a r j) {h : Nat}
    (h2 : ∀ j, l ≤ j → j < h → r j + 1 ≤ climbIn a r j) : h ≤ l + T := by
  by_contra hc
  have key : ∀ d, l + d < h → r (l + d) + d + 1 ≤ T := by
    intro d
    induction d with
    | zero =>
      intro hd
      have h3 := h2 l (le_refl _) (by omega)
      have h4 : climbIn a r l ≤ ((List.range (l + 1)).map a).sum := by
        unfold climbIn
        rw [List.range_succ, List.map_append, List.sum_append]
        simp only [List.map_cons, List.map_nil, List.sum_cons, List.sum_nil, Nat.add_zero]
        split
        · omega
        · have := Climb.out_le h1 (l - 1)
          rw [Nat.sub_add_cancel (by omega)] at this
          omega
      have := hT (l + 1)
      simp only [Nat.add_zero]
      omega
    | succ d ih =>
      intro hd
      have h3 := h2 (l + (d + 1)) (by omega) hd
      have h4 := ih (by omega)
      unfold climbIn at h3
      rw [if_neg (by omega), ha _ (by omega) (by omega)] at h3
      have e : l + (d + 1) - 1 = l + d := by omega
      rw [e] at h3
      omega
  have := key T (by omega)
  omega

/-! ### One insertion -/

/-- The items of level `j` before `n` items are inserted at the bottom. -/
def startLen (s : RCSketch K) (n : Nat) (j : Nat) : Nat := ((s.buffers[j]?).getD []).length + if j = 0 then n else 0

theorem climb_start (s : RCSketch K) (c : List (Fl K)) : Climb s.buffers.length (s.startLen c.length) s [⟨0, c⟩] := by
  refine ⟨fun _ => 0, fun j => ?_, fun j hj hc => ?_⟩
  · unfold climbIn startLen
    simp only [pend]
    by_cases e : j = 0
    · subst e; simp
    · rw [if_neg (Ne.symm e), if_neg e, if_neg e]; omega
  · exfalso
    rcases hc with ⟨f, hf, hlt⟩ | hc
    · simp at hf; subst hf; simp at hlt
    · omega

theorem sum_range_get (L : List (List (Fl K))) : ∀ j, ((List.range j).map (fun i => ((L[i]?).getD []).length)).sum ≤ (L.map List.length).sum := by
  induction L with
  | nil =>
    intro j
    have : ∀ l : List Nat, (l.map (fun i => ((([] : List (List (Fl K)))[i]?).getD []).length)).sum = 0 := by
      intro l; induction l with
      | nil => rfl
      | cons a l ih => rw [List.map_cons, List.sum_cons, ih]; simp
    rw [this]; simp
  | cons b L ih =>
    intro j
    cases j with
    | zero => simp
    | succ j =>
      have := ih j
      rw [List.range_succ_eq_map, List.map_cons, List.sum_cons, List.map_map, List.map_cons, List.sum_cons]
      have e : ((fun i => (((b :: L)[i]?).getD []).length) ∘ Nat.succ) = fun i => ((L[i]?).getD []).length := by
        funext i; simp
      rw [e]
      simp only [List.getElem?_cons_zero, Option.getD_some]
      omega

theorem startLen_sum (s : RCSketch K) (n : Nat) (j : Nat) : ((List.range j).map (s.startLen n)).sum ≤ s.stored + n := by
  have h1 := sum_range_get s.buffers j
  have h2 : ((List.range j).map (fun i => if i = 0 then n else 0)).sum ≤ n := by
    cases j with
    | zero => simp
    | succ j =>
      rw [List.range_succ_eq_map, List.map_cons, List.sum_cons, List.map_map]
      have e : ((fun i => if i = 0 then n else 0) ∘ Nat.succ) = fun _ => 0 := by funext i; simp
      rw [e]; simp
  have h3 : ∀ l : List Nat, (l.map (s.startLen n)).sum = (l.map (fun i => ((s.buffers[i]?).getD []).length)).sum + (l.map (fun i => if i = 0 then n else 0)).sum := by
    intro l; induction l with
    | nil => rfl
    | cons a l ih => simp only [List.map_cons, List.sum_cons, ih, startLen]; omega
  rw [h3]
  unfold stored
  omega

theorem Climb.lvl {s0 s : RCSketch K} {n : Nat} {P : List (Frame K)} (hc : Climb s0.buffers.length (s0.startLen n) s P) {f : Frame K}
    (hf : f ∈ P) : f.lvl ≤ s0.buffers.length + (s0.stored + n) := by
  obtain ⟨r, h1, h2⟩ := hc
  refine Climb.height (a := s0.startLen n) (r := r) (L := fun j => ((s.buffers[j]?).getD []).length + pend j P) ?_
    (s0.startLen_sum n) h1 (fun j hj hlt => h2 j hj (Or.inl ⟨f, hf, hlt⟩))
  intro j hj hj1
  unfold startLen
  rw [List.getElem?_eq_none hj, if_neg (by omega)]; rfl

/-! ### A whole history -/

/-- All items come in at the bottom. -/
def bottom (N : Nat) (j : Nat) : Nat := if j = 0 then N else 0

theorem climb_more {N : Nat} {s : RCSketch K} (c : List (Fl K)) (h : Climb 0 (bottom N) s []) :
    Climb 0 (bottom (N + c.length)) s [⟨0, c⟩] := by
  obtain ⟨r, h1, h2⟩ := h
  have e : ∀ j, climbIn (bottom (N + c.length)) r j = climbIn (bottom N) r j + if j = 0 then c.length else 0 := by
    intro j; unfold climbIn bottom; split <;> omega
  refine ⟨r, fun j => ?_, fun j hj hc => ?_⟩
  · have := h1 j
    rw [e]
    simp only [pend] at this ⊢
    by_cases e0 : j = 0
    · subst e0; simp only [if_true]; omega
    · rw [if_neg (Ne.symm e0), if_neg e0]; omega
  · have := h2 j hj (by
      rcases hc with ⟨f, hf, hlt⟩ | hc
      · simp at hf; subst hf; simp at hlt
      · exact Or.inr hc)
    rw [e]; omega

theorem Climb.levels {N : Nat} {s : RCSketch K} {P : List (Frame K)} (hc : Climb 0 (bottom N) s P) : s.buffers.length ≤ N + 1 := by
  obtain ⟨r, h1, h2⟩ := hc
  have hT : ∀ j, ((List.range j).map (bottom N)).sum ≤ N := by
    intro j
    cases j with
    | zero => simp
    | succ j =>
      rw [List.range_succ_eq_map, List.map_cons, List.sum_cons, List.map_map]
      have e : (bottom N ∘ Nat.succ) = fun _ => 0 := by funext i; simp [bottom]
      rw [e]; simp [bottom]
  have := Climb.height (l := 0) (T := N) (a := bottom N) (r := r) (L := fun j => ((s.buffers[j]?).getD []).length + pend j P)
    (h := s.buffers.length - 1) (fun j _ hj => by simp [bottom]; omega) hT h1 (fun j hj hlt => h2 j hj (Or.inr (by omega)))
  omega

theorem climb_fresh (s : RCSketch K) (h : s.buffers = []) : Climb 0 (bottom 0) s [] :=
  ⟨fun _ => 0, fun j => by simp [h, pend], fun j _ hc => by simp [h] at hc⟩

/-- As a history invariant. -/
theorem climbInv : HistInv (K := K) (fun _ _ => True) (fun l => Climb 0 (bottom l.length)) where
  closed l fast m _ := Climb.closed 0 _ fast m
  start l c s hc hb hj := by rw [List.length_append]; exact climb_more c hj
  cnt l s n hj := hj

end RCSketch
end AQ

/-
Induction rules and invariants for `RCSketch2`.
-/
import Verif.Model.RCSketch2
import Verif.Proofs.RCInv

set_option linter.unusedSectionVars false
set_option linter.unusedVariables false

namespace AQ
open Prog Spec
variable {K : Type} [Field K] [LinearOrder K] [IsStrictOrderedRing K] [FloatFmt K]

namespace RCSketch2
open RCSketch (everyOther_length_eq averagePairs_length everyOther_rank everyOther_sum)
variable {sec : Nat → Nat} {fast : Bool} {m : CompactionMethod}

/-- The compaction index and the new counter. -/
def IsIndex (sec : Nat → Nat) (fast : Bool) (l : Level2 K) (ci c : Nat) : Prop :=
  if fast then ci = cap sec l / 2 ∧ c = l.counter
  else ∃ b, b + 1 + trailingOnes l.counter = l.sections ∧ ci = l.buf.length / 2 + b * sec l.divs ∧
    c = l.counter + 1 ∧ l.counter + 1 < 2 ^ 32

/-- Everything the compaction of one level can do. -/
def CompactRel (sec : Nat → Nat) (fast : Bool) (m : CompactionMethod) (l : Level2 K)
    (r : List (Fl K) × Nat × Level2 K) : Prop :=
  ∃ ci c out, IsIndex sec fast l ci c ∧ ci ≤ l.buf.length ∧ (2 ≤ l.buf.length → ∀ x ∈ l.buf, x ≠ .nan) ∧
    IsOut m ((sorted id l.buf).drop ci) out ∧
    r = (out, l.buf.length - ci, updateSections
      ⟨(sorted id l.buf).take ci, c, l.sections, l.divs, l.compactions + 1, (sorted id l.buf).drop ci :: l.log⟩)

theorem compactBuffer_partially (l : Level2 K) (ci : Nat) (m : CompactionMethod) :
    Partially (compactBuffer l ci m) (fun r => ci ≤ l.buf.length ∧ (2 ≤ l.buf.length → ∀ x ∈ l.buf, x ≠ .nan) ∧
      ∃ out, IsOut m ((sorted id l.buf).drop ci) out ∧ r = (out, l.buf.length - ci,
        { l with buf := (sorted id l.buf).take ci, compactions := l.compactions + 1, log := (sorted id l.buf).drop ci :: l.log })) := by
  unfold compactBuffer
  rw [partially_bind]
  by_cases hn : 2 ≤ l.buf.length ∧ ∃ a ∈ l.buf, a = Fl.nan
  · rw [sortFl, sortByKey_nan id l.buf hn.1 (by simpa using hn.2)]; simp
  · have hn' : 2 ≤ l.buf.length → ∀ x ∈ l.buf, x ≠ .nan := by
      intro h2 x hx hxn; exact hn ⟨h2, x, hx, hxn⟩
    refine (sortByKey_partially id l.buf).mono ?_
    rintro srt rfl
    have hl : (sorted id l.buf).length = l.buf.length := (sorted_perm id l.buf).length_eq
    split
    · rename_i hci
      rw [partially_bind]
      refine (compactUpper_always m _).partially.mono ?_
      intro out ho
      exact ⟨by omega, hn', out, ho, by rw [List.length_drop, hl]⟩
    · simp

theorem compactLevel_partially (l : Level2 K) : Partially (compactLevel sec fast m l) (CompactRel sec fast m l) := by
  unfold compactLevel
  rw [partially_bind]
  cases fast with
  | true =>
    simp only [if_true, partially_ret, partially_bind]
    refine (compactBuffer_partially l _ m).mono ?_
    rintro r ⟨h1, h2, out, h3, rfl⟩
    exact ⟨_, _, out, by simp [IsIndex, getCompactIndexFast], h1, h2, h3, rfl⟩
  | false =>
    simp only [Bool.false_eq_true, if_false, getCompactIndex, partially_bind]
    unfold usub
    split
    · simp only [partially_ret]
      split
      · simp only [partially_ret]
        split
        · simp only [partially_ret]
          refine (compactBuffer_partially _ _ m).mono ?_
          rintro r ⟨h1, h2, out, h3, rfl⟩
          refine ⟨_, l.counter + 1, out, ?_, h1, h2, h3, rfl⟩
          simp only [IsIndex, Bool.false_eq_true, if_false]
          exact ⟨_, by omega, rfl, by trivial, by assumption⟩
        · simp
      · simp
    · simp

/-- A NaN-free full level with a small enough counter is compacted without failure. -/
theorem compactLevel_always (l : Level2 K) (hnan : ∀ x ∈ l.buf, x ≠ .nan) (hfull : cap sec l ≤ l.buf.length)
    (hc : l.counter < 2 ^ (l.sections - 1)) (hs : 1 ≤ l.sections) (h32 : l.counter + 1 < 2 ^ 32) :
    Always (compactLevel sec fast m l) (CompactRel sec fast m l) := by
  have key : ∀ (l' : Level2 K) ci, l'.buf = l.buf → ci ≤ l.buf.length →
      Always (compactBuffer l' ci m >>= fun c => .ret (c.1, c.2.1, updateSections c.2.2)) (fun _ => True) := by
    intro l' ci hb hci
    unfold compactBuffer
    have hl : (sorted id l.buf).length = l.buf.length := (sorted_perm id l.buf).length_eq
    simp only [hb, sortFl, sortByKey_of_no_nan id l.buf (by simpa using hnan), bind_ret]
    rw [if_pos (by omega), bind_assoc', always_bind]
    exact (compactUpper_always m _).mono (fun _ _ => trivial)
  have h1 : Always (compactLevel sec fast m l) (fun _ => True) := by
    unfold compactLevel
    cases fast with
    | true =>
      simp only [if_true, bind_ret]
      refine key l _ rfl ?_
      unfold getCompactIndexFast; omega
    | false =>
      have ht : trailingOnes l.counter ≤ l.sections - 1 := by
        have h1 := trailingOnes_le l.counter
        by_contra h
        have : 2 ^ l.sections ≤ 2 ^ trailingOnes l.counter := Nat.pow_le_pow_right (by norm_num) (by omega)
        have h3 : 2 ^ l.sections = 2 * 2 ^ (l.sections - 1) := by
          rw [← pow_succ']; congr 1; omega
        have : 0 < 2 ^ (l.sections - 1) := by positivity
        omega
      simp only [Bool.false_eq_true, if_false, getCompactIndex]
      rw [usub_eq (by omega), bind_ret, usub_eq (by omega), bind_ret, if_pos h32, bind_ret]
      refine key _ _ rfl ?_
      change l.buf.length / 2 + (l.sections - trailingOnes l.counter - 1) * sec l.divs ≤ l.buf.length
      have : (l.sections - trailingOnes l.counter - 1) * sec l.divs ≤ l.sections * sec l.divs :=
        Nat.mul_le_mul_right _ (by omega)
      have e : cap sec l = 2 * (l.sections * sec l.divs) := by unfold cap; ring
      omega
  exact (h1.and (compactLevel_partially l)).mono (fun r hr => hr.2)

/-- The levels with the pending output added. -/
def ext : Option (List (Fl K)) → List (Level2 K) → List (Level2 K)
  | none, [] => []
  | some out, [] => [newLevel out]
  | carry, l :: ls => extend l carry :: ls

@[simp] theorem ext_cons (carry : Option (List (Fl K))) (l : Level2 K) (ls : List (Level2 K)) :
    ext carry (l :: ls) = extend l carry :: ls := by cases carry <;> rfl

@[simp] theorem ext_none (ls : List (Level2 K)) : ext none ls = ls := by cases ls <;> rfl

/-- Induction over the `compress` loop (partial correctness). -/
theorem compress_rule {P : Nat → Option (List (Fl K)) → List (Level2 K) → Nat → List (Level2 K) → Prop}
    (hnil : ∀ size, P size none [] size [])
    (hnew : ∀ size out, P size (some out) [] size [newLevel out])
    (hskip : ∀ size carry l ls size' ls', ¬ cap sec (extend l carry) ≤ (extend l carry).buf.length →
      P size none ls size' ls' → P size carry (l :: ls) size' (extend l carry :: ls'))
    (hcomp : ∀ size carry l ls out u l2 size' ls', cap sec (extend l carry) ≤ (extend l carry).buf.length →
      CompactRel sec fast m (extend l carry) (out, u, l2) → u ≤ size →
      P (size - u + out.length) (some out) ls size' ls' → P size carry (l :: ls) size' (l2 :: ls')) :
    ∀ ls size carry, Partially (compressFrom sec fast m size carry ls) (fun r => P size carry ls r.1 r.2) := by
  intro ls
  induction ls with
  | nil =>
    intro size carry
    cases carry with
    | none => simpa [compressFrom] using hnil size
    | some out => simpa [compressFrom] using hnew size out
  | cons l ls ih =>
    intro size carry
    rw [compressFrom]
    split
    · rename_i hfull
      rw [partially_bind]
      refine (compactLevel_partially _).mono ?_
      rintro ⟨out, u, l2⟩ hr
      rw [partially_bind]
      unfold usub
      split
      · rename_i hu
        rw [partially_ret, partially_bind]
        exact (ih _ _).mono (fun r hP => hcomp size carry l ls out u l2 r.1 r.2 hfull hr hu hP)
      · simp
    · rename_i hfull
      rw [partially_bind]
      exact (ih _ _).mono (fun r hP => hskip size carry l ls r.1 r.2 hfull hP)

/-- The `compress` loop does not fail when every level it visits can be compacted. -/
theorem compress_always {Ok : Nat → Option (List (Fl K)) → List (Level2 K) → Prop}
    (hskip : ∀ size carry l ls, Ok size carry (l :: ls) → ¬ cap sec (extend l carry) ≤ (extend l carry).buf.length →
      Ok size none ls)
    (hcomp : ∀ size carry l ls, Ok size carry (l :: ls) → cap sec (extend l carry) ≤ (extend l carry).buf.length →
      Always (compactLevel sec fast m (extend l carry)) (fun r => r.2.1 ≤ size ∧
        Ok (size - r.2.1 + r.1.length) (some r.1) ls)) :
    ∀ ls size carry, Ok size carry ls → Always (compressFrom sec fast m size carry ls) (fun _ => True) := by
  intro ls
  induction ls with
  | nil => intro size carry _; cases carry <;> simp [compressFrom]
  | cons l ls ih =>
    intro size carry hok
    rw [compressFrom]
    split
    · rename_i hfull
      rw [always_bind]
      refine (hcomp size carry l ls hok hfull).mono ?_
      rintro r ⟨h1, h2⟩
      rw [usub_eq h1, bind_ret, always_bind]
      exact (ih _ _ h2).mono (fun _ _ => trivial)
    · rename_i hfull
      rw [always_bind]
      exact (ih _ _ (hskip size carry l ls hok hfull)).mono (fun _ _ => trivial)

/-! ### Facts about one compaction -/

theorem CompactRel.split {l : Level2 K} {out : List (Fl K)} {u : Nat} {l2 : Level2 K}
    (h : CompactRel sec fast m l (out, u, l2)) :
    ∃ low upper, l2.buf = low ∧ (low ++ upper).Perm l.buf ∧ (low ++ upper).Pairwise (· ≤ ·) ∧ upper.length = u ∧
      IsOut m upper out ∧ l2.compactions = l.compactions + 1 := by
  obtain ⟨ci, c, out', hi, hci, hn, ho, he⟩ := h
  simp only [Prod.mk.injEq] at he
  obtain ⟨rfl, rfl, rfl⟩ := he
  have hl : (sorted id l.buf).length = l.buf.length := (sorted_perm id l.buf).length_eq
  refine ⟨(sorted id l.buf).take ci, (sorted id l.buf).drop ci, ?_, ?_, ?_, by rw [List.length_drop, hl], ho, ?_⟩
  · unfold updateSections; split <;> rfl
  · rw [List.take_append_drop]; exact sorted_perm id _
  · rw [List.take_append_drop]; exact sorted_pairwise id _
  · unfold updateSections; split <;> rfl

theorem extend_buf (l : Level2 K) (carry : Option (List (Fl K))) : (extend l carry).buf = l.buf ++ carry.getD [] := by
  cases carry <;> simp [extend]

/-! ### Size -/

/-- Number of stored items. -/
def lens (ls : List (Level2 K)) : Nat := (ls.map (fun l => l.buf.length)).sum

theorem lens_ext (carry : Option (List (Fl K))) (ls : List (Level2 K)) :
    lens (ext carry ls) = lens ls + (carry.getD []).length := by
  cases ls <;> cases carry <;> simp [ext, lens, newLevel, extend]
  omega

/-- `sketch_size` changes exactly as the number of stored items. -/
theorem compressFrom_size (ls : List (Level2 K)) (size : Nat) (carry : Option (List (Fl K))) :
    Partially (compressFrom sec fast m size carry ls) (fun r => r.1 + lens (ext carry ls) = size + lens r.2) := by
  refine compress_rule (P := fun size carry ls size' ls' => size' + lens (ext carry ls) = size + lens ls')
    ?_ ?_ ?_ ?_ ls size carry
  · intro size; simp [ext, lens]
  · intro size out; simp [ext, lens, newLevel]
  · intro size carry l ls size' ls' _ h
    simp only [ext_none] at h
    simp only [ext, lens, List.map_cons, List.sum_cons] at h ⊢
    omega
  · intro size carry l ls out u l2 size' ls' _ hr hu h
    obtain ⟨low, upper, hlow, hp, -, hul, -⟩ := hr.split
    rw [lens_ext] at h
    have := hp.length_eq
    simp only [List.length_append] at this
    simp only [ext, lens, List.map_cons, List.sum_cons, hlow, Option.getD_some] at h ⊢
    omega

/-! ### Weighted sums -/

/-- `Σ_h 2^h g(level h)`. -/
def Wt (g : List (Fl K) → Nat) (ls : List (Level2 K)) : Nat := wsum (ls.map (fun l => g l.buf))

/-- `Σ_h 2^h · compactions`. -/
def comps (ls : List (Level2 K)) : Nat := wsum (ls.map Level2.compactions)

theorem Wt_ext {g : List (Fl K) → Nat} (hg : Additive g) (carry : Option (List (Fl K))) (ls : List (Level2 K)) :
    Wt g (ext carry ls) = Wt g ls + g (carry.getD []) := by
  cases ls <;> cases carry <;> simp [ext, Wt, newLevel, extend, wsum, hg.nil, hg.app]
  omega

/-- A weighted count changes by at most the number of compactions, weighted. -/
theorem compressFrom_rank {g : List (Fl K) → Nat} (hg : Additive g) {A : Fl K → Prop}
    (hA : ∀ u out : List (Fl K), u.Pairwise (· ≤ ·) → (∀ y ∈ u, A y) → IsOut m u out →
      (∀ y ∈ out, A y) ∧ g u ≤ 2 * g out + 1 ∧ 2 * g out ≤ g u + 1)
    (ls : List (Level2 K)) (size : Nat) (carry : Option (List (Fl K))) (hin : ∀ l ∈ ext carry ls, ∀ y ∈ l.buf, A y) :
    Partially (compressFrom sec fast m size carry ls) (fun r => (∀ l ∈ r.2, ∀ y ∈ l.buf, A y) ∧
      Wt g r.2 + comps ls ≤ Wt g (ext carry ls) + comps r.2 ∧ Wt g (ext carry ls) + comps ls ≤ Wt g r.2 + comps r.2) := by
  refine (compress_rule (P := fun size carry ls size' ls' => (∀ l ∈ ext carry ls, ∀ y ∈ l.buf, A y) →
    (∀ l ∈ ls', ∀ y ∈ l.buf, A y) ∧ Wt g ls' + comps ls ≤ Wt g (ext carry ls) + comps ls' ∧
      Wt g (ext carry ls) + comps ls ≤ Wt g ls' + comps ls') ?_ ?_ ?_ ?_ ls size carry).mono (fun r h => h hin)
  · intro size h; simp [ext, Wt, comps, wsum]
  · intro size out h; simp [ext, Wt, comps, wsum, newLevel] at h ⊢; exact h
  · intro size carry l ls size' ls' _ ih h
    have h1 : ∀ y ∈ (extend l carry).buf, A y := h _ (by simp [ext])
    obtain ⟨h2, h3, h4⟩ := ih (fun l hl => h l (by rw [ext_none] at hl; simp [ext, hl]))
    refine ⟨?_, ?_⟩
    · intro l' hl'
      rcases List.mem_cons.1 hl' with rfl | hl'
      · exact h1
      · exact h2 l' hl'
    · have e : (extend l carry).compactions = l.compactions := by cases carry <;> rfl
      rw [ext_none] at h3 h4
      simp only [ext, Wt, comps, List.map_cons, wsum, e] at h3 h4 ⊢
      omega
  · intro size carry l ls out u l2 size' ls' _ hr hu ih h
    obtain ⟨low, upper, hlow, hp, hs, hul, ho, hc⟩ := hr.split
    have h1 : ∀ y ∈ low ++ upper, A y := fun y hy => h _ (by simp [ext]) y (hp.mem_iff.1 hy)
    obtain ⟨hA1, hA2, hA3⟩ := hA upper out ((List.pairwise_append.1 hs).2.1) (fun y hy => h1 y (by simp [hy])) ho
    have hin' : ∀ l ∈ ext (some out) ls, ∀ y ∈ l.buf, A y := by
      cases ls with
      | nil => intro l hl y hy; simp [ext, newLevel] at hl; subst hl; exact hA1 y hy
      | cons l0 ls =>
        intro l' hl' y hy
        simp only [ext, List.mem_cons] at hl'
        rcases hl' with rfl | hl'
        · simp only [extend, List.mem_append] at hy
          rcases hy with hy | hy
          · exact h l0 (by simp [ext]) y hy
          · exact hA1 y hy
        · exact h l' (by simp [ext, hl']) y hy
    obtain ⟨h2, h3, h4⟩ := ih hin'
    refine ⟨?_, ?_⟩
    · intro l' hl'
      rcases List.mem_cons.1 hl' with rfl | hl'
      · rw [hlow]; exact fun y hy => h1 y (by simp [hy])
      · exact h2 l' hl'
    · have e : (extend l carry).compactions = l.compactions := by cases carry <;> rfl
      have e2 : g (extend l carry).buf = g low + g upper := by rw [← hg.app]; exact (hg.perm _ _ hp).symm
      rw [Wt_ext hg] at h3 h4
      simp only [ext, Wt, comps, List.map_cons, wsum, e2, hc, hlow, e, Option.getD_some] at h3 h4 ⊢
      omega

/-! ### Levels, capacities, flow -/

/-- Section bookkeeping of one level. -/
structure LvlOK (l : Level2 K) : Prop where
  ctr : l.counter < 2 ^ (l.sections - 1)
  sec : l.sections = 3 * 2 ^ l.divs
  div : l.divs ≤ 4
  c32 : l.counter < 2 ^ 32

theorem lvlOK_new (b : List (Fl K)) : LvlOK (newLevel b) := ⟨by simp [newLevel], by simp [newLevel], by simp [newLevel], by simp [newLevel]⟩

theorem lvlOK_extend {l : Level2 K} (h : LvlOK l) (carry : Option (List (Fl K))) : LvlOK (extend l carry) := by
  cases carry with
  | none => exact h
  | some b => exact ⟨h.ctr, h.sec, h.div, h.c32⟩

theorem CompactRel.counter {l l2 : Level2 K} {out : List (Fl K)} {u : Nat} (h : CompactRel sec fast m l (out, u, l2))
    (h32 : l.counter < 2 ^ 32) : l2.counter < 2 ^ 32 ∧ l.counter ≤ l2.counter ∧ l2.counter ≤ l.counter + 1 := by
  obtain ⟨ci, c, out', hi, hci, hn, ho, he⟩ := h
  simp only [Prod.mk.injEq] at he
  obtain ⟨rfl, rfl, rfl⟩ := he
  have e : ∀ l : Level2 K, (updateSections l).counter = l.counter := by intro l; unfold updateSections; split <;> rfl
  rw [e]
  change c < 2 ^ 32 ∧ l.counter ≤ c ∧ c ≤ l.counter + 1
  cases fast with
  | true => have := hi.2; omega
  | false => obtain ⟨b, _, _, h3, h4⟩ := hi; omega

theorem CompactRel.lvlOK {l l2 : Level2 K} {out : List (Fl K)} {u : Nat} (h : CompactRel sec fast m l (out, u, l2))
    (hl : LvlOK l) : LvlOK l2 := by
  have hc := h.counter hl.c32
  obtain ⟨ci, c, out', hi, hci, hn, ho, he⟩ := h
  simp only [Prod.mk.injEq] at he
  obtain ⟨rfl, rfl, rfl⟩ := he
  have e : ∀ l : Level2 K, (updateSections l).counter = l.counter := by intro l; unfold updateSections; split <;> rfl
  rw [e] at hc
  simp only at hc
  have hs := hl.sec
  have hctr := hl.ctr
  have hpos : 1 ≤ 2 ^ l.divs := Nat.one_le_two_pow
  unfold updateSections
  split
  · rename_i hge
    simp only at hge
    refine ⟨?_, ?_, ?_, hc.1⟩
    · change c < 2 ^ (2 * l.sections - 1)
      have : 2 * 2 ^ (l.sections - 1) ≤ 2 ^ (2 * l.sections - 1) := by
        rw [← pow_succ']; exact Nat.pow_le_pow_right (by norm_num) (by omega)
      have : 1 ≤ 2 ^ (l.sections - 1) := Nat.one_le_two_pow
      omega
    · change 2 * l.sections = 3 * 2 ^ (l.divs + 1)
      rw [hs, pow_succ]; ring
    · change l.divs + 1 ≤ 4
      by_contra hd
      have hd4 : l.divs = 4 := by have := hl.div; omega
      rw [hs, hd4] at hge
      norm_num at hge
      norm_num at hc
      omega
  · rename_i hge
    simp only at hge
    exact ⟨by simpa using hge, hs, hl.div, hc.1⟩

/-- Total capacity. -/
def caps (sec : Nat → Nat) (ls : List (Level2 K)) : Nat := (ls.map (cap sec)).sum

theorem cap_extend (l : Level2 K) (carry : Option (List (Fl K))) : cap sec (extend l carry) = cap sec l := by
  cases carry <;> rfl

theorem cap_pos (hs : SecOK sec) {l : Level2 K} (hl : LvlOK l) : 6 ≤ cap sec l := by
  unfold cap
  rw [hl.sec]
  have h1 := hs.one _ hl.div
  have h2 : 1 ≤ 2 ^ l.divs := Nat.one_le_two_pow
  have : 1 * 1 ≤ 2 ^ l.divs * sec l.divs := Nat.mul_le_mul h2 h1
  calc 6 ≤ 6 * (2 ^ l.divs * sec l.divs) := by omega
    _ = 2 * (3 * 2 ^ l.divs) * sec l.divs := by ring

theorem CompactRel.cap_le (hs : SecOK sec) {l l2 : Level2 K} {out : List (Fl K)} {u : Nat}
    (h : CompactRel sec fast m l (out, u, l2)) (hl : LvlOK l) : cap sec l ≤ cap sec l2 := by
  have hl2 := h.lvlOK hl
  obtain ⟨ci, c, out', hi, hci, hn, ho, he⟩ := h
  simp only [Prod.mk.injEq] at he
  obtain ⟨rfl, rfl, rfl⟩ := he
  have hd := hl2.div
  revert hd
  unfold updateSections
  split
  · intro hd
    change l.divs + 1 ≤ 4 at hd
    have := hs.half l.divs (by omega)
    change 2 * l.sections * sec l.divs ≤ 2 * (2 * l.sections) * sec (l.divs + 1)
    calc 2 * l.sections * sec l.divs ≤ 2 * l.sections * (2 * sec (l.divs + 1)) := Nat.mul_le_mul_left _ this
      _ = _ := by ring
  · intro _; exact le_refl _

/-- How much a compaction removes: at least the section size; exactly one item only when the level was exactly full. -/
theorem CompactRel.removed (hs : SecOK sec) {l l2 : Level2 K} {out : List (Fl K)} {u : Nat}
    (h : CompactRel sec fast m l (out, u, l2)) (hl : LvlOK l) (hfull : cap sec l ≤ l.buf.length) :
    1 ≤ u ∧ u + l2.buf.length = l.buf.length ∧ (u = 1 → l.buf.length = cap sec l) ∧ 2 * out.length ≤ u + 1 ∧
      cap sec l / 2 ≤ l2.buf.length := by
  have hsp := h.split
  obtain ⟨low, upper, hlow, hp, -, hul, ho, -⟩ := hsp
  have hlen := hp.length_eq
  rw [List.length_append] at hlen
  obtain ⟨ci, c, out', hi, hci, hn, -, he⟩ := h
  simp only [Prod.mk.injEq] at he
  obtain ⟨rfl, rfl, -⟩ := he
  have h1 := hs.one _ hl.div
  have h2 : 1 ≤ 2 ^ l.divs := Nat.one_le_two_pow
  have e : cap sec l = 2 * (l.sections * sec l.divs) := by unfold cap; ring
  have h6 := cap_pos hs hl
  have hout : 2 * out.length ≤ upper.length + 1 := by
    cases m with
    | default =>
      obtain ⟨b, rfl⟩ := ho
      have := everyOther_length_eq upper
      cases b <;> omega
    | averageNeighbour =>
      have h' : out = averagePairs upper := ho
      subst h'
      have := averagePairs_length upper
      omega
  rw [hlow]
  have key : ci + 1 ≤ l.buf.length ∧ (ci + 1 = l.buf.length → l.buf.length = cap sec l) ∧ cap sec l / 2 ≤ ci := by
    cases fast with
    | true => have := hi.1; omega
    | false =>
      obtain ⟨b, hb1, hb2, -, -⟩ := hi
      have hb : (b + 1) * sec l.divs ≤ l.sections * sec l.divs := Nat.mul_le_mul_right _ (by omega)
      rw [Nat.succ_mul] at hb
      omega
  omega

/-- Items only move up: level by level, what has entered a level covers what it holds, its compactions and what has entered
the next level. -/
def Flow2 : Nat → List (Level2 K) → Prop
  | _, [] => True
  | N, l :: ls => ∃ r, l.buf.length + r ≤ N ∧ l.counter ≤ r ∧ Flow2 r ls

theorem Flow2.mono {N N' : Nat} (h : N ≤ N') {ls : List (Level2 K)} (hf : Flow2 N ls) : Flow2 N' ls := by
  cases ls with
  | nil => trivial
  | cons l ls => obtain ⟨r, h1, h2, h3⟩ := hf; exact ⟨r, by omega, h2, h3⟩

theorem flow_ext {r u : Nat} {out : List (Fl K)} {ls : List (Level2 K)} (h : Flow2 r ls) (hu : out.length ≤ u) :
    Flow2 (r + u) (ext (some out) ls) := by
  cases ls with
  | nil => exact ⟨0, by simp [newLevel]; omega, by simp [newLevel], trivial⟩
  | cons l ls =>
    obtain ⟨r', h1, h2, h3⟩ := h
    exact ⟨r', by simp [extend]; omega, h2, h3⟩

theorem flow_comp (hs : SecOK sec) {N : Nat} {l l2 : Level2 K} {ls : List (Level2 K)} {out : List (Fl K)} {u : Nat}
    (h : CompactRel sec fast m l (out, u, l2)) (hl : LvlOK l) (hfull : cap sec l ≤ l.buf.length)
    (hf : Flow2 N (l :: ls)) : ∃ r, l2.buf.length + r ≤ N ∧ l2.counter ≤ r ∧ Flow2 r (ext (some out) ls) := by
  obtain ⟨r, h1, h2, h3⟩ := hf
  obtain ⟨g1, g2, -, g3, -⟩ := h.removed hs hl hfull
  have hc := h.counter hl.c32
  exact ⟨r + u, by omega, by omega, flow_ext h3 (by omega)⟩

theorem lvlOK_ext {out : List (Fl K)} {ls : List (Level2 K)} (h : ∀ l ∈ ls, LvlOK l) : ∀ l ∈ ext (some out) ls, LvlOK l := by
  cases ls with
  | nil => intro l hl; simp [ext] at hl; subst hl; exact lvlOK_new out
  | cons l0 ls =>
    intro l hl
    simp only [ext, List.mem_cons] at hl
    rcases hl with rfl | hl
    · exact lvlOK_extend (h l0 (by simp)) _
    · exact h l (by simp [hl])

/-- Level bookkeeping, flow and capacity after `compress`. -/
theorem compressFrom_levels (hs : SecOK sec) (ls : List (Level2 K)) (size : Nat) (carry : Option (List (Fl K))) (N : Nat)
    (hl : ∀ l ∈ ext carry ls, LvlOK l) (hf : Flow2 N (ext carry ls)) :
    Partially (compressFrom sec fast m size carry ls) (fun r => (∀ l ∈ r.2, LvlOK l) ∧ Flow2 N r.2 ∧
      caps sec (ext carry ls) ≤ caps sec r.2 ∧ lens r.2 ≤ lens (ext carry ls) ∧ (ls ≠ [] → r.2 ≠ []) ∧
      ((carry.getD []).length ≤ 1 → lens r.2 < lens (ext carry ls) ∨ ∀ l ∈ r.2, l.buf.length < cap sec l)) := by
  refine (compress_rule (P := fun size carry ls size' ls' => ∀ N, (∀ l ∈ ext carry ls, LvlOK l) → Flow2 N (ext carry ls) →
    (∀ l ∈ ls', LvlOK l) ∧ Flow2 N ls' ∧ caps sec (ext carry ls) ≤ caps sec ls' ∧ lens ls' ≤ lens (ext carry ls) ∧
    (ls ≠ [] → ls' ≠ []) ∧
    ((carry.getD []).length ≤ 1 → lens ls' < lens (ext carry ls) ∨ ∀ l ∈ ls', l.buf.length < cap sec l))
    ?_ ?_ ?_ ?_ ls size carry).mono (fun r h => h N hl hf)
  · intro size N hl hf; exact ⟨by simp, trivial, by simp [ext], by simp [ext], by simp, by simp⟩
  · intro size out N hl hf
    refine ⟨hl, hf, by simp [ext], by simp [ext], by simp, ?_⟩
    intro h1
    right
    intro l' hl'
    simp only [List.mem_singleton] at hl'
    subst hl'
    have := cap_pos hs (lvlOK_new out)
    simp only [newLevel, Option.getD_some] at h1 this ⊢
    omega
  · intro size carry l ls size' ls' hfull ih N hl hf
    rw [ext_none] at ih
    rw [ext_cons] at hf
    obtain ⟨r, f1, f2, f3⟩ := hf
    obtain ⟨h1, h2, h3, h4, h5, h6⟩ := ih r (fun l' hl' => hl l' (by simp [ext, hl'])) f3
    refine ⟨?_, ⟨r, f1, f2, h2⟩, ?_, ?_, by simp, ?_⟩
    · intro l' hl'
      rcases List.mem_cons.1 hl' with rfl | hl'
      · exact hl _ (by simp [ext])
      · exact h1 l' hl'
    · simp only [ext, caps, List.map_cons, List.sum_cons] at h3 ⊢; omega
    · simp only [ext, lens, List.map_cons, List.sum_cons] at h4 ⊢; omega
    · intro _
      rcases h6 (by simp) with h6 | h6
      · left; simp only [ext, lens, List.map_cons, List.sum_cons] at h6 ⊢; omega
      · right
        intro l' hl'
        rcases List.mem_cons.1 hl' with rfl | hl'
        · omega
        · exact h6 l' hl'
  · intro size carry l ls out u l2 size' ls' hfull hr hu ih N hl hf
    have hl0 : LvlOK (extend l carry) := hl _ (by simp [ext])
    obtain ⟨g1, g2, g3, g4, -⟩ := hr.removed hs hl0 hfull
    have hcap := hr.cap_le hs hl0
    obtain ⟨r, f1, f2, f3⟩ := flow_comp hs hr hl0 hfull (by rw [ext_cons] at hf; exact hf)
    obtain ⟨h1, h2, h3, h4, h5, h6⟩ := ih r (lvlOK_ext (fun l' hl' => hl l' (by simp [ext, hl']))) f3
    have hcx : caps sec ls ≤ caps sec (ext (some out) ls) := by
      cases ls with
      | nil => simp [caps]
      | cons a b => simp [ext, caps, cap_extend]
    rw [lens_ext, Option.getD_some] at h4 h6
    refine ⟨?_, ⟨r, f1, f2, h2⟩, ?_, ?_, by simp, ?_⟩
    · intro l' hl'
      rcases List.mem_cons.1 hl' with rfl | hl'
      · exact hr.lvlOK hl0
      · exact h1 l' hl'
    · simp only [ext, caps, List.map_cons, List.sum_cons] at h3 hcx ⊢; omega
    · simp only [ext, lens, List.map_cons, List.sum_cons] at h4 ⊢; omega
    · intro _
      by_cases hu1 : u = 1
      · rcases h6 (by omega) with h6 | h6
        · left; simp only [ext, lens, List.map_cons, List.sum_cons] at h6 ⊢; omega
        · right
          intro l' hl'
          rcases List.mem_cons.1 hl' with rfl | hl'
          · have := g3 hu1; omega
          · exact h6 l' hl'
      · left; simp only [ext, lens, List.map_cons, List.sum_cons] at h4 ⊢; omega

/-- What the no-panic argument needs of the levels still to be visited. -/
structure Ok (G : Fl K → Prop) (size N : Nat) (ls : List (Level2 K)) : Prop where
  good : ∀ l ∈ ls, ∀ y ∈ l.buf, G y
  lvl : ∀ l ∈ ls, LvlOK l
  flow : Flow2 N ls
  sz : lens ls ≤ size
  lt : N < 2 ^ 32

theorem ok_tail {G : Fl K → Prop} {size N : Nat} {l : Level2 K} {ls : List (Level2 K)} (h : Ok G size N (l :: ls)) :
    ∃ N', Ok G size N' ls := by
  obtain ⟨r, f1, f2, f3⟩ := h.flow
  refine ⟨r, fun l hl => h.good l (by simp [hl]), fun l hl => h.lvl l (by simp [hl]), f3, ?_, ?_⟩
  · have := h.sz; simp only [lens, List.map_cons, List.sum_cons] at this ⊢; omega
  · have := h.lt; omega

theorem ok_level (hs : SecOK sec) {G : Fl K → Prop} (hG : RCSketch.GoodFor G m) {size N : Nat} {l : Level2 K}
    {ls : List (Level2 K)} (h : Ok G size N (l :: ls)) (hfull : cap sec l ≤ l.buf.length) :
    Always (compactLevel sec fast m l) (CompactRel sec fast m l) := by
  have hl := h.lvl l (by simp)
  obtain ⟨r, f1, f2, f3⟩ := h.flow
  have h6 := cap_pos hs hl
  have hlt := h.lt
  have h1 : 1 ≤ 2 ^ l.divs := Nat.one_le_two_pow
  exact compactLevel_always l (fun x hx => hG.1 x (h.good l (by simp) x hx)) hfull hl.ctr (by rw [hl.sec]; omega) (by omega)

theorem ok_comp (hs : SecOK sec) {G : Fl K → Prop} (hG : RCSketch.GoodFor G m) {size N : Nat} {l l2 : Level2 K}
    {ls : List (Level2 K)} {out : List (Fl K)} {u : Nat} (h : Ok G size N (l :: ls)) (hfull : cap sec l ≤ l.buf.length)
    (hr : CompactRel sec fast m l (out, u, l2)) :
    u ≤ size ∧ ∃ N', Ok G (size - u + out.length) N' (ext (some out) ls) := by
  have hl := h.lvl l (by simp)
  obtain ⟨r, f1, f2, f3⟩ := flow_comp hs hr hl hfull h.flow
  obtain ⟨low, upper, hlow, hp, hsrt, hul, ho, -⟩ := hr.split
  have hlen := hp.length_eq
  rw [List.length_append] at hlen
  have hsz := h.sz
  simp only [lens, List.map_cons, List.sum_cons] at hsz
  refine ⟨by omega, r, ?_, lvlOK_ext (fun l hl => h.lvl l (by simp [hl])), f3, ?_, ?_⟩
  · have hout := hG.2 upper out (List.pairwise_append.1 hsrt).2.1
      (fun y hy => h.good l (by simp) y (hp.mem_iff.1 (by simp [hy]))) ho
    cases ls with
    | nil => intro l hl y hy; simp [ext, newLevel] at hl; subst hl; exact hout y hy
    | cons l0 ls =>
      intro l' hl' y hy
      simp only [ext_cons, List.mem_cons] at hl'
      rcases hl' with rfl | hl'
      · simp only [extend, List.mem_append] at hy
        rcases hy with hy | hy
        · exact h.good l0 (by simp) y hy
        · exact hout y hy
      · exact h.good l' (by simp [hl']) y hy
  · rw [lens_ext, Option.getD_some]; unfold lens; omega
  · have := h.lt; omega

/-- `compress` never panics on such levels. -/
theorem compressFrom_always (hs : SecOK sec) {G : Fl K → Prop} (hG : RCSketch.GoodFor G m) (ls : List (Level2 K)) (size N : Nat)
    (carry : Option (List (Fl K))) (h : Ok G size N (ext carry ls)) :
    Always (compressFrom sec fast m size carry ls) (fun _ => True) := by
  refine compress_always (Ok := fun size carry ls => ∃ N, Ok G size N (ext carry ls)) ?_ ?_ ls size carry ⟨N, h⟩
  · rintro size carry l ls ⟨N, h⟩ _
    rw [ext_cons] at h
    simpa using ok_tail h
  · rintro size carry l ls ⟨N, h⟩ hfull
    rw [ext_cons] at h
    exact (ok_level hs hG h hfull).mono (fun r hr => ok_comp hs hG h hfull hr)

/-- Supermartingale rule for `compress`: `Ψ acc` may accumulate the levels already visited. -/
theorem compress_super (hs : SecOK sec) {G : Fl K → Prop} (hG : RCSketch.GoodFor G m) {S : Type} (Ψ : S → List (Level2 K) → ℚ)
    (step : S → Level2 K → S) (hcons : ∀ s l ls, Ψ s (l :: ls) = Ψ (step s l) ls)
    (hflip : ∀ s size N l ls, Ok G size N (l :: ls) → cap sec l ≤ l.buf.length →
      exp (compactLevel sec fast m l) (fun r => Ψ (step s r.2.2) (ext (some r.1) ls)) ≤ Ψ s (l :: ls)) :
    ∀ (ls : List (Level2 K)) (size N : Nat) (carry : Option (List (Fl K))) (s : S), Ok G size N (ext carry ls) →
      exp (compressFrom sec fast m size carry ls) (fun r => Ψ s r.2) ≤ Ψ s (ext carry ls) := by
  intro ls
  induction ls with
  | nil => intro size N carry s h; cases carry <;> simp [compressFrom, ext]
  | cons l ls ih =>
    intro size N carry s h
    rw [ext_cons] at h ⊢
    rw [compressFrom]
    split
    · rename_i hfull
      rw [exp_bind]
      refine le_trans ?_ (hflip s size N _ ls h hfull)
      have hr := compactLevel_partially (sec := sec) (fast := fast) (m := m) (extend l carry)
      refine exp_mono (hr.mono ?_)
      rintro ⟨out, u, l2⟩ hr
      obtain ⟨h1, N', h2⟩ := ok_comp hs hG h hfull hr
      simp only
      rw [usub_eq h1, bind_ret, exp_bind]
      simp only [exp_ret, hcons]
      exact ih _ N' (some out) _ h2
    · rename_i hfull
      obtain ⟨N', h2⟩ := ok_tail h
      rw [exp_bind]
      simp only [exp_ret, hcons]
      have := ih size N' none (step s (extend l carry)) (by simpa using h2)
      simpa using this

end RCSketch2
end AQ

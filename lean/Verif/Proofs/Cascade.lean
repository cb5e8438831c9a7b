/-
Induction rules for the `RCSketch` insertion cascade (`batch`/`fill`/`drain`).

A configuration is a state together with a stack of pending insertions (`Frame`s): the frames correspond to the
active recursive calls of `insert_at_rc_batch`, innermost first.
-/
import Verif.Model.RCSketch
import Verif.Spec.RCSketch
import Verif.Proofs.Sort

set_option linter.unusedSectionVars false

namespace AQ
open Prog
variable {K : Type} [Field K] [LinearOrder K] [IsStrictOrderedRing K] [FloatFmt K]

/-- A pending insertion of `items` at level `lvl`. -/
structure Frame (K : Type) where
  lvl : Nat
  items : List (Fl K)

/-- Possible outputs of compacting `upper`. -/
def IsOut (m : CompactionMethod) (upper out : List (Fl K)) : Prop :=
  match m with
  | .default => ∃ b, out = everyOther b upper
  | .averageNeighbour => out = averagePairs upper

theorem compactUpper_always (m : CompactionMethod) (u : List (Fl K)) : Always (compactUpper m u) (IsOut m u) := by
  cases m with
  | default => intro b; exact ⟨b, rfl⟩
  | averageNeighbour => rfl

namespace RCSketch

/-- State after the index computation and split at `ci`. -/
def afterSplit (s : RCSketch K) (h ci : Nat) (buf : List (Fl K)) (ctrs : List Nat) : RCSketch K :=
  { s with buffers := s.buffers.set h ((sorted id buf).take ci), counters := ctrs,
           compactions := s.compactions.set h (s.compactions.getD h 0 + 1),
           log := (h, (sorted id buf).drop ci) :: s.log }

/-- The compaction index chosen for level `h` holding `buf`, and the new counters. -/
def IsIndex (s : RCSketch K) (h : Nat) (fast : Bool) (len ci : Nat) (ctrs : List Nat) : Prop :=
  if fast then ci = s.bufferSize / 2 ∧ ctrs = s.counters
  else ∃ c, s.counters[h]? = some c ∧ ci + (trailingOnes c + 1) * s.k = len ∧ c + 1 < 2 ^ 32 ∧
    ctrs = s.counters.set h (c + 1)

/-- Everything `compactAt` can do. -/
def CompactRel (s : RCSketch K) (h : Nat) (fast : Bool) (m : CompactionMethod) (buf : List (Fl K))
    (r : List (Fl K) × RCSketch K) : Prop :=
  ∃ ci ctrs out, s.IsIndex h fast buf.length ci ctrs ∧ ci ≤ buf.length ∧ (2 ≤ buf.length → ∀ x ∈ buf, x ≠ .nan) ∧
    IsOut m ((sorted id buf).drop ci) out ∧ r = (out, s.afterSplit h ci buf ctrs)

theorem compact_partially (s : RCSketch K) (h ci : Nat) (m : CompactionMethod) (buf : List (Fl K))
    (hb : s.buffers[h]? = some buf) :
    Partially (s.compact h ci m) (fun r => ci ≤ buf.length ∧ (2 ≤ buf.length → ∀ x ∈ buf, x ≠ .nan) ∧
      ∃ out, IsOut m ((sorted id buf).drop ci) out ∧ r = (out, s.afterSplit h ci buf s.counters)) := by
  unfold compact
  simp only [Prog.idx, hb, bind_ret]
  rw [partially_bind]
  by_cases hn : 2 ≤ buf.length ∧ ∃ a ∈ buf, a = Fl.nan
  · rw [sortFl, sortByKey_nan id buf hn.1 (by simpa using hn.2)]; simp
  · have hn' : 2 ≤ buf.length → ∀ x ∈ buf, x ≠ .nan := by
      intro h2 x hx hxn; exact hn ⟨h2, x, hx, hxn⟩
    refine (sortByKey_partially id buf).mono ?_
    rintro srt rfl
    have hl : (sorted id buf).length = buf.length := (sorted_perm id buf).length_eq
    split
    · rename_i hci
      rw [partially_bind]
      refine (compactUpper_always m _).partially.mono ?_
      intro out ho
      exact ⟨by omega, hn', out, ho, rfl⟩
    · simp

theorem compactAt_partially (s : RCSketch K) (h : Nat) (fast : Bool) (m : CompactionMethod) (buf : List (Fl K))
    (hb : s.buffers[h]? = some buf) : Partially (s.compactAt h fast m) (s.CompactRel h fast m buf) := by
  unfold compactAt
  rw [partially_bind]
  cases fast with
  | true =>
    simp only [if_true, partially_ret]
    refine (compact_partially s h _ m buf hb).mono ?_
    rintro r ⟨h1, h2, out, h3, rfl⟩
    exact ⟨_, s.counters, out, by simp [IsIndex, getCompactIndexFast], h1, h2, h3, rfl⟩
  | false =>
    simp only [Bool.false_eq_true, if_false, getCompactIndex, Prog.idx, hb, bind_ret]
    rw [partially_bind]
    cases hc : s.counters[h]? with
    | none => simp
    | some c =>
      simp only [partially_ret, partially_bind]
      unfold usub
      split
      · rename_i hle
        simp only [partially_ret]
        split
        · rename_i hc32
          simp only [pure_eq, partially_ret]
          refine (compact_partially _ h _ m buf (by simpa using hb)).mono ?_
          rintro r ⟨h1, h2, out, h3, rfl⟩
          refine ⟨_, s.counters.set h (c + 1), out, ?_, h1, h2, h3, rfl⟩
          simp only [IsIndex, Bool.false_eq_true, if_false]
          exact ⟨c, hc, by omega, hc32, rfl⟩
        · simp
      · simp

/-- Conditions under which a compaction of a NaN-free buffer succeeds. -/
theorem compactAt_always (s : RCSketch K) (h : Nat) (fast : Bool) (m : CompactionMethod) (buf : List (Fl K))
    (hb : s.buffers[h]? = some buf) (hnan : ∀ x ∈ buf, x ≠ .nan)
    (hf : fast = true → s.bufferSize / 2 ≤ buf.length)
    (hs : fast = false → ∃ c, s.counters[h]? = some c ∧ (trailingOnes c + 1) * s.k ≤ buf.length ∧ c + 1 < 2 ^ 32) :
    Always (s.compactAt h fast m) (s.CompactRel h fast m buf) := by
  have key : ∀ (s' : RCSketch K) ci, s'.buffers[h]? = some buf → ci ≤ buf.length →
      Always (s'.compact h ci m) (fun _ => True) := by
    intro s' ci hb' hci
    unfold compact
    have hl : (sorted id buf).length = buf.length := (sorted_perm id buf).length_eq
    simp only [Prog.idx, hb', bind_ret, sortFl, sortByKey_of_no_nan id buf (by simpa using hnan)]
    rw [if_pos (by omega), always_bind]
    exact (compactUpper_always m _).mono (fun _ _ => trivial)
  have h1 : Always (s.compactAt h fast m) (fun _ => True) := by
    unfold compactAt
    cases fast with
    | true => simpa [getCompactIndexFast] using key s _ hb (hf rfl)
    | false =>
      obtain ⟨c, hc, hle, h32⟩ := hs rfl
      simp only [Bool.false_eq_true, if_false, getCompactIndex, Prog.idx, hb, hc, bind_ret, usub_eq hle, if_pos h32,
        pure_eq]
      exact key _ _ (by simpa using hb) (by omega)
  exact (h1.and (compactAt_partially s h fast m buf hb)).mono (fun r hr => hr.2)

/-- Facts that hold in every configuration. -/
structure Base (s : RCSketch K) (P : List (Frame K)) : Prop where
  hk : 1 ≤ s.k
  hB : 2 ≤ s.bufferSize
  hc : s.counters.length = s.buffers.length
  hg : s.compactions.length = s.buffers.length
  hlt : ∀ b ∈ s.buffers, b.length < s.bufferSize
  hhd : ∀ f ∈ P.head?, f.lvl ≤ s.buffers.length
  htl : ∀ f ∈ P.tail, f.lvl < s.buffers.length

/-- `J` is preserved by every elementary step of the cascade. -/
structure Closed (fast : Bool) (m : CompactionMethod) (J : RCSketch K → List (Frame K) → Prop) : Prop where
  ensure : ∀ s h items rest, Base s (⟨h, items⟩ :: rest) → J s (⟨h, items⟩ :: rest) → s.buffers.length = h →
    J (s.ensureLevel h) (⟨h, items⟩ :: rest)
  pop : ∀ s h rest, Base s (⟨h, []⟩ :: rest) → J s (⟨h, []⟩ :: rest) → h < s.buffers.length → J s rest
  push : ∀ s h items rest buf, Base s (⟨h, items⟩ :: rest) → J s (⟨h, items⟩ :: rest) → s.buffers[h]? = some buf →
    buf.length + items.length < s.bufferSize → J (s.setBuf h (buf ++ items)) (⟨h, []⟩ :: rest)
  compact : ∀ s h items rest buf n r, Base s (⟨h, items⟩ :: rest) → J s (⟨h, items⟩ :: rest) →
    s.buffers[h]? = some buf → n ≤ items.length → buf.length + n = s.bufferSize →
    CompactRel (s.setBuf h (buf ++ items.take n)) h fast m (buf ++ items.take n) r →
    J r.2 (⟨h + 1, r.1⟩ :: ⟨h, items.drop n⟩ :: rest)

theorem ensureLevel_len (s : RCSketch K) (h : Nat) (hh : h ≤ s.buffers.length) :
    h < (s.ensureLevel h).buffers.length := by
  unfold ensureLevel; split
  · simp; omega
  · omega

theorem base_ensure {s : RCSketch K} {h : Nat} {items : List (Fl K)} {rest : List (Frame K)}
    (hb : Base s (⟨h, items⟩ :: rest)) : Base (s.ensureLevel h) (⟨h, items⟩ :: rest) := by
  have hB := hb.hB
  unfold ensureLevel
  split
  · refine ⟨hb.hk, hb.hB, by simp [hb.hc], by simp [hb.hg], ?_, ?_, ?_⟩
    · intro b hb'
      rcases List.mem_append.1 hb' with h1 | h1
      · exact hb.hlt b h1
      · simp at h1; subst h1; simp; omega
    · intro f hf; have := hb.hhd f hf; simp; omega
    · intro f hf; have := hb.htl f hf; simp; omega
  · exact hb

theorem ensure_closed {fast : Bool} {m : CompactionMethod} {J : RCSketch K → List (Frame K) → Prop} (cl : Closed fast m J)
    {s : RCSketch K} {h : Nat} {items : List (Fl K)} {rest : List (Frame K)}
    (hb : Base s (⟨h, items⟩ :: rest)) (hj : J s (⟨h, items⟩ :: rest)) : J (s.ensureLevel h) (⟨h, items⟩ :: rest) := by
  have h1 : h ≤ s.buffers.length := hb.hhd ⟨h, items⟩ (by simp)
  rcases Nat.lt_or_ge h s.buffers.length with h2 | h2
  · unfold ensureLevel; rw [if_neg (by omega)]; exact hj
  · exact cl.ensure s h items rest hb hj (by omega)

theorem base_pop {s : RCSketch K} {h : Nat} {items : List (Fl K)} {rest : List (Frame K)}
    (hb : Base s (⟨h, items⟩ :: rest)) : Base s rest := by
  refine ⟨hb.hk, hb.hB, hb.hc, hb.hg, hb.hlt, ?_, ?_⟩
  · intro f hf; exact (hb.htl f (by cases rest <;> simp_all)).le
  · intro f hf; exact hb.htl f (by simp; exact List.mem_of_mem_tail hf)

theorem base_push {s : RCSketch K} {h : Nat} {items items' : List (Fl K)} {rest : List (Frame K)} {b : List (Fl K)}
    (hb : Base s (⟨h, items⟩ :: rest)) (hl : b.length < s.bufferSize) :
    Base (s.setBuf h b) (⟨h, items'⟩ :: rest) := by
  refine ⟨hb.hk, hb.hB, by simp [setBuf, hb.hc], by simp [setBuf, hb.hg], ?_, ?_, ?_⟩
  · intro x hx
    rcases List.mem_or_eq_of_mem_set hx with h1 | rfl
    · exact hb.hlt x h1
    · exact hl
  · intro f hf; simp at hf; subst hf; simpa [setBuf] using hb.hhd ⟨h, items⟩ (by simp)
  · intro f hf; simpa [setBuf] using hb.htl f hf

theorem trailing_pos (s : RCSketch K) (c : Nat) (hk : 1 ≤ s.k) : 1 ≤ (trailingOnes c + 1) * s.k :=
  Nat.mul_pos (by omega) hk

theorem index_lt {s : RCSketch K} {h : Nat} {fast : Bool} {len ci : Nat} {ctrs : List Nat} (hk : 1 ≤ s.k)
    (hB : 2 ≤ s.bufferSize) (hi : s.IsIndex h fast len ci ctrs) (hlen : len = s.bufferSize) :
    ci < s.bufferSize ∧ ctrs.length = s.counters.length := by
  unfold IsIndex at hi
  split at hi
  · refine ⟨by omega, by rw [hi.2]⟩
  · obtain ⟨c, -, h2, -, h3⟩ := hi
    have := trailing_pos s c hk
    exact ⟨by omega, by simp [h3]⟩

theorem base_compact {s : RCSketch K} {h : Nat} {fast : Bool} {m : CompactionMethod} {items items' buf : List (Fl K)}
    {rest : List (Frame K)} {r : List (Fl K) × RCSketch K} (hb : Base s (⟨h, items⟩ :: rest)) (hh : h < s.buffers.length)
    (hlen : buf.length = s.bufferSize) (hr : CompactRel (s.setBuf h buf) h fast m buf r) :
    Base r.2 (⟨h + 1, r.1⟩ :: ⟨h, items'⟩ :: rest) := by
  obtain ⟨ci, ctrs, out, hi, hci, -, -, rfl⟩ := hr
  obtain ⟨h1, h2⟩ := index_lt hb.hk hb.hB hi hlen
  refine ⟨hb.hk, hb.hB, ?_, ?_, ?_, ?_, ?_⟩
  · simp only [afterSplit, setBuf, List.length_set] at *; rw [h2]; exact hb.hc
  · simp [afterSplit, setBuf, hb.hg]
  · intro x hx
    simp only [afterSplit, setBuf] at hx
    rcases List.mem_or_eq_of_mem_set hx with h3 | rfl
    · rcases List.mem_or_eq_of_mem_set h3 with h4 | rfl
      · exact hb.hlt x h4
      · exfalso
        -- the replaced entry is gone after the second `set`
        rw [List.set_set] at hx
        rcases List.mem_or_eq_of_mem_set hx with h5 | h5
        · exact absurd (hb.hlt _ h5) (by omega)
        · have := congrArg List.length h5
          rw [List.length_take] at this
          omega
    · rw [List.length_take]; simp only [afterSplit, setBuf] at h1 ⊢; omega
  · intro f hf; simp at hf; subst hf; simp [afterSplit, setBuf]; omega
  · intro f hf
    simp only [List.tail_cons, List.mem_cons] at hf
    rcases hf with rfl | hf
    · simpa [afterSplit, setBuf] using hh
    · simpa [afterSplit, setBuf] using hb.htl f hf

theorem setBuf_get {s : RCSketch K} {h : Nat} {b : List (Fl K)} (hh : h < s.buffers.length) :
    (s.setBuf h b).buffers[h]? = some b := by simp [setBuf, hh]

/-- Partial correctness: an invariant preserved by the elementary steps holds after a cascade that returns. -/
theorem batch_partially {fast : Bool} {m : CompactionMethod} {J : RCSketch K → List (Frame K) → Prop}
    (cl : Closed fast m J) (f : Nat) :
    (∀ s h items rest, Base s (⟨h, items⟩ :: rest) → J s (⟨h, items⟩ :: rest) →
      Partially (batch fast m f items h s) (fun s' => Base s' rest ∧ (∀ f ∈ rest, f.lvl < s'.buffers.length) ∧ J s' rest)) ∧
    (∀ s h items rest, h < s.buffers.length → Base s (⟨h, items⟩ :: rest) → J s (⟨h, items⟩ :: rest) →
      Partially (fill fast m f items h s) (fun s' => Base s' rest ∧ (∀ f ∈ rest, f.lvl < s'.buffers.length) ∧ J s' rest)) ∧
    (∀ s h items rest buf, s.buffers[h]? = some buf →
      (∀ r, CompactRel s h fast m buf r → Base r.2 (⟨h + 1, r.1⟩ :: ⟨h, items⟩ :: rest) ∧
        J r.2 (⟨h + 1, r.1⟩ :: ⟨h, items⟩ :: rest)) →
      s.bufferSize ≤ buf.length →
      Partially (drain fast m f h s) (fun s' => Base s' (⟨h, items⟩ :: rest) ∧ h < s'.buffers.length ∧
        J s' (⟨h, items⟩ :: rest))) := by
  induction f with
  | zero => refine ⟨?_, ?_, ?_⟩ <;> intros <;> simp [batch, fill, drain]
  | succ f ih =>
    obtain ⟨ihb, ihf, ihd⟩ := ih
    refine ⟨?_, ?_, ?_⟩
    · intro s h items rest hb hj
      rw [batch]
      exact ihf _ _ _ _ (ensureLevel_len s h (hb.hhd ⟨h, items⟩ (by simp))) (base_ensure hb) (ensure_closed cl hb hj)
    · intro s h items rest hh hb hj
      rw [fill]
      split
      · rename_i he; subst he
        exact ⟨base_pop hb, hb.htl, cl.pop s h rest hb hj hh⟩
      · rename_i hne
        have hget : s.buffers[h]? = some s.buffers[h] := List.getElem?_eq_getElem hh
        set buf := s.buffers[h] with hbuf
        have hbl : buf.length < s.bufferSize := hb.hlt buf (List.getElem_mem hh)
        simp only [Prog.idx, hget, bind_ret, usub_eq hbl.le]
        set room := s.bufferSize - buf.length with hroom
        rw [partially_bind]
        rcases Nat.lt_or_ge items.length room with hlt | hge
        · -- everything fits
          have e1 : items.take room = items := List.take_of_length_le hlt.le
          have e2 : items.drop room = [] := List.drop_eq_nil_of_le hlt.le
          rw [e1, e2]
          have hb' : Base (s.setBuf h (buf ++ items)) (⟨h, []⟩ :: rest) := base_push hb (by simp; omega)
          have hj' := cl.push s h items rest buf hb hj hget (by omega)
          have hh' : h < (s.setBuf h (buf ++ items)).buffers.length := by simpa [setBuf] using hh
          have hd : Partially (drain fast m f h (s.setBuf h (buf ++ items))) (fun s' => s' = s.setBuf h (buf ++ items)) := by
            cases f with
            | zero => simp [drain]
            | succ f =>
              rw [drain]
              simp only [Prog.idx, setBuf_get hh, bind_ret]
              rw [if_neg (by simp [setBuf]; omega)]
              simp
          refine hd.mono ?_
          rintro s' rfl
          exact ihf _ _ _ _ hh' hb' hj'
        · have hlen : (buf ++ items.take room).length = s.bufferSize := by simp; omega
          have hd := ihd (s.setBuf h (buf ++ items.take room)) h (items.drop room) rest _ (setBuf_get hh)
            (by
              intro r hr
              exact ⟨base_compact hb hh hlen hr,
                cl.compact s h items rest buf room r hb hj hget hge (by omega) hr⟩)
            (by rw [hlen]; simp [setBuf])
          refine hd.mono ?_
          rintro s' ⟨h1, h2, h3⟩
          exact ihf _ _ _ _ h2 h1 h3
    · intro s h items rest buf hget hcl hle
      rw [drain]
      simp only [Prog.idx, hget, bind_ret, if_pos hle]
      rw [partially_bind]
      refine (compactAt_partially s h fast m buf hget).mono ?_
      intro r hr
      obtain ⟨hb', hj'⟩ := hcl r hr
      rw [partially_bind]
      refine (ihb _ _ _ _ hb' hj').mono ?_
      rintro s' ⟨hb2, hl2, hj2⟩
      have hh3 : h < s'.buffers.length := hl2 ⟨h, items⟩ (by simp)
      cases f with
      | zero => simp [drain]
      | succ f =>
        rw [drain]
        simp only [Prog.idx, List.getElem?_eq_getElem hh3, bind_ret]
        have := hb2.hlt _ (List.getElem_mem hh3)
        rw [if_neg (by omega)]
        exact ⟨hb2, hh3, hj2⟩

/-- `insert_at_rc` satisfies the same rule. -/
theorem insertAt_partially {fast : Bool} {m : CompactionMethod} {J : RCSketch K → List (Frame K) → Prop}
    (cl : Closed fast m J) (f : Nat) (s : RCSketch K) (h : Nat) (x : Fl K) (rest : List (Frame K))
    (hb : Base s (⟨h, [x]⟩ :: rest)) (hj : J s (⟨h, [x]⟩ :: rest)) :
    Partially (insertAt f x h fast m s) (fun s' => Base s' rest ∧ J s' rest) := by
  unfold insertAt
  have hb1 := base_ensure hb
  have hj1 := ensure_closed cl hb hj
  have hh := ensureLevel_len s h (hb.hhd ⟨h, [x]⟩ (by simp))
  generalize s.ensureLevel h = s1 at *
  have hget : s1.buffers[h]? = some s1.buffers[h] := List.getElem?_eq_getElem hh
  set buf := s1.buffers[h] with hbuf
  have hbl : buf.length < s1.bufferSize := hb1.hlt buf (List.getElem_mem hh)
  simp only [Prog.idx, hget, bind_ret]
  split
  · rename_i hle
    have hle' : s1.bufferSize ≤ buf.length + 1 := by simpa [setBuf] using hle
    rw [partially_bind]
    refine (compactAt_partially (s1.setBuf h (buf ++ [x])) h fast m _ (setBuf_get hh)).mono ?_
    intro r hr
    have hlen : (buf ++ [x]).length = s1.bufferSize := by simp; omega
    have hb2 : Base r.2 (⟨h + 1, r.1⟩ :: ⟨h, []⟩ :: rest) := base_compact hb1 hh hlen hr
    have hj2 := cl.compact s1 h [x] rest buf 1 r hb1 hj1 hget (by simp) (by omega) (by simpa using hr)
    refine ((batch_partially cl f).1 _ _ _ _ hb2 hj2).mono ?_
    rintro s' ⟨hb3, hl3, hj3⟩
    exact ⟨base_pop hb3, cl.pop _ _ _ hb3 hj3 (hl3 ⟨h, []⟩ (by simp))⟩
  · rename_i hle
    have hlt : buf.length + 1 < s1.bufferSize := by simpa [setBuf] using hle
    simp only [partially_ret]
    have hb2 : Base (s1.setBuf h (buf ++ [x])) (⟨h, []⟩ :: rest) := base_push hb1 (by simp; omega)
    have hj2 := cl.push s1 h [x] rest buf hb1 hj1 hget (by simp; omega)
    exact ⟨base_pop hb2, cl.pop _ _ _ hb2 hj2 (by simpa [setBuf] using hh)⟩

/-! ### Total correctness -/

theorem everyOther_length {α : Type} (b : Bool) (l : List α) : (everyOther b l).length ≤ l.length := by
  induction l generalizing b with
  | nil => cases b <;> simp [everyOther]
  | cons a l ih =>
    cases b
    · simp only [everyOther, List.length_cons]; have := ih true; omega
    · simp only [everyOther, List.length_cons]; have := ih false; omega

theorem averagePairs_length (l : List (Fl K)) : 2 * (averagePairs l).length ≤ l.length := by
  induction l using averagePairs.induct with
  | case1 a b l ih => simp only [averagePairs, List.length_cons]; omega
  | case2 l h => 
    rw [averagePairs]
    · simp
    · exact h

theorem isOut_length {m : CompactionMethod} {u out : List (Fl K)} (h : IsOut m u out) : out.length ≤ u.length := by
  cases m with
  | default => obtain ⟨b, rfl⟩ := h; exact everyOther_length b u
  | averageNeighbour =>
    have h' : out = averagePairs u := h
    subst h'; have := averagePairs_length u; omega

/-- Conditions ensuring that no step of the cascade can panic and that its depth is bounded by `H` levels. -/
structure Progress (fast : Bool) (B H : Nat) (J : RCSketch K → List (Frame K) → Prop) : Prop where
  size : ∀ s P, J s P → s.bufferSize = B
  lvl : ∀ s h items rest, Base s (⟨h, items⟩ :: rest) → J s (⟨h, items⟩ :: rest) → h ≤ H
  nan : ∀ s h items rest buf n, Base s (⟨h, items⟩ :: rest) → J s (⟨h, items⟩ :: rest) → s.buffers[h]? = some buf →
    n ≤ items.length → buf.length + n = s.bufferSize → ∀ x ∈ buf ++ items.take n, x ≠ .nan
  index : fast = false → ∀ s h items rest buf n, Base s (⟨h, items⟩ :: rest) → J s (⟨h, items⟩ :: rest) →
    s.buffers[h]? = some buf → n ≤ items.length → buf.length + n = s.bufferSize →
    ∃ c, s.counters[h]? = some c ∧ (trailingOnes c + 1) * s.k ≤ s.bufferSize ∧ c + 1 < 2 ^ 32

/-- Loop bound sufficient for inserting `n` items at level `h`. -/
def need (B H h n : Nat) : Nat := n + 4 + (H + 1 - h) * (B + 8)

theorem need_succ {B H h n : Nat} (hh : h ≤ H) : need B H h n = need B H (h + 1) n + (B + 8) := by
  unfold need
  have : H + 1 - h = (H + 1 - (h + 1)) + 1 := by omega
  rw [this, Nat.succ_mul]; omega

theorem compactRel_out_len {s : RCSketch K} {h : Nat} {fast : Bool} {m : CompactionMethod} {buf : List (Fl K)}
    {r : List (Fl K) × RCSketch K} (hr : CompactRel s h fast m buf r) : r.1.length ≤ buf.length := by
  obtain ⟨ci, ctrs, out, hi, hci, -, ho, rfl⟩ := hr
  have h1 := isOut_length ho
  have h2 : (sorted id buf).length = buf.length := (sorted_perm id buf).length_eq
  rw [List.length_drop] at h1
  simp only; omega

theorem compact_ok {fast : Bool} {m : CompactionMethod} {B H : Nat} {J : RCSketch K → List (Frame K) → Prop}
    (pr : Progress fast B H J) {s : RCSketch K} {h : Nat} {items : List (Fl K)} {rest : List (Frame K)}
    {buf : List (Fl K)} {n : Nat} (hb : Base s (⟨h, items⟩ :: rest)) (hj : J s (⟨h, items⟩ :: rest))
    (hget : s.buffers[h]? = some buf) (hn : n ≤ items.length) (hlen : buf.length + n = s.bufferSize) :
    Always ((s.setBuf h (buf ++ items.take n)).compactAt h fast m)
      (CompactRel (s.setBuf h (buf ++ items.take n)) h fast m (buf ++ items.take n)) := by
  have hh : h < s.buffers.length := (List.getElem?_eq_some_iff.1 hget).1
  have hl : (buf ++ items.take n).length = s.bufferSize := by simp; omega
  refine compactAt_always _ h fast m _ (setBuf_get hh) (pr.nan s h items rest buf n hb hj hget hn hlen) ?_ ?_
  · intro _; rw [hl]; simp [setBuf]; omega
  · intro hf
    obtain ⟨c, h1, h2, h3⟩ := pr.index hf s h items rest buf n hb hj hget hn hlen
    exact ⟨c, by simpa [setBuf] using h1, by rw [hl]; simpa [setBuf] using h2, h3⟩

/-- Total correctness: under `Progress` a cascade with enough fuel cannot fail. -/
theorem batch_total {fast : Bool} {m : CompactionMethod} {B H : Nat} {J : RCSketch K → List (Frame K) → Prop}
    (cl : Closed fast m J) (pr : Progress fast B H J) (f : Nat) :
    (∀ s h items rest, Base s (⟨h, items⟩ :: rest) → J s (⟨h, items⟩ :: rest) → need B H h items.length ≤ f →
      Always (batch fast m f items h s) (fun _ => True)) ∧
    (∀ s h items rest, h < s.buffers.length → Base s (⟨h, items⟩ :: rest) → J s (⟨h, items⟩ :: rest) →
      need B H h items.length ≤ f + 1 →
      Always (fill fast m f items h s) (fun _ => True)) ∧
    (∀ s h items rest buf n, Base s (⟨h, items⟩ :: rest) → J s (⟨h, items⟩ :: rest) → s.buffers[h]? = some buf →
      n ≤ items.length → buf.length + n = s.bufferSize → need B H h 0 ≤ f + 2 →
      Always (drain fast m f h (s.setBuf h (buf ++ items.take n))) (fun _ => True)) := by
  induction f with
  | zero =>
    refine ⟨?_, ?_, ?_⟩
    · intro s h items rest hb hj hf; unfold need at hf; omega
    · intro s h items rest hh hb hj hf; unfold need at hf; omega
    · intro s h items rest buf n hb hj hget hn hlen hf; unfold need at hf; omega
  | succ f ih =>
    obtain ⟨ihb, ihf, ihd⟩ := ih
    refine ⟨?_, ?_, ?_⟩
    · intro s h items rest hb hj hf
      rw [batch]
      exact ihf _ _ _ _ (ensureLevel_len s h (hb.hhd ⟨h, items⟩ (by simp))) (base_ensure hb) (ensure_closed cl hb hj) hf
    · intro s h items rest hh hb hj hf
      rw [fill]
      split
      · trivial
      · rename_i hne
        have hipos : 0 < items.length := List.length_pos_of_ne_nil hne
        have hget : s.buffers[h]? = some s.buffers[h] := List.getElem?_eq_getElem hh
        set buf := s.buffers[h] with hbuf
        have hbl : buf.length < s.bufferSize := hb.hlt buf (List.getElem_mem hh)
        simp only [Prog.idx, hget, bind_ret, usub_eq hbl.le]
        set room := s.bufferSize - buf.length with hroom
        rw [always_bind]
        have hn0 : need B H h 0 + items.length = need B H h items.length := by unfold need; omega
        rcases Nat.lt_or_ge items.length room with hlt | hge
        · have e1 : items.take room = items := List.take_of_length_le hlt.le
          have e2 : items.drop room = [] := List.drop_eq_nil_of_le hlt.le
          rw [e1, e2]
          have hb' : Base (s.setBuf h (buf ++ items)) (⟨h, []⟩ :: rest) := base_push hb (by simp; omega)
          have hj' := cl.push s h items rest buf hb hj hget (by omega)
          have hh' : h < (s.setBuf h (buf ++ items)).buffers.length := by simpa [setBuf] using hh
          have hd : Always (drain fast m f h (s.setBuf h (buf ++ items))) (fun s' => s' = s.setBuf h (buf ++ items)) := by
            cases f with
            | zero => unfold need at hf; omega
            | succ f =>
              rw [drain]
              simp only [Prog.idx, setBuf_get hh, bind_ret]
              rw [if_neg (by simp [setBuf]; omega)]
              simp
          refine hd.mono ?_
          rintro s' rfl
          exact ihf _ _ _ _ hh' hb' hj' (by simp only [List.length_nil]; omega)
        · have hlen : (buf ++ items.take room).length = s.bufferSize := by simp; omega
          have hd1 := ihd s h items rest buf room hb hj hget hge (by omega) (by omega)
          have hd2 := (batch_partially cl f).2.2 (s.setBuf h (buf ++ items.take room)) h (items.drop room) rest _ (setBuf_get hh)
            (by
              intro r hr
              exact ⟨base_compact hb hh hlen hr,
                cl.compact s h items rest buf room r hb hj hget hge (by omega) hr⟩)
            (by rw [hlen]; simp [setBuf])
          refine (hd1.and hd2).mono ?_
          rintro s' ⟨-, h1, h2, h3⟩
          refine ihf _ _ _ _ h2 h1 h3 ?_
          have : need B H h (items.drop room).length + room = need B H h items.length := by
            unfold need; simp only [List.length_drop]; omega
          omega
    · intro s h items rest buf n hb hj hget hn hlen hf
      have hh : h < s.buffers.length := (List.getElem?_eq_some_iff.1 hget).1
      have hl : (buf ++ items.take n).length = s.bufferSize := by simp; omega
      rw [drain]
      simp only [Prog.idx, setBuf_get hh, bind_ret]
      rw [if_pos (by rw [hl]; simp [setBuf]), always_bind]
      refine (compact_ok pr hb hj hget hn hlen).mono ?_
      intro r hr
      have hb' := base_compact (items' := items.drop n) hb hh hl hr
      have hj' := cl.compact s h items rest buf n r hb hj hget hn hlen hr
      have hHl := pr.lvl _ _ _ _ hb hj
      have hro := compactRel_out_len hr
      have hBs := pr.size _ _ hj
      have hneed : need B H (h + 1) r.1.length ≤ f := by
        have e := need_succ (B := B) (n := 0) hHl
        have e2 : need B H (h + 1) r.1.length = need B H (h + 1) 0 + r.1.length := by unfold need; omega
        omega
      rw [always_bind]
      refine ((ihb _ _ _ _ hb' hj' hneed).and ((batch_partially cl f).1 _ _ _ _ hb' hj')).mono ?_
      rintro s' ⟨-, hb2, hl2, hj2⟩
      have hh3 : h < s'.buffers.length := hl2 ⟨h, items.drop n⟩ (by simp)
      cases f with
      | zero => unfold need at hneed; omega
      | succ f =>
        rw [drain]
        simp only [Prog.idx, List.getElem?_eq_getElem hh3, bind_ret]
        have := hb2.hlt _ (List.getElem_mem hh3)
        rw [if_neg (by omega)]
        trivial

/-- `batch` cannot fail and keeps the invariant. -/
theorem batch_always {fast : Bool} {m : CompactionMethod} {B H : Nat} {J : RCSketch K → List (Frame K) → Prop}
    (cl : Closed fast m J) (pr : Progress fast B H J) {f : Nat} {s : RCSketch K} {h : Nat} {items : List (Fl K)}
    {rest : List (Frame K)} (hb : Base s (⟨h, items⟩ :: rest)) (hj : J s (⟨h, items⟩ :: rest))
    (hf : need B H h items.length ≤ f) :
    Always (batch fast m f items h s)
      (fun s' => Base s' rest ∧ (∀ f ∈ rest, f.lvl < s'.buffers.length) ∧ J s' rest) :=
  (((batch_total cl pr f).1 s h items rest hb hj hf).and ((batch_partially cl f).1 s h items rest hb hj)).mono
    (fun _ h => h.2)

theorem insertAt_always {fast : Bool} {m : CompactionMethod} {B H : Nat} {J : RCSketch K → List (Frame K) → Prop}
    (cl : Closed fast m J) (pr : Progress fast B H J) {f : Nat} {s : RCSketch K} {h : Nat} {x : Fl K}
    {rest : List (Frame K)} (hb : Base s (⟨h, [x]⟩ :: rest)) (hj : J s (⟨h, [x]⟩ :: rest))
    (hf : need B H h 1 ≤ f) :
    Always (insertAt f x h fast m s) (fun s' => Base s' rest ∧ J s' rest) := by
  refine (Always.and ?_ (insertAt_partially cl f s h x rest hb hj)).mono (fun _ h => h.2) (Q := fun s' => True ∧ _)
  unfold insertAt
  have hb1 := base_ensure hb
  have hj1 := ensure_closed cl hb hj
  have hh := ensureLevel_len s h (hb.hhd ⟨h, [x]⟩ (by simp))
  generalize s.ensureLevel h = s1 at *
  have hget : s1.buffers[h]? = some s1.buffers[h] := List.getElem?_eq_getElem hh
  set buf := s1.buffers[h] with hbuf
  have hbl : buf.length < s1.bufferSize := hb1.hlt buf (List.getElem_mem hh)
  simp only [Prog.idx, hget, bind_ret]
  split
  · rename_i hle
    have hle' : s1.bufferSize ≤ buf.length + 1 := by simpa [setBuf] using hle
    rw [always_bind]
    have hok := compact_ok pr (m := m) (n := 1) hb1 hj1 hget (by simp) (by omega)
    simp only [List.take_succ_cons, List.take_zero] at hok
    refine hok.mono ?_
    intro r hr
    have hlen : (buf ++ [x]).length = s1.bufferSize := by simp; omega
    have hb2 : Base r.2 (⟨h + 1, r.1⟩ :: ⟨h, []⟩ :: rest) := base_compact hb1 hh hlen hr
    have hj2 := cl.compact s1 h [x] rest buf 1 r hb1 hj1 hget (by simp) (by omega) (by simpa using hr)
    have hHl := pr.lvl _ _ _ _ hb1 hj1
    have hro := compactRel_out_len hr
    have hBs := pr.size _ _ hj1
    refine (batch_total cl pr f).1 _ _ _ _ hb2 hj2 ?_
    have e := need_succ (B := B) (n := 1) hHl
    have e2 : need B H (h + 1) r.1.length = need B H (h + 1) 0 + r.1.length := by unfold need; omega
    have e3 : need B H (h + 1) 1 = need B H (h + 1) 0 + 1 := by unfold need; omega
    omega
  · trivial

/-! ### Expectations -/

/-- `Φ` does not increase in expectation under any elementary step (in configurations satisfying `J`). -/
structure Super (fast : Bool) (m : CompactionMethod) (J : RCSketch K → List (Frame K) → Prop)
    (Φ : RCSketch K → List (Frame K) → ℚ) : Prop where
  ensure : ∀ s h items rest, Base s (⟨h, items⟩ :: rest) → J s (⟨h, items⟩ :: rest) → s.buffers.length = h →
    Φ (s.ensureLevel h) (⟨h, items⟩ :: rest) ≤ Φ s (⟨h, items⟩ :: rest)
  pop : ∀ s h rest, Base s (⟨h, []⟩ :: rest) → J s (⟨h, []⟩ :: rest) → h < s.buffers.length →
    Φ s rest ≤ Φ s (⟨h, []⟩ :: rest)
  push : ∀ s h items rest buf, Base s (⟨h, items⟩ :: rest) → J s (⟨h, items⟩ :: rest) → s.buffers[h]? = some buf →
    buf.length + items.length < s.bufferSize → Φ (s.setBuf h (buf ++ items)) (⟨h, []⟩ :: rest) ≤ Φ s (⟨h, items⟩ :: rest)
  compact : ∀ s h items rest buf n, Base s (⟨h, items⟩ :: rest) → J s (⟨h, items⟩ :: rest) →
    s.buffers[h]? = some buf → n ≤ items.length → buf.length + n = s.bufferSize →
    exp ((s.setBuf h (buf ++ items.take n)).compactAt h fast m)
      (fun r => Φ r.2 (⟨h + 1, r.1⟩ :: ⟨h, items.drop n⟩ :: rest)) ≤ Φ s (⟨h, items⟩ :: rest)

theorem batch_super {fast : Bool} {m : CompactionMethod} {B H : Nat} {J : RCSketch K → List (Frame K) → Prop}
    {Φ : RCSketch K → List (Frame K) → ℚ}
    (cl : Closed fast m J) (pr : Progress fast B H J) (su : Super fast m J Φ) (f : Nat) :
    (∀ s h items rest, Base s (⟨h, items⟩ :: rest) → J s (⟨h, items⟩ :: rest) → need B H h items.length ≤ f →
      exp (batch fast m f items h s) (fun s' => Φ s' rest) ≤ Φ s (⟨h, items⟩ :: rest)) ∧
    (∀ s h items rest, h < s.buffers.length → Base s (⟨h, items⟩ :: rest) → J s (⟨h, items⟩ :: rest) →
      need B H h items.length ≤ f + 1 →
      exp (fill fast m f items h s) (fun s' => Φ s' rest) ≤ Φ s (⟨h, items⟩ :: rest)) ∧
    (∀ s h items rest buf n, Base s (⟨h, items⟩ :: rest) → J s (⟨h, items⟩ :: rest) → s.buffers[h]? = some buf →
      n ≤ items.length → buf.length + n = s.bufferSize → need B H h 0 ≤ f + 2 →
      exp (drain fast m f h (s.setBuf h (buf ++ items.take n))) (fun s' => Φ s' (⟨h, items.drop n⟩ :: rest))
        ≤ Φ s (⟨h, items⟩ :: rest)) := by
  induction f with
  | zero =>
    refine ⟨?_, ?_, ?_⟩
    · intro s h items rest hb hj hf; unfold need at hf; omega
    · intro s h items rest hh hb hj hf; unfold need at hf; omega
    · intro s h items rest buf n hb hj hget hn hlen hf; unfold need at hf; omega
  | succ f ih =>
    obtain ⟨ihb, ihf, ihd⟩ := ih
    refine ⟨?_, ?_, ?_⟩
    · intro s h items rest hb hj hf
      rw [batch]
      refine (ihf _ _ _ _ (ensureLevel_len s h (hb.hhd ⟨h, items⟩ (by simp))) (base_ensure hb)
        (ensure_closed cl hb hj) hf).trans ?_
      rcases Nat.lt_or_ge h s.buffers.length with h2 | h2
      · unfold ensureLevel; rw [if_neg (by omega)]
      · exact su.ensure s h items rest hb hj (by have := hb.hhd ⟨h, items⟩ (by simp); simp at this; omega)
    · intro s h items rest hh hb hj hf
      rw [fill]
      split
      · rename_i he; subst he
        exact su.pop s h rest hb hj hh
      · rename_i hne
        have hipos : 0 < items.length := List.length_pos_of_ne_nil hne
        have hget : s.buffers[h]? = some s.buffers[h] := List.getElem?_eq_getElem hh
        set buf := s.buffers[h] with hbuf
        have hbl : buf.length < s.bufferSize := hb.hlt buf (List.getElem_mem hh)
        simp only [Prog.idx, hget, bind_ret, usub_eq hbl.le]
        set room := s.bufferSize - buf.length with hroom
        rw [exp_bind]
        have hn0 : need B H h 0 + items.length = need B H h items.length := by unfold need; omega
        rcases Nat.lt_or_ge items.length room with hlt | hge
        · have e1 : items.take room = items := List.take_of_length_le hlt.le
          have e2 : items.drop room = [] := List.drop_eq_nil_of_le hlt.le
          rw [e1, e2]
          have hb' : Base (s.setBuf h (buf ++ items)) (⟨h, []⟩ :: rest) := base_push hb (by simp; omega)
          have hj' := cl.push s h items rest buf hb hj hget (by omega)
          have hh' : h < (s.setBuf h (buf ++ items)).buffers.length := by simpa [setBuf] using hh
          have hd : drain fast m f h (s.setBuf h (buf ++ items)) = .ret (s.setBuf h (buf ++ items)) := by
            cases f with
            | zero => unfold need at hf; omega
            | succ f =>
              rw [drain]
              simp only [Prog.idx, setBuf_get hh, bind_ret]
              rw [if_neg (by simp [setBuf]; omega)]
          rw [hd, exp_ret]
          exact (ihf _ _ _ _ hh' hb' hj' (by simp only [List.length_nil]; omega)).trans
            (su.push s h items rest buf hb hj hget (by omega))
        · have hlen : (buf ++ items.take room).length = s.bufferSize := by simp; omega
          have hd2 := (batch_partially cl f).2.2 (s.setBuf h (buf ++ items.take room)) h (items.drop room) rest _ (setBuf_get hh)
            (by
              intro r hr
              exact ⟨base_compact hb hh hlen hr,
                cl.compact s h items rest buf room r hb hj hget hge (by omega) hr⟩)
            (by rw [hlen]; simp [setBuf])
          refine le_trans (exp_mono (hd2.mono ?_)) (ihd s h items rest buf room hb hj hget hge (by omega) (by omega))
          rintro s' ⟨h1, h2, h3⟩
          refine ihf _ _ _ _ h2 h1 h3 ?_
          have : need B H h (items.drop room).length + room = need B H h items.length := by
            unfold need; simp only [List.length_drop]; omega
          omega
    · intro s h items rest buf n hb hj hget hn hlen hf
      have hh : h < s.buffers.length := (List.getElem?_eq_some_iff.1 hget).1
      have hl : (buf ++ items.take n).length = s.bufferSize := by simp; omega
      rw [drain]
      simp only [Prog.idx, setBuf_get hh, bind_ret]
      rw [if_pos (by rw [hl]; simp [setBuf]), exp_bind]
      refine le_trans (exp_mono ?_) (su.compact s h items rest buf n hb hj hget hn hlen)
      refine (compactAt_partially _ h fast m _ (setBuf_get hh)).mono ?_
      intro r hr
      have hb' := base_compact (items' := items.drop n) hb hh hl hr
      have hj' := cl.compact s h items rest buf n r hb hj hget hn hlen hr
      have hHl := pr.lvl _ _ _ _ hb hj
      have hro := compactRel_out_len hr
      have hBs := pr.size _ _ hj
      have hneed : need B H (h + 1) r.1.length ≤ f := by
        have e := need_succ (B := B) (n := 0) hHl
        have e2 : need B H (h + 1) r.1.length = need B H (h + 1) 0 + r.1.length := by unfold need; omega
        omega
      rw [exp_bind]
      refine le_trans (exp_mono ?_) (ihb _ _ _ _ hb' hj' hneed)
      refine ((batch_partially cl f).1 _ _ _ _ hb' hj').mono ?_
      rintro s' ⟨hb2, hl2, hj2⟩
      have hh3 : h < s'.buffers.length := hl2 ⟨h, items.drop n⟩ (by simp)
      cases f with
      | zero => unfold need at hneed; omega
      | succ f =>
        rw [drain]
        simp only [Prog.idx, List.getElem?_eq_getElem hh3, bind_ret]
        have := hb2.hlt _ (List.getElem_mem hh3)
        rw [if_neg (by omega)]
        simp

theorem insertAt_super {fast : Bool} {m : CompactionMethod} {B H : Nat} {J : RCSketch K → List (Frame K) → Prop}
    {Φ : RCSketch K → List (Frame K) → ℚ}
    (cl : Closed fast m J) (pr : Progress fast B H J) (su : Super fast m J Φ) {f : Nat} {s : RCSketch K} {h : Nat}
    {x : Fl K} {rest : List (Frame K)} (hb : Base s (⟨h, [x]⟩ :: rest)) (hj : J s (⟨h, [x]⟩ :: rest))
    (hf : need B H h 1 ≤ f) :
    exp (insertAt f x h fast m s) (fun s' => Φ s' rest) ≤ Φ s (⟨h, [x]⟩ :: rest) := by
  unfold insertAt
  have hb1 := base_ensure hb
  have hj1 := ensure_closed cl hb hj
  have hh := ensureLevel_len s h (hb.hhd ⟨h, [x]⟩ (by simp))
  have hens : Φ (s.ensureLevel h) (⟨h, [x]⟩ :: rest) ≤ Φ s (⟨h, [x]⟩ :: rest) := by
    rcases Nat.lt_or_ge h s.buffers.length with h2 | h2
    · unfold ensureLevel; rw [if_neg (by omega)]
    · exact su.ensure s h [x] rest hb hj (by have := hb.hhd ⟨h, [x]⟩ (by simp); simp at this; omega)
  refine le_trans ?_ hens
  generalize s.ensureLevel h = s1 at *
  have hget : s1.buffers[h]? = some s1.buffers[h] := List.getElem?_eq_getElem hh
  set buf := s1.buffers[h] with hbuf
  have hbl : buf.length < s1.bufferSize := hb1.hlt buf (List.getElem_mem hh)
  simp only [Prog.idx, hget, bind_ret]
  split
  · rename_i hle
    have hle' : s1.bufferSize ≤ buf.length + 1 := by simpa [setBuf] using hle
    rw [exp_bind]
    have hsu := su.compact s1 h [x] rest buf 1 hb1 hj1 hget (by simp) (by omega)
    simp only [List.take_succ_cons, List.take_zero, List.drop_succ_cons, List.drop_zero] at hsu
    refine le_trans (exp_mono ?_) hsu
    refine (compactAt_partially (s1.setBuf h (buf ++ [x])) h fast m _ (setBuf_get hh)).mono ?_
    intro r hr
    have hlen : (buf ++ [x]).length = s1.bufferSize := by simp; omega
    have hb2 : Base r.2 (⟨h + 1, r.1⟩ :: ⟨h, []⟩ :: rest) := base_compact hb1 hh hlen hr
    have hj2 := cl.compact s1 h [x] rest buf 1 r hb1 hj1 hget (by simp) (by omega) (by simpa using hr)
    have hHl := pr.lvl _ _ _ _ hb1 hj1
    have hro := compactRel_out_len hr
    have hBs := pr.size _ _ hj1
    refine le_trans (exp_mono ?_) ((batch_super cl pr su f).1 _ _ _ _ hb2 hj2 ?_)
    · refine ((batch_partially cl f).1 _ _ _ _ hb2 hj2).mono ?_
      rintro s' ⟨hb3, hl3, hj3⟩
      exact su.pop _ _ _ hb3 hj3 (hl3 ⟨h, []⟩ (by simp))
    · have e := need_succ (B := B) (n := 1) hHl
      have e2 : need B H (h + 1) r.1.length = need B H (h + 1) 0 + r.1.length := by unfold need; omega
      have e3 : need B H (h + 1) 1 = need B H (h + 1) 0 + 1 := by unfold need; omega
      omega
  · rename_i hle
    have hlt : buf.length + 1 < s1.bufferSize := by simpa [setBuf] using hle
    have hb2 : Base (s1.setBuf h (buf ++ [x])) (⟨h, []⟩ :: rest) := base_push hb1 (by simp; omega)
    have hj2 := cl.push s1 h [x] rest buf hb1 hj1 hget (by simp; omega)
    rw [exp_ret]
    exact (su.pop _ _ _ hb2 hj2 (by simpa [setBuf] using hh)).trans (su.push s1 h [x] rest buf hb1 hj1 hget (by simp; omega))

end RCSketch
end AQ

/-
Behaviour of the cascade within the declared input length: nothing can fail and every compaction keeps at least half of
the buffer.
-/
import Verif.Proofs.RCHist

set_option linter.unusedSectionVars false
set_option linter.unusedVariables false

namespace AQ
open Prog Spec

theorem trailingOnesAux_le (f : Nat) : ∀ c, 2 ^ trailingOnesAux f c ≤ c + 1 := by
  induction f with
  | zero => intro c; simp [trailingOnesAux]
  | succ f ih =>
    intro c
    rw [trailingOnesAux]
    split
    · have := ih (c / 2); rw [pow_succ]; omega
    · simp

theorem trailingOnes_le (c : Nat) : 2 ^ trailingOnes c ≤ c + 1 := trailingOnesAux_le 32 c

theorem natSum_set : ∀ (l : List Nat) (h a b : Nat), l[h]? = some a → (l.set h b).sum + a = l.sum + b := by
  intro l
  induction l with
  | nil => intro h a b hh; simp at hh
  | cons c l ih =>
    intro h a b hh
    cases h with
    | zero => simp at hh; subst hh; simp; omega
    | succ h => simp only [List.getElem?_cons_succ] at hh; have := ih h a b hh; simp; omega

variable {K : Type} [Field K] [LinearOrder K] [IsStrictOrderedRing K] [FloatFmt K]

theorem levels_le_stored (h : Nat) : ∀ (L : List (List (Fl K))), (∀ i < h, ∃ b, L[i]? = some b ∧ b ≠ []) →
    h ≤ (L.map List.length).sum := by
  induction h with
  | zero => intro L _; omega
  | succ h ih =>
    intro L hL
    cases L with
    | nil => obtain ⟨b, hb, -⟩ := hL 0 (by omega); simp at hb
    | cons a L =>
      obtain ⟨b, hb, hne⟩ := hL 0 (by omega)
      simp at hb; subst hb
      have := ih L (fun i hi => by obtain ⟨b, hb⟩ := hL (i + 1) (by omega); exact ⟨b, by simpa using hb⟩)
      have := List.length_pos_of_ne_nil hne
      simp; omega

namespace RCSketch

/-- Number of pending items at level `h`. -/
def pend (h : Nat) : List (Frame K) → Nat
  | [] => 0
  | f :: P => (if f.lvl = h then f.items.length else 0) + pend h P

/-- Number of items in a configuration. -/
def total (s : RCSketch K) (P : List (Frame K)) : Nat := s.stored + (P.map (fun f => f.items.length)).sum

/-- `G` excludes NaN and is preserved by compaction with method `m`. -/
def GoodFor (G : Fl K → Prop) (m : CompactionMethod) : Prop :=
  (∀ y, G y → y ≠ .nan) ∧
    ∀ u out : List (Fl K), u.Pairwise (· ≤ ·) → (∀ y ∈ u, G y) → IsOut m u out → ∀ y ∈ out, G y

theorem mem_everyOther {α : Type} {b : Bool} {l : List α} {y : α} (h : y ∈ everyOther b l) : y ∈ l := by
  induction l generalizing b with
  | nil => cases b <;> simp [everyOther] at h
  | cons a l ih =>
    cases b
    · simp only [everyOther, List.mem_cons] at h ⊢; exact h.imp_right ih
    · simp only [everyOther] at h; exact List.mem_cons_of_mem _ (ih h)

theorem goodFor_default {G : Fl K → Prop} (h : ∀ y, G y → y ≠ .nan) : GoodFor G .default := by
  refine ⟨h, ?_⟩
  rintro u out - hu ⟨b, rfl⟩ y hy
  exact hu y (mem_everyOther hy)

theorem goodFor_fin [FloatFmt.Binary K] (m : CompactionMethod) : GoodFor (Fl.CanDouble (K := K)) m := by
  have h0 : ∀ y : Fl K, y.CanDouble → y ≠ .nan := by rintro y ⟨a, rfl, -, -⟩; simp
  cases m with
  | default => exact goodFor_default h0
  | averageNeighbour =>
    refine ⟨h0, ?_⟩
    intro u out hs hu ho y hy
    have h' : out = averagePairs u := ho
    subst h'
    exact (averagePairs_mem u hs hu y hy).1

/-- Invariant within the declared input length (`N` items supplied so far). -/
structure InR (G : Fl K → Prop) (k B N : Nat) (s : RCSketch K) (P : List (Frame K)) : Prop where
  hk : s.k = k
  hB : s.bufferSize = B
  flow : ∃ r : Nat → Nat, (∀ h c, s.counters[h]? = some c → k * c ≤ r h) ∧
    ∀ h, ((s.buffers[h]?).getD []).length + pend h P + r h ≤ (if h = 0 then N else r (h - 1))
  good : ∀ b ∈ s.buffers, ∀ y ∈ b, G y
  goodP : ∀ f ∈ P, ∀ y ∈ f.items, G y
  full : ∀ f ∈ P, ∀ i < f.lvl, ∃ b, s.buffers[i]? = some b ∧ b ≠ []

theorem index_arith {n k t c : Nat} (hk : 1 ≤ k) (ht : 2 ^ t ≤ c + 1) (h : k * c + bsize n k ≤ n) :
    2 * ((t + 1) * k) ≤ bsize n k := by
  have hB := bsize_ge n k
  rcases Nat.eq_zero_or_pos t with rfl | htp
  · simpa using hB
  · have h1 : k * (2 ^ t + 1) ≤ n := by
      have : k * (2 ^ t + 1) ≤ k * (c + 2) := Nat.mul_le_mul_left _ (by omega)
      rw [Nat.mul_add k c 2] at this
      omega
    have h2 : 2 ^ t + 1 ≤ n / k := by rw [Nat.le_div_iff_mul_le hk, Nat.mul_comm]; exact h1
    have h3 : t < Nat.clog 2 (n / k) := by rw [Nat.lt_clog_iff_pow_lt (by norm_num)]; omega
    have h4 : 2 * k * (t + 1) ≤ 2 * k * Nat.clog 2 (n / k) := Nat.mul_le_mul_left _ h3
    have h5 : 2 * k * Nat.clog 2 (n / k) ≤ bsize n k := le_max_left _ _
    have h6 : 2 * ((t + 1) * k) = 2 * k * (t + 1) := by ring
    omega

variable {G : Fl K → Prop} {n k N : Nat}

theorem flow_le {r : Nat → Nat} {L : Nat → Nat} {N : Nat} (h : ∀ h, L h + r h ≤ (if h = 0 then N else r (h - 1))) :
    ∀ j, L j + r j ≤ N := by
  have key : ∀ j, r j ≤ N := by
    intro j
    induction j with
    | zero => have := h 0; simp at this; omega
    | succ j ih => have := h (j + 1); simp at this; omega
  intro j
  cases j with
  | zero => have := h 0; simpa using this
  | succ j => have := h (j + 1); simp at this; have := key j; omega

/-- When a level is full, the compaction index is computable and at least half of the buffer stays. -/
theorem InR.index {s : RCSketch K} {h : Nat} {items buf : List (Fl K)} {rest : List (Frame K)} {m : Nat}
    (hI : InR G k (bsize n k) N s (⟨h, items⟩ :: rest)) (hb : Base s (⟨h, items⟩ :: rest)) (hN : N ≤ n)
    (hget : s.buffers[h]? = some buf) (hm : m ≤ items.length) (hlen : buf.length + m = s.bufferSize) :
    ∃ c, s.counters[h]? = some c ∧ 2 * ((trailingOnes c + 1) * s.k) ≤ s.bufferSize ∧ c + s.bufferSize ≤ n := by
  have hh : h < s.counters.length := by rw [hb.hc]; exact (List.getElem?_eq_some_iff.1 hget).1
  have hk := hb.hk
  refine ⟨s.counters[h], List.getElem?_eq_getElem hh, ?_⟩
  obtain ⟨r, hr1, hr2⟩ := hI.flow
  have h1 := hr1 h _ (List.getElem?_eq_getElem hh)
  have h2 := flow_le (L := fun h' => ((s.buffers[h']?).getD []).length + pend h' (⟨h, items⟩ :: rest)) hr2 h
  simp only [hget, Option.getD_some, pend, if_true] at h2
  rw [hI.hk] at hk
  rw [hI.hk, hI.hB] at *
  have h3 : k * s.counters[h] + bsize n k ≤ n := by omega
  refine ⟨index_arith hk (trailingOnes_le _) h3, ?_⟩
  have : s.counters[h] ≤ k * s.counters[h] := Nat.le_mul_of_pos_left _ hk
  omega

/-- The compaction index actually chosen is at least half the buffer size. -/
theorem InR.half_le {s : RCSketch K} {h : Nat} {items buf : List (Fl K)} {rest : List (Frame K)} {m ci : Nat}
    {fast : Bool} {ctrs : List Nat} {b : List (Fl K)}
    (hI : InR G k (bsize n k) N s (⟨h, items⟩ :: rest)) (hb : Base s (⟨h, items⟩ :: rest)) (hN : N ≤ n)
    (hget : s.buffers[h]? = some buf) (hm : m ≤ items.length) (hlen : buf.length + m = s.bufferSize)
    (hi : (s.setBuf h b).IsIndex h fast (buf ++ items.take m).length ci ctrs) : s.bufferSize / 2 ≤ ci := by
  unfold IsIndex at hi
  split at hi
  · exact hi.1.ge
  · obtain ⟨c, h1, h2, -, -⟩ := hi
    obtain ⟨c', h3, h4, -⟩ := hI.index hb hN hget hm hlen
    have : s.counters[h]? = some c := h1
    rw [h3] at this; obtain rfl : c' = c := by simpa using this
    have h5 : (s.setBuf h b).k = s.k := rfl
    rw [h5, List.length_append, List.length_take, Nat.min_eq_left hm] at h2
    omega

theorem InR.ensure {B : Nat} {s : RCSketch K} {h : Nat} {P : List (Frame K)} (hI : InR G k B N s P)
    (hl : s.buffers.length = h) (hc : s.counters.length = s.buffers.length) : InR G k B N (s.ensureLevel h) P := by
  unfold ensureLevel
  rw [if_pos hl.le]
  refine ⟨hI.hk, hI.hB, ?_, ?_, hI.goodP, ?_⟩
  · obtain ⟨r, h1, h2⟩ := hI.flow
    refine ⟨r, ?_, ?_⟩
    · intro j c hj
      simp only [List.getElem?_append] at hj
      split at hj
      · exact h1 j c hj
      · have : c = 0 := by
          rcases Nat.eq_zero_or_pos (j - s.counters.length) with h0 | h0
          · rw [h0] at hj; simpa using hj.symm
          · rw [List.getElem?_eq_none (by simp; omega)] at hj; simp at hj
        subst this; simp
    · intro j
      have := h2 j
      rcases Nat.lt_or_ge j s.buffers.length with hj | hj
      · rw [List.getElem?_append_left hj]; exact this
      · have e : ((s.buffers ++ [[]])[j]?).getD [] = [] := by
          rw [List.getElem?_append_right hj]
          rcases Nat.eq_zero_or_pos (j - s.buffers.length) with h0 | h0
          · simp [h0]
          · rw [List.getElem?_eq_none (by simp; omega)]; rfl
        simp only [e]
        rw [List.getElem?_eq_none hj] at this
        exact this
  · intro b hb y hy
    rcases List.mem_append.1 hb with h1 | h1
    · exact hI.good b h1 y hy
    · simp at h1; subst h1; simp at hy
  · intro f hf i hi
    obtain ⟨b, h1, h2⟩ := hI.full f hf i hi
    refine ⟨b, ?_, h2⟩
    rw [List.getElem?_append_left (List.getElem?_eq_some_iff.1 h1).1]; exact h1

theorem InR.pop {B : Nat} {s : RCSketch K} {h : Nat} {rest : List (Frame K)} (hI : InR G k B N s (⟨h, []⟩ :: rest)) :
    InR G k B N s rest := by
  refine ⟨hI.hk, hI.hB, ?_, hI.good, fun f hf => hI.goodP f (by simp [hf]), fun f hf => hI.full f (by simp [hf])⟩
  obtain ⟨r, h1, h2⟩ := hI.flow
  exact ⟨r, h1, fun j => by have := h2 j; simpa [pend] using this⟩

theorem set_get (L : List (List (Fl K))) (h j : Nat) (b : List (Fl K)) (hh : h < L.length) :
    (L.set h b)[j]? = if j = h then some b else L[j]? := by
  rw [List.getElem?_set]
  by_cases hj : h = j
  · subst hj; simp [hh]
  · rw [if_neg hj, if_neg (Ne.symm hj)]

theorem InR.push {B : Nat} {s : RCSketch K} {h : Nat} {items buf : List (Fl K)} {rest : List (Frame K)}
    (hI : InR G k B N s (⟨h, items⟩ :: rest)) (hget : s.buffers[h]? = some buf) :
    InR G k B N (s.setBuf h (buf ++ items)) (⟨h, []⟩ :: rest) := by
  have hh : h < s.buffers.length := (List.getElem?_eq_some_iff.1 hget).1
  refine ⟨hI.hk, hI.hB, ?_, ?_, ?_, ?_⟩
  · obtain ⟨r, h1, h2⟩ := hI.flow
    refine ⟨r, h1, fun j => ?_⟩
    have := h2 j
    simp only [setBuf, set_get _ _ _ _ hh, pend] at this ⊢
    by_cases hj : j = h
    · subst hj
      simp only [if_true, Option.getD_some, List.length_append, List.length_nil, hget] at this ⊢; omega
    · rw [if_neg hj]
      rw [if_neg (Ne.symm hj)] at this ⊢
      exact this
  · intro b hb y hy
    rcases List.mem_or_eq_of_mem_set hb with h1 | rfl
    · exact hI.good b h1 y hy
    · rcases List.mem_append.1 hy with h2 | h2
      · exact hI.good buf (List.mem_of_getElem? hget) y h2
      · exact hI.goodP ⟨h, items⟩ (by simp) y h2
  · intro f hf y hy
    rcases List.mem_cons.1 hf with rfl | hf
    · simp at hy
    · exact hI.goodP f (by simp [hf]) y hy
  · intro f hf i hi
    have key : ∃ b, s.buffers[i]? = some b ∧ b ≠ [] := by
      rcases List.mem_cons.1 hf with rfl | hf
      · exact hI.full ⟨h, items⟩ (by simp) i hi
      · exact hI.full f (by simp [hf]) i hi
    obtain ⟨b, h1, h2⟩ := key
    simp only [setBuf, set_get _ _ _ _ hh]
    split
    · rename_i e; subst e
      rw [hget] at h1; obtain rfl : buf = b := by simpa using h1
      exact ⟨_, rfl, by simp [h2]⟩
    · exact ⟨b, h1, h2⟩

theorem InR.compact {B : Nat} {s : RCSketch K} {h m : Nat} {fast : Bool} {meth : CompactionMethod} {items buf : List (Fl K)}
    {rest : List (Frame K)} {r : List (Fl K) × RCSketch K} (hG : GoodFor G meth)
    (hI : InR G k B N s (⟨h, items⟩ :: rest)) (hb : Base s (⟨h, items⟩ :: rest))
    (hget : s.buffers[h]? = some buf) (hm : m ≤ items.length) (hlen : buf.length + m = s.bufferSize)
    (hhalf : ∀ ci ctrs, (s.setBuf h (buf ++ items.take m)).IsIndex h fast (buf ++ items.take m).length ci ctrs → 1 ≤ ci)
    (hr : CompactRel (s.setBuf h (buf ++ items.take m)) h fast meth (buf ++ items.take m) r) :
    InR G k B N r.2 (⟨h + 1, r.1⟩ :: ⟨h, items.drop m⟩ :: rest) := by
  obtain ⟨ci, ctrs, out, hi, hci, -, ho, rfl⟩ := hr
  have hh : h < s.buffers.length := (List.getElem?_eq_some_iff.1 hget).1
  have hhf := hhalf ci ctrs hi
  have hB2 := hb.hB
  set full := buf ++ items.take m with hfull
  have hfl : full.length = s.bufferSize := by rw [hfull, List.length_append, List.length_take]; omega
  have hsl : (sorted id full).length = s.bufferSize := by rw [(sorted_perm id full).length_eq, hfl]
  have hfg : ∀ y ∈ sorted id full, G y := by
    intro y hy
    have hy := (sorted_perm id full).mem_iff.1 hy
    rcases List.mem_append.1 hy with h2 | h2
    · exact hI.good buf (List.mem_of_getElem? hget) y h2
    · exact hI.goodP ⟨h, items⟩ (by simp) y (List.mem_of_mem_take h2)
  have hol : out.length ≤ s.bufferSize - ci := by
    have := isOut_length ho; rw [List.length_drop, hsl] at this; exact this
  have hbuf : ∀ j, ((s.setBuf h full).afterSplit h ci full ctrs).buffers[j]? =
      if j = h then some ((sorted id full).take ci) else s.buffers[j]? := by
    intro j
    simp only [afterSplit, setBuf, List.set_set]
    exact set_get _ _ _ _ hh
  have htl : ((sorted id full).take ci).length = ci := by rw [List.length_take, hsl]; omega
  refine ⟨hI.hk, hI.hB, ?_, ?_, ?_, ?_⟩
  · obtain ⟨q, h1, h2⟩ := hI.flow
    refine ⟨fun j => if j = h then q h + (s.bufferSize - ci) else q j, ?_, ?_⟩
    · intro j c hj
      have hj : ctrs[j]? = some c := hj
      unfold IsIndex at hi
      split at hi
      · rw [hi.2] at hj
        have := h1 j c hj
        dsimp only
        split
        · rename_i e; subst e; omega
        · exact this
      · obtain ⟨c0, g1, g2, g3, g4⟩ := hi
        have g1 : s.counters[h]? = some c0 := g1
        have g4 : ctrs = s.counters.set h (c0 + 1) := g4
        rw [g4, List.getElem?_set] at hj
        have hhc : h < s.counters.length := (List.getElem?_eq_some_iff.1 g1).1
        dsimp only
        by_cases e : h = j
        · subst e
          simp only [hhc, if_true, Option.some.injEq] at hj ⊢
          have g5 := h1 h c0 g1
          have g2 : ci + (trailingOnes c0 + 1) * s.k = full.length := g2
          rw [hI.hk] at g2
          rw [← hj, Nat.mul_add, Nat.mul_one]
          have : k ≤ (trailingOnes c0 + 1) * k := Nat.le_mul_of_pos_left _ (by omega)
          omega
        · rw [if_neg e] at hj
          rw [if_neg (Ne.symm e)]
          exact h1 j c hj
    · intro j
      have h2h := h2 h
      have h2j := h2 j
      simp only [pend, hget, Option.getD_some, if_true] at h2h h2j
      simp only [hbuf, pend]
      by_cases e : j = h
      · subst e
        simp only [if_true, Option.getD_some, htl]
        rw [if_neg (by omega), List.length_drop]
        have e2 : (if j = 0 then N else if j - 1 = j then q j + (s.bufferSize - ci) else q (j - 1)) =
            (if j = 0 then N else q (j - 1)) := by
          split
          · rfl
          · rw [if_neg (by omega)]
        rw [e2]
        have : ci ≤ s.bufferSize := by omega
        omega
      · rw [if_neg e, if_neg e]
        rw [if_neg (Ne.symm e)] at h2j ⊢
        by_cases e1 : h + 1 = j
        · subst e1
          simp only [if_true, Nat.add_sub_cancel, Nat.add_eq_zero_iff, one_ne_zero, and_false, if_false] at h2j ⊢
          omega
        · rw [if_neg e1]
          have e2 : (if j = 0 then N else if j - 1 = h then q h + (s.bufferSize - ci) else q (j - 1)) =
              (if j = 0 then N else q (j - 1)) := by
            split
            · rfl
            · rw [if_neg (by omega)]
          rw [e2]; omega
  · intro b hb y hy
    obtain ⟨j, hj⟩ := List.getElem?_of_mem hb
    rw [hbuf] at hj
    split at hj
    · obtain rfl : _ = b := by simpa using hj
      exact hfg y (List.mem_of_mem_take hy)
    · exact hI.good b (List.mem_of_getElem? hj) y hy
  · intro f hf y hy
    rcases List.mem_cons.1 hf with rfl | hf
    · exact hG.2 _ _ ((sorted_pairwise id full).sublist (List.drop_sublist _ _))
        (fun y hy => hfg y (List.mem_of_mem_drop hy)) ho y hy
    · rcases List.mem_cons.1 hf with rfl | hf
      · exact hI.goodP ⟨h, items⟩ (by simp) y (List.mem_of_mem_drop hy)
      · exact hI.goodP f (by simp [hf]) y hy
  · intro f hf i hi'
    rw [hbuf]
    split
    · refine ⟨_, rfl, ?_⟩
      intro e; have := congrArg List.length e; rw [htl] at this; simp at this; omega
    · rename_i hne
      rcases List.mem_cons.1 hf with rfl | hf
      · exact hI.full ⟨h, items⟩ (by simp) i (by simp only at hi' ⊢; omega)
      · rcases List.mem_cons.1 hf with rfl | hf
        · exact hI.full ⟨h, items⟩ (by simp) i hi'
        · exact hI.full f (by simp [hf]) i hi'

theorem InR.closed (hG : GoodFor G m) (fast : Bool) (hN : N ≤ n) :
    Closed fast m (InR (K := K) G k (bsize n k) N) where
  ensure s h items rest hb hj hl := hj.ensure hl hb.hc
  pop s h rest hb hj hl := hj.pop
  push s h items rest buf hb hj hg hl := hj.push hg
  compact s h items rest buf m r hb hj hg hm hl hr :=
    hj.compact hG hb hg hm hl (fun ci ctrs hi => by
      have h1 := hj.half_le hb hN hg hm hl hi
      have h2 := hb.hB
      omega) hr

theorem InR.start {B : Nat} {s : RCSketch K} {c : List (Fl K)} (hI : InR G k B N s []) (hc : ∀ y ∈ c, G y) :
    InR G k B (N + c.length) s [⟨0, c⟩] := by
  refine ⟨hI.hk, hI.hB, ?_, hI.good, by simpa using hc, by simp⟩
  obtain ⟨r, h1, h2⟩ := hI.flow
  refine ⟨r, h1, fun j => ?_⟩
  have := h2 j
  simp only [pend] at this ⊢
  by_cases e : j = 0
  · subst e; simp only [if_true] at this ⊢; omega
  · rw [if_neg e] at this ⊢; rw [if_neg (Ne.symm e)]; omega

theorem InR.fresh (hk : k ≠ 0) : InR (K := K) G k (bsize n k) 0 (fresh n k) [] := by
  refine ⟨rfl, rfl, ⟨fun _ => 0, by simp [RCSketch.fresh], by simp [RCSketch.fresh, pend]⟩, by simp [RCSketch.fresh],
    by simp, by simp⟩

/-- As a history invariant. -/
def RangeInv (G : Fl K → Prop) (n k : Nat) (l : List (Fl K)) (s : RCSketch K) (P : List (Frame K)) : Prop :=
  l.length ≤ n → (∀ y ∈ l, G y) → InR G k (bsize n k) l.length s P

theorem rangeInv : HistInv (fun _ m => GoodFor G m) (RangeInv (K := K) G n k) where
  closed l fast m hG :=
    { ensure := fun s h items rest hb hj hl h1 h2 => (InR.closed hG fast h1).ensure s h items rest hb (hj h1 h2) hl
      pop := fun s h rest hb hj hl h1 h2 => (InR.closed hG fast h1).pop s h rest hb (hj h1 h2) hl
      push := fun s h items rest buf hb hj hg hl h1 h2 =>
        (InR.closed hG fast h1).push s h items rest buf hb (hj h1 h2) hg hl
      compact := fun s h items rest buf n r hb hj hg hn hl hr h1 h2 =>
        (InR.closed hG fast h1).compact s h items rest buf n r hb (hj h1 h2) hg hn hl hr }
  start l c s hc hb hj h1 h2 := by
    have := (hj (by simp at h1; omega) (fun y hy => h2 y (by simp [hy]))).start (c := c) (fun y hy => h2 y (by simp [hy]))
    simpa using this
  cnt l s n hj h1 h2 := by
    have := hj h1 h2
    exact ⟨this.hk, this.hB, this.flow, this.good, this.goodP, this.full⟩

theorem HistInv.and {ok ok' : Bool → CompactionMethod → Prop} {J J' : List (Fl K) → RCSketch K → List (Frame K) → Prop}
    (h : HistInv ok J) (h' : HistInv ok' J') : HistInv (fun f m => ok f m ∧ ok' f m) (fun l s P => J l s P ∧ J' l s P) where
  closed l fast m hok := (h.closed l fast m hok.1).and (h'.closed l fast m hok.2)
  start l c s hc hb hj := ⟨h.start l c s hc hb hj.1, h'.start l c s hc hb hj.2⟩
  cnt l s n hj := ⟨h.cnt l s n hj.1, h'.cnt l s n hj.2⟩

/-! ### Nothing fails within range -/

theorem total_closed (fast : Bool) (m : CompactionMethod) (T : Nat) :
    Closed (K := K) fast m (fun s P => total s P ≤ T) where
  ensure s h items rest hb hj hl := by
    unfold ensureLevel; rw [if_pos hl.le]
    simpa [total, stored] using hj
  pop s h rest hb hj hl := by simpa [total] using hj
  push s h items rest buf hb hj hg hl := by
    have := natSum_set (s.buffers.map List.length) h buf.length (buf ++ items).length (by simp [hg])
    simp only [total, stored, setBuf, List.map_set, List.map_cons, List.sum_cons, List.length_append,
      List.length_nil] at *
    omega
  compact s h items rest buf n r hb hj hg hn hl hr := by
    have hh : h < s.buffers.length := (List.getElem?_eq_some_iff.1 hg).1
    obtain ⟨ci, ctrs, out, hi, hci, -, ho, rfl⟩ := hr
    have h1 := isOut_length ho
    have h2 : (sorted id (buf ++ items.take n)).length = buf.length + n := by
      rw [(sorted_perm id _).length_eq, List.length_append, List.length_take]; omega
    have h3 := natSum_set (s.buffers.map List.length) h buf.length ((sorted id (buf ++ items.take n)).take ci).length
      (by simp [hg])
    rw [List.length_drop, h2] at h1
    rw [List.length_append, List.length_take] at hci
    simp only [total, stored, setBuf, afterSplit, List.set_set, List.map_set, List.map_cons, List.sum_cons,
      List.length_take, List.length_drop, h2] at *
    omega

theorem inR_progress (hG : ∀ y, G y → y ≠ .nan) (fast : Bool) (hN : N ≤ n) (hn : n < 2 ^ 32) (T : Nat) :
    Progress fast (bsize n k) T (fun s P => InR (K := K) G k (bsize n k) N s P ∧ total s P ≤ T) where
  size s P hj := hj.1.hB
  lvl s h items rest hb hj := by
    have := levels_le_stored h s.buffers (hj.1.full ⟨h, items⟩ (by simp))
    have h2 := hj.2
    simp only [total, stored] at h2
    omega
  nan s h items rest buf n hb hj hg hn hl y hy := by
    apply hG
    rcases List.mem_append.1 hy with h2 | h2
    · exact hj.1.good buf (List.mem_of_getElem? hg) y h2
    · exact hj.1.goodP ⟨h, items⟩ (by simp) y (List.mem_of_mem_take h2)
  index hf s h items rest buf m hb hj hg hm hl := by
    obtain ⟨c, h1, h2, h3⟩ := hj.1.index hb hN hg hm hl
    have := hb.hB
    exact ⟨c, h1, by omega, by omega⟩

theorem need_le_fuel (s : RCSketch K) (m : Nat) : need s.bufferSize (s.stored + m) 0 m ≤ s.fuelFor m := by
  unfold need fuelFor
  have : (s.stored + m + 1 - 0) * (s.bufferSize + 8) ≤ (s.buffers.length + s.stored + m + 3) * (s.bufferSize + 10) :=
    Nat.mul_le_mul (by omega) (by omega)
  omega

theorem batches_always {fast : Bool} {m : CompactionMethod} (hG : GoodFor G m) (hn : n < 2 ^ 32)
    (cs : List (List (Fl K))) (hcs : ∀ a ∈ cs, a ≠ []) : ∀ (N : Nat) (s : RCSketch K), Base s [] →
      InR G k (bsize n k) N s [] → N + cs.flatten.length ≤ n → (∀ y ∈ cs.flatten, G y) →
      Always (batches fast m cs s) (fun s' => Base s' [] ∧ InR G k (bsize n k) (N + cs.flatten.length) s' []) := by
  induction cs with
  | nil => intro N s hb hj _ _; simpa [batches] using ⟨hb, hj⟩
  | cons a cs ih =>
    intro N s hb hj hN hg
    rw [batches, always_bind]
    simp only [List.flatten_cons, List.length_append, List.mem_append] at hN hg ⊢
    have hj1 := hj.start (c := a) (fun y hy => hg y (Or.inl hy))
    have hN1 : N + a.length ≤ n := by omega
    have hf : need (bsize n k) (s.stored + a.length) 0 a.length ≤ s.fuelFor a.length := by
      have := need_le_fuel s a.length; rw [hj.hB] at this; exact this
    have h := batch_always (m := m) ((InR.closed hG fast hN1).and (total_closed fast m (s.stored + a.length)))
      (inR_progress hG.1 fast hN1 hn (s.stored + a.length)) (base_start hb a) ⟨hj1, by simp [total]⟩ hf
    refine h.mono ?_
    rintro s' ⟨hb', -, hj', -⟩
    have := ih (fun a ha => hcs a (by simp [ha])) (N + a.length) s' hb' hj' (by omega) (fun y hy => hg y (Or.inr hy))
    rwa [Nat.add_assoc] at this

theorem execOp_always (o : InsOp K) (hG : GoodFor G o.method) (hn : n < 2 ^ 32) (s : RCSketch K) (hb : Base s [])
    (hj : InR G k (bsize n k) N s []) (hN : N + o.items.length ≤ n) (hg : ∀ y ∈ o.items, G y) :
    Always (s.execOp o) (fun s' => Base s' [] ∧ InR G k (bsize n k) (N + o.items.length) s' []) := by
  have hcnt : ∀ (s' : RCSketch K) (N c : Nat), InR G k (bsize n k) N s' [] →
      InR G k (bsize n k) N { s' with count := c } [] :=
    fun s' N c h => ⟨h.hk, h.hB, h.flow, h.good, h.goodP, h.full⟩
  have hcust : ∀ (xs : List (Fl K)) (fast : Bool) (m : CompactionMethod), GoodFor G m → N + xs.length ≤ n →
      (∀ y ∈ xs, G y) → Always (s.addBufferCustom xs fast m)
        (fun s' => Base s' [] ∧ InR G k (bsize n k) (N + xs.length) s' []) := by
    intro xs fast m hG hN hg
    unfold addBufferCustom
    have hB := hb.hB
    have hne : s.bufferSize / 2 ≠ 0 := by omega
    have hfl := chunksAux_flatten (s.bufferSize / 2) hne xs.length xs (le_refl _)
    rw [chunks, if_neg hne, bind_ret, always_bind]
    have := batches_always (fast := fast) hG hn _ (chunksAux_ne_nil _ hne xs.length xs) N s hb hj (by rw [hfl]; exact hN)
      (by rw [hfl]; exact hg)
    refine this.mono ?_
    rintro s' ⟨h1, h2⟩
    rw [hfl] at h2
    exact ⟨base_count h1 _, hcnt _ _ _ h2⟩
  cases o with
  | add x =>
    change Always (s.add x) _
    unfold add
    rw [always_bind]
    have hj1 := hj.start (c := [x]) (by simpa [InsOp.items] using hg)
    have hN1 : N + [x].length ≤ n := by simpa [InsOp.items] using hN
    have hf : need (bsize n k) (s.stored + 1) 0 1 ≤ s.fuelFor 1 := by
      have := need_le_fuel s 1; rw [hj.hB] at this; exact this
    have h := insertAt_always (m := .default) ((InR.closed (goodFor_default hG.1) false hN1).and
        (total_closed false .default (s.stored + 1)))
      (inR_progress hG.1 false hN1 hn (s.stored + 1)) (base_start hb [x]) ⟨hj1, by simp [total]⟩ hf
    refine h.mono ?_
    rintro s' ⟨hb', hj', -⟩
    exact ⟨base_count hb' _, hcnt _ _ _ hj'⟩
  | addBuffer xs => exact hcust xs false .default hG hN hg
  | addBufferFast xs => exact hcust xs true .default hG hN hg
  | addBufferCustom xs fast m => exact hcust xs fast m hG hN hg

theorem execOps_always (ops : List (InsOp K)) (hG : ∀ o ∈ ops, GoodFor G o.method) (hn : n < 2 ^ 32) :
    ∀ (N : Nat) (s : RCSketch K), Base s [] → InR G k (bsize n k) N s [] → N + (insItems ops).length ≤ n →
      (∀ y ∈ insItems ops, G y) → Always (s.execOps ops) (fun s' => Base s' [] ∧
        InR G k (bsize n k) (N + (insItems ops).length) s' []) := by
  induction ops with
  | nil => intro N s hb hj _ _; simpa [execOps, insItems] using ⟨hb, hj⟩
  | cons o os ih =>
    intro N s hb hj hN hg
    have e : insItems (o :: os) = o.items ++ insItems os := by simp [insItems]
    rw [e, List.length_append] at hN
    rw [e] at hg
    rw [execOps, always_bind]
    refine (execOp_always o (hG o (by simp)) hn s hb hj (by omega) (fun y hy => hg y (by simp [hy]))).mono ?_
    rintro s' ⟨hb', hj'⟩
    have := ih (fun o ho => hG o (by simp [ho])) _ s' hb' hj' (by omega) (fun y hy => hg y (by simp [hy]))
    rwa [e, List.length_append, ← Nat.add_assoc]

/-- No history within the declared input length fails. -/
theorem runHist_always (n k : Nat) (hk : k ≠ 0) (hn : n < 2 ^ 32) (ops : List (InsOp K))
    (hG : ∀ o ∈ ops, GoodFor G o.method) (hlen : (insItems ops).length ≤ n) (hg : ∀ y ∈ insItems ops, G y) :
    Always (runHist n k ops) (fun s => Base s [] ∧ InR G k (bsize n k) (insItems ops).length s []) := by
  unfold runHist
  rw [new_eq hk, bind_ret]
  have := execOps_always ops hG hn 0 (RCSketch.fresh n k) (base_fresh hk) (InR.fresh hk) (by simpa using hlen) hg
  simpa using this

end RCSketch
end AQ

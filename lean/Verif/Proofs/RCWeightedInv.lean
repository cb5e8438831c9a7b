/-
RCSketch: weight, rank error, flow and expectations for insertions at any level.
-/
import Verif.Proofs.RCWeightedHist

set_option linter.unusedSectionVars false
set_option linter.unusedVariables false

namespace AQ
open Prog Spec
variable {K : Type} [Field K] [LinearOrder K] [IsStrictOrderedRing K] [FloatFmt K]

namespace RCSketch
variable {n k N B L : Nat}

theorem weightLvl : LvlInv (K := K) (fun _ _ => True)
    (fun l s P => s.k % 2 = 0 → s.bufferSize % 4 = 0 → W List.length s P = l.length) where
  closed := weightInv.closed
  start l c s h hb hh hj h1 h2 := by rw [W_startAt, hj h1 h2, List.length_append, dup_length]
  cnt := weightInv.cnt

theorem errLvl : LvlInv (K := K) (fun _ m => m = .default) Within where
  closed := errInv_default.closed
  start l c s h hb hh hj x := by
    have := hj x
    rw [W_startAt, rank_append, dup_rank]; omega
  cnt := errInv_default.cnt

theorem memLvl : LvlInv (K := K) (fun _ m => m = .default) (fun l => AllG (fun y => y ∈ l)) where
  closed := memInv.closed
  start l c s h hb hh hj := ⟨fun b hb y hy => by simp [hj.1 b hb y hy], by
    intro f hf y hy; simp at hf; subst hf; simp only at hy; simp [mem_dup, hy]⟩
  cnt := memInv.cnt

/-- The parameters do not change. -/
def Params (n k B : Nat) (s : RCSketch K) : Prop := s.inputLength = n ∧ s.k = k ∧ s.bufferSize = B

theorem paramsLvl (n k B : Nat) : LvlInv (K := K) (fun _ _ => True) (fun _ s _ => Params n k B s) where
  closed l fast m _ :=
    { ensure := fun s h items rest _ hj _ => by unfold ensureLevel; split <;> exact hj
      pop := fun s h rest _ hj _ => hj
      push := fun s h items rest buf _ hj _ _ => hj
      compact := fun s h items rest buf n' r _ hj _ _ _ hr => by
        obtain ⟨ci, ctrs, out, hi, hci, -, ho, rfl⟩ := hr
        exact hj }
  start l c s h hb hh hj := hj
  cnt l s n hj := hj

theorem LvlInv.and {ok ok' : Bool → CompactionMethod → Prop} {J J' : List (Fl K) → RCSketch K → List (Frame K) → Prop}
    (h : LvlInv ok J) (h' : LvlInv ok' J') : LvlInv (fun f m => ok f m ∧ ok' f m) (fun l s P => J l s P ∧ J' l s P) where
  closed l fast m hm := (h.closed l fast m hm.1).and (h'.closed l fast m hm.2)
  start l c s i hb hh hj := ⟨h.start l c s i hb hh hj.1, h'.start l c s i hb hh hj.2⟩
  cnt l s n hj := ⟨h.cnt l s n hj.1, h'.cnt l s n hj.2⟩

/-- Flow conservation, with levels below `l0` allowed to exist from the start. -/
structure FlowL (l0 N : Nat) (s : RCSketch K) (P : List (Frame K)) : Prop where
  kev : s.k % 2 = 0
  Bev : s.bufferSize % 4 = 0
  Bk : 2 * s.k ≤ s.bufferSize
  flow : ∃ r : Nat → Nat, (∀ h c, s.compactions[h]? = some c → s.k * c ≤ r h) ∧
    inflow r s P 0 ≤ N ∧ (∀ h, 2 * inflow r s P (h + 1) ≤ r h) ∧
    (∀ h, l0 ≤ h + 1 → h + 1 < s.buffers.length → s.bufferSize ≤ inflow r s P h) ∧
    (∀ f ∈ P, ∀ h, l0 ≤ h + 1 → f.lvl = h + 1 → s.bufferSize ≤ inflow r s P h) ∧
    (∀ h c, s.compactions[h]? = some c → c ≠ 0 → s.bufferSize ≤ inflow r s P h)

theorem Flow.lvl {s : RCSketch K} {P : List (Frame K)} (h : Flow N s P) (l0 : Nat) : FlowL l0 N s P := by
  obtain ⟨r, h1, h2, h3, h4, h5, h6⟩ := h.flow
  exact ⟨h.kev, h.Bev, h.Bk, r, h1, h2, h3, fun h _ => h4 h, fun f hf h _ => h5 f hf h, h6⟩

variable {l0 : Nat}

theorem FlowL.ensure {s : RCSketch K} {h : Nat} {items : List (Fl K)} {rest : List (Frame K)}
    (hb : Base s (⟨h, items⟩ :: rest)) (hI : FlowL l0 N s (⟨h, items⟩ :: rest)) (hl : s.buffers.length = h) :
    FlowL l0 N (s.ensureLevel h) (⟨h, items⟩ :: rest) := by
  have ek : (s.ensureLevel h).k = s.k := by unfold ensureLevel; split <;> rfl
  have eB : (s.ensureLevel h).bufferSize = s.bufferSize := by unfold ensureLevel; split <;> rfl
  refine ⟨by rw [ek]; exact hI.kev, by rw [eB]; exact hI.Bev, by rw [ek, eB]; exact hI.Bk, ?_⟩
  obtain ⟨r, h1, h2, h3, h4, h5, h7⟩ := hI.flow
  refine ⟨r, ?_, ?_, ?_, ?_, ?_, ?_⟩
  · intro j c hj
    unfold ensureLevel at hj
    rw [if_pos hl.le] at hj
    rw [ek]
    simp only [List.getElem?_append] at hj
    split at hj
    · exact h1 j c hj
    · have : c = 0 := by
        rcases Nat.eq_zero_or_pos (j - s.compactions.length) with h0 | h0
        · rw [h0] at hj; simpa using hj.symm
        · rw [List.getElem?_eq_none (by simp; omega)] at hj; simp at hj
      subst this; simp
  · rw [inflow_ensure _ _ _ _ _ hl]; exact h2
  · intro j; rw [inflow_ensure _ _ _ _ _ hl]; exact h3 j
  · intro j hj0 hj
    rw [inflow_ensure _ _ _ _ _ hl, eB]
    rcases Nat.lt_or_ge (j + 1) s.buffers.length with h6 | h6
    · exact h4 j hj0 h6
    · unfold ensureLevel at hj
      rw [if_pos hl.le] at hj
      simp only [List.length_append, List.length_cons, List.length_nil] at hj
      exact h5 ⟨h, items⟩ (by simp) j hj0 (by simp only; omega)
  · intro f hf j hj0 hj
    rw [inflow_ensure _ _ _ _ _ hl, eB]; exact h5 f hf j hj0 hj
  · intro j c hj hc
    rw [inflow_ensure _ _ _ _ _ hl, eB]
    unfold ensureLevel at hj
    rw [if_pos hl.le] at hj
    simp only [List.getElem?_append] at hj
    split at hj
    · exact h7 j c hj hc
    · exfalso
      rcases Nat.eq_zero_or_pos (j - s.compactions.length) with h0 | h0
      · rw [h0] at hj; simp at hj; exact hc hj.symm
      · rw [List.getElem?_eq_none (by simp; omega)] at hj; simp at hj

theorem FlowL.pop {s : RCSketch K} {h : Nat} {rest : List (Frame K)} (hI : FlowL l0 N s (⟨h, []⟩ :: rest)) :
    FlowL l0 N s rest := by
  have e : ∀ r j, inflow r s (⟨h, []⟩ :: rest) j = inflow r s rest j := by intro r j; simp [inflow, pend]
  refine ⟨hI.kev, hI.Bev, hI.Bk, ?_⟩
  obtain ⟨r, h1, h2, h3, h4, h5, h7⟩ := hI.flow
  simp only [e] at h2 h3 h4 h5 h7
  exact ⟨r, h1, h2, h3, h4, fun f hf => h5 f (by simp [hf]), h7⟩

theorem FlowL.push {s : RCSketch K} {h : Nat} {items buf : List (Fl K)} {rest : List (Frame K)}
    (hI : FlowL l0 N s (⟨h, items⟩ :: rest)) (hget : s.buffers[h]? = some buf) :
    FlowL l0 N (s.setBuf h (buf ++ items)) (⟨h, []⟩ :: rest) := by
  refine ⟨hI.kev, hI.Bev, hI.Bk, ?_⟩
  obtain ⟨r, h1, h2, h3, h4, h5, h7⟩ := hI.flow
  refine ⟨r, h1, ?_, ?_, ?_, ?_, ?_⟩
  · rw [inflow_push r rest hget]; exact h2
  · intro j; rw [inflow_push r rest hget]; exact h3 j
  · intro j hj0 hj; rw [inflow_push r rest hget]; exact h4 j hj0 (by simpa [setBuf] using hj)
  · intro f hf j hj0 hj
    rw [inflow_push r rest hget]
    rcases List.mem_cons.1 hf with rfl | hf
    · exact h5 ⟨h, items⟩ (by simp) j hj0 hj
    · exact h5 f (by simp [hf]) j hj0 hj
  · intro j c hj hc; rw [inflow_push r rest hget]; exact h7 j c hj hc

theorem FlowL.compact {s : RCSketch K} {h m : Nat} {fast : Bool} {meth : CompactionMethod} {items buf : List (Fl K)}
    {rest : List (Frame K)} {r : List (Fl K) × RCSketch K}
    (hI : FlowL l0 N s (⟨h, items⟩ :: rest)) (hb : Base s (⟨h, items⟩ :: rest))
    (hget : s.buffers[h]? = some buf) (hm : m ≤ items.length) (hlen : buf.length + m = s.bufferSize)
    (hr : CompactRel (s.setBuf h (buf ++ items.take m)) h fast meth (buf ++ items.take m) r) :
    FlowL l0 N r.2 (⟨h + 1, r.1⟩ :: ⟨h, items.drop m⟩ :: rest) := by
  obtain ⟨ci, ctrs, out, hi, hci, -, ho, rfl⟩ := hr
  have hh : h < s.buffers.length := (List.getElem?_eq_some_iff.1 hget).1
  have hB2 := hb.hB
  set full := buf ++ items.take m with hfull
  have hfl : full.length = s.bufferSize := by rw [hfull, List.length_append, List.length_take]; omega
  have hsl : (sorted id full).length = s.bufferSize := by rw [(sorted_perm id full).length_eq, hfl]
  have hkev := hI.kev
  have hBev := hI.Bev
  have hBk := hI.Bk
  have hup : s.k ≤ s.bufferSize - ci ∧ (s.bufferSize - ci) % 2 = 0 := by
    unfold IsIndex at hi
    split at hi
    · have : ci = s.bufferSize / 2 := hi.1
      omega
    · obtain ⟨c, _, h4, _⟩ := hi
      have h4 : ci + (trailingOnes c + 1) * s.k = full.length := h4
      have e1 : (trailingOnes c + 1) * s.k % 2 = 0 := by rw [Nat.mul_mod, hkev]; simp
      have e2 : s.k ≤ (trailingOnes c + 1) * s.k := Nat.le_mul_of_pos_left _ (by omega)
      omega
  have hol : 2 * out.length = s.bufferSize - ci := by
    have := isOut_two ho (by rw [List.length_drop, hsl]; exact hup.2)
    rw [List.length_drop, hsl] at this; exact this
  have hbuf : ∀ j, ((s.setBuf h full).afterSplit h ci full ctrs).buffers[j]? =
      if j = h then some ((sorted id full).take ci) else s.buffers[j]? := by
    intro j
    simp only [afterSplit, setBuf, List.set_set]
    exact set_get _ _ _ _ hh
  have htl : ((sorted id full).take ci).length = ci := by rw [List.length_take, hsl]; omega
  refine ⟨hI.kev, hI.Bev, hI.Bk, ?_⟩
  obtain ⟨q, h1, h2, h3, h4, h5, h7⟩ := hI.flow
  have hinf : ∀ j, inflow (fun j => if j = h then q h + (s.bufferSize - ci) else q j)
      ((s.setBuf h full).afterSplit h ci full ctrs) (⟨h + 1, out⟩ :: ⟨h, items.drop m⟩ :: rest) j =
      inflow q s (⟨h, items⟩ :: rest) j + if j = h + 1 then out.length else 0 := by
    intro j
    simp only [inflow, hbuf, pend]
    by_cases e : j = h
    · subst e
      rw [if_neg (by omega : ¬ j + 1 = j), if_neg (by omega : ¬ j = j + 1)]
      simp only [if_true, Option.getD_some, htl, hget, List.length_drop]
      have : ci ≤ s.bufferSize := by omega
      omega
    · by_cases e1 : j = h + 1
      · subst e1; simp only [if_true, if_neg e, if_neg (Ne.symm e)]; omega
      · simp only [if_neg e, if_neg (Ne.symm e), if_neg e1, if_neg (Ne.symm e1)]; omega
  refine ⟨fun j => if j = h then q h + (s.bufferSize - ci) else q j, ?_, ?_, ?_, ?_, ?_, ?_⟩
  · intro j c hj
    simp only [afterSplit, setBuf, List.getElem?_set] at hj
    change s.k * c ≤ _
    dsimp only
    by_cases e : h = j
    · subst e
      have hhc : h < s.compactions.length := by rw [hb.hg]; exact hh
      simp only [hhc, if_true, Option.some.injEq, List.getD, List.getElem?_eq_getElem hhc, Option.getD_some] at hj ⊢
      have g5 := h1 h _ (List.getElem?_eq_getElem hhc)
      rw [← hj, Nat.mul_add, Nat.mul_one]
      omega
    · rw [if_neg e] at hj
      rw [if_neg (Ne.symm e)]
      exact h1 j c hj
  · rw [hinf]; simpa using h2
  · intro j
    rw [hinf]
    have h3j := h3 j
    by_cases e : j = h
    · subst e; simp only [if_true]; omega
    · rw [if_neg (by omega)]; simp only [if_neg e]; omega
  · intro j hj0 hj
    rw [hinf]
    have := h4 j hj0 (by simpa [afterSplit, setBuf] using hj)
    change s.bufferSize ≤ _
    omega
  · intro f hf j hj0 hj
    rw [hinf]
    change s.bufferSize ≤ _
    rcases List.mem_cons.1 hf with rfl | hf
    · have : j = h := by simp only at hj; omega
      subst this
      have : s.bufferSize ≤ inflow q s (⟨j, items⟩ :: rest) j := by
        simp only [inflow, pend, hget, Option.getD_some, if_true]; omega
      omega
    · have : s.bufferSize ≤ inflow q s (⟨h, items⟩ :: rest) j := by
        rcases List.mem_cons.1 hf with rfl | hf
        · exact h5 ⟨h, items⟩ (by simp) j hj0 hj
        · exact h5 f (by simp [hf]) j hj0 hj
      omega
  · intro j c hj hc
    rw [hinf]
    change s.bufferSize ≤ _
    simp only [afterSplit, setBuf, List.getElem?_set] at hj
    by_cases e : h = j
    · subst e
      have : s.bufferSize ≤ inflow q s (⟨h, items⟩ :: rest) h := by
        simp only [inflow, pend, hget, Option.getD_some, if_true]; omega
      omega
    · rw [if_neg e] at hj
      have := h7 j c hj hc
      omega

theorem FlowL.closed (fast : Bool) (m : CompactionMethod) : Closed (K := K) fast m (FlowL l0 N) :=
  { ensure := fun s h items rest hb hj hl => hj.ensure hb hl
    pop := fun s h rest hb hj hl => hj.pop
    push := fun s h items rest buf hb hj hg hl => hj.push hg
    compact := fun s h items rest buf n r hb hj hg hn hl hr => hj.compact hb hg hn hl hr }

/-- Items inserted at level `h` count as `2^(h-j)` items each that passed level `j`. -/
theorem FlowL.startAt {s : RCSketch K} (hI : FlowL l0 N s []) {h : Nat} (hh : h < l0 ∨ h = 0) (c : List (Fl K)) :
    FlowL l0 (N + 2 ^ h * c.length) s [⟨h, c⟩] := by
  refine ⟨hI.kev, hI.Bev, hI.Bk, ?_⟩
  obtain ⟨r, h1, h2, h3, h4, h5, h7⟩ := hI.flow
  have e : ∀ j, inflow (fun j => r j + if j < h then 2 ^ (h - j) * c.length else 0) s [⟨h, c⟩] j =
      inflow r s [] j + if j ≤ h then 2 ^ (h - j) * c.length else 0 := by
    intro j
    simp only [inflow, pend]
    rcases Nat.lt_trichotomy j h with e | e | e
    · rw [if_neg (by omega), if_pos e, if_pos e.le]; omega
    · subst e; simp; omega
    · rw [if_neg (by omega), if_neg (by omega), if_neg (by omega)]; omega
  refine ⟨fun j => r j + if j < h then 2 ^ (h - j) * c.length else 0, ?_, ?_, ?_, ?_, ?_, ?_⟩
  · intro j a ha; exact (h1 j a ha).trans (Nat.le_add_right _ _)
  · rw [e, if_pos (Nat.zero_le _)]; simpa using h2
  · intro j
    rw [e]
    have := h3 j
    dsimp only
    rcases Nat.lt_or_ge j h with ej | ej
    · rw [if_pos ej, if_pos (by omega)]
      have e2 : h - j = (h - (j + 1)) + 1 := by omega
      rw [e2, pow_succ]
      have : 2 ^ (h - (j + 1)) * 2 * c.length = 2 * (2 ^ (h - (j + 1)) * c.length) := by ring
      omega
    · rw [if_neg (by omega), if_neg (by omega)]; omega
  · intro j hj0 hj; rw [e]; have := h4 j hj0 hj; omega
  · intro f hf j hj0 hj
    exfalso
    simp at hf; subst hf
    simp only at hj
    omega
  · intro j a hj ha; rw [e]; have := h7 j a hj ha; omega

theorem FlowL.bounds {s : RCSketch K} (hI : FlowL l0 N s []) :
    (∀ h c, s.compactions[h]? = some c → 2 ^ h * (s.k * c) ≤ N) ∧
    (∀ h, l0 ≤ h + 1 → h + 1 < s.buffers.length → 2 ^ h * s.bufferSize ≤ N) ∧
    (∀ h c, s.compactions[h]? = some c → c ≠ 0 → 2 ^ h * s.bufferSize ≤ N) := by
  obtain ⟨r, h1, h2, h3, h4, -, h7⟩ := hI.flow
  have key : ∀ h, 2 ^ h * inflow r s [] h ≤ N := by
    intro h
    induction h with
    | zero => simpa using h2
    | succ h ih =>
      have h5 : r h ≤ inflow r s [] h := by unfold inflow; omega
      have : 2 ^ (h + 1) * inflow r s [] (h + 1) ≤ 2 ^ h * inflow r s [] h := by
        rw [pow_succ, Nat.mul_assoc]
        exact Nat.mul_le_mul_left _ ((h3 h).trans h5)
      omega
  refine ⟨fun h c hc => ?_, fun h h0 hh => ?_, fun h c hc hc0 => ?_⟩
  · have h5 : r h ≤ inflow r s [] h := by unfold inflow; omega
    exact (Nat.mul_le_mul_left _ ((h1 h c hc).trans h5)).trans (key h)
  · exact (Nat.mul_le_mul_left _ (h4 h h0 hh)).trans (key h)
  · exact (Nat.mul_le_mul_left _ (h7 h c hc hc0)).trans (key h)

/-- The accumulated compaction variance of a sketch whose levels carried a total weight `N`. -/
theorem FlowL.wsum4 {s : RCSketch K} (hI : FlowL l0 N s []) (hk : 1 ≤ s.k) :
    (wsum4 s.compactions : ℚ) ≤ 2 * (N : ℚ) ^ 2 / (s.k * s.bufferSize) := by
  obtain ⟨b1, -, b3⟩ := hI.bounds
  have hBk := hI.Bk
  have hBq : (0 : ℚ) < (s.bufferSize : Nat) := by exact_mod_cast (by omega : 0 < s.bufferSize)
  have hkq : (0 : ℚ) < s.k := by exact_mod_cast hk
  have hN : (0 : ℚ) ≤ N := by positivity
  have key := wsum4_le (s.k : ℚ) hkq.le s.compactions N (2 * N / s.bufferSize) hN
    (by positivity)
    (fun h c hc => by exact_mod_cast b1 h c hc)
    (fun h c hc h0 => by
      rw [le_div_iff₀ hBq]
      have : (2 : ℚ) ^ h * s.bufferSize ≤ N := by exact_mod_cast b3 h c hc h0
      rw [pow_succ]; nlinarith)
  rw [le_div_iff₀ (by positivity)]
  have e : (N : ℚ) * (2 * N / s.bufferSize) * s.bufferSize = 2 * (N : ℚ) ^ 2 := by field_simp
  calc (Spec.wsum4 s.compactions : ℚ) * (s.k * s.bufferSize) = s.k * Spec.wsum4 s.compactions * s.bufferSize := by ring
    _ ≤ N * (2 * N / s.bufferSize) * s.bufferSize := mul_le_mul_of_nonneg_right key hBq.le
    _ = _ := e

/-! ### Expectations -/

/-- `flip_rank` with the capacity invariant. -/
theorem flip_rankC (hBL : B = 2 * k * L) {s : RCSketch K} {h m : Nat} {fast : Bool} {items buf : List (Fl K)}
    {rest : List (Frame K)} (hb : Base s (⟨h, items⟩ :: rest)) (hj : Cap (· ≠ .nan) k B N s (⟨h, items⟩ :: rest))
    (hN : N < capacityB k L) (hget : s.buffers[h]? = some buf) (hm : m ≤ items.length)
    (hlen : buf.length + m = s.bufferSize) :
    ∃ f : Bool → List (Fl K) × RCSketch K,
      (s.setBuf h (buf ++ items.take m)).compactAt h fast .default = .flip (fun b => .ret (f b)) ∧
      (∀ b, (f b).2.compactions = s.compactions.set h (s.compactions.getD h 0 + 1)) ∧
      ∀ x, ∃ δ : ℤ, |δ| ≤ 2 ^ h ∧
        (W (fun b => rank b x) (f false).2 (⟨h + 1, (f false).1⟩ :: ⟨h, items.drop m⟩ :: rest) : ℤ) =
          W (fun b => rank b x) s (⟨h, items⟩ :: rest) + δ ∧
        (W (fun b => rank b x) (f true).2 (⟨h + 1, (f true).1⟩ :: ⟨h, items.drop m⟩ :: rest) : ℤ) =
          W (fun b => rank b x) s (⟨h, items⟩ :: rest) - δ := by
  have hh : h < s.buffers.length := (List.getElem?_eq_some_iff.1 hget).1
  obtain ⟨c, hc1, hc2, hc3⟩ := hj.index hBL hb hN hget hm hlen
  have hl : (buf ++ items.take m).length = s.bufferSize := by rw [List.length_append, List.length_take]; omega
  have hB := hb.hB
  obtain ⟨ci, ctrs, he⟩ := compactAt_default_eq (s.setBuf h (buf ++ items.take m)) h fast (buf ++ items.take m) (setBuf_get hh)
    (by
      intro y hy
      rcases List.mem_append.1 hy with h2 | h2
      · exact hj.good buf (List.mem_of_getElem? hget) y h2
      · exact hj.goodP ⟨h, items⟩ (by simp) y (List.mem_of_mem_take h2))
    (by intro _; rw [hl]; exact Nat.div_le_self _ _)
    (by intro _; exact ⟨c, hc1, by rw [hl]; change (trailingOnes c + 1) * s.k ≤ _; omega, by omega⟩)
  refine ⟨_, he, fun b => rfl, fun x => ?_⟩
  set full := buf ++ items.take m with hfull
  have hw : ∀ b, W (fun b => rank b x) ((s.setBuf h full).afterSplit h ci full ctrs)
      (⟨h + 1, everyOther b ((sorted id full).drop ci)⟩ :: ⟨h, items.drop m⟩ :: rest) +
        2 ^ h * rank ((sorted id full).drop ci) x =
      W (fun b => rank b x) s (⟨h, items⟩ :: rest) + 2 ^ h * (2 * rank (everyOther b ((sorted id full).drop ci)) x) := by
    intro b
    rw [W_split (additive_rank x) _ ctrs _ (setBuf_get hh), W_push (additive_rank x) s items m rest hget]
  have hsum := everyOther_sum (fun y => decide (y ≤ x)) ((sorted id full).drop ci)
  have hrk := everyOther_rank ((sorted_pairwise id full).sublist (List.drop_sublist ci _)) x
  have w0 := hw false
  have w1 := hw true
  have hp : (0 : ℤ) < 2 ^ h := by positivity
  generalize (sorted id full).drop ci = u at *
  simp only [rank] at hrk hsum w0 w1 ⊢
  generalize List.countP (fun y => decide (y ≤ x)) (everyOther false u) = a at *
  generalize List.countP (fun y => decide (y ≤ x)) (everyOther true u) = b at *
  generalize List.countP (fun y => decide (y ≤ x)) u = c0 at *
  refine ⟨2 ^ h * ((a : ℤ) - b), ?_, ?_, ?_⟩
  · rw [abs_mul, abs_of_pos hp]
    have : |(a : ℤ) - b| ≤ 1 := by rw [abs_le]; constructor <;> omega
    nlinarith
  · have w0' : (_ : ℤ) = _ := congrArg Nat.cast w0
    push_cast at w0'
    have : (c0 : ℤ) = a + b := by omega
    rw [this] at w0'
    linarith
  · have w1' : (_ : ℤ) = _ := congrArg Nat.cast w1
    push_cast at w1'
    have : (c0 : ℤ) = a + b := by omega
    rw [this] at w1'
    linarith

/-- The signed rank error plus a constant is a martingale. -/
theorem rank_lvlSuper (hBL : B = 2 * k * L) (x : Fl K) (σ d : ℚ) :
    LvlSuper (K := K) k B L (fun l s P => σ * ((W (fun b => rank b x) s P : ℚ) - rank l x + d)) where
  super l fast N hN :=
    { ensure := fun s h items rest hb hj hlen => by rw [W_ensure (additive_rank x)]
      pop := fun s h rest hb hj hlen => by rw [W_pop (additive_rank x)]
      push := fun s h items rest buf hb hj hg hlen => by rw [W_push_all (additive_rank x) s items rest hg]
      compact := fun s h items rest buf m' hb hj hg hm' hlen => by
        obtain ⟨f, he, -, hf⟩ := flip_rankC (fast := fast) hBL hb hj hN hg hm' hlen
        obtain ⟨δ, -, h0, h1⟩ := hf x
        rw [he, exp_flip]
        simp only [exp_ret]
        have h0' : (_ : ℚ) = _ := congrArg Int.cast h0
        have h1' : (_ : ℚ) = _ := congrArg Int.cast h1
        push_cast at h0' h1'
        rw [h0', h1']
        apply le_of_eq; ring }
  start l c s h := by rw [W_startAt, rank_append, dup_rank]; push_cast; apply le_of_eq; ring
  cnt l s n := le_refl _

/-- The squared error (with an offset) minus accumulated compaction variance is a supermartingale. -/
theorem var_lvlSuper (hBL : B = 2 * k * L) (x : Fl K) (d : ℚ) :
    LvlSuper (K := K) k B L (fun l s P => ((W (fun b => rank b x) s P : ℚ) - rank l x + d) ^ 2 - wsum4 s.compactions) where
  super l fast N hN :=
    { ensure := fun s h items rest hb hj hlen => by
        rw [W_ensure (additive_rank x)]
        have : wsum4 (s.ensureLevel h).compactions = wsum4 s.compactions := by
          unfold ensureLevel; split
          · exact wsum4_append_zero _
          · rfl
        rw [this]
      pop := fun s h rest hb hj hlen => by rw [W_pop (additive_rank x)]
      push := fun s h items rest buf hb hj hg hlen => by
        rw [W_push_all (additive_rank x) s items rest hg]
        exact le_refl _
      compact := fun s h items rest buf m' hb hj hg hm' hlen => by
        obtain ⟨f, he, hc, hf⟩ := flip_rankC (fast := fast) hBL hb hj hN hg hm' hlen
        obtain ⟨δ, hδ, h0, h1⟩ := hf x
        rw [he, exp_flip]
        simp only [exp_ret, hc]
        have h0' : (_ : ℚ) = _ := congrArg Int.cast h0
        have h1' : (_ : ℚ) = _ := congrArg Int.cast h1
        push_cast at h0' h1'
        rw [h0', h1']
        have hh : h < s.compactions.length := by rw [hb.hg]; exact (List.getElem?_eq_some_iff.1 hg).1
        have hw : wsum4 (s.compactions.set h (s.compactions.getD h 0 + 1)) = wsum4 s.compactions + 4 ^ h := by
          have e : s.compactions.getD h 0 = s.compactions[h] := by simp [List.getD, hh]
          have := wsum4_set s.compactions h _ (s.compactions[h] + 1) (List.getElem?_eq_getElem hh)
          rw [e, Nat.mul_add] at *
          omega
        rw [hw]
        have hδ2 : (δ : ℚ) ^ 2 ≤ 4 ^ h := by
          have h1 : δ ^ 2 ≤ (2 ^ h) ^ 2 := sq_le_sq' (by have := (abs_le.1 hδ).1; linarith) (abs_le.1 hδ).2
          have h2 : ((2 : ℤ) ^ h) ^ 2 = 4 ^ h := by rw [← pow_mul, mul_comm, pow_mul]; norm_num
          rw [h2] at h1
          exact_mod_cast h1
        push_cast
        nlinarith }
  start l c s h := by rw [W_startAt, rank_append, dup_rank]; push_cast; apply le_of_eq; ring
  cnt l s n := le_refl _

end RCSketch
end AQ

/-
RCSketch: how many items fit before the compaction index underflows or a counter overflows.
-/
import Verif.Proofs.RCLevels

set_option linter.unusedSectionVars false
set_option linter.unusedVariables false

namespace AQ
open Prog Spec
variable {K : Type} [Field K] [LinearOrder K] [IsStrictOrderedRing K] [FloatFmt K]

/-! ### Sections compacted by the first `c` compactions of a level -/

/-- Sections removed by compactions `0, …, c-1`: compaction `i` removes one more than `i` has trailing ones. -/
def sections : Nat → Nat
  | 0 => 0
  | c + 1 => sections c + (trailingOnes c + 1)

theorem sections_strictMono : StrictMono sections := strictMono_nat_of_lt_succ (fun c => by simp only [sections]; omega)

def sectionsAux (f : Nat) : Nat → Nat
  | 0 => 0
  | c + 1 => sectionsAux f c + (trailingOnesAux f c + 1)

theorem sectionsAux_double (f : Nat) : ∀ c, sectionsAux (f + 1) (2 * c) = sectionsAux f c + 2 * c
  | 0 => rfl
  | c + 1 => by
    have e : 2 * (c + 1) = 2 * c + 1 + 1 := by ring
    rw [e, sectionsAux, sectionsAux, sectionsAux_double f c, sectionsAux, trailingOnesAux, trailingOnesAux]
    have h1 : (2 * c + 1) % 2 = 1 := by omega
    have h2 : (2 * c) % 2 = 0 := by omega
    have h3 : (2 * c + 1) / 2 = c := by omega
    rw [if_pos h1, if_neg (by omega), h3]
    omega

theorem sectionsAux_pow : ∀ m f, m ≤ f → sectionsAux f (2 ^ m - 1) + m = 2 * (2 ^ m - 1)
  | 0, f, _ => by simp [sectionsAux]
  | m + 1, 0, h => by omega
  | m + 1, f + 1, h => by
    have ih := sectionsAux_pow m f (by omega)
    have hp : 1 ≤ 2 ^ m := Nat.one_le_two_pow
    have e : 2 ^ (m + 1) - 1 = 2 * (2 ^ m - 1) + 1 := by rw [pow_succ]; omega
    have h2 : (2 * (2 ^ m - 1)) % 2 = 0 := by omega
    rw [e, sectionsAux, sectionsAux_double, trailingOnesAux, if_neg (by omega)]
    omega

theorem sections_pow {m : Nat} (h : m ≤ 32) : sections (2 ^ m - 1) + m = 2 * (2 ^ m - 1) := by
  have e : ∀ c, sections c = sectionsAux 32 c := by
    intro c
    induction c with
    | zero => rfl
    | succ c ih => rw [sections, sectionsAux, ih]; rfl
  rw [e]; exact sectionsAux_pow m 32 h

theorem trailingOnes_pow {m : Nat} (h : m ≤ 32) : trailingOnes (2 ^ m - 1) = m := by
  have : ∀ m, m ≤ 32 → trailingOnes (2 ^ m - 1) = m := by decide +kernel
  exact this m h

/-- Items that reach a level by the time it would be compacted with the counter at `2^m - 1`, where `m = min (2L) 32`. -/
def capacityB (k L : Nat) : Nat := k * (2 * (2 ^ min (2 * L) 32 - 1) - min (2 * L) 32) + 2 * k * L

namespace RCSketch

theorem capacityB_eq (k L : Nat) : capacityB k L = k * sections (2 ^ min (2 * L) 32 - 1) + 2 * k * L := by
  have := sections_pow (m := min (2 * L) 32) (Nat.min_le_right _ _)
  unfold capacityB
  rw [← this, Nat.add_sub_cancel]

/-- A new sketch with buffer size `B`. -/
def freshB (n k B : Nat) : RCSketch K :=
  { buffers := [], inputLength := n, k := k, bufferSize := B, count := 0, counters := [], compactions := [], log := [] }

variable {G : Fl K → Prop} {n k N B L : Nat}

/-- Invariant of a sketch fed `N` items: what has passed each level. -/
structure Cap (G : Fl K → Prop) (k B N : Nat) (s : RCSketch K) (P : List (Frame K)) : Prop where
  hk : s.k = k
  hB : s.bufferSize = B
  flow : ∃ r : Nat → Nat, (∀ h c, s.counters[h]? = some c → k * sections c ≤ r h) ∧
    ∀ h, ((s.buffers[h]?).getD []).length + pend h P + r h ≤ (if h = 0 then N else r (h - 1))
  good : ∀ b ∈ s.buffers, ∀ y ∈ b, G y
  goodP : ∀ f ∈ P, ∀ y ∈ f.items, G y

/-- When a level is full, the compaction index is computable. -/
theorem Cap.index (hBL : B = 2 * k * L) {s : RCSketch K} {h : Nat} {items buf : List (Fl K)} {rest : List (Frame K)} {m : Nat}
    (hI : Cap G k B N s (⟨h, items⟩ :: rest)) (hb : Base s (⟨h, items⟩ :: rest)) (hN : N < capacityB k L)
    (hget : s.buffers[h]? = some buf) (hm : m ≤ items.length) (hlen : buf.length + m = s.bufferSize) :
    ∃ c, s.counters[h]? = some c ∧ (trailingOnes c + 1) * s.k ≤ s.bufferSize ∧ c + 1 < 2 ^ 32 := by
  have hh : h < s.counters.length := by rw [hb.hc]; exact (List.getElem?_eq_some_iff.1 hget).1
  have hk := hb.hk
  refine ⟨s.counters[h], List.getElem?_eq_getElem hh, ?_⟩
  obtain ⟨r, hr1, hr2⟩ := hI.flow
  have h1 := hr1 h _ (List.getElem?_eq_getElem hh)
  have h2 := flow_le (L := fun h' => ((s.buffers[h']?).getD []).length + pend h' (⟨h, items⟩ :: rest)) hr2 h
  simp only [hget, Option.getD_some, pend, if_true] at h2
  rw [hI.hk] at hk
  rw [hI.hk, hI.hB] at *
  rw [capacityB_eq] at hN
  generalize s.counters[h] = c at *
  have h3 : k * sections c < k * sections (2 ^ min (2 * L) 32 - 1) := by omega
  have h4 : c < 2 ^ min (2 * L) 32 - 1 := sections_strictMono.lt_iff_lt.1 (Nat.lt_of_mul_lt_mul_left h3)
  have h5 : trailingOnes c < min (2 * L) 32 := by
    by_contra hc
    have h6 : 2 ^ min (2 * L) 32 ≤ 2 ^ trailingOnes c := Nat.pow_le_pow_right (by norm_num) (by omega)
    have := trailingOnes_le c
    omega
  constructor
  · have h6 : (trailingOnes c + 1) * k ≤ 2 * L * k := Nat.mul_le_mul_right _ (by omega)
    have h7 : 2 * L * k = 2 * k * L := by ring
    omega
  · have h6 : 2 ^ min (2 * L) 32 ≤ 2 ^ 32 := Nat.pow_le_pow_right (by norm_num) (by omega)
    omega

theorem Cap.closed {m : CompactionMethod} (hG : GoodFor G m) (fast : Bool) : Closed fast m (Cap (K := K) G k B N) where
  ensure s h items rest hb hI hl := by
    unfold ensureLevel
    rw [if_pos hl.le]
    refine ⟨hI.hk, hI.hB, ?_, ?_, hI.goodP⟩
    · obtain ⟨r, h1, h2⟩ := hI.flow
      refine ⟨r, ?_, ?_⟩
      · intro j c hj
        simp only [List.getElem?_append] at hj
        split at hj
        · exact h1 j c hj
        · have : c = 0 := by
            rcases Nat.eq_zero_or_pos (j - s.counters.length) with h0 | h0
            · rw [h0] at hj; simpa using hj.symm
            · rw [List.getElem?_eq_none (by simp; omega)] at hj; simp at hj
          subst this; simp [sections]
      · intro j
        have := h2 j
        rcases Nat.lt_or_ge j s.buffers.length with hj | hj
        · rw [List.getElem?_append_left hj]; exact this
        · have e : ((s.buffers ++ [[]])[j]?).getD [] = [] := by
            rw [List.getElem?_append_right hj]
            rcases Nat.eq_zero_or_pos (j - s.buffers.length) with h0 | h0
            · simp [h0]
            · rw [List.getElem?_eq_none (by simp; omega)]; rfl
          simp only [e]
          rw [List.getElem?_eq_none hj] at this
          exact this
    · intro b hb y hy
      rcases List.mem_append.1 hb with h1 | h1
      · exact hI.good b h1 y hy
      · simp at h1; subst h1; simp at hy
  pop s h rest hb hI hl := by
    refine ⟨hI.hk, hI.hB, ?_, hI.good, fun f hf => hI.goodP f (by simp [hf])⟩
    obtain ⟨r, h1, h2⟩ := hI.flow
    exact ⟨r, h1, fun j => by have := h2 j; simpa [pend] using this⟩
  push s h items rest buf hb hI hget hl := by
    have hh : h < s.buffers.length := (List.getElem?_eq_some_iff.1 hget).1
    refine ⟨hI.hk, hI.hB, ?_, ?_, ?_⟩
    · obtain ⟨r, h1, h2⟩ := hI.flow
      refine ⟨r, h1, fun j => ?_⟩
      have := h2 j
      simp only [setBuf, set_get _ _ _ _ hh, pend] at this ⊢
      by_cases hj : j = h
      · subst hj
        simp only [if_true, Option.getD_some, List.length_append, List.length_nil, hget] at this ⊢; omega
      · rw [if_neg hj]
        rw [if_neg (Ne.symm hj)] at this ⊢
        exact this
    · intro b hb y hy
      rcases List.mem_or_eq_of_mem_set hb with h1 | rfl
      · exact hI.good b h1 y hy
      · rcases List.mem_append.1 hy with h2 | h2
        · exact hI.good buf (List.mem_of_getElem? hget) y h2
        · exact hI.goodP ⟨h, items⟩ (by simp) y h2
    · intro f hf y hy
      rcases List.mem_cons.1 hf with rfl | hf
      · simp at hy
      · exact hI.goodP f (by simp [hf]) y hy
  compact s h items rest buf m' r hb hI hget hm hlen hr := by
    obtain ⟨ci, ctrs, out, hi, hci, -, ho, rfl⟩ := hr
    have hh : h < s.buffers.length := (List.getElem?_eq_some_iff.1 hget).1
    have hB2 := hb.hB
    set full := buf ++ items.take m' with hfull
    have hfl : full.length = s.bufferSize := by rw [hfull, List.length_append, List.length_take]; omega
    have hsl : (sorted id full).length = s.bufferSize := by rw [(sorted_perm id full).length_eq, hfl]
    have hfg : ∀ y ∈ sorted id full, G y := by
      intro y hy
      have hy := (sorted_perm id full).mem_iff.1 hy
      rcases List.mem_append.1 hy with h2 | h2
      · exact hI.good buf (List.mem_of_getElem? hget) y h2
      · exact hI.goodP ⟨h, items⟩ (by simp) y (List.mem_of_mem_take h2)
    have hol : out.length ≤ s.bufferSize - ci := by
      have := isOut_length ho; rw [List.length_drop, hsl] at this; exact this
    have hbuf : ∀ j, ((s.setBuf h full).afterSplit h ci full ctrs).buffers[j]? =
        if j = h then some ((sorted id full).take ci) else s.buffers[j]? := by
      intro j
      simp only [afterSplit, setBuf, List.set_set]
      exact set_get _ _ _ _ hh
    have htl : ((sorted id full).take ci).length = ci := by rw [List.length_take, hsl]; omega
    refine ⟨hI.hk, hI.hB, ?_, ?_, ?_⟩
    · obtain ⟨q, h1, h2⟩ := hI.flow
      refine ⟨fun j => if j = h then q h + (s.bufferSize - ci) else q j, ?_, ?_⟩
      · intro j c hj
        have hj : ctrs[j]? = some c := hj
        unfold IsIndex at hi
        split at hi
        · rw [hi.2] at hj
          have := h1 j c hj
          dsimp only
          split
          · rename_i e; subst e; omega
          · exact this
        · obtain ⟨c0, g1, g2, g3, g4⟩ := hi
          have g1 : s.counters[h]? = some c0 := g1
          have g4 : ctrs = s.counters.set h (c0 + 1) := g4
          rw [g4, List.getElem?_set] at hj
          have hhc : h < s.counters.length := (List.getElem?_eq_some_iff.1 g1).1
          dsimp only
          by_cases e : h = j
          · subst e
            simp only [hhc, if_true, Option.some.injEq] at hj ⊢
            have g5 := h1 h c0 g1
            have g2 : ci + (trailingOnes c0 + 1) * s.k = full.length := g2
            rw [hI.hk] at g2
            rw [← hj, sections, Nat.mul_add]
            have : k * (trailingOnes c0 + 1) = (trailingOnes c0 + 1) * k := Nat.mul_comm _ _
            omega
          · rw [if_neg e] at hj
            rw [if_neg (Ne.symm e)]
            exact h1 j c hj
      · intro j
        have h2h := h2 h
        have h2j := h2 j
        simp only [pend, hget, Option.getD_some, if_true] at h2h h2j
        simp only [hbuf, pend]
        by_cases e : j = h
        · subst e
          simp only [if_true, Option.getD_some, htl]
          rw [if_neg (by omega), List.length_drop]
          have e2 : (if j = 0 then N else if j - 1 = j then q j + (s.bufferSize - ci) else q (j - 1)) =
              (if j = 0 then N else q (j - 1)) := by
            split
            · rfl
            · rw [if_neg (by omega)]
          rw [e2]
          have : ci ≤ s.bufferSize := by omega
          omega
        · rw [if_neg e, if_neg e]
          rw [if_neg (Ne.symm e)] at h2j ⊢
          by_cases e1 : h + 1 = j
          · subst e1
            simp only [if_true, Nat.add_sub_cancel, Nat.add_eq_zero_iff, one_ne_zero, and_false, if_false] at h2j ⊢
            omega
          · rw [if_neg e1]
            have e2 : (if j = 0 then N else if j - 1 = h then q h + (s.bufferSize - ci) else q (j - 1)) =
                (if j = 0 then N else q (j - 1)) := by
              split
              · rfl
              · rw [if_neg (by omega)]
            rw [e2]; omega
    · intro b hb y hy
      obtain ⟨j, hj⟩ := List.getElem?_of_mem hb
      rw [hbuf] at hj
      split at hj
      · obtain rfl : _ = b := by simpa using hj
        exact hfg y (List.mem_of_mem_take hy)
      · exact hI.good b (List.mem_of_getElem? hj) y hy
    · intro f hf y hy
      rcases List.mem_cons.1 hf with rfl | hf
      · exact hG.2 _ _ ((sorted_pairwise id full).sublist (List.drop_sublist _ _))
          (fun y hy => hfg y (List.mem_of_mem_drop hy)) ho y hy
      · rcases List.mem_cons.1 hf with rfl | hf
        · exact hI.goodP ⟨h, items⟩ (by simp) y (List.mem_of_mem_drop hy)
        · exact hI.goodP f (by simp [hf]) y hy

theorem Cap.start {s : RCSketch K} {c : List (Fl K)} (hI : Cap G k B N s []) (hc : ∀ y ∈ c, G y) :
    Cap G k B (N + c.length) s [⟨0, c⟩] := by
  refine ⟨hI.hk, hI.hB, ?_, hI.good, by simpa using hc⟩
  obtain ⟨r, h1, h2⟩ := hI.flow
  refine ⟨r, h1, fun j => ?_⟩
  have := h2 j
  simp only [pend] at this ⊢
  by_cases e : j = 0
  · subst e; simp only [if_true] at this ⊢; omega
  · rw [if_neg e] at this ⊢; rw [if_neg (Ne.symm e)]; omega

theorem cap_progress (hBL : B = 2 * k * L) (hG : ∀ y, G y → y ≠ .nan) (fast : Bool) (hN : N < capacityB k L) (s0 : RCSketch K) (m : Nat) :
    Progress fast B (s0.buffers.length + (s0.stored + m))
      (fun s P => Cap (K := K) G k B N s P ∧ Climb s0.buffers.length (s0.startLen m) s P) where
  size s P hj := hj.1.hB
  lvl s h items rest hb hj := hj.2.lvl (f := ⟨h, items⟩) (by simp)
  nan s h items rest buf n hb hj hg hn hl y hy := by
    apply hG
    rcases List.mem_append.1 hy with h2 | h2
    · exact hj.1.good buf (List.mem_of_getElem? hg) y h2
    · exact hj.1.goodP ⟨h, items⟩ (by simp) y (List.mem_of_mem_take h2)
  index hf s h items rest buf m hb hj hg hm hl := hj.1.index hBL hb hN hg hm hl

theorem need_le_fuel_any (s : RCSketch K) (m : Nat) : need s.bufferSize (s.buffers.length + (s.stored + m)) 0 m ≤ s.fuelFor m := by
  unfold need fuelFor
  have : (s.buffers.length + (s.stored + m) + 1 - 0) * (s.bufferSize + 8) ≤ (s.buffers.length + s.stored + m + 3) * (s.bufferSize + 10) :=
    Nat.mul_le_mul (by omega) (by omega)
  omega

theorem batches_cap (hBL : B = 2 * k * L) {fast : Bool} {m : CompactionMethod} (hG : GoodFor G m)
    (cs : List (List (Fl K))) : ∀ (N : Nat) (s : RCSketch K), Base s [] →
      Cap G k B N s [] → N + cs.flatten.length < capacityB k L → (∀ y ∈ cs.flatten, G y) →
      Always (batches fast m cs s) (fun s' => Base s' [] ∧ Cap G k B (N + cs.flatten.length) s' []) := by
  induction cs with
  | nil => intro N s hb hj _ _; simpa [batches] using ⟨hb, hj⟩
  | cons a cs ih =>
    intro N s hb hj hN hg
    rw [batches, always_bind]
    simp only [List.flatten_cons, List.length_append, List.mem_append] at hN hg ⊢
    have hj1 := hj.start (c := a) (fun y hy => hg y (Or.inl hy))
    have hN1 : N + a.length < capacityB k L := by omega
    have hf := need_le_fuel_any s a.length
    rw [hj.hB] at hf
    have h := batch_always (m := m) ((Cap.closed hG fast).and (Climb.closed s.buffers.length (s.startLen a.length) fast m))
      (cap_progress hBL hG.1 fast hN1 s a.length) (base_start hb a) ⟨hj1, climb_start s a⟩ hf
    refine h.mono ?_
    rintro s' ⟨hb', -, hj', -⟩
    have := ih (N + a.length) s' hb' hj' (by omega) (fun y hy => hg y (Or.inr hy))
    rwa [Nat.add_assoc] at this

theorem execOp_cap (hBL : B = 2 * k * L) (o : InsOp K) (hG : GoodFor G o.method) (s : RCSketch K) (hb : Base s [])
    (hj : Cap G k B N s []) (hN : N + o.items.length < capacityB k L) (hg : ∀ y ∈ o.items, G y) :
    Always (s.execOp o) (fun s' => Base s' [] ∧ Cap G k B (N + o.items.length) s' []) := by
  have hcnt : ∀ (s' : RCSketch K) (N c : Nat), Cap G k B N s' [] →
      Cap G k B N { s' with count := c } [] :=
    fun s' N c h => ⟨h.hk, h.hB, h.flow, h.good, h.goodP⟩
  have hcust : ∀ (xs : List (Fl K)) (fast : Bool) (m : CompactionMethod), GoodFor G m → N + xs.length < capacityB k L →
      (∀ y ∈ xs, G y) → Always (s.addBufferCustom xs fast m)
        (fun s' => Base s' [] ∧ Cap G k B (N + xs.length) s' []) := by
    intro xs fast m hG hN hg
    unfold addBufferCustom
    have hB := hb.hB
    have hne : s.bufferSize / 2 ≠ 0 := by omega
    have hfl := chunksAux_flatten (s.bufferSize / 2) hne xs.length xs (le_refl _)
    rw [chunks, if_neg hne, bind_ret, always_bind]
    have := batches_cap (fast := fast) hBL hG (chunksAux (s.bufferSize / 2) xs.length xs) N s hb hj (by rw [hfl]; exact hN)
      (by rw [hfl]; exact hg)
    refine this.mono ?_
    rintro s' ⟨h1, h2⟩
    rw [hfl] at h2
    exact ⟨base_count h1 _, hcnt _ _ _ h2⟩
  cases o with
  | add x =>
    change Always (s.add x) _
    unfold add
    rw [always_bind]
    have hj1 := hj.start (c := [x]) (by simpa [InsOp.items] using hg)
    have hN1 : N + [x].length < capacityB k L := by simpa [InsOp.items] using hN
    have hf := need_le_fuel_any s 1
    rw [hj.hB] at hf
    have h := insertAt_always (m := .default) ((Cap.closed (goodFor_default hG.1) false).and
        (Climb.closed s.buffers.length (s.startLen 1) false .default))
      (cap_progress hBL hG.1 false hN1 s 1) (base_start hb [x]) ⟨hj1, climb_start s [x]⟩ hf
    refine h.mono ?_
    rintro s' ⟨hb', hj', -⟩
    exact ⟨base_count hb' _, hcnt _ _ _ hj'⟩
  | addBuffer xs => exact hcust xs false .default hG hN hg
  | addBufferFast xs => exact hcust xs true .default hG hN hg
  | addBufferCustom xs fast m => exact hcust xs fast m hG hN hg

theorem execOps_cap (hBL : B = 2 * k * L) (ops : List (InsOp K)) (hG : ∀ o ∈ ops, GoodFor G o.method) :
    ∀ (N : Nat) (s : RCSketch K), Base s [] → Cap G k B N s [] → N + (insItems ops).length < capacityB k L →
      (∀ y ∈ insItems ops, G y) → Always (s.execOps ops) (fun s' => Base s' [] ∧
        Cap G k B (N + (insItems ops).length) s' []) := by
  induction ops with
  | nil => intro N s hb hj _ _; simpa [execOps, insItems] using ⟨hb, hj⟩
  | cons o os ih =>
    intro N s hb hj hN hg
    have e : insItems (o :: os) = o.items ++ insItems os := by simp [insItems]
    rw [e, List.length_append] at hN
    rw [e] at hg
    rw [execOps, always_bind]
    refine (execOp_cap hBL o (hG o (by simp)) s hb hj (by omega) (fun y hy => hg y (by simp [hy]))).mono ?_
    rintro s' ⟨hb', hj'⟩
    have := ih (fun o ho => hG o (by simp [ho])) _ s' hb' hj' (by omega) (fun y hy => hg y (by simp [hy]))
    rwa [e, List.length_append, ← Nat.add_assoc]

theorem base_freshB (hk : k ≠ 0) (hB : 2 ≤ B) : Base (freshB n k B : RCSketch K) [] := by
  refine ⟨?_, hB, rfl, rfl, by simp [freshB], by simp, by simp⟩
  simp only [freshB]; omega

/-- Fewer items than the capacity never fail. -/
theorem freshB_always (hk : k ≠ 0) (hL : L ≠ 0) (ops : List (InsOp K)) (hG : ∀ o ∈ ops, GoodFor G o.method)
    (hlen : (insItems ops).length < capacityB k L) (hg : ∀ y ∈ insItems ops, G y) :
    Always ((freshB n k (2 * k * L)).execOps ops) (fun s => Base s [] ∧ Cap G k (2 * k * L) (insItems ops).length s []) := by
  have hB : 2 ≤ 2 * k * L := by
    have := Nat.mul_le_mul (show 2 ≤ 2 * k by omega) (show 1 ≤ L by omega)
    simpa using this
  have hi : Cap (K := K) G k (2 * k * L) 0 (freshB n k (2 * k * L)) [] :=
    ⟨rfl, rfl, ⟨fun _ => 0, by simp [freshB], by simp [freshB, pend]⟩, by simp [freshB], by simp⟩
  have := execOps_cap rfl ops hG 0 _ (base_freshB hk hB) hi (by simpa using hlen) hg
  simpa using this

/-! ### The bottom level without fast compaction -/

/-- Everything inserted is in the bottom buffer, pending, or was moved up in whole sections; the counter stops at `2^m - 1`. -/
def Bottom (k L : Nat) (l : List (Fl K)) (s : RCSketch K) (P : List (Frame K)) : Prop :=
  s.k = k ∧ s.bufferSize = 2 * k * L ∧
  ((s.buffers[0]?).getD []).length + pend 0 P + k * sections ((s.counters[0]?).getD 0) = l.length ∧
    (s.counters[0]?).getD 0 ≤ 2 ^ min (2 * L) 32 - 1

theorem bottomInv (k L : Nat) : HistInv (K := K) (fun fast _ => fast = false) (Bottom k L) where
  closed l fast m hm := by
    subst hm
    exact
    { ensure := fun s h items rest hb hj hl => by
        obtain ⟨h1, h2, h3, h4⟩ := hj
        unfold ensureLevel
        rw [if_pos hl.le]
        rcases Nat.eq_zero_or_pos s.buffers.length with h0 | h0
        · have hbn : s.buffers = [] := List.length_eq_zero_iff.1 h0
          have hcn : s.counters = [] := List.length_eq_zero_iff.1 (by rw [hb.hc, h0])
          refine ⟨h1, h2, ?_, ?_⟩
          · simpa [hbn, hcn] using h3
          · simpa [hbn, hcn] using h4
        · refine ⟨h1, h2, ?_, ?_⟩
          · simp only [List.getElem?_append_left h0, List.getElem?_append_left (show 0 < s.counters.length by rw [hb.hc]; exact h0)]
            exact h3
          · simp only [List.getElem?_append_left (show 0 < s.counters.length by rw [hb.hc]; exact h0)]
            exact h4
      pop := fun s h rest hb hj hl => by
        obtain ⟨h1, h2, h3, h4⟩ := hj
        exact ⟨h1, h2, by simpa [pend] using h3, h4⟩
      push := fun s h items rest buf hb hj hget hl => by
        have hh : h < s.buffers.length := (List.getElem?_eq_some_iff.1 hget).1
        obtain ⟨h1, h2, h3, h4⟩ := hj
        refine ⟨h1, h2, ?_, h4⟩
        simp only [setBuf, set_get _ _ _ _ hh, pend] at h3 ⊢
        by_cases hj : 0 = h
        · subst hj
          simp only [if_true, Option.getD_some, List.length_append, List.length_nil, hget] at h3 ⊢; omega
        · rw [if_neg hj]
          rw [if_neg (Ne.symm hj)] at h3 ⊢
          exact h3
      compact := fun s h items rest buf m' r hb hj hget hm' hlen hr => by
        obtain ⟨ci, ctrs, out, hi, hci, -, ho, rfl⟩ := hr
        have hh : h < s.buffers.length := (List.getElem?_eq_some_iff.1 hget).1
        have hfl : (buf ++ items.take m').length = s.bufferSize := by rw [List.length_append, List.length_take]; omega
        have hsl : (sorted id (buf ++ items.take m')).length = s.bufferSize := by rw [(sorted_perm id _).length_eq, hfl]
        simp only [IsIndex, Bool.false_eq_true, if_false] at hi
        obtain ⟨c0, f1, f2, f3, f4⟩ := hi
        have g1 : s.counters[h]? = some c0 := f1
        have g2 : ci + (trailingOnes c0 + 1) * s.k = (buf ++ items.take m').length := f2
        have g4 : ctrs = s.counters.set h (c0 + 1) := f4
        clear f1 f2 f4
        have hhc : h < s.counters.length := (List.getElem?_eq_some_iff.1 g1).1
        obtain ⟨h1, h2, h3, h4⟩ := hj
        refine ⟨h1, h2, ?_, ?_⟩
        · simp only [afterSplit, setBuf, List.set_set, set_get _ _ _ _ hh, pend, g4, List.getElem?_set] at h3 ⊢
          by_cases e : h = 0
          · subst e
            simp only [if_true, Option.getD_some, hget, g1, hhc, List.length_take, hsl, List.length_drop] at h3 ⊢
            rw [if_neg (by omega), sections, Nat.mul_add]
            rw [hfl, h1] at g2
            have : k * (trailingOnes c0 + 1) = (trailingOnes c0 + 1) * k := Nat.mul_comm _ _
            omega
          · rw [if_neg (Ne.symm e), if_neg (by omega), if_neg e, if_neg e]
            rw [if_neg e] at h3
            omega
        · simp only [afterSplit, g4, List.getElem?_set]
          by_cases e : h = 0
          · subst e
            simp only [if_true, hhc, Option.getD_some]
            rw [g1, Option.getD_some] at h4
            have hne : c0 ≠ 2 ^ min (2 * L) 32 - 1 := by
              intro ec
              have ht := trailingOnes_pow (m := min (2 * L) 32) (Nat.min_le_right _ _)
              rw [← ec] at ht
              rcases Nat.lt_or_ge (2 * L) 32 with hl | hl
              · rw [Nat.min_eq_left hl.le] at ht
                rw [ht, hfl, h2, h1] at g2
                have : (2 * L + 1) * k = 2 * k * L + k := by ring
                have hk := hb.hk
                rw [h1] at hk
                omega
              · rw [Nat.min_eq_right hl] at ec
                omega
            omega
          · rw [if_neg e]; exact h4 }
  start l c s hc hb hj := by
    obtain ⟨h1, h2, h3, h4⟩ := hj
    refine ⟨h1, h2, ?_, h4⟩
    simp only [pend, List.length_append] at h3 ⊢
    simp only [if_true]
    omega
  cnt l s n hj := hj

theorem freshB_bottom (hk : k ≠ 0) (hL : L ≠ 0) (ops : List (InsOp K)) (hf : ∀ o ∈ ops, o.fast = false) :
    Partially ((freshB n k (2 * k * L)).execOps ops) (fun s => Base s [] ∧ Bottom k L (insItems ops) s []) := by
  have hB : 2 ≤ 2 * k * L := by
    have := Nat.mul_le_mul (show 2 ≤ 2 * k by omega) (show 1 ≤ L by omega)
    simpa using this
  have hi : Bottom (K := K) k L [] (freshB n k (2 * k * L)) [] := ⟨rfl, rfl, by simp [freshB, pend, sections], by simp [freshB]⟩
  have := execOps_partially (bottomInv k L) ops (fun o ho => hf o ho) n k (2 * k * L) 0 [] _ (base_freshB hk hB) hi ⟨rfl, rfl, rfl, rfl⟩
  exact this.mono (fun s h => ⟨h.1, by simpa using h.2.1⟩)

theorem bottom_len {s : RCSketch K} (hb : Base s []) (hL : L ≠ 0) (hk : k ≠ 0) (hB : s.bufferSize = 2 * k * L) :
    ((s.buffers[0]?).getD []).length < 2 * k * L := by
  cases h : s.buffers[0]? with
  | none =>
    have := Nat.mul_le_mul (show 2 ≤ 2 * k by omega) (show 1 ≤ L by omega)
    simp only [Option.getD_none, List.length_nil]; omega
  | some b =>
    have := hb.hlt b (List.mem_of_getElem? h)
    rw [hB] at this; exact this

/-- As many items as the capacity, without fast compaction: no execution returns. -/
theorem freshB_panics (hk : k ≠ 0) (hL : L ≠ 0) (ops : List (InsOp K)) (hf : ∀ o ∈ ops, o.fast = false)
    (hlen : capacityB k L ≤ (insItems ops).length) : Partially ((freshB n k (2 * k * L)).execOps ops) (fun _ => False) := by
  refine (freshB_bottom hk hL ops hf).mono ?_
  rintro s ⟨hb, h1, h2, h3, h4⟩
  have h5 := bottom_len hb hL hk h2
  have h6 : sections ((s.counters[0]?).getD 0) ≤ sections (2 ^ min (2 * L) 32 - 1) := sections_strictMono.monotone h4
  have h7 := Nat.mul_le_mul_left k h6
  rw [capacityB_eq] at hlen
  simp only [pend] at h3
  omega

/-- One item less, and the next `add` fails with an arithmetic overflow. -/
theorem freshB_last (hk : k ≠ 0) (hL : L ≠ 0) (ops : List (InsOp K)) (hf : ∀ o ∈ ops, o.fast = false)
    (hlen : (insItems ops).length + 1 = capacityB k L) :
    Partially ((freshB n k (2 * k * L)).execOps ops) (fun s => ∀ x, s.add x = .fail .overflow) := by
  refine (freshB_bottom hk hL ops hf).mono ?_
  rintro s ⟨hb, h1, h2, h3, h4⟩ x
  have h5 := bottom_len hb hL hk h2
  simp only [pend] at h3
  rw [capacityB_eq] at hlen
  have h6 : (s.counters[0]?).getD 0 = 2 ^ min (2 * L) 32 - 1 := by
    by_contra hne
    have h7 : sections ((s.counters[0]?).getD 0) + 1 ≤ sections (2 ^ min (2 * L) 32 - 1) := sections_strictMono (by omega)
    have h8 := Nat.mul_le_mul_left k h7
    rw [Nat.mul_add] at h8
    omega
  rw [h6] at h3
  have hp : 2 ^ 2 ≤ 2 ^ min (2 * L) 32 := Nat.pow_le_pow_right (by norm_num) (by omega)
  have hc : s.counters[0]? = some (2 ^ min (2 * L) 32 - 1) := by
    cases h : s.counters[0]? with
    | none => rw [h] at h6; simp only [Option.getD_none] at h6; omega
    | some c => rw [h] at h6; simpa using h6
  have h0 : 0 < s.buffers.length := by rw [← hb.hc]; exact (List.getElem?_eq_some_iff.1 hc).1
  have hg : s.buffers[0]? = some s.buffers[0] := List.getElem?_eq_getElem h0
  rw [hg, Option.getD_some] at h3 h5
  have hl : s.buffers[0].length + 1 = s.bufferSize := by omega
  unfold add insertAt
  have he : s.ensureLevel 0 = s := by unfold ensureLevel; rw [if_neg (by omega)]
  rw [he]
  simp only [Prog.idx, hg, bind_ret]
  rw [if_pos (by simp only [setBuf, List.length_append, List.length_cons, List.length_nil]; omega)]
  have hgi : (s.setBuf 0 (s.buffers[0] ++ [x])).getCompactIndex 0 = .fail .overflow := by
    unfold getCompactIndex
    have e1 : (s.setBuf 0 (s.buffers[0] ++ [x])).buffers[0]? = some (s.buffers[0] ++ [x]) := setBuf_get h0
    have e2 : (s.setBuf 0 (s.buffers[0] ++ [x])).counters[0]? = some (2 ^ min (2 * L) 32 - 1) := hc
    have e3 : (s.setBuf 0 (s.buffers[0] ++ [x])).k = k := h1
    have e4 : (s.buffers[0] ++ [x]).length = 2 * k * L := by simp; omega
    simp only [Prog.idx, e1, e2, bind_ret, e3, e4, trailingOnes_pow (m := min (2 * L) 32) (Nat.min_le_right _ _)]
    rcases Nat.lt_or_ge (2 * L) 32 with hl | hl
    · have : ¬ (min (2 * L) 32 + 1) * k ≤ 2 * k * L := by
        rw [Nat.min_eq_left hl.le]
        have : (2 * L + 1) * k = 2 * k * L + k := by ring
        omega
      unfold Prog.usub
      rw [if_neg this]; rfl
    · rw [Nat.min_eq_right hl]
      unfold Prog.usub
      have h33 : (32 + 1) * k ≤ 2 * k * L ∨ ¬ (32 + 1) * k ≤ 2 * k * L := em _
      rcases h33 with h33 | h33
      · rw [if_pos h33, bind_ret, if_neg (by norm_num)]
      · rw [if_neg h33]; rfl
  unfold compactAt
  simp only [Bool.false_eq_true, if_false]
  rw [hgi]
  rfl

end RCSketch
end AQ

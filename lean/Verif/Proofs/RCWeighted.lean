/-
RCSketch: insertion at any level. The cascade framework is stated for frames at every level; here are the starting points at level
`h` for the capacity, climbing, flow, weight and rank invariants.
-/
import Verif.Model.RCWeighted
import Verif.Proofs.RCCapacity
import Verif.Proofs.RCExp

set_option linter.unusedSectionVars false
set_option linter.unusedVariables false

namespace AQ
open Prog Spec
variable {K : Type} [Field K] [LinearOrder K] [IsStrictOrderedRing K] [FloatFmt K]

namespace Spec

/-- Every item `2^h` times. -/
def dup (h : Nat) (c : List (Fl K)) : List (Fl K) := c.flatMap (fun y => List.replicate (2 ^ h) y)

end Spec

theorem dup_zero (c : List (Fl K)) : dup 0 c = c := by
  unfold dup
  induction c with
  | nil => rfl
  | cons a c ih => rw [List.flatMap_cons, ih]; rfl

theorem dup_length (h : Nat) (c : List (Fl K)) : (dup h c).length = 2 ^ h * c.length := by
  unfold dup
  induction c with
  | nil => simp
  | cons a c ih => rw [List.flatMap_cons, List.length_append, ih, List.length_replicate, List.length_cons]; ring

theorem dup_rank (h : Nat) (c : List (Fl K)) (x : Fl K) : rank (dup h c) x = 2 ^ h * rank c x := by
  unfold dup rank
  induction c with
  | nil => simp
  | cons a c ih =>
    rw [List.flatMap_cons, List.countP_append, ih, List.countP_replicate, List.countP_cons]
    split <;> ring

theorem mem_dup {h : Nat} {c : List (Fl K)} {y : Fl K} : y ∈ dup h c ↔ y ∈ c := by
  unfold dup
  rw [List.mem_flatMap]
  constructor
  · rintro ⟨a, ha, hy⟩; rw [List.eq_of_mem_replicate hy]; exact ha
  · intro hy; exact ⟨y, hy, List.mem_replicate.2 ⟨by positivity, rfl⟩⟩

namespace RCSketch
variable {G : Fl K → Prop} {n k N B L : Nat}

theorem W_startAt (g : List (Fl K) → Nat) (s : RCSketch K) (h : Nat) (c : List (Fl K)) :
    W g s [⟨h, c⟩] = W g s [] + 2 ^ h * g c := by simp [W, fsum]

theorem base_startAt {s : RCSketch K} (hb : Base s []) {h : Nat} (hh : h ≤ s.buffers.length) (c : List (Fl K)) : Base s [⟨h, c⟩] :=
  ⟨hb.hk, hb.hB, hb.hc, hb.hg, hb.hlt, by intro f hf; simp at hf; subst hf; exact hh, by simp⟩

theorem Cap.startAt {s : RCSketch K} {c : List (Fl K)} (hI : Cap G k B N s []) (h : Nat) (hc : ∀ y ∈ c, G y) :
    Cap G k B (N + c.length) s [⟨h, c⟩] := by
  refine ⟨hI.hk, hI.hB, ?_, hI.good, by simpa using hc⟩
  obtain ⟨r, h1, h2⟩ := hI.flow
  refine ⟨fun j => r j + if j < h then c.length else 0, fun j a ha => (h1 j a ha).trans (Nat.le_add_right _ _), fun j => ?_⟩
  have := h2 j
  simp only [pend] at this ⊢
  rcases Nat.lt_trichotomy j h with e | e | e
  · rw [if_neg (by omega), if_pos e]
    by_cases e0 : j = 0
    · rw [if_pos e0] at this ⊢; omega
    · rw [if_neg e0] at this ⊢; rw [if_pos (by omega)]; omega
  · subst e
    rw [if_pos rfl, if_neg (by omega)]
    by_cases e0 : j = 0
    · rw [if_pos e0] at this ⊢; omega
    · rw [if_neg e0] at this ⊢; rw [if_pos (by omega)]; omega
  · rw [if_neg (by omega), if_neg (by omega)]
    rw [if_neg (by omega)] at this ⊢
    split <;> omega

/-- The items of level `j` before `n` items are inserted at level `h`. -/
def startLenAt (s : RCSketch K) (h n : Nat) (j : Nat) : Nat := ((s.buffers[j]?).getD []).length + if j = h then n else 0

theorem climb_startAt (s : RCSketch K) {h : Nat} (hh : h ≤ s.buffers.length) (c : List (Fl K)) :
    Climb (s.buffers.length + 1) (s.startLenAt h c.length) s [⟨h, c⟩] := by
  refine ⟨fun _ => 0, fun j => ?_, fun j hj hc => ?_⟩
  · unfold climbIn startLenAt
    simp only [pend]
    by_cases e : j = h
    · subst e; simp
    · rw [if_neg (Ne.symm e), if_neg e]; omega
  · exfalso
    rcases hc with ⟨f, hf, hlt⟩ | hc
    · simp at hf; subst hf; simp only at hlt; omega
    · omega

theorem startLenAt_sum (s : RCSketch K) (h n : Nat) (j : Nat) : ((List.range j).map (s.startLenAt h n)).sum ≤ s.stored + n := by
  have h1 := sum_range_get s.buffers j
  have h2 : ∀ j, ((List.range j).map (fun i => if i = h then n else 0)).sum ≤ if h < j then n else 0 := by
    intro j
    induction j with
    | zero => simp
    | succ j ih =>
      rw [List.range_succ, List.map_append, List.sum_append]
      simp only [List.map_cons, List.map_nil, List.sum_cons, List.sum_nil, Nat.add_zero]
      rcases Nat.lt_trichotomy h j with e | e | e
      · rw [if_pos e] at ih; rw [if_neg (by omega), if_pos (by omega)]; omega
      · subst e; rw [if_neg (by omega)] at ih; rw [if_pos rfl, if_pos (by omega)]; omega
      · rw [if_neg (by omega)] at ih; rw [if_neg (by omega), if_neg (by omega)]; omega
  have h2j := h2 j
  have h3 : ∀ l : List Nat, (l.map (s.startLenAt h n)).sum = (l.map (fun i => ((s.buffers[i]?).getD []).length)).sum + (l.map (fun i => if i = h then n else 0)).sum := by
    intro l; induction l with
    | nil => rfl
    | cons a l ih => simp only [List.map_cons, List.sum_cons, ih, startLenAt]; omega
  rw [h3]
  unfold stored
  split at h2j <;> omega

theorem Climb.lvlAt {s0 s : RCSketch K} {h n : Nat} {P : List (Frame K)} (hh : h ≤ s0.buffers.length)
    (hc : Climb (s0.buffers.length + 1) (s0.startLenAt h n) s P) {f : Frame K}
    (hf : f ∈ P) : f.lvl ≤ s0.buffers.length + 1 + (s0.stored + n) := by
  obtain ⟨r, h1, h2⟩ := hc
  refine Climb.height (a := s0.startLenAt h n) (r := r) (L := fun j => ((s.buffers[j]?).getD []).length + pend j P) ?_
    (s0.startLenAt_sum h n) h1 (fun j hj hlt => h2 j hj (Or.inl ⟨f, hf, hlt⟩))
  intro j hj hj1
  unfold startLenAt
  rw [List.getElem?_eq_none (by omega), if_neg (by omega)]; rfl

theorem need_le_fuelAt (s : RCSketch K) (h m : Nat) :
    need s.bufferSize (s.buffers.length + 1 + (s.stored + m)) h m ≤ s.fuelFor m := by
  unfold need fuelFor
  have : (s.buffers.length + 1 + (s.stored + m) + 1 - h) * (s.bufferSize + 8) ≤ (s.buffers.length + s.stored + m + 3) * (s.bufferSize + 10) :=
    Nat.mul_le_mul (by omega) (by omega)
  omega

theorem cap_progressAt (hBL : B = 2 * k * L) (hG : ∀ y, G y → y ≠ .nan) (fast : Bool) (hN : N < capacityB k L) (s0 : RCSketch K)
    {h : Nat} (hh : h ≤ s0.buffers.length) (m : Nat) (T : RCSketch K → List (Frame K) → Prop) :
    Progress fast B (s0.buffers.length + 1 + (s0.stored + m))
      (fun s P => Cap (K := K) G k B N s P ∧ Climb (s0.buffers.length + 1) (s0.startLenAt h m) s P ∧ T s P) where
  size s P hj := hj.1.hB
  lvl s h' items rest hb hj := hj.2.1.lvlAt hh (f := ⟨h', items⟩) (by simp)
  nan s h' items rest buf n hb hj hg hn hl y hy := by
    apply hG
    rcases List.mem_append.1 hy with h2 | h2
    · exact hj.1.good buf (List.mem_of_getElem? hg) y h2
    · exact hj.1.goodP ⟨h', items⟩ (by simp) y (List.mem_of_mem_take h2)
  index hf s h' items rest buf m hb hj hg hm hl := hj.1.index hBL hb hN hg hm hl

/-- Levels are never removed, and the level of a call exists after it. -/
def Opened (a h : Nat) (s : RCSketch K) (P : List (Frame K)) : Prop :=
  a ≤ s.buffers.length ∧ (h + 1 ≤ s.buffers.length ∨ ∃ f ∈ P, f.lvl = h)

theorem Opened.closed (a h : Nat) (fast : Bool) (m : CompactionMethod) : Closed (K := K) fast m (Opened a h) where
  ensure s h' items rest hb hj hl := by
    obtain ⟨h1, h2⟩ := hj
    have e : (s.ensureLevel h').buffers.length = s.buffers.length + 1 := by unfold ensureLevel; rw [if_pos hl.le]; simp
    refine ⟨by rw [e]; omega, ?_⟩
    rcases h2 with h2 | h2
    · left; rw [e]; omega
    · right; exact h2
  pop s h' rest hb hj hl := by
    obtain ⟨h1, h2⟩ := hj
    refine ⟨h1, ?_⟩
    rcases h2 with h2 | ⟨f, hf, h2⟩
    · left; exact h2
    · rcases List.mem_cons.1 hf with rfl | hf
      · left; simp only at h2; omega
      · right; exact ⟨f, hf, h2⟩
  push s h' items rest buf hb hj hg hl := by
    obtain ⟨h1, h2⟩ := hj
    refine ⟨by simpa [setBuf] using h1, ?_⟩
    rcases h2 with h2 | ⟨f, hf, h2⟩
    · left; simpa [setBuf] using h2
    · right
      rcases List.mem_cons.1 hf with rfl | hf
      · exact ⟨⟨h', []⟩, by simp, h2⟩
      · exact ⟨f, by simp [hf], h2⟩
  compact s h' items rest buf n r hb hj hg hn hl hr := by
    obtain ⟨ci, ctrs, out, hi, hci, -, ho, rfl⟩ := hr
    obtain ⟨h1, h2⟩ := hj
    refine ⟨by simpa [afterSplit, setBuf] using h1, ?_⟩
    rcases h2 with h2 | ⟨f, hf, h2⟩
    · left; simpa [afterSplit, setBuf] using h2
    · right
      rcases List.mem_cons.1 hf with rfl | hf
      · exact ⟨⟨h', items.drop n⟩, by simp, h2⟩
      · exact ⟨f, by simp [hf], h2⟩

theorem opened_start {s : RCSketch K} (h : Nat) (c : List (Fl K)) : Opened s.buffers.length h s [⟨h, c⟩] :=
  ⟨le_refl _, Or.inr ⟨⟨h, c⟩, by simp, rfl⟩⟩

end RCSketch

namespace LevelCall
open RCSketch
variable {G : Fl K → Prop} {n k N B L : Nat}

/-- Partial correctness of one call. -/
theorem exec_partially {T : RCSketch K → List (Frame K) → Prop} (c : LevelCall K) (cl : Closed c.fast c.method T) {s : RCSketch K}
    (hb : Base s []) (hh : c.lvl ≤ s.buffers.length) (ht : T s [⟨c.lvl, c.items⟩]) :
    Partially (c.exec s) (fun s' => Base s' [] ∧ T s' []) := by
  cases c with
  | item x h fast m => exact insertAt_partially cl _ s h x [] (base_startAt hb hh [x]) ht
  | batch xs h fast m =>
    exact ((batch_partially cl _).1 s h xs [] (base_startAt hb hh xs) ht).mono (fun s' h => ⟨h.1, h.2.2⟩)

/-- Total correctness of one call within the capacity. -/
theorem exec_cap {T : RCSketch K → List (Frame K) → Prop} (hBL : B = 2 * k * L) (c : LevelCall K) (hG : GoodFor G c.method)
    (cl : Closed c.fast c.method T) {s : RCSketch K} (hb : Base s []) (hj : Cap G k B N s []) (hh : c.lvl ≤ s.buffers.length)
    (hN : N + c.items.length < capacityB k L) (hg : ∀ y ∈ c.items, G y) (ht : T s [⟨c.lvl, c.items⟩]) :
    Always (c.exec s) (fun s' => Base s' [] ∧ Cap G k B (N + c.items.length) s' [] ∧ T s' []) := by
  have hj1 := hj.startAt c.lvl hg
  have hf := need_le_fuelAt s c.lvl c.items.length
  rw [hj.hB] at hf
  have CL := (Cap.closed (k := k) (B := B) (N := N + c.items.length) hG c.fast).and
    ((Climb.closed (s.buffers.length + 1) (s.startLenAt c.lvl c.items.length) c.fast c.method).and cl)
  have PR := cap_progressAt hBL hG.1 c.fast hN s hh c.items.length T
  have J := And.intro hj1 (And.intro (climb_startAt s hh c.items) ht)
  cases c with
  | item x h fast m =>
    exact (insertAt_always CL PR (base_startAt hb hh [x]) J hf).mono (fun s' h => ⟨h.1, h.2.1, h.2.2.2⟩)
  | batch xs h fast m =>
    exact (batch_always CL PR (base_startAt hb hh xs) J hf).mono (fun s' h => ⟨h.1, h.2.2.1, h.2.2.2.2⟩)

/-- Expectation over one call within the capacity. -/
theorem exec_exp {Φ : RCSketch K → List (Frame K) → ℚ} (hBL : B = 2 * k * L) (c : LevelCall K) (hG : GoodFor G c.method)
    (su : Super c.fast c.method (Cap G k B (N + c.items.length)) Φ) {s : RCSketch K} (hb : Base s []) (hj : Cap G k B N s [])
    (hh : c.lvl ≤ s.buffers.length) (hN : N + c.items.length < capacityB k L) (hg : ∀ y ∈ c.items, G y) :
    exp (c.exec s) (fun s' => Φ s' []) ≤ Φ s [⟨c.lvl, c.items⟩] := by
  have hj1 := hj.startAt c.lvl hg
  have hf := need_le_fuelAt s c.lvl c.items.length
  rw [hj.hB] at hf
  have CL := (Cap.closed (k := k) (B := B) (N := N + c.items.length) hG c.fast).and
    ((Climb.closed (s.buffers.length + 1) (s.startLenAt c.lvl c.items.length) c.fast c.method).and
      (Opened.closed 0 0 c.fast c.method))
  have PR := cap_progressAt hBL hG.1 c.fast hN s hh c.items.length (Opened 0 0)
  have J := And.intro hj1 (And.intro (climb_startAt s hh c.items) (show Opened 0 0 s [⟨c.lvl, c.items⟩] from ⟨Nat.zero_le _, by
    rcases Nat.eq_zero_or_pos s.buffers.length with e | e
    · right; exact ⟨⟨c.lvl, c.items⟩, by simp, by simp only; omega⟩
    · left; omega⟩))
  cases c with
  | item x h fast m => exact insertAt_super CL PR (super_and su _) (base_startAt hb hh [x]) J hf
  | batch xs h fast m => exact (batch_super CL PR (super_and su _) _).1 s h xs [] (base_startAt hb hh xs) J hf

end LevelCall
end AQ

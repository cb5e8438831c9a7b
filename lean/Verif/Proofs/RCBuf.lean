/-
`add_buffer` and repeated `add` are the same program (C16).
-/
import Verif.Proofs.RCLevels

set_option linter.unusedSectionVars false
set_option linter.unusedVariables false

namespace AQ
open Prog Spec

/-! ### Refinement: equal except where the left side runs out of fuel -/

namespace Prog
variable {α β : Type}

/-- `p` and `q` are the same program except that `q` may continue where `p` exhausts its loop bound. -/
inductive FuelLe : Prog α → Prog α → Prop
  | fuel (q : Prog α) : FuelLe (.fail .fuel) q
  | ret (a : α) : FuelLe (.ret a) (.ret a)
  | fail (e : Err) : FuelLe (.fail e) (.fail e)
  | flip (f g : Bool → Prog α) (h : ∀ b, FuelLe (f b) (g b)) : FuelLe (.flip f) (.flip g)

theorem FuelLe.refl (p : Prog α) : FuelLe p p := by
  induction p with
  | ret a => exact .ret a
  | fail e => exact .fail e
  | flip f ih => exact .flip f f ih

theorem FuelLe.trans {p q r : Prog α} (h : FuelLe p q) (h' : FuelLe q r) : FuelLe p r := by
  induction h generalizing r with
  | fuel q => exact .fuel r
  | ret a => exact h'
  | fail e => exact h'
  | flip f g hfg ih =>
    cases h' with
    | flip _ g' hg => exact .flip f g' (fun b => ih b (hg b))

theorem FuelLe.bind {p q : Prog α} {k l : α → Prog β} {Q : α → Prop} (h : FuelLe p q) (hQ : Partially q Q)
    (hk : ∀ a, Q a → FuelLe (k a) (l a)) : FuelLe (p >>= k) (q >>= l) := by
  induction h with
  | fuel q => exact .fuel _
  | ret a => exact hk a hQ
  | fail e => exact .fail e
  | flip f g hfg ih => exact .flip _ _ (fun b => ih b (hQ b))

theorem FuelLe.bind' {p q : Prog α} {k l : α → Prog β} (h : FuelLe p q) (hk : ∀ a, FuelLe (k a) (l a)) :
    FuelLe (p >>= k) (q >>= l) := h.bind (partially_true q) (fun a _ => hk a)

theorem FuelLe.eq_of_always {p q : Prog α} {Q : α → Prop} (h : FuelLe p q) (hp : Always p Q) : p = q := by
  induction h with
  | fuel q => exact absurd hp (by simp)
  | ret a => rfl
  | fail e => rfl
  | flip f g hfg ih => congr 1; funext b; exact ih b (hp b)

end Prog

variable {K : Type} [Field K] [LinearOrder K] [IsStrictOrderedRing K] [FloatFmt K]

namespace RCSketch
variable {G : Fl K → Prop} {n k B : Nat} {fast : Bool} {m : CompactionMethod}

/-! ### More fuel never changes a result -/

theorem fuel_succ (f : Nat) :
    (∀ items h (s : RCSketch K), FuelLe (batch fast m f items h s) (batch fast m (f + 1) items h s)) ∧
    (∀ items h (s : RCSketch K), FuelLe (fill fast m f items h s) (fill fast m (f + 1) items h s)) ∧
    (∀ h (s : RCSketch K), FuelLe (drain fast m f h s) (drain fast m (f + 1) h s)) := by
  induction f with
  | zero => refine ⟨?_, ?_, ?_⟩ <;> intros <;> simp only [batch, fill, drain] <;> exact .fuel _
  | succ f ih =>
    obtain ⟨ih1, ih2, ih3⟩ := ih
    refine ⟨?_, ?_, ?_⟩
    · intro items h s
      rw [batch, batch]; exact ih2 _ _ _
    · intro items h s
      rw [fill, fill]
      split
      · exact .ret _
      · refine (FuelLe.refl _).bind' (fun buf => (FuelLe.refl _).bind' (fun room => ?_))
        exact (ih3 _ _).bind' (fun s' => ih2 _ _ _)
    · intro h s
      rw [drain, drain]
      refine (FuelLe.refl _).bind' (fun buf => ?_)
      split
      · exact (FuelLe.refl _).bind' (fun r => (ih1 _ _ _).bind' (fun s' => ih3 _ _))
      · exact .ret _

theorem fuel_mono {f g : Nat} (hfg : f ≤ g) :
    (∀ items h (s : RCSketch K), FuelLe (batch fast m f items h s) (batch fast m g items h s)) ∧
    (∀ items h (s : RCSketch K), FuelLe (fill fast m f items h s) (fill fast m g items h s)) ∧
    (∀ h (s : RCSketch K), FuelLe (drain fast m f h s) (drain fast m g h s)) := by
  induction hfg with
  | refl => exact ⟨fun _ _ _ => .refl _, fun _ _ _ => .refl _, fun _ _ => .refl _⟩
  | step _ ih =>
    exact ⟨fun _ _ _ => (ih.1 _ _ _).trans ((fuel_succ _).1 _ _ _), fun _ _ _ => (ih.2.1 _ _ _).trans ((fuel_succ _).2.1 _ _ _),
      fun _ _ => (ih.2.2 _ _).trans ((fuel_succ _).2.2 _ _)⟩

theorem insertAt_mono {f g : Nat} (hfg : f ≤ g) (x : Fl K) (h : Nat) (s : RCSketch K) :
    FuelLe (insertAt f x h fast m s) (insertAt g x h fast m s) := by
  unfold insertAt
  refine (FuelLe.refl _).bind' (fun buf => ?_)
  dsimp only
  split
  · exact (FuelLe.refl _).bind' (fun r => (fuel_mono hfg).1 _ _ _)
  · exact .ret _

/-! ### One item at a time -/

theorem true_closed (fast : Bool) (m : CompactionMethod) : Closed (K := K) fast m (fun _ _ => True) where
  ensure _ _ _ _ _ _ _ := trivial
  pop _ _ _ _ _ _ := trivial
  push _ _ _ _ _ _ _ _ _ := trivial
  compact _ _ _ _ _ _ _ _ _ _ _ _ _ := trivial

theorem pos_closed (fast : Bool) (m : CompactionMethod) : Closed (K := K) fast m (fun s _ => 0 < s.buffers.length) where
  ensure s h _ _ _ hj _ := by unfold ensureLevel; split <;> simp [hj]
  pop _ _ _ _ hj _ := hj
  push _ _ _ _ _ _ hj _ _ := by simpa [setBuf] using hj
  compact s h _ _ _ _ _ _ hj _ _ _ hr := by
    obtain ⟨ci, ctrs, out, -, -, -, -, rfl⟩ := hr
    simpa [afterSplit, setBuf] using hj

theorem drain_lt {f h : Nat} {s : RCSketch K} {buf : List (Fl K)} (hget : s.buffers[h]? = some buf)
    (hlt : buf.length < s.bufferSize) : FuelLe (drain fast m f h s) (.ret s) := by
  cases f with
  | zero => rw [drain]; exact .fuel _
  | succ f =>
    rw [drain]
    simp only [Prog.idx, hget, bind_ret]
    rw [if_neg (by omega)]
    exact .ret _

theorem fill_cons (f : Nat) (a : Fl K) (as : List (Fl K)) (h : Nat) (s : RCSketch K) (buf : List (Fl K))
    (hget : s.buffers[h]? = some buf) (hlt : buf.length < s.bufferSize) :
    FuelLe (fill fast m f (a :: as) h s)
      (fill fast m (f + 2) [a] h s >>= fun s' => fill fast m (f + 2) as h s') := by
  cases f with
  | zero => rw [fill]; exact .fuel _
  | succ f =>
    have hh : h < s.buffers.length := (List.getElem?_eq_some_iff.1 hget).1
    rw [fill, if_neg (by simp), fill, if_neg (by simp)]
    simp only [Prog.idx, hget, bind_ret, usub_eq hlt.le]
    by_cases h1 : buf.length + 1 = s.bufferSize
    · have hr : s.bufferSize - buf.length = 1 := by omega
      rw [hr]
      simp only [List.take_succ_cons, List.take_zero, List.drop_succ_cons, List.drop_zero]
      rw [bind_assoc']
      refine ((fuel_mono (by omega)).2.2 _ _).bind' (fun s' => ?_)
      have : fill fast m (f + 1 + 1) [] h s' = .ret s' := by rw [fill, if_pos rfl]
      rw [this, bind_ret]
      exact (fuel_mono (by omega)).2.1 _ _ _
    · obtain ⟨r, hr⟩ : ∃ r, s.bufferSize - buf.length = r + 2 := ⟨s.bufferSize - buf.length - 2, by omega⟩
      rw [hr]
      simp only [List.take_succ_cons, List.take_nil, List.drop_succ_cons, List.drop_nil]
      have hget1 := setBuf_get (s := s) (b := buf ++ [a]) hh
      have hd : drain fast m (f + 1 + 1) h (s.setBuf h (buf ++ [a])) = .ret (s.setBuf h (buf ++ [a])) := by
        rw [drain]
        simp only [Prog.idx, hget1, bind_ret]
        rw [if_neg]
        simp [setBuf]; omega
      have hf : ∀ s' : RCSketch K, fill fast m (f + 1 + 1) [] h s' = .ret s' := by intro s'; rw [fill, if_pos rfl]
      simp only [hd, hf, bind_ret]
      rw [show f + 1 + 2 = (f + 2) + 1 by omega, fill]
      by_cases has : as = []
      · subst has
        rw [if_pos rfl]
        simp only [List.take_nil, List.drop_nil]
        have hlt' : (buf ++ [a]).length < (s.setBuf h (buf ++ [a])).bufferSize := by simp [setBuf]; omega
        have h2 := (drain_lt (fast := fast) (m := m) (f := f) hget1 hlt').bind' (k := fun s' => fill fast m f [] h s')
          (l := fun s' => .ret s') (fun s' => by
            cases f with
            | zero => rw [fill]; exact .fuel _
            | succ f => rw [fill, if_pos rfl]; exact .ret _)
        exact h2
      · rw [if_neg has]
        have hu : usub (s.setBuf h (buf ++ [a])).bufferSize (buf ++ [a]).length = .ret (r + 1) := by
          rw [usub_eq (by simp [setBuf]; omega)]
          congr 1
          simp [setBuf]; omega
        simp only [Prog.idx, hget1, bind_ret, hu]
        have hset : (s.setBuf h (buf ++ [a])).setBuf h (buf ++ [a] ++ as.take (r + 1)) = s.setBuf h (buf ++ a :: as.take (r + 1)) := by
          simp [setBuf]
        rw [hset]
        exact ((fuel_mono (by omega)).2.2 _ _).bind' (fun s' => (fuel_mono (by omega)).2.1 _ _ _)

/-- Inserting a single item through the batch function is `insert_at_rc`. -/
theorem fill_single (f : Nat) (a : Fl K) (h : Nat) (s : RCSketch K) (rest : List (Frame K))
    (hb : Base s (⟨h, [a]⟩ :: rest)) (hh : h < s.buffers.length) :
    FuelLe (fill fast m f [a] h s) (insertAt f a h fast m s) := by
  cases f with
  | zero => rw [fill]; exact .fuel _
  | succ f =>
    have hget : s.buffers[h]? = some s.buffers[h] := List.getElem?_eq_getElem hh
    have hlt := hb.hlt _ (List.getElem_mem hh)
    generalize s.buffers[h] = buf at *
    have hens : s.ensureLevel h = s := by unfold ensureLevel; rw [if_neg (by omega)]
    rw [fill, if_neg (by simp), insertAt, hens]
    simp only [Prog.idx, hget, bind_ret, usub_eq hlt.le]
    have hroom : ([a] : List (Fl K)).take (s.bufferSize - buf.length) = [a] ∧
        ([a] : List (Fl K)).drop (s.bufferSize - buf.length) = [] := by
      obtain ⟨r, hr⟩ : ∃ r, s.bufferSize - buf.length = r + 1 := ⟨s.bufferSize - buf.length - 1, by omega⟩
      rw [hr]; simp
    rw [hroom.1, hroom.2]
    have hget1 := setBuf_get (s := s) (b := buf ++ [a]) hh
    have hfin : ∀ s' : RCSketch K, FuelLe (fill fast m f [] h s') (.ret s') := by
      intro s'
      cases f with
      | zero => rw [fill]; exact .fuel _
      | succ f => rw [fill, if_pos rfl]; exact .ret _
    by_cases hle : (s.setBuf h (buf ++ [a])).bufferSize ≤ (buf ++ [a]).length
    · rw [if_pos hle]
      have hlen : (buf ++ [a]).length = s.bufferSize := by
        have : s.bufferSize ≤ (buf ++ [a]).length := hle
        simp at this ⊢; omega
      have key : FuelLe (drain fast m f h (s.setBuf h (buf ++ [a])))
          ((s.setBuf h (buf ++ [a])).compactAt h fast m >>= fun r => batch fast m (f + 1) r.1 (h + 1) r.2) := by
        cases f with
        | zero => rw [drain]; exact .fuel _
        | succ f =>
          rw [drain]
          simp only [Prog.idx, hget1, bind_ret]
          rw [if_pos hle]
          refine (FuelLe.refl _).bind (compactAt_partially _ h fast m _ hget1) (fun r hr => ?_)
          have hb2 : Base r.2 (⟨h + 1, r.1⟩ :: ⟨h, []⟩ :: rest) := base_compact hb hh hlen hr
          have h1 := ((fuel_mono (fast := fast) (m := m) (show f ≤ f + 1 + 1 by omega)).1 r.1 (h + 1) r.2)
          have h2 := (batch_partially (true_closed (K := K) fast m) (f + 1 + 1)).1 r.2 (h + 1) r.1 (⟨h, []⟩ :: rest) hb2 trivial
          have h3 := h1.bind h2 (k := fun s' => drain fast m f h s') (l := fun s' => .ret s') (by
            rintro s' ⟨hb3, hl3, -⟩
            have hh3 : h < s'.buffers.length := hl3 ⟨h, []⟩ (by simp)
            exact drain_lt (List.getElem?_eq_getElem hh3) (hb3.hlt _ (List.getElem_mem hh3)))
          rw [bind_ret_right] at h3
          exact h3
      have h4 := key.bind' (k := fun s' => fill fast m f [] h s') (l := fun s' => .ret s') hfin
      rw [bind_ret_right] at h4
      exact h4
    · rw [if_neg hle]
      have h4 := (drain_lt (fast := fast) (m := m) (f := f) hget1 (by omega)).bind'
        (k := fun s' => fill fast m f [] h s') (l := fun s' => .ret s') hfin
      exact h4

/-- Insert items one by one, without touching `count`. -/
def insertAll (fast : Bool) (m : CompactionMethod) (f : Nat) : List (Fl K) → RCSketch K → Prog (RCSketch K)
  | [], s => .ret s
  | x :: xs, s => do let s' ← insertAt f x 0 fast m s; insertAll fast m f xs s'

theorem insertAll_append (f : Nat) (xs ys : List (Fl K)) : ∀ s : RCSketch K,
    insertAll fast m f (xs ++ ys) s = insertAll fast m f xs s >>= fun s' => insertAll fast m f ys s' := by
  induction xs with
  | nil => intro s; rfl
  | cons x xs ih =>
    intro s
    rw [List.cons_append, insertAll, insertAll, bind_assoc']
    congr 1; funext s'; exact ih s'

theorem fill_insertAll (xs : List (Fl K)) : ∀ (f g : Nat) (s : RCSketch K), f + 2 * xs.length ≤ g →
    Base s [⟨0, xs⟩] → 0 < s.buffers.length →
    FuelLe (fill fast m f xs 0 s) (insertAll fast m g xs s) := by
  induction xs with
  | nil =>
    intro f g s _ _ _
    cases f with
    | zero => rw [fill]; exact .fuel _
    | succ f => rw [fill, if_pos rfl]; exact .ret _
  | cons a as ih =>
    intro f g s hg hb hh
    simp only [List.length_cons] at hg
    have hget : s.buffers[0]? = some s.buffers[0] := List.getElem?_eq_getElem hh
    refine (fill_cons f a as 0 s _ hget (hb.hlt _ (List.getElem_mem hh))).trans ?_
    rw [insertAll]
    have hb' : Base s (⟨0, [a]⟩ :: [⟨0, as⟩]) :=
      ⟨hb.hk, hb.hB, hb.hc, hb.hg, hb.hlt, by intro f hf; simp at hf; subst hf; simp,
        by intro f hf; simp at hf; subst hf; exact hh⟩
    have h1 := (fill_single (fast := fast) (m := m) (f + 2) a 0 s [⟨0, as⟩] hb' hh).trans
      (insertAt_mono (g := g) (by omega) a 0 s)
    refine h1.bind (insertAt_partially (pos_closed fast m) g s 0 a [⟨0, as⟩] hb' hh) ?_
    rintro s' ⟨hb'', hh'⟩
    exact ih (f + 2) g s' (by omega) hb'' hh'

theorem batch_insertAll (xs : List (Fl K)) (hxs : xs ≠ []) (f g : Nat) (s : RCSketch K) (hg : f + 2 * xs.length ≤ g)
    (hb : Base s []) : FuelLe (batch fast m f xs 0 s) (insertAll fast m g xs s) := by
  cases f with
  | zero => rw [batch]; exact .fuel _
  | succ f =>
    rw [batch]
    have hb' := base_start hb xs
    have h1 := fill_insertAll (fast := fast) (m := m) xs f g (s.ensureLevel 0) (by omega) (base_ensure hb')
      (ensureLevel_len s 0 (Nat.zero_le _))
    have h2 : insertAll fast m g xs (s.ensureLevel 0) = insertAll fast m g xs s := by
      cases xs with
      | nil => exact absurd rfl hxs
      | cons x xs =>
        have : (s.ensureLevel 0).ensureLevel 0 = s.ensureLevel 0 := by
          have := ensureLevel_len s 0 (Nat.zero_le _)
          generalize s.ensureLevel 0 = t at *
          unfold ensureLevel
          rw [if_neg (by omega)]
        rw [insertAll, insertAll]
        unfold insertAt
        rw [this]
    rw [h2] at h1
    exact h1

/-! ### `count` plays no role inside the cascade -/

/-- Overwrite `count`. -/
def setCount (c : Nat) (s : RCSketch K) : RCSketch K := { s with count := c }

theorem compactAt_count (c : Nat) (s : RCSketch K) (h : Nat) :
    (setCount c s).compactAt h fast m = s.compactAt h fast m >>= fun r => .ret (r.1, setCount c r.2) := by
  have key : ∀ (s : RCSketch K) ci, (setCount c s).compact h ci m = s.compact h ci m >>= fun r => .ret (r.1, setCount c r.2) := by
    intro s ci
    unfold compact
    rw [bind_assoc']
    refine congrArg₂ _ rfl (funext fun buf => ?_)
    rw [bind_assoc']
    refine congrArg₂ _ rfl (funext fun srt => ?_)
    split
    · rw [bind_assoc']; rfl
    · rfl
  unfold compactAt
  cases fast with
  | true => exact key s _
  | false =>
    simp only [Bool.false_eq_true, if_false, getCompactIndex]
    simp only [bind_assoc']
    refine congrArg₂ _ rfl (funext fun buf => ?_)
    refine congrArg₂ _ rfl (funext fun ct => ?_)
    refine congrArg₂ _ rfl (funext fun ci => ?_)
    split
    · exact key { s with counters := s.counters.set h (ct + 1) } ci
    · rfl

theorem ensureLevel_count (c : Nat) (s : RCSketch K) (h : Nat) :
    (setCount c s).ensureLevel h = setCount c (s.ensureLevel h) := by
  unfold ensureLevel
  by_cases hh : s.buffers.length ≤ h
  · rw [if_pos hh, if_pos (by exact hh)]; rfl
  · rw [if_neg hh, if_neg (by exact hh)]

theorem batch_count (c f : Nat) :
    (∀ items h (s : RCSketch K), batch fast m f items h (setCount c s) = batch fast m f items h s >>= fun s' => .ret (setCount c s')) ∧
    (∀ items h (s : RCSketch K), fill fast m f items h (setCount c s) = fill fast m f items h s >>= fun s' => .ret (setCount c s')) ∧
    (∀ h (s : RCSketch K), drain fast m f h (setCount c s) = drain fast m f h s >>= fun s' => .ret (setCount c s')) := by
  induction f with
  | zero => refine ⟨?_, ?_, ?_⟩ <;> intros <;> simp only [batch, fill, drain] <;> rfl
  | succ f ih =>
    obtain ⟨ih1, ih2, ih3⟩ := ih
    refine ⟨?_, ?_, ?_⟩
    · intro items h s
      rw [batch, batch, ensureLevel_count, ih2]
    · intro items h s
      rw [fill, fill]
      split
      · rfl
      · simp only [bind_assoc']
        refine congrArg₂ _ rfl (funext fun buf => ?_)
        refine congrArg₂ _ rfl (funext fun room => ?_)
        have : (setCount c s).setBuf h (buf ++ items.take room) = setCount c (s.setBuf h (buf ++ items.take room)) := rfl
        rw [this, ih3, bind_assoc']
        refine congrArg₂ _ rfl (funext fun s' => ?_)
        rw [bind_ret, ih2]
    · intro h s
      rw [drain, drain]
      simp only [bind_assoc']
      refine congrArg₂ _ rfl (funext fun buf => ?_)
      have e : (setCount c s).bufferSize = s.bufferSize := rfl
      rw [e]
      split
      · rw [compactAt_count]
        simp only [bind_assoc']
        refine congrArg₂ _ rfl (funext fun r => ?_)
        rw [bind_ret, ih1]
        simp only [bind_assoc']
        refine congrArg₂ _ rfl (funext fun s' => ?_)
        rw [bind_ret, ih3]
      · rfl

theorem insertAt_count (c f : Nat) (x : Fl K) (h : Nat) (s : RCSketch K) :
    insertAt f x h fast m (setCount c s) = insertAt f x h fast m s >>= fun s' => .ret (setCount c s') := by
  unfold insertAt
  simp only [bind_assoc', ensureLevel_count]
  refine congrArg₂ _ rfl (funext fun buf => ?_)
  have e : ((setCount c (s.ensureLevel h)).setBuf h (buf ++ [x])) = setCount c ((s.ensureLevel h).setBuf h (buf ++ [x])) := rfl
  have e2 : ∀ s : RCSketch K, (setCount c s).bufferSize = s.bufferSize := fun _ => rfl
  rw [e, e2]
  split
  · rw [compactAt_count]
    simp only [bind_assoc']
    refine congrArg₂ _ rfl (funext fun r => ?_)
    rw [bind_ret, (batch_count c f).1]
  · rfl

theorem insertAll_count (c f : Nat) (xs : List (Fl K)) : ∀ s : RCSketch K,
    insertAll fast m f xs (setCount c s) = insertAll fast m f xs s >>= fun s' => .ret (setCount c s') := by
  induction xs with
  | nil => intro s; rfl
  | cons x xs ih =>
    intro s
    rw [insertAll, insertAll, insertAt_count, bind_assoc', bind_assoc']
    refine congrArg₂ _ rfl (funext fun s' => ?_)
    rw [bind_ret, ih]

/-! ### The two programs -/

/-- A loop bound large enough for everything within range. -/
def bigFuel (n B : Nat) : Nat := 3 * n + 30 + (2 * n + 5) * (B + 10)

theorem fuelFor_le {s : RCSketch K} {N c : Nat} (hs : s.stored + c ≤ N) (hl : s.buffers.length ≤ N + 1) (hB : s.bufferSize = B) :
    s.fuelFor c + 2 * c ≤ bigFuel N B := by
  unfold fuelFor bigFuel
  rw [hB]
  have : (s.buffers.length + s.stored + c + 3) * (B + 10) ≤ (2 * N + 5) * (B + 10) := Nat.mul_le_mul_right _ (by omega)
  omega

theorem batches_insertAll (hG : GoodFor G m) (cs : List (List (Fl K))) (hcs : ∀ a ∈ cs, a ≠ []) :
    ∀ (N : Nat) (s : RCSketch K), Base s [] → s.bufferSize = B → s.stored ≤ N → Climb 0 (bottom N) s [] → N + cs.flatten.length ≤ n →
      FuelLe (batches fast m cs s) (insertAll fast m (bigFuel n B) cs.flatten s) := by
  induction cs with
  | nil => intro N s _ _ _ _ _; exact .ret _
  | cons a cs ih =>
    intro N s hb hB hs hc hN
    simp only [List.flatten_cons, List.length_append] at hN ⊢
    rw [batches, insertAll_append]
    have hf : s.fuelFor a.length + 2 * a.length ≤ bigFuel n B := fuelFor_le (by omega) (by have := hc.levels; omega) hB
    have h1 := batch_insertAll (fast := fast) (m := m) a (hcs a (by simp)) _ _ s hf hb
    have key : ∀ (xs : List (Fl K)) (M : Nat) (s : RCSketch K), Base s [] → s.bufferSize = B → s.stored ≤ M → Climb 0 (bottom M) s [] →
        Partially (insertAll fast m (bigFuel n B) xs s)
          (fun s' => Base s' [] ∧ s'.bufferSize = B ∧ s'.stored ≤ M + xs.length ∧ Climb 0 (bottom (M + xs.length)) s' []) := by
      intro xs
      induction xs with
      | nil => intro M s hb hB hs hc; exact ⟨hb, hB, hs, hc⟩
      | cons x xs ih =>
        intro M s hb hB hs hc
        rw [insertAll, partially_bind]
        refine (insertAt_partially (((total_closed fast m (M + 1)).and (static_closed fast m s.inputLength s.k B s.count)).and
            (Climb.closed 0 (bottom (M + 1)) fast m)) _ s 0 x []
          (base_start hb [x]) ⟨⟨by simp [total]; exact hs, rfl, rfl, hB, rfl⟩, climb_more [x] hc⟩).mono ?_
        rintro s' ⟨hb', ⟨ht, hst⟩, hc'⟩
        refine (ih (M + 1) s' hb' hst.2.2.1 (by simpa [total] using ht) hc').mono ?_
        rintro s'' ⟨h1, h2, h3, h4⟩
        have e : M + (xs.length + 1) = M + 1 + xs.length := by omega
        exact ⟨h1, h2, by simp only [List.length_cons]; omega, by rw [List.length_cons, e]; exact h4⟩
    refine h1.bind (key a N s hb hB hs hc) ?_
    rintro s' ⟨hb', hB', hs', hc'⟩
    exact ih (fun a ha => hcs a (by simp [ha])) (N + a.length) s' hb' hB' hs' hc' (by omega)

theorem addEach_insertAll (xs : List (Fl K)) : ∀ (N : Nat) (s : RCSketch K), Base s [] → s.bufferSize = B → s.stored ≤ N →
    Climb 0 (bottom N) s [] →
    N + xs.length ≤ n →
      FuelLe (s.addEach xs) (insertAll false .default (bigFuel n B) xs s >>= fun s' => .ret (setCount (s.count + xs.length) s')) := by
  induction xs with
  | nil => intro N s _ _ _ _ _; exact .ret _
  | cons x xs ih =>
    intro N s hb hB hs hc hN
    simp only [List.length_cons] at hN ⊢
    rw [addEach, insertAll, add, bind_assoc', bind_assoc']
    have hf : s.fuelFor 1 ≤ bigFuel n B := by
      have := fuelFor_le (s := s) (N := n) (c := 1) (B := B) (by omega) (by have := hc.levels; omega) hB
      omega
    refine (insertAt_mono hf x 0 s).bind
      (insertAt_partially (((total_closed false .default (N + 1)).and (static_closed false .default s.inputLength s.k B s.count)).and
          (Climb.closed 0 (bottom (N + 1)) false .default)) _ s 0 x []
          (base_start hb [x]) ⟨⟨by simp [total]; exact hs, rfl, rfl, hB, rfl⟩, climb_more [x] hc⟩) ?_
    rintro s' ⟨hb', ⟨ht, hst⟩, hc'⟩
    have h1 := ih (N + 1) (setCount (s'.count + 1) s') (base_count hb' _) hst.2.2.1
      (by have : s'.stored ≤ N + 1 := by simpa [total] using ht
          exact this) hc' (by omega)
    rw [insertAll_count, bind_assoc'] at h1
    have hcnt : s'.count = s.count := hst.2.2.2
    have e : (setCount (s'.count + 1) s').count + xs.length = s.count + (xs.length + 1) := by
      rw [hcnt]; change s.count + 1 + xs.length = _; omega
    rw [e] at h1
    exact h1

/-- Within range, `add_buffer` is the same program as adding the items one by one. -/
theorem addBuffer_eq_addEach (hG : GoodFor G .default) (hn : n < 2 ^ 32) {N : Nat} {s : RCSketch K} (hb : Base s [])
    (hj : InR G k (bsize n k) N s []) (hs : s.stored ≤ N) (hcl : Climb 0 (bottom N) s []) (xs : List (Fl K)) (hN : N + xs.length ≤ n) (hg : ∀ y ∈ xs, G y) :
    s.addBuffer xs = s.addEach xs := by
  have hB2 := hb.hB
  have hne : s.bufferSize / 2 ≠ 0 := by omega
  have hfl := chunksAux_flatten (s.bufferSize / 2) hne xs.length xs (le_refl _)
  have h1 := batches_insertAll (n := n) (fast := false) hG (chunksAux (s.bufferSize / 2) xs.length xs)
    (chunksAux_ne_nil _ hne _ _) N s hb hj.hB hs hcl (by rw [hfl]; exact hN)
  rw [hfl] at h1
  have ha : Always (s.addBuffer xs) (fun _ => True) :=
    (execOp_always (.addBuffer xs) hG hn s hb hj hN hg).mono (fun _ _ => trivial)
  have he : ∀ (ys : List (Fl K)) (s : RCSketch K), s.addEach ys = s.execOps (ys.map InsOp.add) := by
    intro ys
    induction ys with
    | nil => intro s; rfl
    | cons y ys ih => intro s; rw [addEach, List.map_cons, execOps]; exact congrArg₂ _ rfl (funext fun s' => ih s')
  have hi : insItems (xs.map InsOp.add) = xs := by
    clear ha h1 hfl hN hg
    induction xs with
    | nil => rfl
    | cons y ys ih => simp only [insItems, List.map_cons, List.flatMap_cons, InsOp.items] at ih ⊢; rw [ih]; rfl
  have hb2 : Always (s.addEach xs) (fun _ => True) := by
    rw [he]
    refine (execOps_always (xs.map InsOp.add) ?_ hn N s hb hj (by rw [hi]; exact hN) (by rw [hi]; exact hg)).mono
      (fun _ _ => trivial)
    intro o ho
    obtain ⟨y, -, rfl⟩ := List.mem_map.1 ho
    exact hG
  rw [(addEach_insertAll (n := n) xs N s hb hj.hB hs hcl hN).eq_of_always hb2]
  have hstat : Partially (batches false .default (chunksAux (s.bufferSize / 2) xs.length xs) s)
      (fun s' => s'.count = s.count) := by
    have ht : HistInv (K := K) (fun _ _ => True) (fun _ _ _ => True) :=
      ⟨fun _ fast m _ => true_closed fast m, fun _ _ _ _ _ _ => trivial, fun _ _ _ _ => trivial⟩
    refine (batches_partially ht trivial s.inputLength s.k s.bufferSize s.count _ (chunksAux_ne_nil _ hne _ _) [] s hb trivial
      ⟨rfl, rfl, rfl, rfl⟩).mono ?_
    rintro s' ⟨-, -, h⟩
    exact h.2.2.2
  unfold addBuffer at ha ⊢
  rw [chunks, if_neg hne, bind_ret] at ha ⊢
  rw [always_bind] at ha
  rw [h1.eq_of_always ha] at hstat ⊢
  have key : ∀ (p : Prog (RCSketch K)), Partially p (fun s' => s'.count = s.count) →
      (p >>= fun s' => (pure { s' with count := s'.count + xs.length } : Prog (RCSketch K))) =
        p >>= fun s' => .ret (setCount (s.count + xs.length) s') := by
    intro p
    induction p with
    | ret a => intro h; have h : a.count = s.count := h
               change Prog.ret _ = Prog.ret _; rw [h]; rfl
    | fail e => intro _; rfl
    | flip f ih => intro h; rw [bind_flip, bind_flip]; congr 1; funext b; exact ih b (h b)
  exact key _ hstat

/-- The number of stored items never exceeds the number supplied. -/
theorem storedInv : HistInv (K := K) (fun _ _ => True) (fun l s P => total s P ≤ l.length) where
  closed l fast m _ := total_closed fast m l.length
  start l c s _ _ hj := by simp [total] at hj ⊢; exact hj
  cnt l s n hj := hj

end RCSketch
end AQ

/-
From the cascade rules to histories of insertion calls.
-/
import Verif.Proofs.RCWeight

set_option linter.unusedSectionVars false
set_option linter.unusedVariables false

namespace AQ
open Prog Spec
variable {K : Type} [Field K] [LinearOrder K] [IsStrictOrderedRing K] [FloatFmt K]

namespace RCSketch

/-- Parameters that no insertion step changes. -/
def Static (n k B c : Nat) (s : RCSketch K) : Prop := s.inputLength = n ∧ s.k = k ∧ s.bufferSize = B ∧ s.count = c

theorem static_ensure {n k B c : Nat} {s : RCSketch K} (h : Nat) (hs : Static n k B c s) : Static n k B c (s.ensureLevel h) := by
  unfold ensureLevel; split <;> exact hs

theorem compactRel_static {n k B c : Nat} {s : RCSketch K} {h : Nat} {fast : Bool} {m : CompactionMethod} {buf : List (Fl K)}
    {r : List (Fl K) × RCSketch K} (hs : Static n k B c s) (hr : CompactRel s h fast m buf r) : Static n k B c r.2 := by
  obtain ⟨ci, ctrs, out, -, -, -, -, rfl⟩ := hr; exact hs

theorem static_closed (fast : Bool) (m : CompactionMethod) (n k B c : Nat) :
    Closed (K := K) fast m (fun s _ => Static n k B c s) where
  ensure s h items rest _ hj _ := static_ensure h hj
  pop s h rest _ hj _ := hj
  push s h items rest buf _ hj _ _ := hj
  compact s h items rest buf n r _ hj _ _ _ hr := compactRel_static (s := s.setBuf h (buf ++ items.take n)) hj hr

theorem Closed.and {fast : Bool} {m : CompactionMethod} {J J' : RCSketch K → List (Frame K) → Prop}
    (h : Closed fast m J) (h' : Closed fast m J') : Closed fast m (fun s P => J s P ∧ J' s P) where
  ensure s h1 items rest hb hj hl := ⟨h.ensure s h1 items rest hb hj.1 hl, h'.ensure s h1 items rest hb hj.2 hl⟩
  pop s h1 rest hb hj hl := ⟨h.pop s h1 rest hb hj.1 hl, h'.pop s h1 rest hb hj.2 hl⟩
  push s h1 items rest buf hb hj hg hl := ⟨h.push s h1 items rest buf hb hj.1 hg hl, h'.push s h1 items rest buf hb hj.2 hg hl⟩
  compact s h1 items rest buf n r hb hj hg hn hl hr :=
    ⟨h.compact s h1 items rest buf n r hb hj.1 hg hn hl hr, h'.compact s h1 items rest buf n r hb hj.2 hg hn hl hr⟩

/-- A history-level invariant: `J l s P` speaks about the items `l` supplied so far (including those in `P`). -/
structure HistInv (ok : Bool → CompactionMethod → Prop) (J : List (Fl K) → RCSketch K → List (Frame K) → Prop) : Prop where
  closed : ∀ l fast m, ok fast m → Closed fast m (J l)
  start : ∀ l c s, c ≠ [] → Base s [] → J l s [] → J (l ++ c) s [⟨0, c⟩]
  cnt : ∀ l s n, J l s [] → J l { s with count := n } []

theorem base_start {s : RCSketch K} (hb : Base s []) (c : List (Fl K)) : Base s [⟨0, c⟩] :=
  ⟨hb.hk, hb.hB, hb.hc, hb.hg, hb.hlt, by intro f hf; simp at hf; subst hf; simp, by simp⟩

theorem base_count {s : RCSketch K} (hb : Base s []) (n : Nat) : Base { s with count := n } [] :=
  ⟨hb.hk, hb.hB, hb.hc, hb.hg, hb.hlt, by simp, by simp⟩

variable {ok : Bool → CompactionMethod → Prop} {J : List (Fl K) → RCSketch K → List (Frame K) → Prop}

theorem batches_partially (hi : HistInv ok J) {fast : Bool} {m : CompactionMethod} (hok : ok fast m)
    (n k B c : Nat) (cs : List (List (Fl K))) (hcs : ∀ a ∈ cs, a ≠ []) : ∀ (l : List (Fl K)) (s : RCSketch K),
      Base s [] → J l s [] → Static n k B c s →
      Partially (batches fast m cs s) (fun s' => Base s' [] ∧ J (l ++ cs.flatten) s' [] ∧ Static n k B c s') := by
  induction cs with
  | nil => intro l s hb hj hst; simpa [batches] using ⟨hb, hj, hst⟩
  | cons a cs ih =>
    intro l s hb hj hst
    rw [batches, partially_bind]
    refine ((batch_partially ((hi.closed (l ++ a) fast m hok).and (static_closed fast m n k B c)) _).1 s 0 a []
      (base_start hb a) ⟨hi.start l a s (hcs a (by simp)) hb hj, hst⟩).mono ?_
    rintro s' ⟨hb', -, hj', hst'⟩
    have := ih (fun a ha => hcs a (by simp [ha])) (l ++ a) s' hb' hj' hst'
    simpa [List.append_assoc] using this

theorem addBufferCustom_partially (hi : HistInv ok J) {fast : Bool} {m : CompactionMethod} (hok : ok fast m)
    (n k B c : Nat) (xs : List (Fl K)) (l : List (Fl K)) (s : RCSketch K) (hb : Base s []) (hj : J l s [])
    (hst : Static n k B c s) :
    Partially (s.addBufferCustom xs fast m)
      (fun s' => Base s' [] ∧ J (l ++ xs) s' [] ∧ Static n k B (c + xs.length) s') := by
  unfold addBufferCustom
  rw [partially_bind]
  unfold chunks
  split
  · simp
  · rename_i hne
    rw [partially_ret, partially_bind]
    refine (batches_partially hi hok n k B c _ (chunksAux_ne_nil _ hne _ _) l s hb hj hst).mono ?_
    rintro s' ⟨hb', hj', hst'⟩
    rw [chunksAux_flatten _ hne _ _ (le_refl _)] at hj'
    refine ⟨base_count hb' _, hi.cnt _ _ _ hj', ?_⟩
    obtain ⟨h1, h2, h3, h4⟩ := hst'
    exact ⟨h1, h2, h3, by simp [h4]⟩

theorem add_partially (hi : HistInv ok J) (hok : ok false .default)
    (n k B c : Nat) (x : Fl K) (l : List (Fl K)) (s : RCSketch K) (hb : Base s []) (hj : J l s [])
    (hst : Static n k B c s) :
    Partially (s.add x) (fun s' => Base s' [] ∧ J (l ++ [x]) s' [] ∧ Static n k B (c + 1) s') := by
  unfold add
  rw [partially_bind]
  refine (insertAt_partially ((hi.closed (l ++ [x]) false .default hok).and (static_closed false .default n k B c)) _ s 0 x []
    (base_start hb [x]) ⟨hi.start l [x] s (by simp) hb hj, hst⟩).mono ?_
  rintro s' ⟨hb', hj', hst'⟩
  refine ⟨base_count hb' _, hi.cnt _ _ _ hj', ?_⟩
  obtain ⟨h1, h2, h3, h4⟩ := hst'
  exact ⟨h1, h2, h3, by simp [h4]⟩

theorem execOp_partially (hi : HistInv ok J) (o : InsOp K) (hok : ok o.fast o.method)
    (n k B c : Nat) (l : List (Fl K)) (s : RCSketch K) (hb : Base s []) (hj : J l s []) (hst : Static n k B c s) :
    Partially (s.execOp o) (fun s' => Base s' [] ∧ J (l ++ o.items) s' [] ∧ Static n k B (c + o.items.length) s') := by
  cases o with
  | add x => exact add_partially hi hok n k B c x l s hb hj hst
  | addBuffer xs => exact addBufferCustom_partially (fast := false) (m := .default) hi hok n k B c xs l s hb hj hst
  | addBufferFast xs => exact addBufferCustom_partially hi hok n k B c xs l s hb hj hst
  | addBufferCustom xs fast m => exact addBufferCustom_partially hi hok n k B c xs l s hb hj hst

theorem execOps_partially (hi : HistInv ok J) (ops : List (InsOp K)) (hok : ∀ o ∈ ops, ok o.fast o.method)
    (n k B : Nat) : ∀ (c : Nat) (l : List (Fl K)) (s : RCSketch K), Base s [] → J l s [] → Static n k B c s →
    Partially (s.execOps ops) (fun s' => Base s' [] ∧ J (l ++ insItems ops) s' [] ∧
      Static n k B (c + (insItems ops).length) s') := by
  induction ops with
  | nil => intro c l s hb hj hst; simpa [execOps, insItems] using ⟨hb, hj, hst⟩
  | cons o os ih =>
    intro c l s hb hj hst
    rw [execOps, partially_bind]
    refine (execOp_partially hi o (hok o (by simp)) n k B c l s hb hj hst).mono ?_
    rintro s' ⟨hb', hj', hst'⟩
    have := ih (fun o ho => hok o (by simp [ho])) _ _ s' hb' hj' hst'
    refine this.mono ?_
    intro s'' h
    simpa [insItems, List.append_assoc, Nat.add_assoc] using h

/-- The buffer size computed by the code for `k ≥ 1`. -/
def bsize (n k : Nat) : Nat := max (2 * k * Nat.clog 2 (n / k)) (2 * k)

/-- A freshly created sketch. -/
def fresh (n k : Nat) : RCSketch K :=
  { buffers := [], inputLength := n, k := k, bufferSize := bsize n k, count := 0, counters := [], compactions := [],
    log := [] }

theorem new_eq {n k : Nat} (hk : k ≠ 0) : (new n k : Prog (RCSketch K)) = .ret (fresh n k) := by
  simp [new, calcBufferSize, hk, fresh, bsize]

theorem bsize_ge (n k : Nat) : 2 * k ≤ bsize n k := le_max_right _ _

theorem base_fresh {n k : Nat} (hk : k ≠ 0) : Base (fresh n k : RCSketch K) [] := by
  have := bsize_ge n k
  refine ⟨?_, ?_, rfl, rfl, by simp [fresh], by simp, by simp⟩
  · simp only [fresh]; omega
  · simp only [fresh]; omega

/-- History rule (partial correctness). -/
theorem hist_partially (hi : HistInv ok J) (n k : Nat) (ops : List (InsOp K)) (hok : ∀ o ∈ ops, ok o.fast o.method)
    (hinit : k ≠ 0 → J [] (fresh n k) []) :
    Partially (runHist n k ops) (fun s => k ≠ 0 ∧ Base s [] ∧ J (insItems ops) s [] ∧
      Static n k (bsize n k) (insItems ops).length s) := by
  unfold runHist
  by_cases hk : k = 0
  · subst hk; simp [new, calcBufferSize]
  · rw [new_eq hk, bind_ret]
    have := execOps_partially hi ops hok n k (bsize n k) 0 [] (fresh n k) (base_fresh hk) (hinit hk) ⟨rfl, rfl, rfl, rfl⟩
    refine this.mono ?_
    rintro s ⟨h1, h2, h3⟩
    exact ⟨hk, h1, by simpa using h2, by simpa using h3⟩

end RCSketch
end AQ

/-
History rules for `RCSketch2`: partial correctness, no-panic, supermartingales.
-/
import Verif.Proofs.RC2
import Verif.Proofs.RCExp

set_option linter.unusedSectionVars false
set_option linter.unusedVariables false

namespace AQ
open Prog Spec
variable {K : Type} [Field K] [LinearOrder K] [IsStrictOrderedRing K] [FloatFmt K]

namespace RCSketch2
open RCSketch (everyOther_length_eq averagePairs_length everyOther_rank everyOther_sum GoodFor)
variable {sec : Nat → Nat} {fast : Bool} {m : CompactionMethod}

/-- `self.buffers[0].extend(xs)`. -/
def pushLv : List (Level2 K) → List (Fl K) → List (Level2 K)
  | [], _ => []
  | l :: ls, xs => { l with buf := l.buf ++ xs } :: ls

theorem pushAll_eq {s : RCSketch2 K} (h : s.levels ≠ []) (xs : List (Fl K)) :
    pushAll s xs = .ret { s with levels := pushLv s.levels xs, sketchSize := s.sketchSize + xs.length } := by
  unfold pushAll
  cases hl : s.levels with
  | nil => exact absurd hl h
  | cons l ls => rfl

theorem lens_push {ls : List (Level2 K)} (h : ls ≠ []) (xs : List (Fl K)) : lens (pushLv ls xs) = lens ls + xs.length := by
  cases ls with
  | nil => exact absurd rfl h
  | cons l ls => simp only [pushLv, lens, List.map_cons, List.sum_cons, List.length_append]; omega

theorem caps_push (ls : List (Level2 K)) (xs : List (Fl K)) : caps sec (pushLv ls xs) = caps sec ls := by
  cases ls with
  | nil => rfl
  | cons l ls => rfl

theorem push_ne {ls : List (Level2 K)} (h : ls ≠ []) (xs : List (Fl K)) : pushLv ls xs ≠ [] := by
  cases ls with
  | nil => exact absurd rfl h
  | cons l ls => simp [pushLv]

/-! ### Partial correctness -/

/-- Bookkeeping that holds between calls for any section sizes. -/
structure Book (k n : Nat) (s : RCSketch2 K) : Prop where
  size : s.sketchSize = lens s.levels
  ne : s.levels ≠ []
  hk : s.k = k
  hn : s.count = n

/-- An invariant relating the items pushed so far and the levels. -/
structure Hist2 (sec : Nat → Nat) (ok : Bool → CompactionMethod → Prop) (I : List (Fl K) → List (Level2 K) → Prop) : Prop where
  push : ∀ l ls xs, I l ls → I (l ++ xs) (pushLv ls xs)
  comp : ∀ l ls size fast m, ok fast m → I l ls → Partially (compressFrom sec fast m size none ls) (fun r => I l r.2)

theorem compress_ne (ls : List (Level2 K)) (size : Nat) :
    Partially (compressFrom sec fast m size none ls) (fun r => ls ≠ [] → r.2 ≠ []) :=
  compress_rule (P := fun _ _ ls _ ls' => ls ≠ [] → ls' ≠ []) (by simp) (by simp) (by simp) (by simp) ls size none

variable {I : List (Fl K) → List (Level2 K) → Prop} {ok : Bool → CompactionMethod → Prop} {k : Nat}

theorem compressIfFull_partially (hi : Hist2 sec ok I) (hok : ok fast m) {n : Nat} {l : List (Fl K)} {s : RCSketch2 K}
    (hb : Book k n s) (h : I l s.levels) :
    Partially (compressIfFull sec fast m s) (fun s' => Book k n s' ∧ I l s'.levels) := by
  unfold compressIfFull
  split
  · unfold compress
    rw [partially_bind]
    refine (((hi.comp l s.levels s.sketchSize fast m hok h).and (compress_ne _ _)).and (compressFrom_size _ _ _)).mono ?_
    rintro r ⟨⟨h1, h2⟩, h3⟩
    refine ⟨⟨?_, h2 hb.ne, hb.hk, hb.hn⟩, h1⟩
    have := hb.size
    rw [ext_none] at h3
    simp only; omega
  · exact ⟨hb, h⟩

theorem insert_partially (hi : Hist2 sec ok I) (hok : ok fast m) {n : Nat} {l : List (Fl K)} {s : RCSketch2 K}
    (hb : Book k n s) (h : I l s.levels) (xs : List (Fl K)) :
    Partially (pushAll s xs >>= compressIfFull sec fast m) (fun s' => Book k n s' ∧ I (l ++ xs) s'.levels) := by
  rw [pushAll_eq hb.ne, bind_ret]
  refine compressIfFull_partially hi hok ⟨?_, push_ne hb.ne xs, hb.hk, hb.hn⟩ (hi.push l _ xs h)
  rw [lens_push hb.ne, ← hb.size]

theorem insertBatchLoop_partially (hi : Hist2 sec ok I) (hok : ok fast m) {n : Nat} (f : Nat) : ∀ (xs l : List (Fl K))
    (s : RCSketch2 K), Book k n s → I l s.levels →
    Partially (insertBatchLoop sec fast m f xs s) (fun s' => Book k n s' ∧ I (l ++ xs) s'.levels) := by
  induction f with
  | zero =>
    intro xs l s hb h
    cases xs with
    | nil => simpa [insertBatchLoop] using ⟨hb, h⟩
    | cons x xs => simp [insertBatchLoop]
  | succ f ih =>
    intro xs l s hb h
    cases xs with
    | nil => simpa [insertBatchLoop] using ⟨hb, h⟩
    | cons x xs =>
      rw [insertBatchLoop]
      split
      · rw [← bind_assoc', partially_bind]
        refine (insert_partially hi hok hb h _).mono ?_
        rintro s' ⟨hb', h'⟩
        have := ih ((x :: xs).drop (capacity sec s - s.sketchSize)) _ s' hb' h'
        rw [List.append_assoc, List.take_append_drop] at this
        exact this
      · simp

theorem addBufferCustom_partially (hi : Hist2 sec ok I) (xs : List (Fl K)) (hok : ok fast m) {n : Nat} {l : List (Fl K)}
    {s : RCSketch2 K} (hb : Book k n s) (h : I l s.levels) :
    Partially (s.addBufferCustom sec xs fast m) (fun s' => Book k (n + xs.length) s' ∧ I (l ++ xs) s'.levels) := by
  unfold addBufferCustom insertBatch
  rw [partially_bind]
  refine (insertBatchLoop_partially hi hok _ xs l s hb h).mono ?_
  rintro s' ⟨hb', h'⟩
  exact ⟨⟨hb'.size, hb'.ne, hb'.hk, by simp [hb'.hn]⟩, h'⟩

theorem execOp_partially (hi : Hist2 sec ok I) (o : InsOp K) (hok : ok o.fast o.method) {n : Nat} {l : List (Fl K)}
    {s : RCSketch2 K} (hb : Book k n s) (h : I l s.levels) :
    Partially (s.execOp sec o) (fun s' => Book k (n + o.items.length) s' ∧ I (l ++ o.items) s'.levels) := by
  cases o with
  | add x =>
    change Partially (add sec s x) _
    unfold add insert
    rw [partially_bind]
    refine (insert_partially hi hok hb h [x]).mono ?_
    rintro s' ⟨hb', h'⟩
    exact ⟨⟨hb'.size, hb'.ne, hb'.hk, by simp [hb'.hn, InsOp.items]⟩, h'⟩
  | addBuffer xs => exact addBufferCustom_partially hi xs hok hb h
  | addBufferFast xs => exact addBufferCustom_partially hi xs hok hb h
  | addBufferCustom xs fast m => exact addBufferCustom_partially hi xs hok hb h

theorem execOps_partially (hi : Hist2 sec ok I) (ops : List (InsOp K)) (hok : ∀ o ∈ ops, ok o.fast o.method) :
    ∀ (n : Nat) (l : List (Fl K)) (s : RCSketch2 K), Book k n s → I l s.levels →
    Partially (s.execOps sec ops) (fun s' => Book k (n + (insItems ops).length) s' ∧ I (l ++ insItems ops) s'.levels) := by
  induction ops with
  | nil => intro n l s hb h; simpa [execOps, insItems] using ⟨hb, h⟩
  | cons o ops ih =>
    intro n l s hb h
    rw [execOps, partially_bind]
    refine (execOp_partially hi o (hok o (by simp)) hb h).mono ?_
    rintro s' ⟨hb', h'⟩
    have := ih (fun o ho => hok o (by simp [ho])) _ _ s' hb' h'
    simpa [insItems, Nat.add_assoc] using this

/-- History rule. -/
theorem hist2_partially (hi : Hist2 sec ok I) (k : Nat) (ops : List (InsOp K)) (hok : ∀ o ∈ ops, ok o.fast o.method)
    (h0 : I [] [newLevel []]) :
    Partially (runHist sec k ops) (fun s => Book k (insItems ops).length s ∧ I (insItems ops) s.levels) := by
  have := execOps_partially (k := k) hi ops hok 0 [] (new k) ⟨by simp [new, lens, newLevel], by simp [new], rfl, rfl⟩ h0
  simpa [runHist] using this

/-! ### No panics, capacity -/

/-- Between calls: level bookkeeping, flow, fewer items than capacity. -/
structure Core (sec : Nat → Nat) (N : Nat) (s : RCSketch2 K) : Prop where
  lvl : ∀ l ∈ s.levels, LvlOK l
  flow : Flow2 N s.levels
  size : s.sketchSize = lens s.levels
  ne : s.levels ≠ []

theorem core_new (k : Nat) : Core sec 0 (new k : RCSketch2 K) :=
  ⟨by intro l hl; simp [new] at hl; subst hl; exact lvlOK_new _,
   ⟨0, by simp [newLevel], by simp [newLevel], trivial⟩, by simp [new, lens, newLevel], by simp [new]⟩

theorem core_push {N : Nat} {s : RCSketch2 K} (h : Core sec N s) (xs : List (Fl K)) :
    Core sec (N + xs.length) { s with levels := pushLv s.levels xs, sketchSize := s.sketchSize + xs.length } := by
  obtain ⟨h1, h2, h3, h4⟩ := h
  refine ⟨?_, ?_, ?_, push_ne h4 xs⟩
  · cases hl : s.levels with
    | nil => exact absurd hl h4
    | cons l ls =>
      intro l' hl'
      simp only [pushLv, List.mem_cons] at hl'
      rcases hl' with rfl | hl'
      · have := h1 l (by simp [hl]); exact ⟨this.ctr, this.sec, this.div, this.c32⟩
      · exact h1 l' (by simp [hl, hl'])
  · cases hl : s.levels with
    | nil => exact absurd hl h4
    | cons l ls =>
      rw [hl] at h2
      obtain ⟨r, f1, f2, f3⟩ := h2
      exact ⟨r, by simp only [List.length_append]; omega, f2, f3⟩
  · rw [lens_push h4, ← h3]

theorem lens_lt_caps {ls : List (Level2 K)} (hne : ls ≠ []) (h : ∀ l ∈ ls, l.buf.length < cap sec l) : lens ls < caps sec ls := by
  induction ls with
  | nil => exact absurd rfl hne
  | cons l ls ih =>
    have h1 := h l (by simp)
    simp only [lens, caps, List.map_cons, List.sum_cons] at ih ⊢
    cases ls with
    | nil => simpa using h1
    | cons a b =>
      have := ih (by simp) (fun l hl => h l (by simp [hl]))
      omega

theorem compressIfFull_core (hs : SecOK sec) {N : Nat} {s : RCSketch2 K} (h : Core sec N s) (hle : lens s.levels ≤ caps sec s.levels) :
    Partially (compressIfFull sec fast m s) (fun s' => Core sec N s' ∧ lens s'.levels < caps sec s'.levels) := by
  unfold compressIfFull capacity
  split
  · unfold compress
    rw [partially_bind]
    refine ((compressFrom_levels (fast := fast) (m := m) hs s.levels s.sketchSize none N (by simpa using h.lvl)
      (by simpa using h.flow)).and (compressFrom_size _ _ _)).mono ?_
    rintro r ⟨⟨h1, h2, h3, h4, h5, h6⟩, h7⟩
    rw [ext_none] at h3 h4 h6 h7
    have hsz := h.size
    refine ⟨⟨h1, h2, by simp only; omega, h5 h.ne⟩, ?_⟩
    rcases h6 (by simp) with h6 | h6
    · simp only; omega
    · exact lens_lt_caps (h5 h.ne) h6
  · rename_i hn
    have : (s.levels.map (cap sec)).sum = caps sec s.levels := rfl
    exact ⟨h, by have := h.size; omega⟩

theorem compressIfFull_always (hs : SecOK sec) {G : Fl K → Prop} (hG : GoodFor G m) {N : Nat} {s : RCSketch2 K} (h : Core sec N s)
    (hN : N < 2 ^ 32) (hg : ∀ l ∈ s.levels, ∀ y ∈ l.buf, G y) :
    Always (compressIfFull sec fast m s) (fun _ => True) := by
  unfold compressIfFull
  split
  · unfold compress
    rw [always_bind]
    refine (compressFrom_always hs hG s.levels s.sketchSize N none ?_).mono (fun _ _ => trivial)
    rw [ext_none]
    exact ⟨hg, h.lvl, h.flow, le_of_eq h.size.symm, hN⟩
  · trivial

/-- The items stay in a class `G` preserved by the compaction method. -/
theorem compressFrom_pres {G : Fl K → Prop} (hG : RCSketch.Pres G m) (ls : List (Level2 K)) (size : Nat)
    (h : ∀ l ∈ ls, ∀ y ∈ l.buf, G y) :
    Partially (compressFrom sec fast m size none ls) (fun r => ∀ l ∈ r.2, ∀ y ∈ l.buf, G y) :=
  (compressFrom_rank (g := fun _ => 0) ⟨rfl, fun _ _ => rfl, fun _ _ _ => rfl⟩
    (A := G) (fun u out h1 h2 h3 => ⟨hG u out h1 h2 h3, by omega, by omega⟩) ls size none (by simpa using h)).mono
    (fun r hr => hr.1)

theorem push_good {G : Fl K → Prop} {ls : List (Level2 K)} {xs : List (Fl K)} (h : ∀ l ∈ ls, ∀ y ∈ l.buf, G y)
    (hx : ∀ y ∈ xs, G y) : ∀ l ∈ pushLv ls xs, ∀ y ∈ l.buf, G y := by
  cases ls with
  | nil => simp [pushLv]
  | cons l ls =>
    intro l' hl' y hy
    simp only [pushLv, List.mem_cons] at hl'
    rcases hl' with rfl | hl'
    · simp only [List.mem_append] at hy
      rcases hy with hy | hy
      · exact h l (by simp) y hy
      · exact hx y hy
    · exact h l' (by simp [hl']) y hy

theorem insertBatchLoop_core (hs : SecOK sec) (f : Nat) : ∀ (xs : List (Fl K)) (N : Nat)
    (s : RCSketch2 K), Core sec N s → lens s.levels < caps sec s.levels →
    Partially (insertBatchLoop sec fast m f xs s) (fun s' => Core sec (N + xs.length) s' ∧ lens s'.levels < caps sec s'.levels) := by
  induction f with
  | zero =>
    intro xs N s hc hlt
    cases xs with
    | nil => simpa [insertBatchLoop] using ⟨hc, hlt⟩
    | cons x xs => simp [insertBatchLoop]
  | succ f ih =>
    intro xs N s hc hlt
    cases xs with
    | nil => simpa [insertBatchLoop] using ⟨hc, hlt⟩
    | cons x xs =>
      rw [insertBatchLoop]
      split
      · rw [pushAll_eq hc.ne, bind_ret, partially_bind]
        refine (compressIfFull_core hs (core_push hc _) ?_).mono ?_
        · simp only [lens_push hc.ne, caps_push]
          have h1 := hc.size
          have h2 : capacity sec s = caps sec s.levels := rfl
          rw [List.length_take]; omega
        · rintro s' ⟨h1, h2⟩
          have := ih ((x :: xs).drop (capacity sec s - s.sketchSize)) _ s' h1 h2
          have e : N + ((x :: xs).take (capacity sec s - s.sketchSize)).length +
              ((x :: xs).drop (capacity sec s - s.sketchSize)).length = N + (x :: xs).length := by
            rw [List.length_take, List.length_drop]; omega
          rwa [e] at this
      · simp

theorem insertBatchLoop_always (hs : SecOK sec) {G : Fl K → Prop} (hG : GoodFor G m) (f : Nat) : ∀ (xs : List (Fl K)) (N : Nat)
    (s : RCSketch2 K), xs.length ≤ f → N + xs.length < 2 ^ 32 → (∀ y ∈ xs, G y) → (∀ l ∈ s.levels, ∀ y ∈ l.buf, G y) →
    Core sec N s → lens s.levels < caps sec s.levels →
    Always (insertBatchLoop sec fast m f xs s) (fun _ => True) := by
  induction f with
  | zero =>
    intro xs N s hf hN hx hg hc hlt
    cases xs with
    | nil => simp [insertBatchLoop]
    | cons x xs => simp at hf
  | succ f ih =>
    intro xs N s hf hN hx hg hc hlt
    cases xs with
    | nil => simp [insertBatchLoop]
    | cons x xs =>
      have hsz := hc.size
      have hcap : capacity sec s = caps sec s.levels := rfl
      rw [insertBatchLoop, if_pos (by omega), pushAll_eq hc.ne, bind_ret, always_bind]
      have hcp := core_push hc ((x :: xs).take (capacity sec s - s.sketchSize))
      have hgp : ∀ l ∈ pushLv s.levels ((x :: xs).take (capacity sec s - s.sketchSize)), ∀ y ∈ l.buf, G y :=
        push_good hg (fun y hy => hx y (List.mem_of_mem_take hy))
      have hlen : ((x :: xs).take (capacity sec s - s.sketchSize)).length ≤ (x :: xs).length := List.length_take_le' _ _
      have hpres : Partially (compressIfFull sec fast m
          { s with levels := pushLv s.levels ((x :: xs).take (capacity sec s - s.sketchSize)),
                   sketchSize := s.sketchSize + ((x :: xs).take (capacity sec s - s.sketchSize)).length })
          (fun s' => ∀ l ∈ s'.levels, ∀ y ∈ l.buf, G y) := by
        unfold compressIfFull
        split
        · unfold compress
          rw [partially_bind]
          exact (compressFrom_pres hG.2 _ _ hgp).mono (fun r hr => hr)
        · exact hgp
      refine ((compressIfFull_always hs hG hcp (by omega) hgp).and ((compressIfFull_core hs hcp ?_).and hpres)).mono ?_
      · simp only [lens_push hc.ne, caps_push]
        rw [List.length_take]; omega
      · rintro s' ⟨-, ⟨h1, h2⟩, h3⟩
        refine ih _ _ s' ?_ ?_ (fun y hy => hx y (List.mem_of_mem_drop hy)) h3 h1 h2
        · rw [List.length_drop]; simp only [List.length_cons] at hf ⊢; omega
        · rw [List.length_drop, List.length_take]; omega

/-- `add` is the one-item batch (a sketch below capacity). -/
theorem insert_eq_batch {s : RCSketch2 K} (hsz : s.sketchSize = lens s.levels) (hc : lens s.levels < caps sec s.levels)
    (x : Fl K) : insert sec fast m x s = insertBatch sec fast m [x] s := by
  have hcap : capacity sec s = caps sec s.levels := rfl
  have e1 : [x].take (capacity sec s - s.sketchSize) = [x] := List.take_of_length_le (by simp; omega)
  have e2 : [x].drop (capacity sec s - s.sketchSize) = [] := List.drop_eq_nil_of_le (by simp; omega)
  unfold insertBatch
  rw [List.length_singleton, insertBatchLoop, if_pos (by omega), e1, e2]
  simp only [insertBatchLoop, bind_ret_right]
  rfl

/-- Every insertion call is `add_buffer_custom` with its items. -/
theorem execOp_eq {s : RCSketch2 K} (hsz : s.sketchSize = lens s.levels) (hc : lens s.levels < caps sec s.levels)
    (o : InsOp K) : s.execOp sec o = s.addBufferCustom sec o.items o.fast o.method := by
  cases o with
  | add x => 
    change add sec s x = _
    unfold add addBufferCustom
    rw [insert_eq_batch hsz hc]; rfl
  | addBuffer xs => rfl
  | addBufferFast xs => rfl
  | addBufferCustom xs fast m => rfl

theorem caps_new (hs : SecOK sec) (k : Nat) : lens (new k : RCSketch2 K).levels < caps sec (new k : RCSketch2 K).levels := by
  have := cap_pos hs (lvlOK_new ([] : List (Fl K)))
  simp only [new, lens, caps, newLevel, List.map_cons, List.sum_cons, List.map_nil, List.sum_nil, List.length_nil] at this ⊢
  omega

theorem execOps_core (hs : SecOK sec) (ops : List (InsOp K)) : ∀ (N : Nat) (s : RCSketch2 K), Core sec N s →
    lens s.levels < caps sec s.levels → Partially (s.execOps sec ops) (fun s' => Core sec (N + (insItems ops).length) s' ∧
      lens s'.levels < caps sec s'.levels) := by
  induction ops with
  | nil => intro N s hc hlt; simpa [execOps, insItems] using ⟨hc, hlt⟩
  | cons o ops ih =>
    intro N s hc hlt
    rw [execOps, execOp_eq hc.size hlt]
    unfold addBufferCustom insertBatch
    rw [bind_assoc', partially_bind]
    refine (insertBatchLoop_core hs _ o.items N s hc hlt).mono ?_
    rintro s' ⟨h1, h2⟩
    rw [bind_ret]
    have := ih _ { s' with count := s'.count + o.items.length } ⟨h1.lvl, h1.flow, h1.size, h1.ne⟩ h2
    simpa [insItems, Nat.add_assoc] using this

/-- Capacity and level bookkeeping after every history. -/
theorem hist2_core (hs : SecOK sec) (k : Nat) (ops : List (InsOp K)) :
    Partially (runHist sec k ops) (fun s => Core sec (insItems ops).length s ∧ lens s.levels < caps sec s.levels) := by
  have := execOps_core hs ops 0 (new k) (core_new k) (caps_new hs k)
  simpa [runHist] using this

theorem pres_hist {G : Fl K → Prop} : Hist2 sec (fun _ m => RCSketch.Pres G m)
    (fun (l : List (Fl K)) ls => (∀ y ∈ l, G y) → ∀ lv ∈ ls, ∀ y ∈ lv.buf, G y) where
  push l ls xs h hl := push_good (h (fun y hy => hl y (by simp [hy]))) (fun y hy => hl y (by simp [hy]))
  comp l ls size fast m hm h := by
    by_cases hl : ∀ y ∈ l, G y
    · exact (compressFrom_pres hm ls size (h hl)).mono (fun r hr _ => hr)
    · exact (partially_true _).mono (fun r _ h => absurd h hl)

theorem execOps_always (hs : SecOK sec) {G : Fl K → Prop} (ops : List (InsOp K)) (hG : ∀ o ∈ ops, GoodFor G o.method) :
    ∀ (N : Nat) (l : List (Fl K)) (s : RCSketch2 K), N + (insItems ops).length < 2 ^ 32 → (∀ y ∈ insItems ops, G y) →
    (∀ l ∈ s.levels, ∀ y ∈ l.buf, G y) → Core sec N s →
    lens s.levels < caps sec s.levels → Always (s.execOps sec ops) (fun _ => True) := by
  induction ops with
  | nil => intro N l s _ _ _ hc hlt; simp [execOps]
  | cons o ops ih =>
    intro N l s hN hx hg hc hlt
    have hlen : (insItems (o :: ops)).length = o.items.length + (insItems ops).length := by simp [insItems]
    have hmem : ∀ y ∈ o.items, G y := fun y hy => hx y (by simp [insItems, hy])
    rw [execOps, execOp_eq hc.size hlt]
    unfold addBufferCustom insertBatch
    rw [bind_assoc', always_bind]
    have hp := insertBatchLoop_partially (k := s.k) (n := s.count) (sec := sec) (fast := o.fast) (m := o.method)
      (pres_hist (G := G)) (hG o (by simp)).2 o.items.length o.items [] s ⟨hc.size, hc.ne, rfl, rfl⟩ (fun _ => hg)
    refine ((insertBatchLoop_always hs (hG o (by simp)) _ o.items N s (le_refl _) (by omega) hmem hg hc hlt).and
      ((insertBatchLoop_core hs _ o.items N s hc hlt).and hp)).mono ?_
    rintro s' ⟨-, ⟨h1, h2⟩, -, h3⟩
    rw [bind_ret]
    exact ih (fun o ho => hG o (by simp [ho])) _ l { s' with count := s'.count + o.items.length } (by omega)
      (fun y hy => hx y (by simp only [insItems, List.flatMap_cons, List.mem_append] at hy ⊢; exact Or.inr hy)) 
      (h3 (by simpa using hmem)) ⟨h1.lvl, h1.flow, h1.size, h1.ne⟩ h2

/-- No history of insertions panics. -/
theorem hist2_always (hs : SecOK sec) {G : Fl K → Prop} (k : Nat) (ops : List (InsOp K)) (hG : ∀ o ∈ ops, GoodFor G o.method)
    (hN : (insItems ops).length < 2 ^ 32) (hx : ∀ y ∈ insItems ops, G y) : Always (runHist sec k ops) (fun _ => True) :=
  execOps_always hs ops hG 0 [] (new k) (by omega) hx (by intro l hl; simp [new] at hl; subst hl; simp [newLevel]) (core_new k)
    (caps_new hs k)

/-! ### Supermartingales over histories -/

/-- A potential that pushing leaves unchanged and compressing does not increase in expectation. -/
structure Super2 (sec : Nat → Nat) (G : Fl K → Prop) (ok : Bool → CompactionMethod → Prop)
    (Φ : List (Fl K) → List (Level2 K) → ℚ) : Prop where
  good : ∀ fast m, ok fast m → GoodFor G m
  push : ∀ l ls xs, ls ≠ [] → Φ (l ++ xs) (pushLv ls xs) ≤ Φ l ls
  comp : ∀ l ls size N fast m, ok fast m → Ok G size N ls →
    exp (compressFrom sec fast m size none ls) (fun r => Φ l r.2) ≤ Φ l ls

variable {G : Fl K → Prop} {Φ : List (Fl K) → List (Level2 K) → ℚ}

theorem compressIfFull_exp (hs : SecOK sec) (h2 : Super2 sec G ok Φ) (hok : ok fast m) {N : Nat} {s : RCSketch2 K}
    (h : Core sec N s) (hN : N < 2 ^ 32) (hg : ∀ l ∈ s.levels, ∀ y ∈ l.buf, G y) (l : List (Fl K)) :
    exp (compressIfFull sec fast m s) (fun s' => Φ l s'.levels) ≤ Φ l s.levels := by
  unfold compressIfFull
  split
  · unfold compress
    rw [exp_bind]
    exact h2.comp l s.levels s.sketchSize N fast m hok ⟨hg, h.lvl, h.flow, le_of_eq h.size.symm, hN⟩
  · simp

theorem insertBatchLoop_exp (hs : SecOK sec) (h2 : Super2 sec G ok Φ) (hok : ok fast m) (f : Nat) :
    ∀ (xs l : List (Fl K)) (N : Nat) (s : RCSketch2 K), xs.length ≤ f → N + xs.length < 2 ^ 32 → (∀ y ∈ xs, G y) →
    (∀ l ∈ s.levels, ∀ y ∈ l.buf, G y) → Core sec N s → lens s.levels < caps sec s.levels →
    exp (insertBatchLoop sec fast m f xs s) (fun s' => Φ (l ++ xs) s'.levels) ≤ Φ l s.levels := by
  have hG := h2.good fast m hok
  induction f with
  | zero =>
    intro xs l N s hf hN hx hg hc hlt
    cases xs with
    | nil => simp [insertBatchLoop]
    | cons x xs => simp at hf
  | succ f ih =>
    intro xs l N s hf hN hx hg hc hlt
    cases xs with
    | nil => simp [insertBatchLoop]
    | cons x xs =>
      have hsz := hc.size
      have hcap : capacity sec s = caps sec s.levels := rfl
      rw [insertBatchLoop, if_pos (by omega), pushAll_eq hc.ne, bind_ret, exp_bind]
      have hcp := core_push hc ((x :: xs).take (capacity sec s - s.sketchSize))
      have hgp : ∀ l ∈ pushLv s.levels ((x :: xs).take (capacity sec s - s.sketchSize)), ∀ y ∈ l.buf, G y :=
        push_good hg (fun y hy => hx y (List.mem_of_mem_take hy))
      have hlen : ((x :: xs).take (capacity sec s - s.sketchSize)).length ≤ (x :: xs).length := List.length_take_le' _ _
      have hpres : Partially (compressIfFull sec fast m
          { s with levels := pushLv s.levels ((x :: xs).take (capacity sec s - s.sketchSize)),
                   sketchSize := s.sketchSize + ((x :: xs).take (capacity sec s - s.sketchSize)).length })
          (fun s' => ∀ l ∈ s'.levels, ∀ y ∈ l.buf, G y) := by
        unfold compressIfFull
        split
        · unfold compress
          rw [partially_bind]
          exact (compressFrom_pres hG.2 _ _ hgp).mono (fun r hr => hr)
        · exact hgp
      refine le_trans ?_ (h2.push l s.levels ((x :: xs).take (capacity sec s - s.sketchSize)) hc.ne)
      refine le_trans ?_ (compressIfFull_exp hs h2 hok hcp (by omega) hgp (l ++ (x :: xs).take (capacity sec s - s.sketchSize)))
      refine exp_mono (((compressIfFull_core hs hcp ?_).and hpres).mono ?_)
      · simp only [lens_push hc.ne, caps_push]
        rw [List.length_take]; omega
      · rintro s' ⟨⟨h1, h3⟩, h4⟩
        have := ih ((x :: xs).drop (capacity sec s - s.sketchSize)) (l ++ (x :: xs).take (capacity sec s - s.sketchSize)) _ s'
          (by rw [List.length_drop]; simp only [List.length_cons] at hf ⊢; omega)
          (by rw [List.length_drop, List.length_take]; omega) (fun y hy => hx y (List.mem_of_mem_drop hy)) h4 h1 h3
        rw [List.append_assoc, List.take_append_drop] at this
        exact this

theorem execOps_exp (hs : SecOK sec) (h2 : Super2 sec G ok Φ) (ops : List (InsOp K)) (hok : ∀ o ∈ ops, ok o.fast o.method) :
    ∀ (N : Nat) (l : List (Fl K)) (s : RCSketch2 K), N + (insItems ops).length < 2 ^ 32 → (∀ y ∈ insItems ops, G y) →
    (∀ l ∈ s.levels, ∀ y ∈ l.buf, G y) → Core sec N s → lens s.levels < caps sec s.levels →
    exp (s.execOps sec ops) (fun s' => Φ (l ++ insItems ops) s'.levels) ≤ Φ l s.levels := by
  induction ops with
  | nil => intro N l s _ _ _ hc hlt; simp [execOps, insItems]
  | cons o ops ih =>
    intro N l s hN hx hg hc hlt
    have hlen : (insItems (o :: ops)).length = o.items.length + (insItems ops).length := by simp [insItems]
    have hmem : ∀ y ∈ o.items, G y := fun y hy => hx y (by simp [insItems, hy])
    have hG := h2.good _ _ (hok o (by simp))
    rw [execOps, execOp_eq hc.size hlt]
    unfold addBufferCustom insertBatch
    rw [bind_assoc', exp_bind]
    have hp := insertBatchLoop_partially (k := s.k) (n := s.count) (sec := sec) (fast := o.fast) (m := o.method)
      (pres_hist (G := G)) hG.2 o.items.length o.items [] s ⟨hc.size, hc.ne, rfl, rfl⟩ (fun _ => hg)
    refine le_trans (exp_mono (((insertBatchLoop_core hs _ o.items N s hc hlt).and hp).mono ?_))
      (insertBatchLoop_exp hs h2 (hok o (by simp)) _ o.items l N s (le_refl _) (by omega) hmem hg hc hlt)
    rintro s' ⟨⟨h1, h3⟩, -, h4⟩
    rw [bind_ret]
    have := ih (fun o ho => hok o (by simp [ho])) _ (l ++ o.items) { s' with count := s'.count + o.items.length } (by omega)
      (fun y hy => hx y (by simp only [insItems, List.flatMap_cons, List.mem_append] at hy ⊢; exact Or.inr hy)) 
      (h4 (by simpa using hmem)) ⟨h1.lvl, h1.flow, h1.size, h1.ne⟩ h3
    simpa [insItems] using this

theorem hist2_exp (hs : SecOK sec) (h2 : Super2 sec G ok Φ) (k : Nat) (ops : List (InsOp K)) (hok : ∀ o ∈ ops, ok o.fast o.method)
    (hN : (insItems ops).length < 2 ^ 32) (hx : ∀ y ∈ insItems ops, G y) :
    exp (runHist sec k ops) (fun s => Φ (insItems ops) s.levels) ≤ Φ [] [newLevel []] := by
  have := execOps_exp hs h2 ops hok 0 [] (new k) (by omega) hx
    (by intro l hl; simp [new] at hl; subst hl; simp [newLevel]) (core_new k) (caps_new hs k)
  simpa [runHist, new] using this

end RCSketch2
end AQ

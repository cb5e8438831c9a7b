/-
RCSketch: histories that mix the ordinary insertion calls with level-wise ones.
-/
import Verif.Proofs.RCWeighted

set_option linter.unusedSectionVars false
set_option linter.unusedVariables false

namespace AQ
open Prog Spec
variable {K : Type} [Field K] [LinearOrder K] [IsStrictOrderedRing K] [FloatFmt K]

namespace LevelCall

/-- The items supplied by a list of calls, each as often as its level weighs. -/
def supplied (cs : List (LevelCall K)) : List (Fl K) := cs.flatMap (fun c => dup c.lvl c.items)

theorem supplied_cons (c : LevelCall K) (cs : List (LevelCall K)) : supplied (c :: cs) = dup c.lvl c.items ++ supplied cs := rfl

/-- Number of items passed. -/
def passed (cs : List (LevelCall K)) : Nat := (cs.map (fun c => c.items.length)).sum

theorem passed_cons (c : LevelCall K) (cs : List (LevelCall K)) : passed (c :: cs) = c.items.length + passed cs := rfl

/-- Every call's level is at most the number of levels certainly there when it is made. -/
def LevelsOk : Nat → List (LevelCall K) → Prop
  | _, [] => True
  | a, c :: cs => c.lvl ≤ a ∧ LevelsOk (max a (c.lvl + 1)) cs

end LevelCall

namespace AnyIns

/-- The items supplied by a history, each as often as its level weighs. -/
def supplied (ops : List (AnyIns K)) : List (Fl K) := ops.flatMap (fun o => dup o.lvl o.items)

theorem supplied_cons (o : AnyIns K) (os : List (AnyIns K)) : supplied (o :: os) = dup o.lvl o.items ++ supplied os := rfl

/-- Number of items passed. -/
def passed (ops : List (AnyIns K)) : Nat := (ops.map (fun o => o.items.length)).sum

theorem passed_cons (o : AnyIns K) (os : List (AnyIns K)) : passed (o :: os) = o.items.length + passed os := rfl

/-- Levels that certainly exist after the call. -/
def opens : AnyIns K → Nat
  | .plain o => if o.items = [] then 0 else 1
  | .level c => c.lvl + 1

/-- Every call's level is at most the number of levels certainly there when it is made. -/
def LevelsOk : Nat → List (AnyIns K) → Prop
  | _, [] => True
  | a, o :: os => o.lvl ≤ a ∧ LevelsOk (max a o.opens) os

end AnyIns

namespace RCSketch
open LevelCall (execs)

theorem batches_execs (fast : Bool) (m : CompactionMethod) : ∀ (cs : List (List (Fl K))) (s : RCSketch K),
    batches fast m cs s = execs s (cs.map (fun c => LevelCall.batch c 0 fast m)) := by
  intro cs
  induction cs with
  | nil => intro s; rfl
  | cons a cs ih =>
    intro s
    rw [batches, List.map_cons, LevelCall.execs]
    exact congrArg _ (funext (fun s' => ih s'))

/-- An ordinary insertion call is a list of level-0 calls followed by an update of the count. -/
theorem execOp_calls {s : RCSketch K} (hb : Base s []) (o : InsOp K) : ∃ cs : List (LevelCall K),
    (∀ c ∈ cs, c.lvl = 0 ∧ c.fast = o.fast ∧ c.method = o.method) ∧ cs.flatMap LevelCall.items = o.items ∧
      s.execOp o = (execs s cs >>= fun s' => .ret { s' with count := s'.count + o.items.length }) := by
  have hcust : ∀ (xs : List (Fl K)) (fast : Bool) (m : CompactionMethod), ∃ cs : List (LevelCall K),
      (∀ c ∈ cs, c.lvl = 0 ∧ c.fast = fast ∧ c.method = m) ∧ cs.flatMap LevelCall.items = xs ∧
      s.addBufferCustom xs fast m = (execs s cs >>= fun s' => .ret { s' with count := s'.count + xs.length }) := by
    intro xs fast m
    have hB := hb.hB
    have hne : s.bufferSize / 2 ≠ 0 := by omega
    have hfl := chunksAux_flatten (s.bufferSize / 2) hne xs.length xs (le_refl _)
    refine ⟨(chunksAux (s.bufferSize / 2) xs.length xs).map (fun c => LevelCall.batch c 0 fast m), ?_, ?_, ?_⟩
    · intro c hc
      obtain ⟨a, -, rfl⟩ := List.mem_map.1 hc
      exact ⟨rfl, rfl, rfl⟩
    · rw [List.flatMap_map]
      change List.flatMap id _ = xs
      rw [List.flatMap_id]; exact hfl
    · unfold addBufferCustom
      rw [chunks, if_neg hne, bind_ret, batches_execs]
      rfl
  cases o with
  | add x =>
    refine ⟨[.item x 0 false .default], by simp [LevelCall.lvl, LevelCall.fast, LevelCall.method, InsOp.fast, InsOp.method],
      by simp [LevelCall.items, InsOp.items], ?_⟩
    change s.add x = _
    unfold add
    simp only [LevelCall.execs, LevelCall.exec, InsOp.items, List.length_cons, List.length_nil]
    rw [bind_assoc']
    rfl
  | addBuffer xs => exact hcust xs false .default
  | addBufferFast xs => exact hcust xs true .default
  | addBufferCustom xs fast m => exact hcust xs fast m

theorem calls_supplied0 (cs : List (LevelCall K)) (h : ∀ c ∈ cs, c.lvl = 0) : LevelCall.supplied cs = cs.flatMap LevelCall.items := by
  induction cs with
  | nil => rfl
  | cons c cs ih =>
    rw [LevelCall.supplied_cons, ih (fun c hc => h c (by simp [hc])), h c (by simp), dup_zero, List.flatMap_cons]

theorem calls_passed (cs : List (LevelCall K)) : LevelCall.passed cs = (cs.flatMap LevelCall.items).length := by
  induction cs with
  | nil => rfl
  | cons c cs ih => rw [LevelCall.passed_cons, ih, List.flatMap_cons, List.length_append]

/-! ### Levels that do not exist -/

theorem ensureLevel_beyond (s : RCSketch K) {h : Nat} (hh : s.buffers.length ≤ h) : s.ensureLevel h = s.ensureLevel s.buffers.length := by
  unfold ensureLevel; rw [if_pos hh, if_pos (le_refl _)]

/-- A call beyond the next level fails, unless it passes no item; then it only opens the next level. -/
theorem exec_beyond (s : RCSketch K) (c : LevelCall K) (hh : s.buffers.length < c.lvl) :
    (c.items ≠ [] → c.exec s = .fail .oob) ∧
    (c.items = [] → c.exec s = (LevelCall.batch [] s.buffers.length c.fast c.method).exec s) := by
  have hg : ∀ h, s.buffers.length < h → (s.ensureLevel h).buffers[h]? = none := by
    intro h hh
    unfold ensureLevel; rw [if_pos hh.le]
    exact List.getElem?_eq_none (by simp; omega)
  cases c with
  | item x h fast m =>
    refine ⟨fun _ => ?_, fun e => by simp [LevelCall.items] at e⟩
    simp only [LevelCall.exec, insertAt, Prog.idx, hg h hh, bind_fail]
  | batch xs h fast m =>
    have hf : ∃ f, s.fuelFor xs.length = f + 1 + 1 := ⟨s.fuelFor xs.length - 2, by unfold fuelFor; omega⟩
    obtain ⟨f, hf⟩ := hf
    constructor
    · intro hne
      have hne : xs ≠ [] := hne
      simp only [LevelCall.exec, hf, batch, fill, if_neg hne, Prog.idx, hg h hh, bind_fail]
    · intro e
      have e : xs = [] := e
      subst e
      simp only [LevelCall.exec, hf, batch, fill, if_true, LevelCall.fast, LevelCall.method]
      rw [ensureLevel_beyond s (h := h) (le_of_lt hh)]

/-! ### Invariants -/

/-- An invariant of configurations preserved by every insertion at any level; `l` lists the items with multiplicity. -/
structure LvlInv (ok : Bool → CompactionMethod → Prop) (J : List (Fl K) → RCSketch K → List (Frame K) → Prop) : Prop where
  closed : ∀ l fast m, ok fast m → Closed fast m (J l)
  start : ∀ l c s h, Base s [] → h ≤ s.buffers.length → J l s [] → J (l ++ dup h c) s [⟨h, c⟩]
  cnt : ∀ l s n, J l s [] → J l { s with count := n } []

variable {ok : Bool → CompactionMethod → Prop} {J : List (Fl K) → RCSketch K → List (Frame K) → Prop}

theorem exec_lvl (hi : LvlInv ok J) (c : LevelCall K) (hok : ok c.fast c.method) (l : List (Fl K)) (s : RCSketch K)
    (hb : Base s []) (hj : J l s []) : Partially (c.exec s) (fun s' => Base s' [] ∧ J (l ++ dup c.lvl c.items) s' []) := by
  rcases Nat.lt_or_ge s.buffers.length c.lvl with hh | hh
  · obtain ⟨h1, h2⟩ := exec_beyond s c hh
    by_cases e : c.items = []
    · rw [h2 e, e]
      have h := LevelCall.exec_partially (LevelCall.batch [] s.buffers.length c.fast c.method) (hi.closed (l ++ dup s.buffers.length []) _ _ hok) hb (le_refl _)
        (hi.start l [] s s.buffers.length hb (le_refl _) hj)
      exact h.mono (fun s' h => by simpa [dup] using h)
    · rw [h1 e]; trivial
  · exact LevelCall.exec_partially c (hi.closed _ _ _ hok) hb hh (hi.start l c.items s c.lvl hb hh hj)

theorem execs_lvl (hi : LvlInv ok J) : ∀ (cs : List (LevelCall K)), (∀ c ∈ cs, ok c.fast c.method) → ∀ (l : List (Fl K)) (s : RCSketch K),
    Base s [] → J l s [] → Partially (execs s cs) (fun s' => Base s' [] ∧ J (l ++ LevelCall.supplied cs) s' []) := by
  intro cs
  induction cs with
  | nil => intro _ l s hb hj; simpa [LevelCall.execs, LevelCall.supplied] using ⟨hb, hj⟩
  | cons c cs ih =>
    intro hok l s hb hj
    rw [LevelCall.execs, partially_bind]
    refine (exec_lvl hi c (hok c (by simp)) l s hb hj).mono ?_
    rintro s' ⟨hb', hj'⟩
    have := ih (fun c hc => hok c (by simp [hc])) _ s' hb' hj'
    rwa [List.append_assoc, ← LevelCall.supplied_cons] at this

theorem anyExec_lvl (hi : LvlInv ok J) (o : AnyIns K) (hok : ok o.fast o.method) (l : List (Fl K)) (s : RCSketch K)
    (hb : Base s []) (hj : J l s []) : Partially (o.exec s) (fun s' => Base s' [] ∧ J (l ++ dup o.lvl o.items) s' []) := by
  cases o with
  | level c => exact exec_lvl hi c hok l s hb hj
  | plain o =>
    obtain ⟨cs, h1, h2, h3⟩ := execOp_calls hb o
    simp only [AnyIns.exec, AnyIns.lvl, AnyIns.items]
    rw [h3, partially_bind]
    refine (execs_lvl hi cs (fun c hc => by rw [(h1 c hc).2.1, (h1 c hc).2.2]; exact hok) l s hb hj).mono ?_
    rintro s' ⟨hb', hj'⟩
    rw [calls_supplied0 cs (fun c hc => (h1 c hc).1), h2] at hj'
    rw [dup_zero]
    exact ⟨base_count hb' _, hi.cnt _ _ _ hj'⟩

/-- Every history keeps the invariant. -/
theorem anyExecs_lvl (hi : LvlInv ok J) : ∀ (ops : List (AnyIns K)), (∀ o ∈ ops, ok o.fast o.method) → ∀ (l : List (Fl K)) (s : RCSketch K),
    Base s [] → J l s [] → Partially (AnyIns.execs s ops) (fun s' => Base s' [] ∧ J (l ++ AnyIns.supplied ops) s' []) := by
  intro ops
  induction ops with
  | nil => intro _ l s hb hj; simpa [AnyIns.execs, AnyIns.supplied] using ⟨hb, hj⟩
  | cons o os ih =>
    intro hok l s hb hj
    rw [AnyIns.execs, partially_bind]
    refine (anyExec_lvl hi o (hok o (by simp)) l s hb hj).mono ?_
    rintro s' ⟨hb', hj'⟩
    have := ih (fun c hc => hok c (by simp [hc])) _ s' hb' hj'
    rwa [List.append_assoc, ← AnyIns.supplied_cons] at this

/-- `new` cannot return for `k = 0`; otherwise the history starts from the empty sketch. -/
theorem anyRun_lvl (hi : LvlInv ok J) (n k : Nat) (ops : List (AnyIns K)) (hok : ∀ o ∈ ops, ok o.fast o.method)
    (h0 : k ≠ 0 → J [] (fresh n k) []) :
    Partially (AnyIns.run n k ops) (fun s => k ≠ 0 ∧ Base s [] ∧ J (AnyIns.supplied ops) s []) := by
  unfold AnyIns.run
  by_cases hk : k = 0
  · subst hk; simp [RCSketch.new, calcBufferSize, bind_fail]
  · rw [new_eq hk, bind_ret]
    exact (anyExecs_lvl hi ops hok [] _ (base_fresh hk) (h0 hk)).mono (fun s h => ⟨hk, by simpa using h⟩)

/-! ### Total correctness -/

section
variable {G : Fl K → Prop} {n k N B L : Nat}

theorem cap_count {s : RCSketch K} (h : Cap G k B N s []) (c : Nat) : Cap G k B N { s with count := c } [] :=
  ⟨h.hk, h.hB, h.flow, h.good, h.goodP⟩

theorem execs_cap (hBL : B = 2 * k * L) : ∀ (cs : List (LevelCall K)), (∀ c ∈ cs, GoodFor G c.method) → (∀ c ∈ cs, ∀ y ∈ c.items, G y) →
    ∀ (a N : Nat) (s : RCSketch K), LevelCall.LevelsOk a cs → a ≤ s.buffers.length → Base s [] → Cap G k B N s [] →
      N + LevelCall.passed cs < capacityB k L →
      Always (execs s cs) (fun s' => Base s' [] ∧ Cap G k B (N + LevelCall.passed cs) s' [] ∧ s.buffers.length ≤ s'.buffers.length ∧
        (cs ≠ [] → 1 ≤ s'.buffers.length)) := by
  intro cs
  induction cs with
  | nil => intro _ _ a N s _ _ hb hj _; simpa [LevelCall.execs, LevelCall.passed] using ⟨hb, hj⟩
  | cons c cs ih =>
    intro hG hg a N s hl ha hb hj hN
    rw [LevelCall.passed_cons] at hN
    rw [LevelCall.execs, always_bind]
    have h := LevelCall.exec_cap hBL c (hG c (by simp)) (Opened.closed s.buffers.length c.lvl c.fast c.method) hb hj (hl.1.trans ha)
      (by omega) (hg c (by simp)) (opened_start c.lvl c.items)
    refine h.mono ?_
    rintro s' ⟨hb', hj', hop, hop2⟩
    have hlv : c.lvl + 1 ≤ s'.buffers.length := by rcases hop2 with h | h; exact h; simp at h
    have := ih (fun c hc => hG c (by simp [hc])) (fun c hc => hg c (by simp [hc])) _ _ s' hl.2 (max_le (ha.trans hop) hlv) hb' hj' (by omega)
    rw [Nat.add_assoc, ← LevelCall.passed_cons] at this
    exact this.mono (fun s'' h => ⟨h.1, h.2.1, hop.trans h.2.2.1, fun _ => by omega⟩)

theorem levelsOk_zero : ∀ (cs : List (LevelCall K)) (a : Nat), (∀ c ∈ cs, c.lvl = 0) → LevelCall.LevelsOk a cs := by
  intro cs
  induction cs with
  | nil => intro a _; trivial
  | cons c cs ih => intro a h; exact ⟨by rw [h c (by simp)]; omega, ih _ (fun c hc => h c (by simp [hc]))⟩

theorem anyExec_cap (hBL : B = 2 * k * L) (o : AnyIns K) (hG : GoodFor G o.method) (hg : ∀ y ∈ o.items, G y) {s : RCSketch K}
    (hb : Base s []) (hj : Cap G k B N s []) (hh : o.lvl ≤ s.buffers.length) (hN : N + o.items.length < capacityB k L) :
    Always (o.exec s) (fun s' => Base s' [] ∧ Cap G k B (N + o.items.length) s' [] ∧ s.buffers.length ≤ s'.buffers.length ∧
      o.opens ≤ s'.buffers.length) := by
  cases o with
  | level c =>
    have h := LevelCall.exec_cap hBL c hG (Opened.closed s.buffers.length c.lvl c.fast c.method) hb hj hh hN hg (opened_start c.lvl c.items)
    refine h.mono ?_
    rintro s' ⟨hb', hj', hop, hop2⟩
    exact ⟨hb', hj', hop, by rcases hop2 with h | h; exact h; simp at h⟩
  | plain o =>
    obtain ⟨cs, h1, h2, h3⟩ := execOp_calls hb o
    simp only [AnyIns.exec, AnyIns.items]
    rw [h3, always_bind]
    have hp : LevelCall.passed cs = o.items.length := by rw [calls_passed, h2]
    have h := execs_cap hBL cs (fun c hc => by rw [(h1 c hc).2.2]; exact hG)
      (fun c hc y hy => hg y (by simp only [AnyIns.items]; rw [← h2]; exact List.mem_flatMap.2 ⟨c, hc, hy⟩)) s.buffers.length N s
      (levelsOk_zero cs _ (fun c hc => (h1 c hc).1)) (le_refl _) hb hj (by rw [hp]; exact hN)
    refine h.mono ?_
    rintro s' ⟨hb', hj', hop, hop2⟩
    rw [hp] at hj'
    refine ⟨base_count hb' _, cap_count hj' _, hop, ?_⟩
    simp only [AnyIns.opens]
    split
    · omega
    · rename_i e
      exact hop2 (by rintro rfl; simp at h2; exact e h2)

/-- A history whose levels are opened in order, within the capacity, always returns. -/
theorem anyExecs_cap (hBL : B = 2 * k * L) : ∀ (ops : List (AnyIns K)), (∀ o ∈ ops, GoodFor G o.method) → (∀ o ∈ ops, ∀ y ∈ o.items, G y) →
    ∀ (a N : Nat) (s : RCSketch K), AnyIns.LevelsOk a ops → a ≤ s.buffers.length → Base s [] → Cap G k B N s [] →
      N + AnyIns.passed ops < capacityB k L →
      Always (AnyIns.execs s ops) (fun s' => Base s' [] ∧ Cap G k B (N + AnyIns.passed ops) s' []) := by
  intro ops
  induction ops with
  | nil => intro _ _ a N s _ _ hb hj _; simpa [AnyIns.execs, AnyIns.passed] using ⟨hb, hj⟩
  | cons o os ih =>
    intro hG hg a N s hl ha hb hj hN
    rw [AnyIns.passed_cons] at hN
    rw [AnyIns.execs, always_bind]
    refine (anyExec_cap hBL o (hG o (by simp)) (hg o (by simp)) hb hj (hl.1.trans ha) (by omega)).mono ?_
    rintro s' ⟨hb', hj', h1, h2⟩
    have := ih (fun c hc => hG c (by simp [hc])) (fun c hc => hg c (by simp [hc])) _ _ s' hl.2 (max_le (ha.trans h1) h2) hb' hj' (by omega)
    rwa [Nat.add_assoc, ← AnyIns.passed_cons] at this

/-! ### Expectations -/

/-- `Φ` never increases in expectation (default compaction, within the capacity). -/
structure LvlSuper (k B L : Nat) (Φ : List (Fl K) → RCSketch K → List (Frame K) → ℚ) : Prop where
  super : ∀ l fast N, N < capacityB k L → Super fast .default (Cap (· ≠ .nan) k B N) (Φ l)
  start : ∀ l c s h, Φ (l ++ dup h c) s [⟨h, c⟩] ≤ Φ l s []
  cnt : ∀ l s n, Φ l { s with count := n } [] ≤ Φ l s []

variable {Φ : List (Fl K) → RCSketch K → List (Frame K) → ℚ}

theorem goodFor_of_default {c : CompactionMethod} (h : c = .default) : GoodFor (K := K) (· ≠ .nan) c :=
  h ▸ goodFor_default (fun _ h => h)

theorem execs_exp (hBL : B = 2 * k * L) (hs : LvlSuper k B L Φ) : ∀ (cs : List (LevelCall K)), (∀ c ∈ cs, c.method = .default) →
    (∀ c ∈ cs, ∀ y ∈ c.items, y ≠ .nan) → ∀ (a N : Nat) (l : List (Fl K)) (s : RCSketch K), LevelCall.LevelsOk a cs →
      a ≤ s.buffers.length → Base s [] → Cap (· ≠ .nan) k B N s [] → N + LevelCall.passed cs < capacityB k L →
      exp (execs s cs) (fun s' => Φ (l ++ LevelCall.supplied cs) s' []) ≤ Φ l s [] := by
  intro cs
  induction cs with
  | nil => intro _ _ a N l s _ _ hb hj _; simp [LevelCall.execs, LevelCall.supplied]
  | cons c cs ih =>
    intro hm hg a N l s hl ha hb hj hN
    rw [LevelCall.passed_cons] at hN
    rw [LevelCall.execs, exp_bind]
    have hG := goodFor_of_default (K := K) (hm c (by simp))
    have su := hs.super (l ++ dup c.lvl c.items) c.fast (N + c.items.length) (by omega)
    rw [← hm c (by simp)] at su
    have h1 := LevelCall.exec_exp hBL c hG su hb hj (hl.1.trans ha) (by omega) (hg c (by simp))
    refine le_trans (exp_mono ?_) (h1.trans (hs.start l c.items s c.lvl))
    have h := LevelCall.exec_cap hBL c hG (Opened.closed s.buffers.length c.lvl c.fast c.method) hb hj (hl.1.trans ha)
      (by omega) (hg c (by simp)) (opened_start c.lvl c.items)
    refine h.partially.mono ?_
    rintro s' ⟨hb', hj', hop, hop2⟩
    have hlv : c.lvl + 1 ≤ s'.buffers.length := by rcases hop2 with h | h; exact h; simp at h
    have := ih (fun c hc => hm c (by simp [hc])) (fun c hc => hg c (by simp [hc])) _ _ (l ++ dup c.lvl c.items) s' hl.2
      (max_le (ha.trans hop) hlv) hb' hj' (by omega)
    rwa [List.append_assoc, ← LevelCall.supplied_cons] at this

theorem anyExec_exp (hBL : B = 2 * k * L) (hs : LvlSuper k B L Φ) (o : AnyIns K) (hm : o.method = .default) (hg : ∀ y ∈ o.items, y ≠ .nan)
    (l : List (Fl K)) {s : RCSketch K} (hb : Base s []) (hj : Cap (· ≠ .nan) k B N s []) (hh : o.lvl ≤ s.buffers.length)
    (hN : N + o.items.length < capacityB k L) :
    exp (o.exec s) (fun s' => Φ (l ++ dup o.lvl o.items) s' []) ≤ Φ l s [] := by
  cases o with
  | level c =>
    have := execs_exp hBL hs [c] (by simpa [AnyIns.method] using hm) (by simpa [AnyIns.items] using hg) s.buffers.length N l s ⟨hh, trivial⟩ (le_refl _) hb hj
      (by simpa [LevelCall.passed, AnyIns.items] using hN)
    rw [LevelCall.execs, exp_bind] at this
    simpa [LevelCall.execs, LevelCall.supplied, AnyIns.exec, AnyIns.lvl, AnyIns.items] using this
  | plain o =>
    obtain ⟨cs, h1, h2, h3⟩ := execOp_calls hb o
    simp only [AnyIns.exec, AnyIns.items, AnyIns.lvl]
    rw [h3, exp_bind, dup_zero]
    have hp : LevelCall.passed cs = o.items.length := by rw [calls_passed, h2]
    have h := execs_exp hBL hs cs (fun c hc => by rw [(h1 c hc).2.2]; exact hm)
      (fun c hc y hy => hg y (by simp only [AnyIns.items]; rw [← h2]; exact List.mem_flatMap.2 ⟨c, hc, hy⟩)) s.buffers.length N l s
      (levelsOk_zero cs _ (fun c hc => (h1 c hc).1)) (le_refl _) hb hj (by rw [hp]; exact hN)
    rw [calls_supplied0 cs (fun c hc => (h1 c hc).1), h2] at h
    refine le_trans (exp_mono ?_) h
    exact (partially_true _).mono (fun s' _ => hs.cnt _ _ _)

theorem anyExecs_exp (hBL : B = 2 * k * L) (hs : LvlSuper k B L Φ) : ∀ (ops : List (AnyIns K)), (∀ o ∈ ops, o.method = .default) →
    (∀ o ∈ ops, ∀ y ∈ o.items, y ≠ .nan) → ∀ (a N : Nat) (l : List (Fl K)) (s : RCSketch K), AnyIns.LevelsOk a ops →
      a ≤ s.buffers.length → Base s [] → Cap (· ≠ .nan) k B N s [] → N + AnyIns.passed ops < capacityB k L →
      exp (AnyIns.execs s ops) (fun s' => Φ (l ++ AnyIns.supplied ops) s' []) ≤ Φ l s [] := by
  intro ops
  induction ops with
  | nil => intro _ _ a N l s _ _ hb hj _; simp [AnyIns.execs, AnyIns.supplied]
  | cons o os ih =>
    intro hm hg a N l s hl ha hb hj hN
    rw [AnyIns.passed_cons] at hN
    rw [AnyIns.execs, exp_bind]
    have h1 := anyExec_exp hBL hs o (hm o (by simp)) (hg o (by simp)) l hb hj (hl.1.trans ha) (by omega)
    refine le_trans (exp_mono ?_) h1
    refine (anyExec_cap hBL o (goodFor_of_default (hm o (by simp))) (hg o (by simp)) hb hj (hl.1.trans ha) (by omega)).partially.mono ?_
    rintro s' ⟨hb', hj', h3, h4⟩
    have := ih (fun c hc => hm c (by simp [hc])) (fun c hc => hg c (by simp [hc])) _ _ (l ++ dup o.lvl o.items) s' hl.2
      (max_le (ha.trans h3) h4) hb' hj' (by omega)
    rwa [List.append_assoc, ← AnyIns.supplied_cons] at this

end
end RCSketch
end AQ

/-
Trees of merged RCSketches: the sketch at the root sees one (random) history of ordinary and level-wise calls.
-/
import Verif.Spec.RCTree
import Verif.Props.RCMerge
import Verif.Proofs.Rescale
import Verif.Proofs.MultiDigest

set_option linter.unusedSectionVars false
set_option linter.unusedVariables false

namespace AQ
open Prog Spec

/-! ### Programs with equal expectations -/

theorem Prog.exp_nonneg {α : Type} (p : Prog α) {g : α → ℚ} (h : ∀ a, 0 ≤ g a) : 0 ≤ exp p g := by
  have := exp_mono (p := p) (g := fun _ => 0) (g' := g) ((partially_true p).mono (fun a _ => h a))
  rwa [exp_zero] at this

open Classical in
theorem Prog.partially_iff_exp {α : Type} (p : Prog α) (Q : α → Prop) :
    Partially p Q ↔ exp p (fun a => if Q a then 0 else 1) = 0 := by
  induction p with
  | ret a => by_cases h : Q a <;> simp [exp, Partially, h]
  | fail e => simp [exp, Partially]
  | flip f ih =>
    have h1 := exp_nonneg (f true) (g := fun a => if Q a then 0 else 1) (fun a => by split <;> norm_num)
    have h2 := exp_nonneg (f false) (g := fun a => if Q a then 0 else 1) (fun a => by split <;> norm_num)
    rw [exp_flip]
    constructor
    · intro h
      rw [(ih true).1 (h true), (ih false).1 (h false)]; norm_num
    · intro h c
      refine (ih c).2 ?_
      cases c <;> linarith

theorem Prog.exp_one_le {α : Type} (p : Prog α) : exp p (fun _ => 1) ≤ 1 := by
  induction p with
  | ret a => exact le_refl _
  | fail e => simp [exp]
  | flip f ih => rw [exp_flip]; have := ih true; have := ih false; linarith

theorem Prog.always_iff_exp {α : Type} (p : Prog α) : Always p (fun _ => True) ↔ exp p (fun _ => 1) = 1 := by
  induction p with
  | ret a => simp [exp, Always]
  | fail e => simp [exp, Always]
  | flip f ih =>
    have h1 := exp_one_le (f true)
    have h2 := exp_one_le (f false)
    rw [exp_flip]
    constructor
    · intro h
      rw [(ih true).1 (h true), (ih false).1 (h false)]; norm_num
    · intro h c
      refine (ih c).2 ?_
      cases c <;> linarith

variable {K : Type} [Field K] [LinearOrder K] [IsStrictOrderedRing K] [FloatFmt K]
namespace RCSketch

/-! ### The count does not influence insertions -/

/-- The sketch with `c` added to its count. -/
def addCount (c : Nat) (s : RCSketch K) : RCSketch K := { s with count := s.count + c }

/-- Results that differ in the count only. -/
def CRel (c : Nat) (s t : RCSketch K) : Prop := t = addCount c s

theorem crel_getCompactIndex {c : Nat} (s : RCSketch K) (h : Nat) :
    Rel (fun a b => a.1 = b.1 ∧ CRel c a.2 b.2) (s.getCompactIndex h) ((addCount c s).getCompactIndex h) := by
  unfold getCompactIndex
  refine rel_bind (R := (· = ·)) (rel_refl (fun _ => rfl) _) ?_
  rintro b _ rfl
  refine rel_bind (R := (· = ·)) (rel_refl (fun _ => rfl) _) ?_
  rintro d _ rfl
  refine rel_bind (R := (· = ·)) (rel_refl (fun _ => rfl) _) ?_
  rintro ci _ rfl
  split
  · exact ⟨rfl, rfl⟩
  · rfl

theorem crel_compactAt {c : Nat} (s : RCSketch K) (h : Nat) (fast : Bool) (m : CompactionMethod) :
    Rel (fun a b => a.1 = b.1 ∧ CRel c a.2 b.2) (s.compactAt h fast m) ((addCount c s).compactAt h fast m) := by
  unfold compactAt
  refine rel_bind (R := fun a b => a.1 = b.1 ∧ CRel c a.2 b.2) ?_ ?_
  · cases fast
    · exact crel_getCompactIndex s h
    · exact ⟨rfl, rfl⟩
  · rintro ⟨i, s1⟩ ⟨j, s2⟩ ⟨h1, h2⟩
    obtain rfl : i = j := h1
    obtain rfl : s2 = addCount c s1 := h2
    unfold compact
    refine rel_bind (R := (· = ·)) (rel_refl (fun _ => rfl) _) ?_
    rintro b _ rfl
    refine rel_bind (R := (· = ·)) (rel_refl (fun _ => rfl) _) ?_
    rintro srt _ rfl
    split
    · refine rel_bind (R := (· = ·)) (rel_refl (fun _ => rfl) _) ?_
      rintro out _ rfl
      exact ⟨rfl, rfl⟩
    · rfl

theorem addCount_ensureLevel (c : Nat) (s : RCSketch K) (h : Nat) : (addCount c s).ensureLevel h = addCount c (s.ensureLevel h) := by
  unfold ensureLevel
  split
  · rename_i hh; rw [if_pos (show s.buffers.length ≤ h from hh)]; rfl
  · rename_i hh; rw [if_neg (show ¬ s.buffers.length ≤ h from hh)]

theorem crel_loops (c : Nat) (fast : Bool) (m : CompactionMethod) : ∀ f : Nat,
    (∀ (xs : List (Fl K)) (h : Nat) (s : RCSketch K), Rel (CRel c) (batch fast m f xs h s) (batch fast m f xs h (addCount c s))) ∧
    (∀ (xs : List (Fl K)) (h : Nat) (s : RCSketch K), Rel (CRel c) (fill fast m f xs h s) (fill fast m f xs h (addCount c s))) ∧
    (∀ (h : Nat) (s : RCSketch K), Rel (CRel c) (drain fast m f h s) (drain fast m f h (addCount c s)))
  | 0 => ⟨fun _ _ _ => by unfold batch; rfl, fun _ _ _ => by unfold fill; rfl, fun _ _ => by unfold drain; rfl⟩
  | f + 1 => by
    obtain ⟨ib, ifl, id⟩ := crel_loops c fast m f
    refine ⟨?_, ?_, ?_⟩
    · intro xs h s
      unfold batch
      rw [addCount_ensureLevel]
      exact ifl xs h _
    · intro xs h s
      unfold fill
      split
      · rfl
      · refine rel_bind (R := (· = ·)) (rel_refl (fun _ => rfl) _) ?_
        rintro b _ rfl
        refine rel_bind (R := (· = ·)) (rel_refl (fun _ => rfl) _) ?_
        rintro room _ rfl
        refine rel_bind (id h (s.setBuf h (b ++ xs.take room))) ?_
        rintro s' t' rfl
        exact ifl _ h s'
    · intro h s
      unfold drain
      refine rel_bind (R := (· = ·)) (rel_refl (fun _ => rfl) _) ?_
      rintro b _ rfl
      change Rel (CRel c) (if s.bufferSize ≤ b.length then _ else _) (if s.bufferSize ≤ b.length then _ else _)
      split
      · refine rel_bind (crel_compactAt s h fast m) ?_
        rintro ⟨o, s1⟩ ⟨o', s2⟩ ⟨h1, h2⟩
        obtain rfl : o = o' := h1
        obtain rfl : s2 = addCount c s1 := h2
        refine rel_bind (ib _ (h + 1) s1) ?_
        rintro s' t' rfl
        exact id h s'
      · rfl

theorem crel_level (c : Nat) (o : LevelCall K) (s : RCSketch K) : Rel (CRel c) (o.exec s) (o.exec (addCount c s)) := by
  cases o with
  | batch xs h fast m => exact (crel_loops c fast m _).1 xs h s
  | item x h fast m =>
    change Rel (CRel c) (insertAt (s.fuelFor 1) x h fast m s) (insertAt (s.fuelFor 1) x h fast m (addCount c s))
    unfold insertAt
    rw [addCount_ensureLevel]
    generalize s.ensureLevel h = s1
    refine rel_bind (R := (· = ·)) (rel_refl (fun _ => rfl) _) ?_
    rintro b _ rfl
    change Rel (CRel c) (if s1.bufferSize ≤ _ then _ else _) (if s1.bufferSize ≤ _ then _ else _)
    split
    · refine rel_bind (crel_compactAt (s1.setBuf h (b ++ [x])) h fast m) ?_
      rintro ⟨o, s1⟩ ⟨o', s2⟩ ⟨h1, h2⟩
      obtain rfl : o = o' := h1
      obtain rfl : s2 = addCount c s1 := h2
      exact (crel_loops c fast m _).1 _ _ s1
    · rfl

theorem crel_batches (c : Nat) (fast : Bool) (m : CompactionMethod) : ∀ (cs : List (List (Fl K))) (s : RCSketch K),
    Rel (CRel c) (batches fast m cs s) (batches fast m cs (addCount c s)) := by
  intro cs
  induction cs with
  | nil => intro s; rfl
  | cons x cs ih =>
    intro s
    unfold batches
    refine rel_bind ((crel_loops c fast m (s.fuelFor x.length)).1 x 0 s) ?_
    rintro s' t' rfl
    exact ih s'

theorem crel_count {c n : Nat} {s t : RCSketch K} (h : CRel c s t) :
    CRel c { s with count := s.count + n } { t with count := t.count + n } := by
  obtain rfl : t = addCount c s := h
  simp only [CRel, addCount, Nat.add_right_comm]

theorem crel_op (c : Nat) (o : InsOp K) (s : RCSketch K) : Rel (CRel c) (s.execOp o) ((addCount c s).execOp o) := by
  have hcust : ∀ (xs : List (Fl K)) (fast : Bool) (m : CompactionMethod),
      Rel (CRel c) (s.addBufferCustom xs fast m) ((addCount c s).addBufferCustom xs fast m) := by
    intro xs fast m
    unfold addBufferCustom
    refine rel_bind (R := (· = ·)) (rel_refl (fun _ => rfl) _) ?_
    rintro cs _ rfl
    refine rel_bind (crel_batches c fast m cs s) ?_
    intro s' t' h
    exact crel_count h
  cases o with
  | add x =>
    change Rel (CRel c) (s.add x) ((addCount c s).add x)
    unfold add
    refine rel_bind (crel_level c (.item x 0 false .default) s) ?_
    intro s' t' h
    exact crel_count h
  | addBuffer xs => exact hcust xs false .default
  | addBufferFast xs => exact hcust xs true .default
  | addBufferCustom xs fast m => exact hcust xs fast m

theorem crel_any (c : Nat) (o : AnyIns K) (s : RCSketch K) : Rel (CRel c) (o.exec s) (o.exec (addCount c s)) := by
  cases o with
  | plain o => exact crel_op c o s
  | level o => exact crel_level c o s

theorem crel_anys (c : Nat) : ∀ (os : List (AnyIns K)) (s : RCSketch K),
    Rel (CRel c) (AnyIns.execs s os) (AnyIns.execs (addCount c s) os) := by
  intro os
  induction os with
  | nil => intro s; rfl
  | cons o os ih =>
    intro s
    unfold AnyIns.execs
    refine rel_bind (crel_any c o s) ?_
    rintro s' t' rfl
    exact ih s'

/-- Calls on a sketch whose count was changed. -/
theorem anys_addCount (c : Nat) (os : List (AnyIns K)) (s : RCSketch K) :
    AnyIns.execs (addCount c s) os = (AnyIns.execs s os >>= fun s' => .ret (addCount c s')) :=
  rel_eq (fun a b h => h) (crel_anys c os s)

end RCSketch

/-! ### The history of the sketch at the root -/

namespace MergeTree

/-- The calls made on the sketch at the root. -/
def calls : MergeTree K → Prog (List (AnyIns K))
  | new _ _ => .ret []
  | ins t o => t.calls >>= fun l => .ret (l ++ [.plain o])
  | merge a b fast => a.calls >>= fun l => b.run >>= fun s => .ret (l ++ (RCSketch.levelCalls fast .default 0 s.buffers).map .level)

/-- Items of the sketches merged in. -/
def others : MergeTree K → Nat
  | new _ _ => 0
  | ins t _ => t.others
  | merge a b _ => a.others + (insItems b.ops).length

theorem insItems_append (a b : List (InsOp K)) : insItems (a ++ b) = insItems a ++ insItems b := by
  simp [insItems]

theorem insItems_single (o : InsOp K) : insItems [o] = o.items := by simp [insItems]

theorem calls_counted : ∀ t : MergeTree K, Partially t.calls (fun l => counted l + t.others = (insItems t.ops).length) := by
  intro t
  induction t with
  | new n k => simp [calls, counted, others, ops, insItems]
  | ins t o ih =>
    unfold calls
    rw [partially_bind]
    refine ih.mono (fun l hl => ?_)
    change counted (l ++ [.plain o]) + t.others = (insItems (t.ops ++ [o])).length
    rw [counted_append, insItems_append, List.length_append, insItems_single]
    simp only [counted]; omega
  | merge a b fast iha ihb =>
    unfold calls
    rw [partially_bind]
    refine iha.mono (fun l hl => ?_)
    rw [partially_bind]
    refine (partially_true _).mono (fun s _ => ?_)
    change counted (l ++ (RCSketch.levelCalls fast .default 0 s.buffers).map .level) + (a.others + (insItems b.ops).length) =
      (insItems (a.ops ++ b.ops)).length
    rw [counted_append, counted_level, insItems_append, List.length_append]
    omega

theorem anyRun_snoc (n k : Nat) (l l' : List (AnyIns K)) :
    AnyIns.run n k (l ++ l') = (AnyIns.run n k l >>= fun s => AnyIns.execs s l') := by
  unfold AnyIns.run
  rw [bind_assoc']
  exact congrArg _ (funext (fun s => RCSketch.anyExecs_append l l' s))

/-- What holds of every history of calls holds of the sketch at the root. -/
theorem run_of_calls (t : MergeTree K)
    (hd : ∀ g, exp t.run g = exp t.calls (fun l => exp (AnyIns.run t.root.1 t.root.2 l) (fun s => g (RCSketch.addCount t.others s))))
    {Q : RCSketch K → Prop} (h : Partially t.calls (fun l => Partially (AnyIns.run t.root.1 t.root.2 l) (fun s => Q (RCSketch.addCount t.others s)))) :
    Partially t.run Q := by
  classical
  rw [partially_iff_exp, hd]
  have : exp t.calls (fun l => exp (AnyIns.run t.root.1 t.root.2 l) (fun s => if Q (RCSketch.addCount t.others s) then 0 else 1)) =
      exp t.calls (fun _ => 0) := exp_congr (h.mono (fun l hl => (partially_iff_exp _ _).1 hl))
  rw [this, exp_zero]

/-- The sketch at the root, count apart, is distributed like a sketch on which the random history `calls` is executed. -/
theorem run_dist : ∀ (t : MergeTree K) (g : RCSketch K → ℚ),
    exp t.run g = exp t.calls (fun l => exp (AnyIns.run t.root.1 t.root.2 l) (fun s => g (RCSketch.addCount t.others s))) := by
  intro t
  induction t with
  | new n k =>
    intro g
    simp only [run, calls, exp_ret, root, others, AnyIns.run, AnyIns.execs]
    rw [show (RCSketch.new n k >>= fun s => Prog.ret s : Prog (RCSketch K)) = RCSketch.new n k from bind_ret_right _]
    rfl
  | ins t o ih =>
    intro g
    unfold run calls
    rw [exp_bind, ih, exp_bind]
    refine congrArg _ (funext (fun l => ?_))
    rw [exp_ret]
    change _ = exp (AnyIns.run t.root.1 t.root.2 (l ++ [.plain o])) (fun s => g (RCSketch.addCount t.others s))
    rw [anyRun_snoc, exp_bind]
    refine congrArg _ (funext (fun s => ?_))
    have h := RCSketch.anys_addCount t.others [.plain o] s
    simp only [AnyIns.execs] at h
    rw [show (AnyIns.exec (RCSketch.addCount t.others s) (.plain o) >>= fun s' => Prog.ret s') = (RCSketch.addCount t.others s).execOp o from
      bind_ret_right _] at h
    rw [h, exp_bind]
    rfl
  | merge a b fast iha ihb =>
    intro g
    have hcnt : Partially b.run (fun s => s.count = (insItems b.ops).length) := by
      refine run_of_calls b ihb ((calls_counted b).mono (fun l hl => ?_))
      refine (RCSketch.C130_count _ _ l).mono (fun s hs => ?_)
      have h2 : s.count = counted l := by simpa [Digest.count] using hs
      change s.count + b.others = _
      omega
    unfold run calls
    rw [exp_bind, iha, exp_bind]
    refine congrArg _ (funext (fun l => ?_))
    simp only [exp_bind, exp_ret]
    rw [exp_swap]
    refine exp_congr (hcnt.mono (fun s' hs' => ?_))
    change _ = exp (AnyIns.run a.root.1 a.root.2 (l ++ _)) (fun s => g (RCSketch.addCount (a.others + (insItems b.ops).length) s))
    rw [anyRun_snoc, exp_bind]
    refine congrArg _ (funext (fun s => ?_))
    unfold RCSketch.mergeInto
    rw [exp_bind, ← RCSketch.anyExecs_level, RCSketch.anys_addCount, exp_bind]
    refine congrArg _ (funext (fun s2 => ?_))
    rw [exp_ret, pure_eq, exp_ret, hs', RCSketch.addCount, RCSketch.addCount]
    simp only [Nat.add_assoc]

theorem run_count (t : MergeTree K) : Partially t.run (fun s => s.count = (insItems t.ops).length) := by
  refine run_of_calls t (run_dist t) ((calls_counted t).mono (fun l hl => ?_))
  refine (RCSketch.C130_count _ _ l).mono (fun s hs => ?_)
  have h2 : s.count = counted l := by simpa [Digest.count] using hs
  change s.count + t.others = _
  omega

/-! ### What the calls satisfy -/

theorem EvenK.root : ∀ {t : MergeTree K}, t.EvenK → t.root.2 % 2 = 0
  | new _ _, h => h
  | ins t _, h => EvenK.root (t := t) h
  | merge a _ _, h => EvenK.root (t := a) h.1

theorem levelsOk_append : ∀ (l l' : List (AnyIns K)) (a : Nat), AnyIns.LevelsOk a l → (∀ a, AnyIns.LevelsOk a l') →
    AnyIns.LevelsOk a (l ++ l') := by
  intro l l'
  induction l with
  | nil => intro a _ h; exact h a
  | cons o os ih => intro a h h'; exact ⟨h.1, ih _ h.2 h'⟩

/-- Default methods, levels in order, the total weight; no level above 63 as long as the weight is below `2^63`. -/
def CallsOk (G : Fl K → Prop) (N : Nat) (l : List (AnyIns K)) : Prop :=
  (∀ o ∈ l, o.method = .default) ∧ AnyIns.LevelsOk 0 l ∧ suppliedWeight l = N ∧ (∀ o ∈ l, ∀ y ∈ o.items, G y) ∧
    (N < 2 ^ 63 → ∀ o ∈ l, o.lvl < 64)

theorem run_good (t : MergeTree K) {G : Fl K → Prop} (hev : t.EvenK)
    (h : Partially t.calls (CallsOk G (insItems t.ops).length)) :
    Partially t.run (fun s => wsum (s.buffers.map List.length) = (insItems t.ops).length ∧ (∀ b ∈ s.buffers, ∀ y ∈ b, G y) ∧
      ((insItems t.ops).length < 2 ^ 63 → s.buffers.length ≤ 64)) := by
  refine run_of_calls t (run_dist t) (h.mono ?_)
  rintro l ⟨h1, h2, h3, h4, h5⟩
  have hlev : Partially (AnyIns.run t.root.1 t.root.2 l) (fun s => (insItems t.ops).length < 2 ^ 63 → s.buffers.length ≤ 64) := by
    by_cases hN : (insItems t.ops).length < 2 ^ 63
    · exact (RCSketch.anyRun_levels _ _ hev.root l (h5 hN) (by rw [h3]; exact hN)).mono (fun s hs _ => hs)
    · exact (partially_true _).mono (fun s _ h => absurd h hN)
  refine ((RCSketch.C130_weight t.root.1 t.root.2 hev.root l).and ((RCSketch.C130_stored t.root.1 t.root.2 l h1).and hlev)).mono ?_
  rintro s ⟨hw, hs, hl⟩
  refine ⟨hw.trans h3, fun b hb y hy => ?_, hl⟩
  obtain ⟨o, ho, hyo⟩ := hs b hb y hy
  exact h4 o ho y hyo

theorem calls_ok {G : Fl K → Prop} : ∀ (t : MergeTree K), t.EvenK → (∀ o ∈ t.ops, o.method = .default) → (∀ y ∈ insItems t.ops, G y) →
    Partially t.calls (CallsOk G (insItems t.ops).length) := by
  intro t
  induction t with
  | new n k =>
    intro _ _ _
    refine ⟨by simp, trivial, by simp [suppliedWeight, ops, insItems], by simp, by simp⟩
  | ins t o ih =>
    intro hev hm hG
    unfold calls
    rw [partially_bind]
    have hG' : ∀ y ∈ insItems t.ops ++ insItems [o], G y := by rw [← insItems_append]; exact hG
    refine (ih hev (fun o' ho => hm o' (by simp [ops, ho])) (fun y hy => hG' y (by simp [hy]))).mono ?_
    rintro l ⟨h1, h2, h3, h4, h5⟩
    have hlen : (insItems (ins t o).ops).length = (insItems t.ops).length + o.items.length := by
      rw [ops, insItems_append, List.length_append, insItems_single]
    refine ⟨?_, levelsOk_append _ _ _ h2 (fun a => ⟨Nat.zero_le _, trivial⟩), ?_, ?_, ?_⟩
    · intro o' ho
      rcases List.mem_append.1 ho with ho | ho
      · exact h1 o' ho
      · obtain rfl := List.mem_singleton.1 ho
        exact hm o (by simp [ops])
    · rw [suppliedWeight_append, h3, hlen]
      simp [suppliedWeight, AnyIns.lvl, AnyIns.items]
    · intro o' ho y hy
      rcases List.mem_append.1 ho with ho | ho
      · exact h4 o' ho y hy
      · obtain rfl := List.mem_singleton.1 ho
        exact hG' y (by rw [insItems_single]; exact List.mem_append_right _ hy)
    · intro hN o' ho
      rcases List.mem_append.1 ho with ho | ho
      · exact h5 (by omega) o' ho
      · obtain rfl := List.mem_singleton.1 ho
        simp [AnyIns.lvl]
  | merge a b fast iha ihb =>
    intro hev hm hG
    unfold calls
    rw [partially_bind]
    have hG' : ∀ y ∈ insItems a.ops ++ insItems b.ops, G y := by rw [← insItems_append]; exact hG
    have hlen : (insItems (merge a b fast).ops).length = (insItems a.ops).length + (insItems b.ops).length := by
      rw [ops, insItems_append, List.length_append]
    have hb := run_good b hev.2 (ihb hev.2 (fun o' ho => hm o' (by simp [ops, ho])) (fun y hy => hG' y (by simp [hy])))
    refine (iha hev.1 (fun o' ho => hm o' (by simp [ops, ho])) (fun y hy => hG' y (by simp [hy]))).mono ?_
    rintro l ⟨h1, h2, h3, h4, h5⟩
    rw [partially_bind]
    refine hb.mono ?_
    rintro s ⟨hw, hg, hl⟩
    refine ⟨?_, levelsOk_append _ _ _ h2 (fun a => RCSketch.levelCalls_ok _ _ _ 0 a (Nat.zero_le _)), ?_, ?_, ?_⟩
    · intro o' ho
      rcases List.mem_append.1 ho with ho | ho
      · exact h1 o' ho
      · obtain ⟨c, hc, rfl⟩ := List.mem_map.1 ho; exact (RCSketch.levelCalls_mem _ _ _ _ c hc).2.1
    · rw [suppliedWeight_append, h3, RCSketch.levelCalls_weight, hw, hlen]; simp
    · intro o' ho y hy
      rcases List.mem_append.1 ho with ho | ho
      · exact h4 o' ho y hy
      · obtain ⟨c, hc, rfl⟩ := List.mem_map.1 ho
        obtain ⟨x, hx, hyx⟩ := (RCSketch.levelCalls_mem _ _ _ _ c hc).2.2.2 y hy
        exact hg x hx y hyx
    · intro hN o' ho
      rcases List.mem_append.1 ho with ho | ho
      · exact h5 (by omega) o' ho
      · obtain ⟨c, hc, rfl⟩ := List.mem_map.1 ho
        have := (RCSketch.levelCalls_mem _ _ _ _ c hc).2.2.1
        have := hl (by omega)
        simp only [AnyIns.lvl]; omega

/-- The number of items passed in such a history. -/
theorem passed_le (l : List (AnyIns K)) : AnyIns.passed l ≤ suppliedWeight l := by
  induction l with
  | nil => simp [AnyIns.passed, suppliedWeight]
  | cons o os ih =>
    rw [AnyIns.passed_cons, suppliedWeight]
    have : o.items.length ≤ 2 ^ o.lvl * o.items.length := Nat.le_mul_of_pos_left _ (by positivity)
    omega

end MergeTree
end AQ

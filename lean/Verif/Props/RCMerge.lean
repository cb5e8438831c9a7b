/-
Property C131: merging two RCSketches through the public interface.
-/
import Verif.Props.RCWeighted

set_option linter.unusedSectionVars false
set_option linter.unusedVariables false

namespace AQ
open Prog Spec
variable {K : Type} [Field K] [LinearOrder K] [IsStrictOrderedRing K] [FloatFmt K]

namespace Spec

theorem suppliedWeight_append (a b : List (AnyIns K)) : suppliedWeight (a ++ b) = suppliedWeight a + suppliedWeight b := by
  induction a with
  | nil => simp [suppliedWeight]
  | cons o os ih => rw [List.cons_append, suppliedWeight, suppliedWeight, ih]; omega

theorem suppliedRank_append (x : Fl K) (a b : List (AnyIns K)) : suppliedRank x (a ++ b) = suppliedRank x a + suppliedRank x b := by
  induction a with
  | nil => simp [suppliedRank]
  | cons o os ih => rw [List.cons_append, suppliedRank, suppliedRank, ih]; omega

theorem suppliedWeight_plain (ops : List (InsOp K)) : suppliedWeight (ops.map .plain) = (insItems ops).length := by
  induction ops with
  | nil => rfl
  | cons o os ih =>
    rw [List.map_cons, suppliedWeight, ih]
    simp [AnyIns.lvl, AnyIns.items, insItems]

theorem suppliedRank_plain (x : Fl K) (ops : List (InsOp K)) : suppliedRank x (ops.map .plain) = rank (insItems ops) x := by
  induction ops with
  | nil => rfl
  | cons o os ih =>
    rw [List.map_cons, suppliedRank, ih]
    simp [AnyIns.lvl, AnyIns.items, insItems, rank]

theorem counted_append (a b : List (AnyIns K)) : counted (a ++ b) = counted a + counted b := by
  induction a with
  | nil => simp [counted]
  | cons o os ih => cases o <;> rw [List.cons_append, counted, counted, ih] <;> omega

theorem counted_plain (ops : List (InsOp K)) : counted (ops.map .plain) = (insItems ops).length := by
  induction ops with
  | nil => rfl
  | cons o os ih =>
    rw [List.map_cons, counted, ih]
    simp [insItems]

theorem counted_level (cs : List (LevelCall K)) : counted (cs.map .level) = 0 := by
  induction cs with
  | nil => rfl
  | cons o os ih => rw [List.map_cons, counted, ih]

end Spec

namespace RCSketch

/-! ### The calls of a merge -/

theorem levelCalls_weight (fast : Bool) (m : CompactionMethod) (bs : List (List (Fl K))) : ∀ i,
    suppliedWeight ((levelCalls fast m i bs).map .level) = 2 ^ i * wsum (bs.map List.length) := by
  induction bs with
  | nil => intro i; simp [levelCalls, suppliedWeight, wsum]
  | cons b bs ih =>
    intro i
    rw [levelCalls, List.map_cons, suppliedWeight, ih, List.map_cons, wsum, pow_succ]
    simp only [AnyIns.lvl, AnyIns.items, LevelCall.lvl, LevelCall.items]
    ring

theorem levelCalls_rank (x : Fl K) (fast : Bool) (m : CompactionMethod) (bs : List (List (Fl K))) : ∀ i,
    suppliedRank x ((levelCalls fast m i bs).map .level) = 2 ^ i * weightedRank bs x := by
  unfold weightedRank
  induction bs with
  | nil => intro i; simp [levelCalls, suppliedRank, wsum]
  | cons b bs ih =>
    intro i
    rw [levelCalls, List.map_cons, suppliedRank, ih, List.map_cons, wsum, pow_succ]
    simp only [AnyIns.lvl, AnyIns.items, LevelCall.lvl, LevelCall.items]
    ring

theorem levelCalls_passed (fast : Bool) (m : CompactionMethod) (bs : List (List (Fl K))) : ∀ i,
    AnyIns.passed ((levelCalls fast m i bs).map .level) = (bs.map List.length).sum := by
  induction bs with
  | nil => intro i; rfl
  | cons b bs ih =>
    intro i
    rw [levelCalls, List.map_cons, AnyIns.passed_cons, ih, List.map_cons, List.sum_cons]
    rfl

theorem levelCalls_mem (fast : Bool) (m : CompactionMethod) (bs : List (List (Fl K))) : ∀ i,
    ∀ c ∈ levelCalls fast m i bs, c.fast = fast ∧ c.method = m ∧ c.lvl < i + bs.length ∧ ∀ y ∈ c.items, ∃ b ∈ bs, y ∈ b := by
  induction bs with
  | nil => intro i c hc; simp [levelCalls] at hc
  | cons b bs ih =>
    intro i c hc
    rw [levelCalls] at hc
    rcases List.mem_cons.1 hc with rfl | hc
    · exact ⟨rfl, rfl, by simp only [LevelCall.lvl, List.length_cons]; omega, fun y hy => ⟨b, by simp, hy⟩⟩
    · obtain ⟨h1, h2, h3, h4⟩ := ih (i + 1) c hc
      refine ⟨h1, h2, by rw [List.length_cons]; omega, fun y hy => ?_⟩
      obtain ⟨b', hb', hy'⟩ := h4 y hy
      exact ⟨b', by simp [hb'], hy'⟩

theorem levelCalls_ok (fast : Bool) (m : CompactionMethod) (bs : List (List (Fl K))) : ∀ i a, i ≤ a →
    AnyIns.LevelsOk a ((levelCalls fast m i bs).map .level) := by
  induction bs with
  | nil => intro i a _; trivial
  | cons b bs ih =>
    intro i a ha
    rw [levelCalls, List.map_cons]
    refine ⟨ha, ih (i + 1) _ ?_⟩
    simp only [AnyIns.opens, LevelCall.lvl]
    omega

theorem levelsOk_plain (ops : List (InsOp K)) (rest : List (AnyIns K)) (hr : ∀ a, AnyIns.LevelsOk a rest) : ∀ a,
    AnyIns.LevelsOk a (ops.map .plain ++ rest) := by
  induction ops with
  | nil => exact hr
  | cons o os ih => intro a; exact ⟨Nat.zero_le _, ih _⟩

theorem anyExecs_append : ∀ (a b : List (AnyIns K)) (s : RCSketch K),
    AnyIns.execs s (a ++ b) = (AnyIns.execs s a >>= fun s' => AnyIns.execs s' b) := by
  intro a b
  induction a with
  | nil => intro s; rfl
  | cons o os ih =>
    intro s
    rw [List.cons_append, AnyIns.execs, AnyIns.execs, bind_assoc']
    exact congrArg _ (funext (fun s' => ih s'))

theorem anyExecs_plain : ∀ (ops : List (InsOp K)) (s : RCSketch K), AnyIns.execs s (ops.map .plain) = execOps s ops := by
  intro ops
  induction ops with
  | nil => intro s; rfl
  | cons o os ih =>
    intro s
    rw [List.map_cons, AnyIns.execs, execOps]
    exact congrArg _ (funext (fun s' => ih s'))

theorem anyExecs_level : ∀ (cs : List (LevelCall K)) (s : RCSketch K), AnyIns.execs s (cs.map .level) = LevelCall.execs s cs := by
  intro cs
  induction cs with
  | nil => intro s; rfl
  | cons o os ih =>
    intro s
    rw [List.map_cons, AnyIns.execs, LevelCall.execs]
    exact congrArg _ (funext (fun s' => ih s'))

/-- An ordinary history is a history of calls. -/
theorem runHist_any (n k : Nat) (ops : List (InsOp K)) : runHist n k ops = AnyIns.run n k (ops.map .plain) := by
  unfold runHist AnyIns.run
  exact congrArg _ (funext (fun s => (anyExecs_plain ops s).symm))

/-- All calls made on `a` when it is built from `ops` and `b` is merged into it. -/
def mergeOps (ops : List (InsOp K)) (b : RCSketch K) (fast : Bool) : List (AnyIns K) :=
  ops.map .plain ++ (levelCalls fast .default 0 b.buffers).map .level

/-- Building `a` and merging `b` into it is one history of calls on `a`, and an update of the count. -/
theorem merge_any (n k : Nat) (ops : List (InsOp K)) (b : RCSketch K) (fast : Bool) :
    (runHist n k ops >>= fun a => mergeInto a b fast .default) =
      (AnyIns.run n k (mergeOps ops b fast) >>= fun s => .ret { s with count := s.count + b.count }) := by
  rw [runHist_any]
  unfold AnyIns.run mergeOps
  rw [bind_assoc', bind_assoc']
  refine congrArg _ (funext (fun s => ?_))
  rw [anyExecs_append, bind_assoc']
  refine congrArg _ (funext (fun s' => ?_))
  rw [anyExecs_level]
  rfl

theorem mergeOps_default {ops : List (InsOp K)} (hm : ∀ o ∈ ops, o.method = .default) (b : RCSketch K) (fast : Bool) :
    ∀ o ∈ mergeOps ops b fast, o.method = .default := by
  intro o ho
  rcases List.mem_append.1 ho with ho | ho
  · obtain ⟨o', ho', rfl⟩ := List.mem_map.1 ho; exact hm o' ho'
  · obtain ⟨c, hc, rfl⟩ := List.mem_map.1 ho; exact (levelCalls_mem _ _ _ _ c hc).2.1

theorem mergeOps_good {G : Fl K → Prop} {ops : List (InsOp K)} (hg : ∀ y ∈ insItems ops, G y) {b : RCSketch K}
    (hb : ∀ l ∈ b.buffers, ∀ y ∈ l, G y) (fast : Bool) : ∀ o ∈ mergeOps ops b fast, ∀ y ∈ o.items, G y := by
  intro o ho y hy
  rcases List.mem_append.1 ho with ho | ho
  · obtain ⟨o', ho', rfl⟩ := List.mem_map.1 ho
    exact hg y (List.mem_flatMap.2 ⟨o', ho', hy⟩)
  · obtain ⟨c, hc, rfl⟩ := List.mem_map.1 ho
    obtain ⟨l, hl, hyl⟩ := (levelCalls_mem _ _ _ _ c hc).2.2.2 y hy
    exact hb l hl y hyl

theorem mergeOps_ok (ops : List (InsOp K)) (b : RCSketch K) (fast : Bool) : AnyIns.LevelsOk 0 (mergeOps ops b fast) :=
  levelsOk_plain ops _ (fun a => levelCalls_ok _ _ _ 0 a (Nat.zero_le _)) 0

theorem mergeOps_weight (ops : List (InsOp K)) (b : RCSketch K) (fast : Bool) :
    suppliedWeight (mergeOps ops b fast) = (insItems ops).length + wsum (b.buffers.map List.length) := by
  rw [mergeOps, suppliedWeight_append, suppliedWeight_plain, levelCalls_weight]; simp

theorem mergeOps_rank (x : Fl K) (ops : List (InsOp K)) (b : RCSketch K) (fast : Bool) :
    suppliedRank x (mergeOps ops b fast) = rank (insItems ops) x + weightedRank b.buffers x := by
  rw [mergeOps, suppliedRank_append, suppliedRank_plain, levelCalls_rank]; simp

theorem passed_append (a b : List (AnyIns K)) : AnyIns.passed (a ++ b) = AnyIns.passed a + AnyIns.passed b := by
  simp [AnyIns.passed]

theorem passed_plain (ops : List (InsOp K)) : AnyIns.passed (ops.map .plain) = (insItems ops).length := by
  induction ops with
  | nil => rfl
  | cons o os ih => rw [List.map_cons, AnyIns.passed_cons, ih]; simp [AnyIns.items, insItems]

theorem mergeOps_passed (ops : List (InsOp K)) (b : RCSketch K) (fast : Bool) :
    AnyIns.passed (mergeOps ops b fast) = (insItems ops).length + (b.buffers.map List.length).sum := by
  rw [mergeOps, passed_append, passed_plain, levelCalls_passed]

theorem mergeOps_lvl (ops : List (InsOp K)) {b : RCSketch K} (hb : b.buffers.length ≤ 64) (fast : Bool) :
    ∀ o ∈ mergeOps ops b fast, o.lvl < 64 := by
  intro o ho
  rcases List.mem_append.1 ho with ho | ho
  · obtain ⟨o', ho', rfl⟩ := List.mem_map.1 ho; simp [AnyIns.lvl]
  · obtain ⟨c, hc, rfl⟩ := List.mem_map.1 ho
    have := (levelCalls_mem _ _ _ _ c hc).2.2.1
    simp only [AnyIns.lvl]; omega

theorem wsum_ge_sum (l : List Nat) : l.sum ≤ wsum l := by
  induction l with
  | nil => simp [wsum]
  | cons a l ih => simp only [List.sum_cons, wsum]; omega

/-! ### What is known about the sketch merged in -/

/-- Number of items stored is at most the number supplied, any `k`. -/
theorem rc_stored (n k : Nat) (ops : List (InsOp K)) :
    Partially (runHist n k ops) (fun s => (s.buffers.map List.length).sum ≤ (insItems ops).length) :=
  (hist_partially (J := fun l s P => total s P ≤ l.length)
    { closed := fun l fast m _ => total_closed fast m l.length
      start := fun l c s _ _ hj => by simp [total] at hj ⊢; exact hj
      cnt := fun l s n hj => hj } n k ops (ok := fun _ _ => True) (fun _ _ => trivial)
    (fun _ => by simp [total, fresh, stored])).mono (fun s h => by
      have := h.2.2.1; simpa [total, stored] using this)

theorem rc_good (n k : Nat) (ops : List (InsOp K)) (hm : ∀ o ∈ ops, o.method = .default) (hnan : ∀ y ∈ insItems ops, y ≠ .nan) :
    Partially (runHist n k ops) (fun s => ∀ b ∈ s.buffers, ∀ y ∈ b, y ≠ .nan) := by
  rw [runHist_any]
  refine (C130_stored n k (ops.map .plain) (fun o ho => ?_)).mono (fun s hs b hb y hy => ?_)
  · obtain ⟨o', ho', rfl⟩ := List.mem_map.1 ho; exact hm o' ho'
  · obtain ⟨o, ho, hyo⟩ := hs b hb y hy
    obtain ⟨o', ho', rfl⟩ := List.mem_map.1 ho
    exact hnan y (List.mem_flatMap.2 ⟨o', ho', hyo⟩)

/-- Building two sketches independently and merging the second into the first. -/
def mergeRun (n1 k1 : Nat) (ops1 : List (InsOp K)) (n2 k2 : Nat) (ops2 : List (InsOp K)) (fast : Bool) : Prog (RCSketch K) := do
  let b ← runHist n2 k2 ops2
  let a ← runHist n1 k1 ops1
  mergeInto a b fast .default

theorem mergeRun_eq (n1 k1 : Nat) (ops1 : List (InsOp K)) (n2 k2 : Nat) (ops2 : List (InsOp K)) (fast : Bool) :
    mergeRun n1 k1 ops1 n2 k2 ops2 fast = (runHist n2 k2 ops2 >>= fun b =>
      AnyIns.run n1 k1 (mergeOps ops1 b fast) >>= fun s => .ret { s with count := s.count + b.count }) := by
  unfold mergeRun
  exact congrArg _ (funext (fun b => merge_any n1 k1 ops1 b fast))

variable (n1 k1 : Nat) (ops1 : List (InsOp K)) (n2 k2 : Nat) (ops2 : List (InsOp K)) (fast : Bool)

theorem runHist_never (n k : Nat) (hk : 1 ≤ k) (ops : List (InsOp K)) (hm : ∀ o ∈ ops, o.method = .default)
    (hlen : (insItems ops).length < rcCapacity n k) (hnan : ∀ y ∈ insItems ops, y ≠ .nan) : Always (runHist n k ops) (fun _ => True) := by
  rw [runHist_any]
  refine C130_never_panics n k hk _ (fun o ho => ?_) ?_ (by rw [passed_plain]; exact hlen) (fun o ho y hy => ?_)
  · obtain ⟨o', ho', rfl⟩ := List.mem_map.1 ho; exact hm o' ho'
  · have := levelsOk_plain ops [] (fun _ => trivial) 0
    simpa using this
  · obtain ⟨o', ho', rfl⟩ := List.mem_map.1 ho; exact hnan y (List.mem_flatMap.2 ⟨o', ho', hy⟩)

/-- C131. Building two sketches and merging them does not panic while the items fit the capacities: the items of both the capacity of
the sketch merged into, those of the other its own. -/
theorem C131_never_panics (hk1 : 1 ≤ k1) (hk2 : 1 ≤ k2) (hm1 : ∀ o ∈ ops1, o.method = .default) (hm2 : ∀ o ∈ ops2, o.method = .default)
    (hlen : (insItems ops1).length + (insItems ops2).length < rcCapacity n1 k1) (hlen2 : (insItems ops2).length < rcCapacity n2 k2)
    (hnan1 : ∀ y ∈ insItems ops1, y ≠ .nan) (hnan2 : ∀ y ∈ insItems ops2, y ≠ .nan) :
    Always (mergeRun n1 k1 ops1 n2 k2 ops2 fast) (fun _ => True) := by
  rw [mergeRun_eq, always_bind]
  refine ((runHist_never n2 k2 hk2 ops2 hm2 hlen2 hnan2).and ((rc_stored n2 k2 ops2).and (rc_good n2 k2 ops2 hm2 hnan2))).mono ?_
  rintro b ⟨-, hs, hg⟩
  rw [always_bind]
  refine (C130_never_panics n1 k1 hk1 _ (mergeOps_default hm1 b fast) (mergeOps_ok ops1 b fast) ?_
    (mergeOps_good hnan1 hg fast)).mono (fun _ _ => trivial)
  rw [mergeOps_passed]; omega

/-- C131. The merged count is the number of items of both. -/
theorem C131_count : Partially (mergeRun n1 k1 ops1 n2 k2 ops2 fast) (fun s =>
    Digest.count s = .ret ((insItems ops1).length + (insItems ops2).length)) := by
  rw [mergeRun_eq, partially_bind]
  refine (C05_count_exact n2 k2 ops2).mono (fun b hb => ?_)
  rw [partially_bind]
  refine (C130_count n1 k1 (mergeOps ops1 b fast)).mono (fun s hs => ?_)
  have h1 : b.count = (insItems ops2).length := by simpa [Digest.count] using hb
  have h2 : s.count = counted (mergeOps ops1 b fast) := by simpa [Digest.count] using hs
  rw [mergeOps, counted_append, counted_plain, counted_level] at h2
  change Prog.ret (s.count + b.count) = _
  rw [h1, h2]; rfl

theorem rc_weight (n k : Nat) (hk : k % 2 = 0) (ops : List (InsOp K)) :
    Partially (runHist n k ops) (fun s => wsum (s.buffers.map List.length) = (insItems ops).length) := by
  rw [runHist_any]
  exact (C130_weight n k hk _).mono (fun s hs => by rw [hs, suppliedWeight_plain])

/-- C131. The merged weight is the number of items of both (even `k`s), for every history, method, coin. -/
theorem C131_weight (hk1 : k1 % 2 = 0) (hk2 : k2 % 2 = 0) : Partially (mergeRun n1 k1 ops1 n2 k2 ops2 fast) (fun s =>
    wsum (s.buffers.map List.length) = (insItems ops1).length + (insItems ops2).length) := by
  rw [mergeRun_eq, partially_bind]
  refine (rc_weight n2 k2 hk2 ops2).mono (fun b hb => ?_)
  rw [partially_bind]
  refine (C130_weight n1 k1 hk1 (mergeOps ops1 b fast)).mono (fun s hs => ?_)
  rw [mergeOps_weight, hb] at hs
  exact hs

/-- C131. Deterministic error: for whatever sketch `b` is merged in, the merged stored weight up to `x` is that of the items of `a` and the
stored items of `b`, up to the compactions of the merged sketch. -/
theorem C131_rank_error (b : RCSketch K) (hm1 : ∀ o ∈ ops1, o.method = .default) :
    Partially (runHist n1 k1 ops1 >>= fun a => mergeInto a b fast .default) (fun s => ∀ x,
      weightedRank s.buffers x ≤ rank (insItems ops1) x + weightedRank b.buffers x + wsum s.compactions ∧
      rank (insItems ops1) x + weightedRank b.buffers x ≤ weightedRank s.buffers x + wsum s.compactions) := by
  rw [merge_any, partially_bind]
  refine (C130_rank_error n1 k1 _ (mergeOps_default hm1 b fast)).mono (fun s hs x => ?_)
  have := hs x
  rw [mergeOps_rank] at this
  exact this

/-- C131. `interpolate_rank` of the merged sketch returns its stored weight (even `k`s, below `2^63` items). -/
theorem C131_interpolate_rank (hk1 : k1 % 2 = 0) (hk2 : k2 % 2 = 0) (hN : (insItems ops1).length + (insItems ops2).length < 2 ^ 63) :
    Partially (mergeRun n1 k1 ops1 n2 k2 ops2 fast) (fun s => ∀ x, x ≠ .nan → s.interpolateRank x = .ret (weightedRank s.buffers x)) := by
  rw [mergeRun_eq, partially_bind]
  have hl : Partially (runHist n2 k2 ops2) (fun b => b.buffers.length ≤ 64) := by
    rw [runHist_any]
    refine anyRun_levels n2 k2 hk2 _ (fun o ho => ?_) (by rw [suppliedWeight_plain]; omega)
    obtain ⟨o', ho', rfl⟩ := List.mem_map.1 ho; simp [AnyIns.lvl]
  refine ((rc_weight n2 k2 hk2 ops2).and hl).mono ?_
  rintro b ⟨hb, hl⟩
  rw [partially_bind]
  refine (C130_interpolate_rank n1 k1 hk1 _ (mergeOps_lvl ops1 hl fast) ?_).mono (fun s hs => hs)
  rw [mergeOps_weight, hb]; exact hN

theorem plain_unbiased (n k : Nat) (hk : 1 ≤ k) (ops : List (InsOp K)) (hm : ∀ o ∈ ops, o.method = .default)
    (hlen : (insItems ops).length < rcCapacity n k) (hnan : ∀ y ∈ insItems ops, y ≠ .nan) (x : Fl K) :
    exp (runHist n k ops) (fun s => (weightedRank s.buffers x : ℚ)) = rank (insItems ops) x := by
  rw [runHist_any, ← suppliedRank_plain]
  refine C130_unbiased n k hk _ (fun o ho => ?_) ?_ (by rw [passed_plain]; exact hlen) (fun o ho y hy => ?_) x
  · obtain ⟨o', ho', rfl⟩ := List.mem_map.1 ho; exact hm o' ho'
  · have := levelsOk_plain ops [] (fun _ => trivial) 0
    simpa using this
  · obtain ⟨o', ho', rfl⟩ := List.mem_map.1 ho; exact hnan y (List.mem_flatMap.2 ⟨o', ho', hy⟩)

theorem plain_mse (n k : Nat) (hk : 1 ≤ k) (hk2 : k % 2 = 0) (ops : List (InsOp K)) (hm : ∀ o ∈ ops, o.method = .default)
    (hlen : (insItems ops).length < rcCapacity n k) (hnan : ∀ y ∈ insItems ops, y ≠ .nan) (x : Fl K) :
    exp (runHist n k ops) (fun s => ((weightedRank s.buffers x : ℚ) - rank (insItems ops) x) ^ 2) ≤
      2 * ((insItems ops).length : ℚ) ^ 2 / (k * (max (2 * k * Nat.clog 2 (n / k)) (2 * k) : Nat)) := by
  rw [runHist_any, ← suppliedRank_plain, ← suppliedWeight_plain]
  refine C130_mean_squared_error n k hk hk2 _ (fun o ho => ?_) ?_ (by rw [passed_plain]; exact hlen) (fun o ho y hy => ?_) x
  · obtain ⟨o', ho', rfl⟩ := List.mem_map.1 ho; exact hm o' ho'
  · have := levelsOk_plain ops [] (fun _ => trivial) 0
    simpa using this
  · obtain ⟨o', ho', rfl⟩ := List.mem_map.1 ho; exact hnan y (List.mem_flatMap.2 ⟨o', ho', hy⟩)

/-- C131. The merged sketch is unbiased: its expected stored weight up to `x` is the number of items of both up to `x`. -/
theorem C131_unbiased (hk1 : 1 ≤ k1) (hk2 : 1 ≤ k2) (hm1 : ∀ o ∈ ops1, o.method = .default) (hm2 : ∀ o ∈ ops2, o.method = .default)
    (hlen : (insItems ops1).length + (insItems ops2).length < rcCapacity n1 k1) (hlen2 : (insItems ops2).length < rcCapacity n2 k2)
    (hnan1 : ∀ y ∈ insItems ops1, y ≠ .nan) (hnan2 : ∀ y ∈ insItems ops2, y ≠ .nan) (x : Fl K) :
    exp (mergeRun n1 k1 ops1 n2 k2 ops2 fast) (fun s => (weightedRank s.buffers x : ℚ)) =
      rank (insItems ops1 ++ insItems ops2) x := by
  rw [mergeRun_eq, exp_bind]
  have h := exp_congr (p := runHist n2 k2 ops2)
    (g := fun b => exp (AnyIns.run n1 k1 (mergeOps ops1 b fast) >>= fun s => .ret { s with count := s.count + b.count })
      (fun s => (weightedRank s.buffers x : ℚ))) (g' := fun b => (rank (insItems ops1) x : ℚ) + weightedRank b.buffers x) (by
    refine ((rc_stored n2 k2 ops2).and (rc_good n2 k2 ops2 hm2 hnan2)).mono ?_
    rintro b ⟨hs, hg⟩
    rw [exp_bind]
    have := C130_unbiased n1 k1 hk1 _ (mergeOps_default hm1 b fast) (mergeOps_ok ops1 b fast) (by rw [mergeOps_passed]; omega)
      (mergeOps_good hnan1 hg fast) x
    rw [mergeOps_rank] at this
    rw [Nat.cast_add] at this
    exact this)
  rw [h, exp_add, exp_const (runHist_never n2 k2 hk2 ops2 hm2 hlen2 hnan2), plain_unbiased n2 k2 hk2 ops2 hm2 hlen2 hnan2,
    rank_append, Nat.cast_add]

/-- An unbiased estimate of `r + w` with variance at most `V`, used as an estimate of `r + r'`. -/
theorem exp_shift_sq {α : Type} {p : Prog α} (hal : Always p (fun _ => True)) (f : α → ℚ) {r r' w V : ℚ} (hu : exp p f = r + w)
    (hv : exp p (fun s => (f s - (r + w)) ^ 2) ≤ V) : exp p (fun s => (f s - (r + r')) ^ 2) ≤ V + (w - r') ^ 2 := by
  have e : (fun s : α => (f s - (r + r')) ^ 2) = (fun s =>
      (f s - (r + w)) ^ 2 + (2 * (w - r') * f s + ((w - r') ^ 2 - 2 * (w - r') * (r + w)))) := by funext s; ring
  have h := exp_add p (fun s => (f s - (r + w)) ^ 2) (fun s => 2 * (w - r') * f s + ((w - r') ^ 2 - 2 * (w - r') * (r + w)))
  rw [exp_add p (fun s => 2 * (w - r') * f s), exp_mul_left, hu, exp_const hal] at h
  rw [e, h]
  linarith

/-- C131. Mean squared error of the merged sketch: at most that of one sketch with the parameters of `a` fed all `N₁ + N₂` items, plus that
of `b`: `2 (N₁ + N₂)² / (k₁ B₁) + 2 N₂² / (k₂ B₂)` (even `k`s). -/
theorem C131_mean_squared_error (hk1 : 1 ≤ k1) (hk2 : 1 ≤ k2) (he1 : k1 % 2 = 0) (he2 : k2 % 2 = 0)
    (hm1 : ∀ o ∈ ops1, o.method = .default) (hm2 : ∀ o ∈ ops2, o.method = .default)
    (hlen : (insItems ops1).length + (insItems ops2).length < rcCapacity n1 k1) (hlen2 : (insItems ops2).length < rcCapacity n2 k2)
    (hnan1 : ∀ y ∈ insItems ops1, y ≠ .nan) (hnan2 : ∀ y ∈ insItems ops2, y ≠ .nan) (x : Fl K) :
    exp (mergeRun n1 k1 ops1 n2 k2 ops2 fast) (fun s => ((weightedRank s.buffers x : ℚ) - rank (insItems ops1 ++ insItems ops2) x) ^ 2) ≤
      2 * ((insItems ops1).length + (insItems ops2).length : ℚ) ^ 2 / (k1 * (max (2 * k1 * Nat.clog 2 (n1 / k1)) (2 * k1) : Nat)) +
      2 * ((insItems ops2).length : ℚ) ^ 2 / (k2 * (max (2 * k2 * Nat.clog 2 (n2 / k2)) (2 * k2) : Nat)) := by
  rw [mergeRun_eq, exp_bind, rank_append, Nat.cast_add]
  have h2 := plain_mse n2 k2 hk2 he2 ops2 hm2 hlen2 hnan2 x
  have hal2 := runHist_never n2 k2 hk2 ops2 hm2 hlen2 hnan2
  have hb : Partially (runHist n2 k2 ops2) (fun b =>
      exp (AnyIns.run n1 k1 (mergeOps ops1 b fast) >>= fun s => .ret { s with count := s.count + b.count })
        (fun s => ((weightedRank s.buffers x : ℚ) - ((rank (insItems ops1) x : ℚ) + (rank (insItems ops2) x : ℚ))) ^ 2) ≤
      2 * ((insItems ops1).length + (insItems ops2).length : ℚ) ^ 2 / (k1 * (max (2 * k1 * Nat.clog 2 (n1 / k1)) (2 * k1) : Nat)) +
        ((weightedRank b.buffers x : ℚ) - rank (insItems ops2) x) ^ 2) := by
    refine ((rc_weight n2 k2 he2 ops2).and ((rc_stored n2 k2 ops2).and (rc_good n2 k2 ops2 hm2 hnan2))).mono ?_
    rintro b ⟨hw, hs, hg⟩
    have hp : AnyIns.passed (mergeOps ops1 b fast) < rcCapacity n1 k1 := by rw [mergeOps_passed]; omega
    have hd := mergeOps_default hm1 b fast
    have hok := mergeOps_ok ops1 b fast
    have hgd := mergeOps_good hnan1 hg fast
    have hal := C130_never_panics n1 k1 hk1 _ hd hok hp hgd
    have hu := C130_unbiased n1 k1 hk1 _ hd hok hp hgd x
    have hv := C130_mean_squared_error n1 k1 hk1 he1 _ hd hok hp hgd x
    rw [mergeOps_weight, hw, Nat.cast_add] at hv
    rw [mergeOps_rank, Nat.cast_add] at hv hu
    rw [exp_bind]
    exact exp_shift_sq hal (fun s : RCSketch K => (weightedRank s.buffers x : ℚ)) hu hv
  refine (exp_mono hb).trans ?_
  rw [exp_add, exp_const hal2]
  exact add_le_add_right h2 _

/-! ### Concrete cases -/

attribute [local instance] ratExact ratExact_exact

/-- The items of the first sketch. -/
def mergeA : List (InsOp ℚ) := [.addBuffer [.fin 1, .fin 3]]

/-- The items of the second sketch. -/
def mergeB : List (InsOp ℚ) := [.add (.fin 2), .addBuffer [.fin 4, .fin 6, .fin 8]]

/-- Two sketches of two and four items (the second has compacted): the merged sketch counts 6, and the smallest items keep their ranks. -/
theorem C131_example :
    ((insItems mergeA).length + (insItems mergeB).length < rcCapacity 2 2 ∧ (insItems mergeB).length < rcCapacity 2 2) ∧
    CanReturn (mergeRun 2 2 mergeA 2 2 mergeB false >>= Digest.count) 6 ∧
    CanReturn (mergeRun 2 2 mergeA 2 2 mergeB false >>= fun s => s.interpolateRank (.fin 2)) 2 ∧
    CanReturn (mergeRun 2 2 mergeA 2 2 mergeB false >>= fun s => s.interpolateRank (.fin 8)) 6 := by
  refine ⟨by decide +kernel, by decide +kernel, by decide +kernel, by decide +kernel⟩

end RCSketch
end AQ

/-
C116: the order of the items between two compactions of a sketch, and within a batch of a TDigest, does not matter.
-/
import Verif.Proofs.BatchOrder
import Verif.Props.RCSketch
import Verif.Model.ScaleK0

set_option linter.unusedSectionVars false
set_option linter.unusedVariables false

namespace AQ
open Prog Spec
variable {K : Type} [Field K] [LinearOrder K] [IsStrictOrderedRing K] [FloatFmt K]

/-- C116. An `RCSketch` in any reachable state: as long as the items supplied by `mid` do not fill the first buffer, any other calls that supply the
same items in any order and in any batches are indistinguishable from it, random bit for random bit, by whatever is inserted afterwards and asked then. -/
theorem C116_rcsketch (n k : Nat) (pre mid mid' post : List (InsOp K)) (hp : (insItems mid).Perm (insItems mid')) :
    Partially (RCSketch.runHist n k pre) (fun s => (s.buffers.getD 0 []).length + (insItems mid).length < s.bufferSize → ∀ x : Fl K,
      (s.execOps mid >>= fun s' => s'.execOps post >>= fun t => t.estQuantileAtValue x) =
        (s.execOps mid' >>= fun s' => s'.execOps post >>= fun t => t.estQuantileAtValue x) ∧
      (s.execOps mid >>= fun s' => s'.execOps post >>= fun t => t.estValueAtQuantile x) =
        (s.execOps mid' >>= fun s' => s'.execOps post >>= fun t => t.estValueAtQuantile x) ∧
      (s.execOps mid >>= fun s' => s'.execOps post >>= fun t => Digest.count t) =
        (s.execOps mid' >>= fun s' => s'.execOps post >>= fun t => Digest.count t)) := by
  refine (rc_static n k pre).mono ?_
  rintro s ⟨hk, -, -, hst⟩ h x
  have hB : 2 ≤ s.bufferSize := by
    rw [hst.2.2.1]; unfold RCSketch.bsize
    have : 2 * k ≤ max (2 * k * Nat.clog 2 (n / k)) (2 * k) := le_max_right _ _
    omega
  have hr := RCSketch.execOps_any_order hp hB h post
  simp only [← bind_assoc']
  refine ⟨(rel_eq_eq ?_).symm, (rel_eq_eq ?_).symm, (rel_eq_eq ?_).symm⟩
  · refine rel_bind hr ?_
    intro a b hab
    unfold RCSketch.estQuantileAtValue
    rw [hab.count, estQuantileFrom_perm hab.buffers]
    exact rel_refl (fun _ => rfl) _
  · refine rel_bind hr ?_
    intro a b hab
    unfold RCSketch.estValueAtQuantile
    rw [hab.count, estValueFrom_perm hab.buffers]
    exact rel_refl (fun _ => rfl) _
  · refine rel_bind hr ?_
    intro a b hab
    exact hab.count

/-- C116. The first items of an `RCSketch`, fewer than `2 * k`, may be supplied in any order and in any batches. -/
theorem C116_rcsketch_start (n k : Nat) (mid mid' post : List (InsOp K)) (hp : (insItems mid).Perm (insItems mid'))
    (hm : (insItems mid).length < 2 * k) (x : Fl K) :
    (RCSketch.runHist n k (mid ++ post) >>= fun t => t.estQuantileAtValue x) =
      (RCSketch.runHist n k (mid' ++ post) >>= fun t => t.estQuantileAtValue x) ∧
    (RCSketch.runHist n k (mid ++ post) >>= fun t => t.estValueAtQuantile x) =
      (RCSketch.runHist n k (mid' ++ post) >>= fun t => t.estValueAtQuantile x) := by
  have happ : ∀ (a b : List (InsOp K)) (s : RCSketch K), s.execOps (a ++ b) = s.execOps a >>= fun s' => s'.execOps b := by
    intro a
    induction a with
    | nil => intro b s; rfl
    | cons o a ih =>
      intro b s
      simp only [List.cons_append, RCSketch.execOps, ih]
      exact (bind_assoc' _ _ _).symm
  have h := C116_rcsketch n k [] mid mid' post hp
  unfold RCSketch.runHist at h ⊢
  rw [RCSketch.new_eq (by omega)] at h ⊢
  simp only [bind_ret, happ, bind_assoc'] at h ⊢
  have := h (show _ < RCSketch.bsize n k by
    unfold RCSketch.bsize
    have : 2 * k ≤ max (2 * k * Nat.clog 2 (n / k)) (2 * k) := le_max_right _ _
    simp [RCSketch.fresh]
    omega) x
  exact ⟨this.1, this.2.1⟩

/-- C116. An `RCSketch2`: likewise as long as the items do not fill the sketch (whatever sizes the sections have). -/
theorem C116_rcsketch2 (sec : Nat → Nat) (s : RCSketch2 K) (hs : s.levels ≠ []) (mid mid' post : List (InsOp K))
    (hp : (insItems mid).Perm (insItems mid')) (hf : s.sketchSize + (insItems mid).length < s.capacity sec) (x : Fl K) :
    (s.execOps sec mid >>= fun s' => s'.execOps sec post >>= fun t => t.estQuantileAtValue x) =
      (s.execOps sec mid' >>= fun s' => s'.execOps sec post >>= fun t => t.estQuantileAtValue x) ∧
    (s.execOps sec mid >>= fun s' => s'.execOps sec post >>= fun t => t.estValueAtQuantile x) =
      (s.execOps sec mid' >>= fun s' => s'.execOps sec post >>= fun t => t.estValueAtQuantile x) ∧
    (s.execOps sec mid >>= fun s' => s'.execOps sec post >>= fun t => Prog.ret t.count) =
      (s.execOps sec mid' >>= fun s' => s'.execOps sec post >>= fun t => Prog.ret t.count) := by
  have hr := RCSketch2.execOps_any_order hp hs hf post
  simp only [← bind_assoc']
  refine ⟨(rel_eq_eq ?_).symm, (rel_eq_eq ?_).symm, (rel_eq_eq ?_).symm⟩
  · refine rel_bind hr ?_
    intro a b hab
    unfold RCSketch2.estQuantileAtValue
    rw [hab.count, estQuantileFrom_perm hab.buffers]
    exact rel_refl (fun _ => rfl) _
  · refine rel_bind hr ?_
    intro a b hab
    unfold RCSketch2.estValueAtQuantile
    rw [hab.count, estValueFrom_perm hab.buffers]
    exact rel_refl (fun _ => rfl) _
  · refine rel_bind hr ?_
    intro a b hab
    exact hab.count

/-- C116. The first items of an `RCSketch2`, fewer than `6 * sec 0` (six times `k`), may be supplied in any order and in any batches. -/
theorem C116_rcsketch2_start (sec : Nat → Nat) (k : Nat) (mid mid' post : List (InsOp K)) (hp : (insItems mid).Perm (insItems mid'))
    (hm : (insItems mid).length < 6 * sec 0) (x : Fl K) :
    (RCSketch2.runHist sec k (mid ++ post) >>= fun t => t.estQuantileAtValue x) =
      (RCSketch2.runHist sec k (mid' ++ post) >>= fun t => t.estQuantileAtValue x) ∧
    (RCSketch2.runHist sec k (mid ++ post) >>= fun t => t.estValueAtQuantile x) =
      (RCSketch2.runHist sec k (mid' ++ post) >>= fun t => t.estValueAtQuantile x) := by
  have happ : ∀ (a b : List (InsOp K)) (s : RCSketch2 K), s.execOps sec (a ++ b) = s.execOps sec a >>= fun s' => s'.execOps sec b := by
    intro a
    induction a with
    | nil => intro b s; rfl
    | cons o a ih =>
      intro b s
      simp only [List.cons_append, RCSketch2.execOps, ih]
      exact (bind_assoc' _ _ _).symm
  have h := C116_rcsketch2 sec (RCSketch2.new k) (by simp [RCSketch2.new]) mid mid' post hp
    (by simp [RCSketch2.new, RCSketch2.capacity, RCSketch2.cap, RCSketch2.newLevel]; omega) x
  unfold RCSketch2.runHist
  simp only [happ, bind_assoc']
  exact ⟨h.1, h.2.1⟩

/-- C116. A `TDigest` in any state, any arithmetic: histories whose calls supply the same items call by call, in any order within each call, have the
same possible outcomes, and so have all later queries. -/
theorem C116_tdigest [FloatFmt.Mono K] [FloorRing K] (d : TDigest K) {ops ops' : List (TDigest.TOp K)}
    (h : List.Forall₂ (fun o o' => o.supplied.Perm o'.supplied) ops ops') :
    SameOutcomes (d.execOps ops) (d.execOps ops') ∧
    (∀ x, SameOutcomes (d.execOps ops >>= fun t => t.estQuantileAtValue x) (d.execOps ops' >>= fun t => t.estQuantileAtValue x)) ∧
    ∀ q, SameOutcomes (d.execOps ops >>= fun t => t.estValueAtQuantile q) (d.execOps ops' >>= fun t => t.estValueAtQuantile q) :=
  have hs := TDigest.execOps_sameOut h d
  ⟨hs, fun _ => hs.bind (fun _ => SameOutcomes.rfl' _), fun _ => hs.bind (fun _ => SameOutcomes.rfl' _)⟩

/-- C116. The first batch of plain items of a `TDigest` leads to one state only, whatever the order of the items. -/
theorem C116_tdigest_first_batch [FloatFmt.Mono K] (s i : ScaleFn K) (cf : Fl K) {xs ys : List (Fl K)} (h : xs.Perm ys) {a b : TDigest K}
    (ha : CanReturn ((TDigest.new s i cf).addBuffer xs) a) (hb : CanReturn ((TDigest.new s i cf).addBuffer ys) b) : a = b :=
  TDigest.addBuffer_fresh_det rfl h ha hb

section Examples
attribute [local instance] ratExact ratExact_exact

/-- C116. Across a compaction of an `RCSketch` the order does matter: 1 to 5 in ascending order can give `4/5` for the share of items up to 3, in
descending order it cannot. -/
theorem C116_rcsketch_order_matters :
    CanReturn (RCSketch.runHist 2 2 [.addBuffer [.fin 1, .fin 2, .fin 3, .fin 4, .fin 5]] >>= fun t => t.estQuantileAtValue (.fin 3))
      (.fin (4 / 5) : Fl ℚ) ∧
    ¬ CanReturn (RCSketch.runHist 2 2 [.addBuffer [.fin 5, .fin 4, .fin 3, .fin 2, .fin 1]] >>= fun t => t.estQuantileAtValue (.fin 3))
      (.fin (4 / 5) : Fl ℚ) := by
  decide +kernel

/-- C116. The same for an `RCSketch2` with `k = 2` and the items 1 to 13: the share of items up to 11 is `12/13` at best when they ascend and always
exact, `11/13`, when they descend. -/
theorem C116_rcsketch2_order_matters :
    CanReturn (RCSketch2.runHist (realSec 2) 2 [.addBuffer [.fin 1, .fin 2, .fin 3, .fin 4, .fin 5, .fin 6, .fin 7, .fin 8, .fin 9, .fin 10,
      .fin 11, .fin 12, .fin 13]] >>= fun t => t.estQuantileAtValue (.fin 11)) (.fin (12 / 13) : Fl ℚ) ∧
    Always (RCSketch2.runHist (realSec 2) 2 [.addBuffer [.fin 13, .fin 12, .fin 11, .fin 10, .fin 9, .fin 8, .fin 7, .fin 6, .fin 5, .fin 4,
      .fin 3, .fin 2, .fin 1]] >>= fun t => t.estQuantileAtValue (.fin 11)) (fun r => r = (.fin (11 / 13) : Fl ℚ)) := by
  decide +kernel

/-- C116. Across batches of a `TDigest` the order does matter: 1, 2, 3, 4 added one by one and in reverse give different shares of items up to 2. -/
theorem C116_tdigest_order_matters :
    Always ((TDigest.new k0 invK0 (.fin 3)).execOps [.add (.fin 1), .add (.fin 2), .add (.fin 3), .add (.fin 4)] >>=
      fun t => t.estQuantileAtValue (.fin 2)) (fun r => r = (.fin (3 / 8) : Fl ℚ)) ∧
    Always ((TDigest.new k0 invK0 (.fin 3)).execOps [.add (.fin 4), .add (.fin 3), .add (.fin 2), .add (.fin 1)] >>=
      fun t => t.estQuantileAtValue (.fin 2)) (fun r => r = (.fin (5 / 12) : Fl ℚ)) := by
  decide +kernel

/-- The hypotheses of `C116_rcsketch_start` hold for three items supplied in two ways. -/
example (post : List (InsOp ℚ)) (x : Fl ℚ) :
    (RCSketch.runHist 100 2 ([.add (.fin 1), .addBuffer [.fin 3, .fin 2]] ++ post) >>= fun t => t.estValueAtQuantile x) =
      (RCSketch.runHist 100 2 ([.addBufferFast [.fin 2, .fin 3, .fin 1]] ++ post) >>= fun t => t.estValueAtQuantile x) :=
  (C116_rcsketch_start 100 2 _ _ post (by decide) (by decide) x).2

/-- A reachable state meeting the hypothesis of `C116_rcsketch` after a compaction. -/
example : Always (RCSketch.runHist 2 2 [.addBuffer [.fin 1, .fin 2, .fin 3, .fin 4]]) (fun s : RCSketch ℚ =>
    s.buffers.length = 2 ∧ (s.buffers.getD 0 []).length + (insItems [InsOp.add (.fin 7)] : List (Fl ℚ)).length < s.bufferSize) := by
  decide +kernel

/-- A reachable state meeting the hypothesis of `C116_rcsketch2` after a compaction. -/
example : Always (RCSketch2.runHist (realSec 2) 2 [.addBuffer [.fin 1, .fin 2, .fin 3, .fin 4, .fin 5, .fin 6, .fin 7, .fin 8, .fin 9, .fin 10,
      .fin 11, .fin 12, .fin 13]]) (fun s : RCSketch2 ℚ => s.levels.length = 2 ∧ s.sketchSize + 2 < s.capacity (realSec 2)) := by
  decide +kernel

/-- Two histories that `C116_tdigest` relates. -/
example : List.Forall₂ (fun o o' : TDigest.TOp ℚ => o.supplied.Perm o'.supplied)
    [.addBuffer [.fin 1, .fin 2], .addCentroids [⟨.fin 1, .fin 5⟩, ⟨.fin 1, .fin 2⟩]]
    [.addBuffer [.fin 2, .fin 1], .addCentroids [⟨.fin 1, .fin 2⟩, ⟨.fin 1, .fin 5⟩]] :=
  .cons (by decide) (.cons (by decide) .nil)

/-- With ties between centroids of different weights a digest has several outcomes, so the statement is about the set of outcomes. -/
example :
    CanReturn ((TDigest.new k0 invK0 (.fin 3)).addCentroidBuffer [⟨.fin 0, .fin 1⟩, ⟨.fin 1, .fin 5⟩, ⟨.fin 1, .fin 2⟩, ⟨.fin 2, .fin 1⟩] >>=
      fun t => t.estQuantileAtValue (.fin (1 / 2))) (.fin (11 / 72) : Fl ℚ) ∧
    CanReturn ((TDigest.new k0 invK0 (.fin 3)).addCentroidBuffer [⟨.fin 0, .fin 1⟩, ⟨.fin 1, .fin 5⟩, ⟨.fin 1, .fin 2⟩, ⟨.fin 2, .fin 1⟩] >>=
      fun t => t.estQuantileAtValue (.fin (1 / 2))) (.fin (11 / 45) : Fl ℚ) := by
  decide +kernel
end Examples
end AQ

/-
Property C112: the sketches and the LinearDigest only compare items (rc_sketch.rs, rc_sketch2.rs, util/linear_digest.rs).

Replacing every item by its image under a map that preserves the order of the items changes nothing but the items themselves,
coin for coin.
-/
import Verif.Proofs.Rescale
import Verif.Spec.Basic

set_option linter.unusedSectionVars false
set_option linter.unusedVariables false

namespace AQ
open Prog

namespace Spec
variable {K : Type} [LinearOrder K]

/-- `f` preserves all comparisons `a <= b` between the items `S` (in particular it maps NaN, and nothing else, to NaN). -/
def KeepsOrder (S : List (Fl K)) (f : Fl K → Fl K) : Prop := ∀ a ∈ S, ∀ b ∈ S, Fl.le (f a) (f b) = Fl.le a b

end Spec

open Spec
variable {K : Type} [Field K] [LinearOrder K] [IsStrictOrderedRing K] [FloatFmt K]

theorem Spec.KeepsOrder.alike {S : List (Fl K)} {f : Fl K → Fl K} (h : KeepsOrder S f) : Alike (MapRel S f) := by
  rintro a _ b _ ⟨ha, rfl⟩ ⟨hb, rfl⟩
  exact (h a ha b hb).symm

/-- C112. RCSketch: with the default compaction method (any mix of `add`, `add_buffer`, `add_buffer_fast` and
`add_buffer_custom`), mapping all items and the query value by `f` leaves rank and quantile answers as they are, coin for coin,
panics included. -/
theorem C112_rcsketch_quantile (n k : Nat) (ops : List (InsOp K)) (hm : ∀ o ∈ ops, o.method = .default) (x : Fl K)
    (f : Fl K → Fl K) (hf : KeepsOrder (x :: insItems ops) f) :
    (RCSketch.runHist n k (ops.map (InsOp.map f)) >>= fun s => s.interpolateRank (f x)) =
      (RCSketch.runHist n k ops >>= fun s => s.interpolateRank x) ∧
    (RCSketch.runHist n k (ops.map (InsOp.map f)) >>= fun s => s.estQuantileAtValue (f x)) =
      (RCSketch.runHist n k ops >>= fun s => s.estQuantileAtValue x) := by
  have h := RCSketch.Like.runHist hf.alike n k ops hm (fun y hy => List.mem_cons_of_mem _ hy)
  have hx : MapRel (x :: insItems ops) f x (f x) := ⟨by simp, rfl⟩
  constructor
  · refine rel_eq_eq (rel_bind h ?_)
    intro s t hst
    show Rel _ (rankFrom x 0 0 s.buffers) (rankFrom (f x) 0 0 t.buffers)
    rw [hf.alike.rankFrom hx hst.buffers]
    exact rel_refl (fun _ => rfl) _
  · refine rel_eq_eq (rel_bind h ?_)
    intro s t hst
    show Rel _ (estQuantileFrom s.buffers s.count x) (estQuantileFrom t.buffers t.count (f x))
    rw [hf.alike.estQuantileFrom hx hst.buffers, hst.count]
    exact rel_refl (fun _ => rfl) _

/-- C112. RCSketch: the answer to a value query is mapped by `f`, coin for coin, panics included. -/
theorem C112_rcsketch_value (n k : Nat) (ops : List (InsOp K)) (hm : ∀ o ∈ ops, o.method = .default) (q : Fl K)
    (f : Fl K → Fl K) (hf : KeepsOrder (insItems ops) f) :
    (RCSketch.runHist n k (ops.map (InsOp.map f)) >>= fun s => s.estValueAtQuantile q) =
      (RCSketch.runHist n k ops >>= fun s => s.estValueAtQuantile q >>= fun v => .ret (f v)) := by
  have h := RCSketch.Like.runHist hf.alike n k ops hm (fun y hy => hy)
  have key := rel_bind (f := fun s => s.estValueAtQuantile q) (g := fun s => s.estValueAtQuantile q) (S := MapRel (insItems ops) f) h
    (fun s t hst => by
      show Rel _ (estValueFrom s.buffers s.count q) (estValueFrom t.buffers t.count q)
      rw [hst.count]
      exact hf.alike.estValueFrom hst.buffers _ q)
  rw [rel_eq (g := f) (fun a b h => h.2) key, bind_assoc']

/-- C112. RCSketch2, for whatever section sizes: rank and quantile answers. -/
theorem C112_rcsketch2_quantile (sec : Nat → Nat) (k : Nat) (ops : List (InsOp K)) (hm : ∀ o ∈ ops, o.method = .default) (x : Fl K)
    (f : Fl K → Fl K) (hf : KeepsOrder (x :: insItems ops) f) :
    (RCSketch2.runHist sec k (ops.map (InsOp.map f)) >>= fun s => s.interpolateRank (f x)) =
      (RCSketch2.runHist sec k ops >>= fun s => s.interpolateRank x) ∧
    (RCSketch2.runHist sec k (ops.map (InsOp.map f)) >>= fun s => s.estQuantileAtValue (f x)) =
      (RCSketch2.runHist sec k ops >>= fun s => s.estQuantileAtValue x) := by
  have h := RCSketch2.like_execOps (sec := sec) hf.alike ops hm (fun y hy => List.mem_cons_of_mem _ hy) (RCSketch2.new_like k)
  have hx : MapRel (x :: insItems ops) f x (f x) := ⟨by simp, rfl⟩
  unfold RCSketch2.runHist
  constructor
  · refine rel_eq_eq (rel_bind h ?_)
    intro s t hst
    show Rel _ (rankFrom x 0 0 s.buffers) (rankFrom (f x) 0 0 t.buffers)
    rw [hf.alike.rankFrom hx hst.buffers]
    exact rel_refl (fun _ => rfl) _
  · refine rel_eq_eq (rel_bind h ?_)
    intro s t hst
    show Rel _ (estQuantileFrom s.buffers s.count x) (estQuantileFrom t.buffers t.count (f x))
    rw [hf.alike.estQuantileFrom hx hst.buffers, hst.count]
    exact rel_refl (fun _ => rfl) _

/-- C112. RCSketch2: value answers. -/
theorem C112_rcsketch2_value (sec : Nat → Nat) (k : Nat) (ops : List (InsOp K)) (hm : ∀ o ∈ ops, o.method = .default) (q : Fl K)
    (f : Fl K → Fl K) (hf : KeepsOrder (insItems ops) f) :
    (RCSketch2.runHist sec k (ops.map (InsOp.map f)) >>= fun s => s.estValueAtQuantile q) =
      (RCSketch2.runHist sec k ops >>= fun s => s.estValueAtQuantile q >>= fun v => .ret (f v)) := by
  have h := RCSketch2.like_execOps (sec := sec) hf.alike ops hm (fun y hy => hy) (RCSketch2.new_like k)
  unfold RCSketch2.runHist
  have key := rel_bind (f := fun s => s.estValueAtQuantile q) (g := fun s => s.estValueAtQuantile q) (S := MapRel (insItems ops) f) h
    (fun s t hst => by
      show Rel _ (estValueFrom s.buffers s.count q) (estValueFrom t.buffers t.count q)
      rw [hst.count]
      exact hf.alike.estValueFrom hst.buffers _ q)
  rw [rel_eq (g := f) (fun a b h => h.2) key, bind_assoc']

section linear
variable [FloorRing K]

/-- The LinearDigest after inserting `xs`. -/
def linearOf (xs : List (Fl K)) : LinearDigest K := (LinearDigest.new : LinearDigest K).addBuffer xs

/-- C112. LinearDigest: quantile answers, and value answers mapped by `f`. -/
theorem C112_linear (xs : List (Fl K)) (x q : Fl K) (f : Fl K → Fl K) (hf : KeepsOrder (x :: xs) f) :
    (linearOf (xs.map f)).estQuantileAtValue (f x) = (linearOf xs).estQuantileAtValue x ∧
    ((linearOf (xs.map f)).estValueAtQuantile q >>= fun r => .ret r.1) =
      ((linearOf xs).estValueAtQuantile q >>= fun r => .ret (f r.1)) := by
  have ha := hf.alike
  have hl : List.Forall₂ (MapRel (x :: xs) f) xs (xs.map f) := mapRel_list (fun y hy => List.mem_cons_of_mem _ hy)
  have hx : MapRel (x :: xs) f x (f x) := ⟨by simp, rfl⟩
  constructor
  · have e1 : xs.countP (fun y => Fl.lt y x) = (xs.map f).countP (fun y => Fl.lt y (f x)) :=
      forall₂_countP (fun a b hab => ha.flt hab hx) hl
    have e2 : xs.countP (fun y => Fl.feq y x) = (xs.map f).countP (fun y => Fl.feq y (f x)) :=
      forall₂_countP (fun a b hab => ha.feq hab hx) hl
    simp only [LinearDigest.estQuantileAtValue, linearOf, LinearDigest.addBuffer, LinearDigest.new, List.nil_append, List.length_map,
      e1, e2]
  · have key : Rel (fun a b => MapRel (x :: xs) f a.1 b.1) ((linearOf xs).estValueAtQuantile q)
        ((linearOf (xs.map f)).estValueAtQuantile q) := by
      simp only [LinearDigest.estValueAtQuantile, linearOf, LinearDigest.addBuffer, LinearDigest.new, List.nil_append, List.length_map]
      refine rel_bind (R := (· = ·)) (rel_refl (fun _ => rfl) _) ?_
      rintro i _ rfl
      refine rel_bind (ha.sortFl hl) ?_
      intro s s' hs
      rw [hs.length_eq]
      split
      · refine rel_bind (R := MapRel (x :: xs) f) ?_ (fun a b h => h)
        exact rel_getLast hs
      · exact rel_bind (rel_idx hs i) (fun a b h => h)
    have key' : Rel (MapRel (x :: xs) f) ((linearOf xs).estValueAtQuantile q >>= fun r => .ret r.1)
        ((linearOf (xs.map f)).estValueAtQuantile q >>= fun r => .ret r.1) := rel_bind key (fun a b h => h)
    rw [rel_eq (g := f) (fun a b h => h.2) key', bind_assoc']
    simp only [bind_ret]

end linear

section examples
attribute [local instance] ratExact

/-- Squaring of non-negative numbers, an order-preserving map that is not affine. -/
def sqMap : Fl ℚ → Fl ℚ
  | .fin x => .fin (x * x)
  | y => y

/-- The hypothesis of C112 for eight items and a query value between two of them. -/
theorem sqMap_keeps : KeepsOrder ((.fin 14 : Fl ℚ) :: [.fin 7, .fin 1, .fin 3, .fin 20, .fin 2, .fin 5, .fin 0, .fin 3]) sqMap := by
  unfold KeepsOrder
  decide +kernel

/-- C112 on a sketch that compacts: the answers for the eight items and for their squares. -/
example :
    ((RCSketch.runHist 8 2 [.addBuffer [.fin 49, .fin 1, .fin 9, .fin 400, .fin 4, .fin 25, .fin 0, .fin 9]] : Prog (RCSketch ℚ)) >>=
      fun s => s.interpolateRank (.fin 196)) =
    ((RCSketch.runHist 8 2 [.addBuffer [.fin 7, .fin 1, .fin 3, .fin 20, .fin 2, .fin 5, .fin 0, .fin 3]] : Prog (RCSketch ℚ)) >>=
      fun s => s.interpolateRank (.fin 14)) := by
  have h := (C112_rcsketch_quantile 8 2 [.addBuffer [.fin 7, .fin 1, .fin 3, .fin 20, .fin 2, .fin 5, .fin 0, .fin 3]]
    (by simp [InsOp.method]) (.fin 14) sqMap sqMap_keeps).1
  simp only [InsOp.map, List.map_cons, List.map_nil, sqMap] at h
  norm_num at h
  exact h

/-- C112. The restriction to the default compaction is needed: averaging neighbours does not commute with such maps. The items 7
and 20 become 27/2 with weight 2, so 14 has rank 8; their squares become 449/2, so the square of 14 has rank 6. -/
theorem C112_average_neighbour_differs :
    Prog.Always ((RCSketch.runHist 8 2 [.addBufferCustom [.fin 7, .fin 1, .fin 3, .fin 20, .fin 2, .fin 5, .fin 0, .fin 3] false .averageNeighbour] :
        Prog (RCSketch ℚ)) >>= fun s => s.interpolateRank (.fin 14)) (fun r => r = 8) ∧
    Prog.Always ((RCSketch.runHist 8 2 [.addBufferCustom ([.fin 7, .fin 1, .fin 3, .fin 20, .fin 2, .fin 5, .fin 0, .fin 3].map sqMap) false
        .averageNeighbour] : Prog (RCSketch ℚ)) >>= fun s => s.interpolateRank (sqMap (.fin 14))) (fun r => r = 6) := by
  decide +kernel

end examples

end AQ

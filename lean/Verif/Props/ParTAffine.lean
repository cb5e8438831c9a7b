/-
Property C171: ParTDigest does not depend on the unit and the origin in which the data are measured (par_t_digest.rs).
-/
import Verif.Props.Affine
import Verif.Props.ParTFlush

set_option linter.unusedSectionVars false
set_option linter.unusedVariables false

namespace AQ
open Prog Spec
variable {K : Type} [Field K] [LinearOrder K] [IsStrictOrderedRing K] [FloatFmt K]

/-- Finite items within the range of the format before and after `x ↦ a·x + b`. -/
def AffineItems (a b : K) (xs : List (Fl K)) : Prop := ∀ x ∈ xs, Item x ∧ Item (x.affine a b)

/-- The image of a call: items and the arguments of quantile queries are transformed. -/
def ParTDigest.Call.affine (a b : K) : ParTDigest.Call K → ParTDigest.Call K
  | .op (.add x) => .op (.add (x.affine a b))
  | .op (.addBuffer xs) => .op (.addBuffer (xs.map (Fl.affine a b)))
  | .op (.quantile v) => .op (.quantile (v.affine a b))
  | .op (.value q) => .op (.value q)
  | .flush => .flush

/-! ### Related programs -/

theorem rel_minBy {α β : Type} {R : α → β → Prop} {f : α → Fl K} {g : β → Fl K}
    (h : ∀ a a' b b', R a a' → R b b' → Fl.cmp (f a) (f b) = Fl.cmp (g a') (g b')) {l : List α} {l' : List β} (hl : List.Forall₂ R l l') :
    Rel (Option.Rel R) (minBy f l) (minBy g l') := by
  have go : ∀ {l : List α} {l' : List β}, List.Forall₂ R l l' → ∀ {m m'}, R m m' → Rel (Option.Rel R) (minBy.go f m l) (minBy.go g m' l') := by
    intro l l' hl
    induction hl with
    | nil => intro m m' hm; exact .some hm
    | cons hb _ ih =>
      intro m m' hm
      unfold minBy.go
      rw [h _ _ _ _ hm hb]
      split
      · rfl
      · exact ih hb
      · exact ih hm
  cases hl with
  | nil => exact .none
  | cons hb hl => exact go hl hb

theorem rel_maxBy {α β : Type} {R : α → β → Prop} {f : α → Fl K} {g : β → Fl K}
    (h : ∀ a a' b b', R a a' → R b b' → Fl.cmp (f a) (f b) = Fl.cmp (g a') (g b')) {l : List α} {l' : List β} (hl : List.Forall₂ R l l') :
    Rel (Option.Rel R) (maxBy f l) (maxBy g l') := by
  have go : ∀ {l : List α} {l' : List β}, List.Forall₂ R l l' → ∀ {m m'}, R m m' → Rel (Option.Rel R) (maxBy.go f m l) (maxBy.go g m' l') := by
    intro l l' hl
    induction hl with
    | nil => intro m m' hm; exact .some hm
    | cons hb _ ih =>
      intro m m' hm
      unfold maxBy.go
      rw [h _ _ _ _ hm hb]
      split
      · rfl
      · exact ih hm
      · exact ih hb
  cases hl with
  | nil => exact .none
  | cons hb hl => exact go hl hb

theorem rel_unwrap {α β : Type} {R : α → β → Prop} {o : Option α} {o' : Option β} (h : Option.Rel R o o') : Rel R (unwrap o) (unwrap o') := by
  cases h with
  | some h => exact h
  | none => rfl

theorem chunksAux_map {α β : Type} (f : α → β) (c : Nat) : ∀ (n : Nat) (l : List α), chunksAux c n (l.map f) = (chunksAux c n l).map (List.map f)
  | 0, _ => rfl
  | n + 1, [] => rfl
  | n + 1, x :: l => by
    have ih := chunksAux_map f c n ((x :: l).drop c)
    rw [List.map_drop] at ih
    show ((x :: l).map f).take c :: chunksAux c n (((x :: l).map f).drop c) = _
    rw [ih, ← List.map_take]
    rfl

theorem cmp_affine {a b : K} (ha : 0 < a) (x y : K) : Fl.cmp (.fin (a * x + b) : Fl K) (.fin (a * y + b)) = Fl.cmp (.fin x) (.fin y) := by
  rw [Fl.cmp_fin, Fl.cmp_fin]
  congr 1
  rcases lt_trichotomy x y with h | h | h
  · rw [compare_lt_iff_lt.2 h, compare_lt_iff_lt.2 ((affine_lt ha).2 h)]
  · subst h; rw [compare_eq_iff_eq.2 rfl, compare_eq_iff_eq.2 rfl]
  · rw [compare_gt_iff_gt.2 h, compare_gt_iff_gt.2 ((affine_lt ha).2 h)]

namespace TDigest
variable {a b : K} {P : K → Prop}

/-- With finite limits no condition on the range is needed. -/
theorem Aff.mergeSorted_lim [FloatFmt.Exact K] (ha : 0 < a) (hP : WPred P) {d d' : TDigest K} (h : Aff a b P d d')
    (hlim : ∃ l u : K, d.min = .fin l ∧ d.max = .fin u ∧ d'.min = .fin (a * l + b) ∧ d'.max = .fin (a * u + b)) {cs cs' : List (Centroid K)}
    (hcs : List.Forall₂ (CAff a b P) cs cs') : Aff a b P (d.mergeSorted cs) (d'.mergeSorted cs') := by
  cases hcs with
  | nil => exact h
  | @cons c c' cs cs' hc hcs =>
    have hl := forall₂_getLast (List.Forall₂.cons hc hcs) (by simp) (by simp)
    obtain ⟨m, w, hw, rfl, rfl⟩ := hc
    have hn : TDigest.weightSum (⟨.fin (a * m + b), .fin w⟩ :: cs') = TDigest.weightSum (⟨.fin m, .fin w⟩ :: cs) :=
      CAff.weightSum (.cons ⟨m, w, hw, rfl, rfl⟩ hcs)
    have key : List.Forall₂ (CAff a b P) (d.mergeSorted (⟨.fin m, .fin w⟩ :: cs)).centroids
        (d'.mergeSorted (⟨.fin (a * m + b), .fin w⟩ :: cs')).centroids := by
      simp only [TDigest.mergeSorted, hn, h.wLimit, Fl.mul_exact]
      have := mergeLoop_aff (a := a) (b := b) hP (d.wLimit (TDigest.weightSum (⟨.fin m, .fin w⟩ :: cs))) (Fl.lit 0)
        (d.wLimit (TDigest.weightSum (⟨.fin m, .fin w⟩ :: cs)) (Fl.lit 0)) w (m * w) hw hcs
      convert this using 3
      ring
    refine ⟨key, h.compressFactor, h.scaleFunc, h.inverseScaleFunc, Or.inr ?_⟩
    simp only [TDigest.mergeSorted]
    generalize (⟨.fin m, .fin w⟩ :: cs : List (Centroid K)).getLast (by simp) = z at hl ⊢
    generalize (⟨.fin (a * m + b), .fin w⟩ :: cs' : List (Centroid K)).getLast (by simp) = z' at hl ⊢
    obtain ⟨mz, wz, -, rfl, rfl⟩ := hl
    obtain ⟨l, u, h1, h2, h3, h4⟩ := hlim
    refine ⟨Min.min l m, Max.max u mz, ?_, ?_, ?_, ?_⟩
    · rw [h1, Fl.fmin_fin]
    · rw [h2, Fl.fmax_fin]
    · rw [h3, Fl.fmin_fin, affine_min ha]
    · rw [h4, Fl.fmax_fin, affine_max ha]

theorem Aff.addCentroidBuffer_lim [FloatFmt.Exact K] (ha : 0 < a) (hP : WPred P) {d d' : TDigest K} (h : Aff a b P d d')
    (hlim : ∃ l u : K, d.min = .fin l ∧ d.max = .fin u ∧ d'.min = .fin (a * l + b) ∧ d'.max = .fin (a * u + b)) {cs cs' : List (Centroid K)}
    (hcs : List.Forall₂ (CAff a b P) cs cs') : Rel (Aff a b P) (d.addCentroidBuffer cs) (d'.addCentroidBuffer cs') := by
  unfold TDigest.addCentroidBuffer
  refine rel_bind (rel_sortUnstable (f := Centroid.mean) (g := Centroid.mean) (Fl_lt_affine ha) (by
    rintro _ _ ⟨m, w, -, rfl, rfl⟩; rfl) (List.rel_append hcs h.centroids)) ?_
  intro l l' hl
  exact h.mergeSorted_lim ha hP hlim hl
end TDigest

/-! ### ParTDigest -/
namespace ParTDigest
variable {a b : K} {P : K → Prop} {s i : ScaleFn K} {cf : Fl K}

theorem unit_eq [FloatFmt.Exact K] : (TDigest.unit : Fl K → Centroid K) = fun x => ⟨x, .fin 1⟩ := by funext x; simp [TDigest.unit]

/-- The digest of one chunk. -/
theorem chunk_aff [FloatFmt.Exact K] (ha : 0 < a) (hP : WPred P) (h1 : P 1) (c : List (Fl K)) (hc : c ≠ []) (hd : AffineItems a b c) :
    Rel (fun d d' => TDigest.Aff a b P d d' ∧ d.centroids ≠ []) ((TDigest.new s i cf).addBuffer c) ((TDigest.new s i cf).addBuffer (c.map (Fl.affine a b))) := by
  have hs : TDigest.supplied [TDigest.TOp.addBuffer c] = c.map (fun x => (⟨x, .fin 1⟩ : Centroid K)) := by
    simp [TDigest.supplied, TDigest.TOp.supplied]
  have h := TDigest.affine_runs (a := a) (b := b) ha hP s i cf [.addBuffer c] (by
      rw [hs]
      intro z hz
      obtain ⟨x, hx, rfl⟩ := List.mem_map.1 hz
      obtain ⟨h2, h3⟩ := hd x hx
      exact ⟨⟨h2.1, 1, one_pos, rfl⟩, h2.2, h3.2⟩) (by
      rw [hs]
      intro z hz
      obtain ⟨x, hx, rfl⟩ := List.mem_map.1 hz
      exact h1)
  have e : ∀ xs : List (Fl K), (TDigest.new s i cf).execOps [.addBuffer xs] = (TDigest.new s i cf).addBuffer xs := fun xs => bind_ret_right _
  rw [List.map_cons, List.map_nil, TDigest.TOp.affine, e, e, hs] at h
  refine rel_mono (fun d d' hh => ⟨hh.1, fun h0 => hc ?_⟩) h
  have := hh.2.empty.1 h0
  simpa using this

theorem chunks_aff [FloatFmt.Exact K] (ha : 0 < a) (hP : WPred P) (h1 : P 1) : ∀ cs : List (List (Fl K)), (∀ c ∈ cs, c ≠ [] ∧ AffineItems a b c) →
    Rel (List.Forall₂ (fun d d' => TDigest.Aff a b P d d' ∧ d.centroids ≠ [])) (chunkDigests (.ret (TDigest.new s i cf)) cs)
      (chunkDigests (.ret (TDigest.new s i cf)) (cs.map (List.map (Fl.affine a b))))
  | [], _ => .nil
  | c :: cs, h => by
    rw [List.map_cons]
    unfold chunkDigests
    rw [bind_ret, bind_ret]
    refine rel_bind (chunk_aff ha hP h1 c (h c (by simp)).1 (h c (by simp)).2) (fun d d' hd => ?_)
    refine rel_bind (chunks_aff ha hP h1 cs (fun c hc => h c (by simp [hc]))) (fun ds ds' hds => ?_)
    exact .cons hd hds

/-- ParTDigests of data and of their images. -/
structure PAff (a b : K) (P : K → Prop) (s i : ScaleFn K) (cf : Fl K) (p p' : ParTDigest K) : Prop where
  digest : TDigest.Aff a b P p.digest p'.digest
  threads : p'.threads = p.threads
  capacity : p'.capacity = p.capacity
  creator : p.creator = .ret (TDigest.new s i cf)
  creator' : p'.creator = .ret (TDigest.new s i cf)
  buffer : p'.buffer = p.buffer.map (Fl.affine a b)
  data : AffineItems a b p.buffer

theorem limits_of {d d' : TDigest K} (h : TDigest.Aff a b P d d' ∧ d.centroids ≠ []) :
    ∃ l u : K, d.min = .fin l ∧ d.max = .fin u ∧ d'.min = .fin (a * l + b) ∧ d'.max = .fin (a * u + b) :=
  h.1.limits.resolve_left (fun h0 => h.2 h0.1)

theorem flush_aff [FloatFmt.Exact K] (ha : 0 < a) (hP : WPred P) (h1 : P 1) {p p' : ParTDigest K} (h : PAff a b P s i cf p p') :
    Rel (PAff a b P s i cf) p.flush p'.flush := by
  unfold flush
  rw [h.buffer, h.threads, h.creator, h.creator']
  by_cases hb : p.buffer = []
  · rw [if_pos hb, if_pos (by rw [hb]; rfl)]
    exact h
  rw [if_neg hb, if_neg (by simpa using hb)]
  unfold chunks
  by_cases ht : p.threads = 0
  · rw [if_pos ht, if_pos ht]; rfl
  rw [if_neg ht, if_neg ht, bind_ret, bind_ret, List.length_map, chunksAux_map]
  refine rel_bind (chunks_aff ha hP h1 _ (fun c hc => ⟨chunksAux_ne_nil _ ht _ _ c hc, fun x hx => h.data x ?_⟩)) ?_
  · rw [← chunksAux_flatten _ ht p.buffer.length p.buffer le_rfl]
    exact List.mem_flatten.2 ⟨c, hc, hx⟩
  intro ds ds' hds
  refine rel_bind (rel_minBy (R := fun d d' => TDigest.Aff a b P d d' ∧ d.centroids ≠ []) (f := TDigest.min) (g := TDigest.min) ?_ hds) ?_
  · intro x x' y y' hx hy
    obtain ⟨l, u, e1, -, e2, -⟩ := limits_of hx
    obtain ⟨l', u', e3, -, e4, -⟩ := limits_of hy
    rw [e1, e2, e3, e4, cmp_affine ha]
  intro mn mn' hmn
  refine rel_bind (rel_unwrap hmn) ?_
  intro dmin dmin' hmin
  refine rel_bind (rel_maxBy (R := fun d d' => TDigest.Aff a b P d d' ∧ d.centroids ≠ []) (f := TDigest.max) (g := TDigest.max) ?_ hds) ?_
  · intro x x' y y' hx hy
    obtain ⟨l, u, -, e1, -, e2⟩ := limits_of hx
    obtain ⟨l', u', -, e3, -, e4⟩ := limits_of hy
    rw [e1, e2, e3, e4, cmp_affine ha]
  intro mx mx' hmx
  refine rel_bind (rel_unwrap hmx) ?_
  intro dmax dmax' hmax
  obtain ⟨l, -, e1, -, e2, -⟩ := limits_of hmin
  obtain ⟨-, u, -, e3, -, e4⟩ := limits_of hmax
  have hcs : List.Forall₂ (CAff a b P) (ds.flatMap TDigest.centroids) (ds'.flatMap TDigest.centroids) := by
    clear hmn hmx
    induction hds with
    | nil => exact .nil
    | cons hd _ ih => exact List.rel_append hd.1.centroids ih
  have hlim : ∃ l u : K, ({ p.digest with min := dmin.min, max := dmax.max } : TDigest K).min = .fin l ∧
      ({ p.digest with min := dmin.min, max := dmax.max } : TDigest K).max = .fin u ∧
      ({ p'.digest with min := dmin'.min, max := dmax'.max } : TDigest K).min = .fin (a * l + b) ∧
      ({ p'.digest with min := dmin'.min, max := dmax'.max } : TDigest K).max = .fin (a * u + b) := ⟨l, u, e1, e3, e2, e4⟩
  refine rel_bind (TDigest.Aff.addCentroidBuffer_lim ha hP
    (d := { p.digest with min := dmin.min, max := dmax.max }) (d' := { p'.digest with min := dmin'.min, max := dmax'.max })
    ⟨h.digest.centroids, h.digest.compressFactor, h.digest.scaleFunc, h.digest.inverseScaleFunc, Or.inr hlim⟩ hlim hcs) ?_
  intro e e' he
  exact ⟨he, rfl, h.capacity, rfl, rfl, rfl, by intro x hx; simp at hx⟩

theorem flushIfFull_aff [FloatFmt.Exact K] (ha : 0 < a) (hP : WPred P) (h1 : P 1) {p p' : ParTDigest K} (h : PAff a b P s i cf p p') :
    Rel (PAff a b P s i cf) p.flushIfFull p'.flushIfFull := by
  unfold flushIfFull
  rw [h.capacity, h.buffer, List.length_map]
  split
  · exact flush_aff ha hP h1 h
  · exact h

theorem addBuffer_aff [FloatFmt.Exact K] (ha : 0 < a) (hP : WPred P) (h1 : P 1) {p p' : ParTDigest K} (h : PAff a b P s i cf p p')
    (xs : List (Fl K)) (hx : AffineItems a b xs) :
    Rel (PAff a b P s i cf) (p.addBuffer xs) (p'.addBuffer (xs.map (Fl.affine a b))) := by
  refine flushIfFull_aff ha hP h1 ⟨h.digest, h.threads, h.capacity, h.creator, h.creator', ?_, ?_⟩
  · simp [h.buffer]
  · intro x hx'
    rcases List.mem_append.1 hx' with h' | h'
    · exact h.data x h'
    · exact hx x h'

variable [FloorRing K]

theorem quantile_aff [FloatFmt.Exact K] (ha : 0 < a) (hP : WPred P) (h1 : P 1) {p p' : ParTDigest K} (h : PAff a b P s i cf p p') (x : K) :
    Rel (fun r r' => r.1 = r'.1 ∧ PAff a b P s i cf r.2 r'.2) (p.estQuantileAtValue (.fin x)) (p'.estQuantileAtValue (.fin (a * x + b))) := by
  unfold estQuantileAtValue
  refine rel_bind (flush_aff ha hP h1 h) (fun e e' he => ?_)
  rw [he.digest.estQuantileAtValue ha x]
  refine rel_bind (rel_refl (R := (· = ·)) (fun _ => rfl) _) (fun r r' hr => ?_)
  exact ⟨hr, he⟩

/-- The calls of C171: insertions of items that stay in range, explicit flushes, and quantile queries of finite numbers. -/
def AffineCall (a b : K) : Call K → Prop
  | .op (.add x) => AffineItems a b [x]
  | .op (.addBuffer xs) => AffineItems a b xs
  | .op (.quantile v) => ∃ x, v = .fin x
  | .op (.value _) => False
  | .flush => True

theorem execCalls_aff [FloatFmt.Exact K] (ha : 0 < a) (hP : WPred P) (h1 : P 1) : ∀ (cs : List (Call K)) {p p' : ParTDigest K}, PAff a b P s i cf p p' →
    (∀ c ∈ cs, AffineCall a b c) → Rel (PAff a b P s i cf) (p.execCalls cs) (p'.execCalls (cs.map (Call.affine a b)))
  | [], p, p', h, _ => h
  | c :: cs, p, p', h, hc => by
    have hrest := fun {q q' : ParTDigest K} (hq : PAff a b P s i cf q q') => execCalls_aff ha hP h1 cs hq (fun c h => hc c (by simp [h]))
    have h0 := hc c (by simp)
    rw [List.map_cons]
    match c, h0 with
    | .flush, _ => exact rel_bind (flush_aff ha hP h1 h) (fun q q' hq => hrest hq)
    | .op (.add x), h0 => exact rel_bind (addBuffer_aff ha hP h1 h [x] h0) (fun q q' hq => hrest hq)
    | .op (.addBuffer xs), h0 => exact rel_bind (addBuffer_aff ha hP h1 h xs h0) (fun q q' hq => hrest hq)
    | .op (.quantile v), h0 =>
      obtain ⟨x, rfl⟩ := h0
      refine rel_bind (R := PAff a b P s i cf) (rel_bind (quantile_aff ha hP h1 h x) (fun r r' hr => ?_)) (fun q q' hq => hrest hq)
      exact hr.2

theorem callHistory_aff [FloatFmt.Exact K] (ha : 0 < a) (hP : WPred P) (h1 : P 1) (s i : ScaleFn K) (cf : Fl K) (threads capacity : Nat)
    (cs : List (Call K)) (hc : ∀ c ∈ cs, AffineCall a b c) :
    Rel (PAff a b P s i cf) (callHistory s i cf threads capacity cs) (callHistory s i cf threads capacity (cs.map (Call.affine a b))) := by
  unfold callHistory new
  simp only [bind_ret, pure_eq]
  refine execCalls_aff ha hP h1 cs ⟨⟨.nil, rfl, rfl, rfl, Or.inl ⟨rfl, rfl, rfl, rfl, rfl⟩⟩, rfl, rfl, rfl, rfl, rfl, ?_⟩ hc
  intro x hx
  simp at hx

/-- After a flush with items supplied the digest is not empty and its weight is their number. -/
theorem flushed_weight [FloatFmt.Exact K] (s i : ScaleFn K) (cf : Fl K) (threads capacity : Nat) (ht : threads ≠ 0) (cs : List (Call K))
    (hc : ∀ c ∈ cs, AffineCall a b c) (hn : (itemsOfCalls cs).length < 2 ^ 64) (hne : itemsOfCalls cs ≠ []) :
    Partially (callHistory s i cf threads capacity cs >>= fun p => p.flush) (fun p =>
      p.digest.centroids ≠ [] ∧ p.digest.totalWeight = .fin ((itemsOfCalls cs).length : K)) := by
  have hi : itemsOfCalls (cs ++ [Call.flush]) = itemsOfCalls cs := by simp [itemsOfCalls]
  have h := C106_count_and_weight s i cf threads capacity ht (cs ++ [.flush]) (by
    intro o ho
    have ho : Call.op o ∈ cs := by simpa using ho
    have := hc _ ho
    match o, this with
    | .add x, h => exact (h x (by simp)).1
    | .addBuffer xs, h => exact fun x hx => (h x hx).1
    | .quantile v, ⟨x, hx⟩ => exact ⟨x, hx⟩) (by rw [hi]; exact hn)
  rw [hi] at h
  have e : callHistory s i cf threads capacity (cs ++ [.flush]) = (callHistory s i cf threads capacity cs >>= fun p => p.flush) := by
    unfold callHistory
    simp only [execCalls_append, bind_assoc']
    congr 1
    funext p
    congr 1
    funext p'
    exact bind_ret_right _
  rw [e] at h
  have hbuf : Partially (callHistory s i cf threads capacity cs >>= fun p => p.flush) (fun p => p.buffer = []) := by
    rw [partially_bind]
    exact (partially_true _).mono (fun p _ => flush_buffer p)
  refine (h.and hbuf).partially.mono ?_
  rintro p ⟨⟨-, hw, -⟩, hb⟩
  rw [hb, List.length_nil, Nat.cast_zero, sub_zero] at hw
  refine ⟨fun h0 => ?_, hw⟩
  have h2 : (p.digest.totalWeight : Fl K) = .fin 0 := by
    unfold TDigest.totalWeight
    rw [h0, TDigest.weightSum_exact (by simp)]
    simp
  rw [show p.totalWeight = p.digest.totalWeight from rfl, h2] at hw
  have : (0 : K) = ((itemsOfCalls cs).length : K) := by simpa using hw
  exact hne (List.length_eq_zero_iff.1 (by exact_mod_cast this.symm))

end ParTDigest

variable [FloorRing K]

/-- C171. After the transformed calls a ParTDigest estimates for `a·x + b` the quantile that it estimates for `x` after the calls themselves,
coin for coin and panic for panic. -/
theorem C171_quantile [FloatFmt.Exact K] (s i : ScaleFn K) (cf : Fl K) (threads capacity : Nat) {a : K} (ha : 0 < a) (b : K)
    (cs : List (ParTDigest.Call K)) (hc : ∀ c ∈ cs, ParTDigest.AffineCall a b c) (x : K) :
    (ParTDigest.callHistory s i cf threads capacity (cs.map (ParTDigest.Call.affine a b)) >>= fun p =>
      p.estQuantileAtValue (.fin (a * x + b)) >>= fun r => .ret r.1) =
    (ParTDigest.callHistory s i cf threads capacity cs >>= fun p => p.estQuantileAtValue (.fin x) >>= fun r => .ret r.1) := by
  have hP : WPred (fun w : K => 0 < w) := ⟨fun _ h => h, fun _ _ => add_pos⟩
  refine rel_eq_eq (rel_bind (ParTDigest.callHistory_aff ha hP one_pos s i cf threads capacity cs hc) (fun p p' hp => ?_))
  exact rel_bind (ParTDigest.quantile_aff ha hP one_pos hp x) (fun r r' hr => hr.1)

/-- C171. Shifting the data shifts the answers to value queries, coin for coin and panic for panic. -/
theorem C171_value_shift [FloatFmt.Exact K] (s i : ScaleFn K) (cf : Fl K) (threads capacity : Nat) (ht : threads ≠ 0) (b : K)
    (cs : List (ParTDigest.Call K)) (hc : ∀ c ∈ cs, ParTDigest.AffineCall 1 b c) (hn : (ParTDigest.itemsOfCalls cs).length < 2 ^ 64)
    (hne : ParTDigest.itemsOfCalls cs ≠ []) (q : K) :
    (ParTDigest.callHistory s i cf threads capacity (cs.map (ParTDigest.Call.affine 1 b)) >>= fun p =>
      p.estValueAtQuantile (.fin q) >>= fun r => .ret r.1) =
    (ParTDigest.callHistory s i cf threads capacity cs >>= fun p => p.estValueAtQuantile (.fin q) >>= fun r => .ret (r.1.affine 1 b)) := by
  have hP : WPred (fun w : K => 1 ≤ w) := ⟨fun w h => by linarith, fun v w h h' => by linarith⟩
  have h := rel_bind (ParTDigest.callHistory_aff (a := 1) (b := b) one_pos hP le_rfl s i cf threads capacity cs hc)
    (fun p p' hp => ParTDigest.flush_aff one_pos hP le_rfl hp)
  have h2 := rel_and_left h (ParTDigest.flushed_weight s i cf threads capacity ht cs hc hn hne)
  have h3 := rel_bind (S := TDigest.VAff 1 b) (f := fun p => p.digest.estValueAtQuantile (.fin q)) (g := fun p => p.digest.estValueAtQuantile (.fin q)) h2
    (fun p p' hp => hp.1.digest.estValueAtQuantile one_pos hP (fun w h => h) hp.2.1 hp.2.2 q (Or.inl rfl))
  have h4 := rel_eq (g := Fl.affine 1 b) (fun _ _ h => h) h3
  simpa only [ParTDigest.estValueAtQuantile, bind_assoc', bind_ret, pure_eq, bind_ret_right] using h4

/-- C171. Changing unit and origin transforms the answers to value queries in the same way, as long as the target does not fall into the right
half of the last centroid but not into the last unit of weight. -/
theorem C171_value_scale [FloatFmt.Exact K] (s i : ScaleFn K) (cf : Fl K) (threads capacity : Nat) (ht : threads ≠ 0) {a : K} (ha : 0 < a) (b : K)
    (cs : List (ParTDigest.Call K)) (hc : ∀ c ∈ cs, ParTDigest.AffineCall a b c) (hn : (ParTDigest.itemsOfCalls cs).length < 2 ^ 64)
    (hne : ParTDigest.itemsOfCalls cs ≠ []) (q : K)
    (htail : Partially (ParTDigest.callHistory s i cf threads capacity cs >>= fun p => p.flush) (fun p =>
      ∀ last ∈ p.digest.centroids.getLast?, ¬ InLastTail ((ParTDigest.itemsOfCalls cs).length : K) last.weight.toK q)) :
    (ParTDigest.callHistory s i cf threads capacity (cs.map (ParTDigest.Call.affine a b)) >>= fun p =>
      p.estValueAtQuantile (.fin q) >>= fun r => .ret r.1) =
    (ParTDigest.callHistory s i cf threads capacity cs >>= fun p => p.estValueAtQuantile (.fin q) >>= fun r => .ret (r.1.affine a b)) := by
  have hP : WPred (fun w : K => 1 ≤ w) := ⟨fun w h => by linarith, fun v w h h' => by linarith⟩
  have h := rel_bind (ParTDigest.callHistory_aff (a := a) (b := b) ha hP le_rfl s i cf threads capacity cs hc)
    (fun p p' hp => ParTDigest.flush_aff ha hP le_rfl hp)
  have h2 := rel_and_left (rel_and_left h (ParTDigest.flushed_weight s i cf threads capacity ht cs hc hn hne)) htail
  have h3 := rel_bind (S := TDigest.VAff a b) (f := fun p => p.digest.estValueAtQuantile (.fin q)) (g := fun p => p.digest.estValueAtQuantile (.fin q)) h2
    (fun p p' hp => hp.1.1.digest.estValueAtQuantile ha hP (fun w h => h) hp.1.2.1 hp.1.2.2 q (Or.inr hp.2))
  have h4 := rel_eq (g := Fl.affine a b) (fun _ _ h => h) h3
  simpa only [ParTDigest.estValueAtQuantile, bind_assoc', bind_ret, pure_eq, bind_ret_right] using h4

section examples
attribute [local instance] ratExact ratExact_exact

/-- Two batches with a query and a flush between them. -/
def affineCalls : List (ParTDigest.Call ℚ) :=
  [.op (.addBuffer [.fin 3, .fin 1, .fin 2]), .op (.quantile (.fin 2)), .op (.add (.fin 5)), .flush, .op (.add (.fin 4))]

/-- The hypotheses of C171 (degrees Celsius and Fahrenheit). -/
example : (∀ c ∈ affineCalls, ParTDigest.AffineCall (9 / 5) 32 c) ∧ ParTDigest.itemsOfCalls affineCalls ≠ [] := by
  have hi : ∀ x ∈ ([1, 2, 3, 4, 5] : List ℚ), Item (.fin x : Fl ℚ) ∧ Item ((.fin x : Fl ℚ).affine (9 / 5) 32) := by
    intro x hx
    simp only [List.mem_cons, List.not_mem_nil, or_false] at hx
    rcases hx with rfl | rfl | rfl | rfl | rfl <;> exact ⟨⟨⟨_, rfl⟩, by decide +kernel⟩, ⟨_, rfl⟩, by decide +kernel⟩
  refine ⟨?_, by decide⟩
  intro c hc
  simp only [affineCalls, List.mem_cons, List.not_mem_nil, or_false] at hc
  rcases hc with rfl | rfl | rfl | rfl | rfl
  · intro x hx
    simp only [List.mem_cons, List.not_mem_nil, or_false] at hx
    rcases hx with rfl | rfl | rfl <;> exact hi _ (by simp)
  · exact ⟨2, rfl⟩
  · intro x hx
    rw [List.mem_singleton.1 hx]; exact hi _ (by simp)
  · trivial
  · intro x hx
    rw [List.mem_singleton.1 hx]; exact hi _ (by simp)

/-- C171. The exception for value queries is needed: eight items that end up in one centroid, quantile 3/4. The answer is 7 - 1/3 for the items
0 … 7 and 70 - 1/3 for the items 0, 10, …, 70 (as for a TDigest, C113). -/
theorem C171_last_tail_not_scaled :
    Always (ParTDigest.callHistory k0 invK0 (.fin (2 : ℚ)) 8 20 [.op (.addBuffer ((List.range 8).map (fun j => .fin (j : ℚ))))] >>= fun p =>
      p.estValueAtQuantile (.fin (3 / 4)) >>= fun r => .ret r.1) (fun v => v = .fin (20 / 3)) ∧
    Always (ParTDigest.callHistory k0 invK0 (.fin (2 : ℚ)) 8 20 ([.op (.addBuffer ((List.range 8).map (fun j => .fin (j : ℚ))))].map
        (ParTDigest.Call.affine 10 0)) >>= fun p =>
      p.estValueAtQuantile (.fin (3 / 4)) >>= fun r => .ret r.1) (fun v => v = .fin (209 / 3)) := by
  decide +kernel

end examples
end AQ

/-
Property C172: the wrappers pass on that the digests inside do not depend on the unit and the origin in which the data are measured.
-/
import Verif.Props.ParTAffine
import Verif.Model.BufferedDigest
import Verif.Proofs.ParallelDigest
import Verif.Model.SymDigest
import Verif.Props.Rescale
import Verif.Proofs.RCHist

set_option linter.unusedSectionVars false
set_option linter.unusedVariables false

namespace AQ
open Prog Spec
variable {K : Type} [Field K] [LinearOrder K] [IsStrictOrderedRing K] [FloatFmt K]

/-- The relation `R` between digests of data and digests of their images under `x ↦ a·x + b` is kept by all insertions, gives the same answers
to quantile queries and the same counts, coin for coin and panic for panic. -/
structure Equi {D : Type} [Digest D (Fl K)] (a b : K) (R : D → D → Prop) : Prop where
  add : ∀ {d d' : D} (x : Fl K), R d d' → AffineItems a b [x] → Rel R (Digest.add d x) (Digest.add d' (x.affine a b))
  addBuffer : ∀ {d d' : D} (xs : List (Fl K)), R d d' → AffineItems a b xs → Rel R (Digest.addBuffer d xs) (Digest.addBuffer d' (xs.map (Fl.affine a b)))
  quantile : ∀ {d d' : D} (x : K), R d d' → Rel (fun r r' => r.1 = r'.1 ∧ R r.2 r'.2) (Digest.estQuantileAtValue d (.fin x : Fl K))
    (Digest.estQuantileAtValue d' (.fin (a * x + b) : Fl K))
  count : ∀ {d d' : D}, R d d' → Rel (· = ·) (Digest.count (F := Fl K) d) (Digest.count (F := Fl K) d')

section
variable {D : Type} [Digest D (Fl K)] {a b : K} {R : D → D → Prop}

/-! ### MultiDigest -/

theorem forEach_rel {f g : D → Prog D} (h : ∀ d d', R d d' → Rel R (f d) (g d')) : ∀ {ds ds' : List D}, List.Forall₂ R ds ds' →
    Rel (List.Forall₂ R) (forEach f ds) (forEach g ds')
  | [], [], _ => .nil
  | d :: ds, d' :: ds', .cons hd hds => rel_bind (h d d' hd) (fun e e' he => rel_bind (forEach_rel h hds) (fun es es' hes => .cons he hes))

theorem sumLoop_rel {f g : D → Prog (Fl K × D)} (h : ∀ d d', R d d' → Rel (fun r r' => r.1 = r'.1 ∧ R r.2 r'.2) (f d) (g d')) :
    ∀ {ds ds' : List D} (acc : Fl K), List.Forall₂ R ds ds' →
    Rel (fun r r' => r.1 = r'.1 ∧ List.Forall₂ R r.2 r'.2) (MultiDigest.sumLoop f ds acc) (MultiDigest.sumLoop g ds' acc)
  | [], [], acc, _ => ⟨rfl, .nil⟩
  | d :: ds, d' :: ds', acc, .cons hd hds => by
    unfold MultiDigest.sumLoop
    refine rel_bind (h d d' hd) (fun r r' hr => ?_)
    rw [← hr.1]
    exact rel_bind (sumLoop_rel h _ hds) (fun s s' hs => ⟨hs.1, .cons hr.2 hs.2⟩)

theorem sumCounts_rel (h : Equi a b R) : ∀ {ds ds' : List D}, List.Forall₂ R ds ds' → Rel (· = ·) (sumCounts (F := Fl K) ds) (sumCounts (F := Fl K) ds')
  | [], [], _ => rfl
  | d :: ds, d' :: ds', .cons hd hds => by
    unfold sumCounts
    refine rel_bind (h.count hd) (fun n n' hn => rel_bind (sumCounts_rel h hds) (fun m m' hm => ?_))
    subst hn hm
    rfl

/-- C172. A `MultiDigest`. -/
theorem C172_multi (h : Equi a b R) : Equi a b (fun m m' : MultiDigest D => List.Forall₂ R m.digests m'.digests) where
  add x hm hx := rel_bind (forEach_rel (fun d d' hd => h.add x hd hx) hm) (fun _ _ hs => hs)
  addBuffer xs hm hx := rel_bind (forEach_rel (fun d d' hd => h.addBuffer xs hd hx) hm) (fun _ _ hs => hs)
  quantile x hm := by
    rename_i m m'
    show Rel _ (MultiDigest.estQuantileAtValue m _) (MultiDigest.estQuantileAtValue m' _)
    unfold MultiDigest.estQuantileAtValue
    rw [hm.length_eq]
    refine rel_bind (sumLoop_rel (fun d d' hd => h.quantile x hd) _ hm) (fun r r' hr => ⟨?_, hr.2⟩)
    simp only [hr.1]
  count hm := sumCounts_rel h hm

/-! ### BufferedDigest -/

/-- BufferedDigests of data and of their images. -/
structure BAff (a b : K) (R : D → D → Prop) (p p' : BufferedDigest D (Fl K)) : Prop where
  digest : R p.digest p'.digest
  capacity : p'.capacity = p.capacity
  buffer : p'.buffer = p.buffer.map (Fl.affine a b)
  data : AffineItems a b p.buffer

theorem bflush_rel (h : Equi a b R) {p p' : BufferedDigest D (Fl K)} (hp : BAff a b R p p') :
    Rel (BAff a b R) p.flush p'.flush := by
  unfold BufferedDigest.flush
  rw [hp.buffer]
  refine rel_bind (h.addBuffer _ hp.digest hp.data) (fun d d' hd => ⟨hd, hp.capacity, rfl, by intro x hx; simp at hx⟩)

theorem bflushIfFull_rel (h : Equi a b R) {p p' : BufferedDigest D (Fl K)} (hp : BAff a b R p p') (xs : List (Fl K)) (hx : AffineItems a b xs) :
    Rel (BAff a b R) (BufferedDigest.flushIfFull { p with buffer := p.buffer ++ xs })
      (BufferedDigest.flushIfFull { p' with buffer := p'.buffer ++ xs.map (Fl.affine a b) }) := by
  have hq : BAff a b R { p with buffer := p.buffer ++ xs } { p' with buffer := p'.buffer ++ xs.map (Fl.affine a b) } := by
    refine ⟨hp.digest, hp.capacity, by simp [hp.buffer], ?_⟩
    intro x hx'
    rcases List.mem_append.1 hx' with h' | h'
    · exact hp.data x h'
    · exact hx x h'
  have hb := hq.buffer
  unfold BufferedDigest.flushIfFull
  simp only [hp.capacity, hp.buffer, List.length_append, List.length_map]
  split
  · have := bflush_rel h hq
    simpa only [hp.capacity, hp.buffer] using this
  · show BAff a b R _ _
    simpa only [hp.capacity, hp.buffer] using hq

theorem addChunks_rel (h : Equi a b R) : ∀ (cs : List (List (Fl K))) {p p' : BufferedDigest D (Fl K)}, BAff a b R p p' →
    (∀ c ∈ cs, AffineItems a b c) → Rel (BAff a b R) (p.addChunks cs) (p'.addChunks (cs.map (List.map (Fl.affine a b))))
  | [], p, p', hp, _ => hp
  | c :: cs, p, p', hp, hc => by
    rw [List.map_cons]
    unfold BufferedDigest.addChunks
    exact rel_bind (bflushIfFull_rel h hp c (hc c (by simp))) (fun q q' hq => addChunks_rel h cs hq (fun c hc' => hc c (by simp [hc'])))

/-- C172. A `BufferedDigest`. -/
theorem C172_buffered (h : Equi a b R) : Equi a b (BAff a b R) where
  add x hp hx := bflushIfFull_rel h hp [x] hx
  addBuffer xs hp hx := by
    rename_i p p'
    show Rel _ (BufferedDigest.addBuffer p xs) (BufferedDigest.addBuffer p' _)
    unfold BufferedDigest.addBuffer chunks
    rw [hp.capacity]
    by_cases hc : p.capacity = 0
    · rw [if_pos hc, if_pos hc]; rfl
    rw [if_neg hc, if_neg hc, bind_ret, bind_ret, List.length_map, chunksAux_map]
    refine addChunks_rel h _ hp (fun c hc' x hx' => hx x ?_)
    rw [← chunksAux_flatten _ hc xs.length xs le_rfl]
    exact List.mem_flatten.2 ⟨c, hc', hx'⟩
  quantile x hp := by
    refine rel_bind (bflush_rel h hp) (fun q q' hq => ?_)
    refine rel_bind (h.quantile x hq.digest) (fun r r' hr => ?_)
    exact ⟨hr.1, hr.2, hq.capacity, hq.buffer, hq.data⟩
  count hp := by
    rename_i p p'
    show Rel _ (BufferedDigest.count p) (BufferedDigest.count p')
    unfold BufferedDigest.count
    rw [hp.buffer, List.length_map]
    refine rel_bind (h.count hp.digest) (fun n n' hn => ?_)
    subst hn
    rfl

/-! ### ParallelDigest -/

theorem feed_rel (h : Equi a b R) : ∀ (cs : List (List (Fl K))) {ds ds' : List D}, List.Forall₂ R ds ds' → (∀ c ∈ cs, AffineItems a b c) →
    Rel (List.Forall₂ R) (ParallelDigest.feed cs ds) (ParallelDigest.feed (cs.map (List.map (Fl.affine a b))) ds')
  | [], _, _, hd, _ => hd
  | c :: cs, [], [], _, _ => .nil
  | c :: cs, d :: ds, d' :: ds', .cons hd hds, hc => by
    rw [List.map_cons]
    unfold ParallelDigest.feed
    exact rel_bind (h.addBuffer c hd (hc c (by simp))) (fun e e' he =>
      rel_bind (feed_rel h cs hds (fun c hc' => hc c (by simp [hc']))) (fun es es' hes => .cons he hes))

theorem rankLoop_rel (h : Equi a b R) (x : K) : ∀ {ds ds' : List D} (acc : Fl K), List.Forall₂ R ds ds' →
    Rel (fun r r' => r.1 = r'.1 ∧ List.Forall₂ R r.2 r'.2) (ParallelDigest.rankLoop (.fin x) ds acc) (ParallelDigest.rankLoop (.fin (a * x + b)) ds' acc)
  | [], [], acc, _ => ⟨rfl, .nil⟩
  | d :: ds, d' :: ds', acc, .cons hd hds => by
    unfold ParallelDigest.rankLoop
    refine rel_bind (h.quantile x hd) (fun r r' hr => ?_)
    refine rel_bind (h.count hr.2) (fun n n' hn => ?_)
    rw [← hr.1, ← hn]
    exact rel_bind (rankLoop_rel h x _ hds) (fun s s' hs => ⟨hs.1, .cons hr.2 hs.2⟩)

theorem pd_addBuffer_rel (ha : 0 < a) (h : Equi a b R) {p p' : ParallelDigest D K} (hp : List.Forall₂ R p.digests p'.digests) (xs : List (Fl K))
    (hx : AffineItems a b xs) : Rel (fun q q' : ParallelDigest D K => List.Forall₂ R q.digests q'.digests) (p.addBuffer xs)
      (p'.addBuffer (xs.map (Fl.affine a b))) := by
  have h0 := ParallelDigest.chunkLen_ne_zero xs.length p.digests.length
  have hS : List.Forall₂ (fun x x' : Fl K => ∃ r : K, x = .fin r ∧ x' = .fin (a * r + b)) xs (xs.map (Fl.affine a b)) := by
    clear h0
    induction xs with
    | nil => exact .nil
    | cons x xs ih =>
      obtain ⟨r, hr⟩ := (hx x (by simp)).1.1
      exact .cons ⟨r, hr, by rw [hr]; rfl⟩ (ih (fun y hy => hx y (by simp [hy])))
  have hcmp : ∀ y y' z z' : Fl K, (∃ r : K, y = .fin r ∧ y' = .fin (a * r + b)) → (∃ r : K, z = .fin r ∧ z' = .fin (a * r + b)) →
      Fl.cmp (id y) (id z) = Fl.cmp (id y') (id z') := by
    rintro _ _ _ _ ⟨r, rfl, rfl⟩ ⟨t, rfl, rfl⟩
    exact (cmp_affine ha r t).symm
  unfold ParallelDigest.addBuffer chunks
  rw [List.length_map, ← hp.length_eq, if_neg h0, if_neg h0, bind_ret, bind_ret, chunksAux_map]
  refine rel_bind (feed_rel h _ hp (fun c hc y hy => hx y ?_)) (fun ds ds' hds => ?_)
  · rw [← chunksAux_flatten _ h0 xs.length xs le_rfl]
    exact List.mem_flatten.2 ⟨c, hc, hy⟩
  refine rel_bind (rel_maxBy hcmp hS) (fun o o' ho => rel_bind (rel_unwrap ho) (fun y y' hy => ?_))
  refine rel_bind (rel_minBy hcmp hS) (fun o o' ho => rel_bind (rel_unwrap ho) (fun z z' hz => ?_))
  exact hds

/-- C172. A `ParallelDigest`. -/
theorem C172_parallel (ha : 0 < a) (h : Equi a b R) : Equi a b (fun p p' : ParallelDigest D K => List.Forall₂ R p.digests p'.digests) where
  add x hp hx := pd_addBuffer_rel ha h hp [x] hx
  addBuffer xs hp hx := pd_addBuffer_rel ha h hp xs hx
  quantile x hp := by
    refine rel_bind (rankLoop_rel h x _ hp) (fun r r' hr => ?_)
    refine rel_bind (sumCounts_rel h hr.2) (fun n n' hn => ?_)
    subst hn
    exact ⟨by simp only [hr.1], hr.2⟩
  count hp := sumCounts_rel h hp

/-! ### SymDigest -/

theorem neg_item {x : Fl K} (h : Item x) : Item (-x) := by
  obtain ⟨⟨r, rfl⟩, h1, h2⟩ := h
  rw [Fl.minValue, Fl.fin_le_fin] at h1
  rw [Fl.maxValue, Fl.fin_le_fin] at h2
  refine ⟨⟨-r, rfl⟩, ?_, ?_⟩
  · rw [Fl.neg_fin, Fl.minValue, Fl.fin_le_fin]; linarith
  · rw [Fl.neg_fin, Fl.maxValue, Fl.fin_le_fin]; linarith

/-- C172. A `SymDigest`: its high side sees the mirrored data, whose images have the origin on the other side. -/
theorem C172_sym {S : D → D → Prop} (h : Equi a b R) (h' : Equi a (-b) S) :
    Equi a b (fun p p' : SymDigest D => R p.low p'.low ∧ S p.high p'.high) := by
  have hneg : ∀ x : Fl K, Item x → -(x.affine a b) = (-x).affine a (-b) := by
    rintro x ⟨⟨r, rfl⟩, -⟩
    show Fl.fin _ = Fl.fin _
    congr 1
    ring
  have hit : ∀ xs : List (Fl K), AffineItems a b xs → AffineItems a (-b) (xs.map (fun x => -x)) := by
    intro xs hx y hy
    obtain ⟨x, hxm, rfl⟩ := List.mem_map.1 hy
    obtain ⟨h1, h2⟩ := hx x hxm
    rw [← hneg x h1]
    exact ⟨neg_item h1, neg_item h2⟩
  refine ⟨?_, ?_, ?_, ?_⟩
  · rintro p p' x ⟨hl, hh⟩ hx
    show Rel _ (SymDigest.add p x) (SymDigest.add p' _)
    unfold SymDigest.add
    refine rel_bind (h.add x hl hx) (fun l l' hl' => ?_)
    rw [hneg x (hx x (by simp)).1]
    refine rel_bind (h'.add (-x) hh (hit [x] hx)) (fun g g' hg => ⟨hl', hg⟩)
  · rintro p p' xs ⟨hl, hh⟩ hx
    show Rel _ (SymDigest.addBuffer p xs) (SymDigest.addBuffer p' _)
    unfold SymDigest.addBuffer
    refine rel_bind (h.addBuffer xs hl hx) (fun l l' hl' => ?_)
    have e : (xs.map (Fl.affine a b)).map (fun x => -x) = (xs.map (fun x => -x)).map (Fl.affine a (-b)) := by
      rw [List.map_map, List.map_map]
      exact List.map_congr_left (fun x hxm => hneg x (hx x hxm).1)
    rw [e]
    refine rel_bind (h'.addBuffer _ hh (hit xs hx)) (fun g g' hg => ⟨hl', hg⟩)
  · rintro p p' x ⟨hl, hh⟩
    show Rel _ (SymDigest.estQuantileAtValue p _) (SymDigest.estQuantileAtValue p' _)
    unfold SymDigest.estQuantileAtValue
    refine rel_bind (h.quantile x hl) (fun l l' hl' => ?_)
    have hq := h'.quantile (-x) hh
    have e : (-(Fl.fin (a * x + b)) : Fl K) = .fin (a * -x + -b) := by
      show Fl.fin _ = Fl.fin _
      congr 1
      ring
    rw [e]
    refine rel_bind hq (fun g g' hg => ?_)
    rw [← hl'.1, ← hg.1]
    exact rel_bind (rel_refl (R := (· = ·)) (fun _ => rfl) _) (fun r r' hr => ⟨hr, hl'.2, hg.2⟩)
  · rintro p p' ⟨hl, -⟩
    exact h.count hl

/-! ### Members of different types -/

/-- C172. Two types of digests side by side (`Box<dyn Digest>`), for instance as members of one `MultiDigest`. -/
theorem C172_boxed {E : Type} [Digest E (Fl K)] {S : E → E → Prop} (h : Equi a b R) (h' : Equi a b S) : Equi (D := D ⊕ E) a b (Sum.LiftRel R S) where
  add x hd hx := by
    cases hd with
    | inl hd => exact rel_bind (h.add x hd hx) (fun e e' he => .inl he)
    | inr hd => exact rel_bind (h'.add x hd hx) (fun e e' he => .inr he)
  addBuffer xs hd hx := by
    cases hd with
    | inl hd => exact rel_bind (h.addBuffer xs hd hx) (fun e e' he => .inl he)
    | inr hd => exact rel_bind (h'.addBuffer xs hd hx) (fun e e' he => .inr he)
  quantile x hd := by
    cases hd with
    | inl hd => exact rel_bind (h.quantile x hd) (fun r r' hr => ⟨hr.1, .inl hr.2⟩)
    | inr hd => exact rel_bind (h'.quantile x hd) (fun r r' hr => ⟨hr.1, .inr hr.2⟩)
  count hd := by
    cases hd with
    | inl hd => exact h.count hd
    | inr hd => exact h'.count hd

/-! ### What follows for whole histories -/

/-- The image of a call. -/
def Op.affine (a b : K) : Op (Fl K) → Op (Fl K)
  | .add x => .add (x.affine a b)
  | .addBuffer xs => .addBuffer (xs.map (Fl.affine a b))
  | .quantile v => .quantile (v.affine a b)
  | .value q => .value q

/-- Insertions of items that stay in range, and quantile queries of finite numbers. -/
def AffineOp (a b : K) : Op (Fl K) → Prop
  | .add x => AffineItems a b [x]
  | .addBuffer xs => AffineItems a b xs
  | .quantile v => ∃ x, v = .fin x
  | .value _ => False

theorem execAll_rel (h : Equi a b R) : ∀ (ops : List (Op (Fl K))) {d d' : D}, R d d' → (∀ o ∈ ops, AffineOp a b o) →
    Rel R (execAll d ops) (execAll d' (ops.map (Op.affine a b)))
  | [], d, d', hd, _ => hd
  | o :: ops, d, d', hd, ho => by
    have hrest := fun {e e' : D} (he : R e e') => execAll_rel h ops he (fun o h => ho o (by simp [h]))
    have h0 := ho o (by simp)
    rw [List.map_cons]
    match o, h0 with
    | .add x, h0 => exact rel_bind (h.add x hd h0) (fun e e' he => hrest he)
    | .addBuffer xs, h0 => exact rel_bind (h.addBuffer xs hd h0) (fun e e' he => hrest he)
    | .quantile v, h0 =>
      obtain ⟨x, rfl⟩ := h0
      exact rel_bind (R := R) (rel_bind (h.quantile x hd) (fun r r' hr => hr.2)) (fun e e' he => hrest he)

/-- C172. After the transformed calls the digest estimates for `a·x + b` the quantile that it estimates for `x` after the calls themselves,
and counts the same, coin for coin and panic for panic. -/
theorem C172_answers (h : Equi a b R) {d d' : D} (hd : R d d') (ops : List (Op (Fl K))) (ho : ∀ o ∈ ops, AffineOp a b o) (x : K) :
    (execAll d' (ops.map (Op.affine a b)) >>= fun s => Digest.estQuantileAtValue s (.fin (a * x + b) : Fl K) >>= fun r => .ret r.1) =
      (execAll d ops >>= fun s => Digest.estQuantileAtValue s (.fin x : Fl K) >>= fun r => .ret r.1) ∧
    (execAll d' (ops.map (Op.affine a b)) >>= fun s => Digest.count (F := Fl K) s) = (execAll d ops >>= fun s => Digest.count (F := Fl K) s) :=
  ⟨rel_eq_eq (rel_bind (execAll_rel h ops hd ho) (fun s s' hs => rel_bind (h.quantile x hs) (fun r r' hr => hr.1))),
    rel_eq_eq (rel_bind (execAll_rel h ops hd ho) (fun s s' hs => h.count hs))⟩
end

/-! ### The t-digests -/
section
variable [FloorRing K] [FloatFmt.Exact K] {a b : K}

theorem pos_wpred : WPred (fun w : K => 0 < w) := ⟨fun _ h => h, fun _ _ => add_pos⟩

theorem td_addBuffer_rel (ha : 0 < a) {d d' : TDigest K} (hd : TDigest.Aff a b (fun w => 0 < w) d d') (xs : List (Fl K)) (hx : AffineItems a b xs) :
    Rel (TDigest.Aff a b (fun w => 0 < w)) (d.addBuffer xs) (d'.addBuffer (xs.map (Fl.affine a b))) := by
  have hs : TDigest.supplied [TDigest.TOp.addBuffer xs] = xs.map (fun x => (⟨x, .fin 1⟩ : Centroid K)) := by
    simp [TDigest.supplied, TDigest.TOp.supplied]
  have h := TDigest.Aff.execOps ha pos_wpred [.addBuffer xs] hd (by
      rw [hs]
      intro z hz
      obtain ⟨x, hxm, rfl⟩ := List.mem_map.1 hz
      exact ⟨(hx x hxm).1.1, 1, one_pos, rfl⟩) (by
      rw [hs]
      intro z hz
      obtain ⟨x, hxm, rfl⟩ := List.mem_map.1 hz
      exact one_pos) (by
      rw [hs]
      intro z hz
      obtain ⟨x, hxm, rfl⟩ := List.mem_map.1 hz
      exact ⟨(hx x hxm).1.2, (hx x hxm).2.2⟩)
  have e : ∀ (t : TDigest K) (ys : List (Fl K)), t.execOps [.addBuffer ys] = t.addBuffer ys := fun t ys => bind_ret_right _
  rwa [List.map_cons, List.map_nil, TDigest.TOp.affine, e, e] at h

/-- C172. A `TDigest`. -/
theorem C172_tdigest (ha : 0 < a) : Equi a b (TDigest.Aff a b (fun w => 0 < w)) where
  add x hd hx := td_addBuffer_rel ha hd [x] hx
  addBuffer xs hd hx := td_addBuffer_rel ha hd xs hx
  quantile x hd := by
    rename_i d d'
    show Rel _ (d.estQuantileAtValue (.fin x) >>= fun r => .ret (r, d)) (d'.estQuantileAtValue (.fin (a * x + b)) >>= fun r => .ret (r, d'))
    rw [hd.estQuantileAtValue ha x]
    exact rel_bind (rel_refl (R := (· = ·)) (fun _ => rfl) _) (fun r r' hr => ⟨hr, hd⟩)
  count hd := by
    rename_i d d'
    show Rel _ (TDigest.count d) (TDigest.count d')
    unfold TDigest.count
    rw [show d'.totalWeight = d.totalWeight from CAff.weightSum hd.centroids]
    exact rel_refl (fun _ => rfl) _

/-- C172. A `ParTDigest`. -/
theorem C172_partdigest (ha : 0 < a) (s i : ScaleFn K) (cf : Fl K) : Equi a b (ParTDigest.PAff a b (fun w => 0 < w) s i cf) where
  add x hd hx := ParTDigest.addBuffer_aff ha pos_wpred one_pos hd [x] hx
  addBuffer xs hd hx := ParTDigest.addBuffer_aff ha pos_wpred one_pos hd xs hx
  quantile x hd := ParTDigest.quantile_aff ha pos_wpred one_pos hd x
  count hd := by
    rename_i d d'
    show Rel _ (ParTDigest.count d) (ParTDigest.count d')
    unfold ParTDigest.count TDigest.count
    rw [show d'.digest.totalWeight = d.digest.totalWeight from CAff.weightSum hd.digest.centroids, hd.buffer, List.length_map]
    exact rel_bind (rel_refl (R := (· = ·)) (fun _ => rfl) _) (fun n n' hn => by subst hn; rfl)

theorem new_aff (a b : K) (s i : ScaleFn K) (cf : Fl K) : TDigest.Aff a b (fun w => 0 < w) (TDigest.new s i cf) (TDigest.new s i cf) :=
  ⟨.nil, rfl, rfl, rfl, Or.inl ⟨rfl, rfl, rfl, rfl, rfl⟩⟩

/-- A `BufferedDigest` around a `SymDigest` of two `MultiDigest`s of `m` `ParallelDigest`s of `n` `TDigest`s. -/
def deepNest (s i : ScaleFn K) (cf : Fl K) (capacity m n : Nat) :
    BufferedDigest (SymDigest (MultiDigest (ParallelDigest (TDigest K) K))) (Fl K) :=
  BufferedDigest.new (SymDigest.new ⟨List.replicate m (ParallelDigest.new (List.replicate n (TDigest.new s i cf)))⟩
    ⟨List.replicate m (ParallelDigest.new (List.replicate n (TDigest.new s i cf)))⟩) capacity

/-- C172 for that nest: measuring in other units changes no quantile estimate. -/
theorem C172_deepNest (ha : 0 < a) (s i : ScaleFn K) (cf : Fl K) (capacity m n : Nat) (ops : List (Op (Fl K))) (ho : ∀ o ∈ ops, AffineOp a b o) (x : K) :
    (execAll (deepNest s i cf capacity m n) (ops.map (Op.affine a b)) >>= fun t => Digest.estQuantileAtValue t (.fin (a * x + b) : Fl K) >>= fun r => .ret r.1) =
      (execAll (deepNest s i cf capacity m n) ops >>= fun t => Digest.estQuantileAtValue t (.fin x : Fl K) >>= fun r => .ret r.1) := by
  have rep : ∀ {α : Type} {R : α → α → Prop} (n : Nat) (t : α), R t t → List.Forall₂ R (List.replicate n t) (List.replicate n t) := by
    intro α R n t ht
    induction n with
    | zero => exact .nil
    | succ n ih => exact .cons ht ih
  have side : ∀ b : K, Equi a b (fun m m' : MultiDigest (ParallelDigest (TDigest K) K) => List.Forall₂ (fun p p' : ParallelDigest (TDigest K) K =>
      List.Forall₂ (TDigest.Aff a b (fun w => 0 < w)) p.digests p'.digests) m.digests m'.digests) :=
    fun b => C172_multi (C172_parallel ha (C172_tdigest ha))
  refine (C172_answers (C172_buffered (C172_sym (side b) (side (-b)))) ⟨⟨?_, ?_⟩, rfl, rfl, ?_⟩ ops ho x).1
  · exact rep m _ (rep n _ (new_aff a b s i cf))
  · exact rep m _ (rep n _ (new_aff a (-b) s i cf))
  · intro y hy
    simp [deepNest, BufferedDigest.new] at hy

end

/-! ### The sketches and the exact digest, which only compare items (C112) -/
section
variable {a b : K}

/-- A finite number and its image. -/
def AffR (a b : K) (x x' : Fl K) : Prop := ∃ r : K, x = .fin r ∧ x' = .fin (a * r + b)

theorem affR_alike (ha : 0 < a) : Alike (AffR a b) := by
  rintro _ _ _ _ ⟨r, rfl, rfl⟩ ⟨t, rfl, rfl⟩
  simp only [Fl.le, Fl.fin_le_fin, affine_le ha]

theorem affR_list : ∀ {xs : List (Fl K)}, AffineItems a b xs → List.Forall₂ (AffR a b) xs (xs.map (Fl.affine a b))
  | [], _ => .nil
  | x :: xs, h => by
    obtain ⟨r, hr⟩ := (h x (by simp)).1.1
    exact .cons ⟨r, hr, by rw [hr]; rfl⟩ (affR_list (fun y hy => h y (by simp [hy])))

theorem affR_one {x : Fl K} (h : AffineItems a b [x]) : AffR a b x (x.affine a b) := by
  obtain ⟨r, hr⟩ := (h x (by simp)).1.1
  exact ⟨r, hr, by rw [hr]; rfl⟩

/-- C172. An `RCSketch`. -/
theorem C172_rcsketch (ha : 0 < a) : Equi a b (RCSketch.Like (AffR a b)) where
  add x hd hx := hd.add (affR_alike ha) (affR_one hx)
  addBuffer xs hd hx := hd.addBufferCustom (affR_alike ha) (affR_list hx) false
  quantile x hd := by
    rename_i s t
    show Rel _ (estQuantileFrom s.buffers s.count (.fin x) >>= fun r => .ret (r, s)) (estQuantileFrom t.buffers t.count (.fin (a * x + b)) >>= fun r => .ret (r, t))
    rw [(affR_alike ha).estQuantileFrom ⟨x, rfl, rfl⟩ hd.buffers, hd.count]
    exact rel_bind (rel_refl (R := (· = ·)) (fun _ => rfl) _) (fun r r' hr => ⟨hr, hd⟩)
  count hd := hd.count

/-- C172. An `RCSketch2`. -/
theorem C172_rcsketch2 (ha : 0 < a) {sec : Nat → Nat} : Equi (D := RC2 sec K) a b (RCSketch2.Like (AffR a b)) where
  add x hd hx := RCSketch2.like_add (affR_alike ha) hd (affR_one hx)
  addBuffer xs hd hx := RCSketch2.like_addBufferCustom (affR_alike ha) hd (affR_list hx) false
  quantile x hd := by
    rename_i s t
    show Rel _ (estQuantileFrom (RCSketch2.buffers s) (RCSketch2.count s) (.fin x) >>= fun r => .ret (r, s))
      (estQuantileFrom (RCSketch2.buffers t) (RCSketch2.count t) (.fin (a * x + b)) >>= fun r => .ret (r, t))
    rw [(affR_alike ha).estQuantileFrom ⟨x, rfl, rfl⟩ hd.buffers, hd.count]
    exact rel_bind (rel_refl (R := (· = ·)) (fun _ => rfl) _) (fun r r' hr => ⟨hr, hd⟩)
  count hd := hd.count

/-- C172. A `LinearDigest`. -/
theorem C172_linear [FloorRing K] (ha : 0 < a) : Equi a b (fun d d' : LinearDigest K => List.Forall₂ (AffR a b) d.values d'.values) where
  add x hd hx := List.rel_append hd (.cons (affR_one hx) .nil)
  addBuffer xs hd hx := List.rel_append hd (affR_list hx)
  quantile x hd := by
    rename_i d d'
    have hx : AffR a b (.fin x) (.fin (a * x + b)) := ⟨x, rfl, rfl⟩
    have e1 := forall₂_countP (p := fun y => Fl.lt y (.fin x)) (q := fun y => Fl.lt y (.fin (a * x + b))) (fun y z hyz => (affR_alike ha).flt hyz hx) hd
    have e2 := forall₂_countP (p := fun y => Fl.feq y (.fin x)) (q := fun y => Fl.feq y (.fin (a * x + b))) (fun y z hyz => (affR_alike ha).feq hyz hx) hd
    refine ⟨?_, hd⟩
    show d.estQuantileAtValue _ = d'.estQuantileAtValue _
    unfold LinearDigest.estQuantileAtValue
    simp only [e1, e2, hd.length_eq]
  count hd := hd.length_eq

/-- C172 for a `BufferedDigest` around a `MultiDigest` of `m` new `RCSketch`es. -/
theorem C172_sketchNest (ha : 0 < a) (n k capacity m : Nat) (ops : List (Op (Fl K))) (ho : ∀ o ∈ ops, AffineOp a b o) (x : K) :
    (execAll (BufferedDigest.new (⟨List.replicate m (RCSketch.fresh n k)⟩ : MultiDigest (RCSketch K)) capacity) (ops.map (Op.affine a b)) >>= fun t =>
      Digest.estQuantileAtValue t (.fin (a * x + b) : Fl K) >>= fun r => .ret r.1) =
    (execAll (BufferedDigest.new (⟨List.replicate m (RCSketch.fresh n k)⟩ : MultiDigest (RCSketch K)) capacity) ops >>= fun t =>
      Digest.estQuantileAtValue t (.fin x : Fl K) >>= fun r => .ret r.1) := by
  refine (C172_answers (C172_buffered (C172_multi (C172_rcsketch (b := b) ha))) ⟨?_, rfl, rfl, ?_⟩ ops ho x).1
  · show List.Forall₂ _ (List.replicate m _) (List.replicate m _)
    induction m with
    | zero => exact .nil
    | succ m ih => exact .cons ⟨.nil, rfl, rfl, rfl, rfl, rfl⟩ ih
  · intro y hy
    simp [BufferedDigest.new] at hy
end

section examples
attribute [local instance] ratExact ratExact_exact

/-- The hypothesis on the calls: Celsius and Fahrenheit again. -/
example : ∀ o ∈ ([.addBuffer [.fin 3, .fin 1], .quantile (.fin 2), .add (.fin 5)] : List (Op (Fl ℚ))), AffineOp (9 / 5) 32 o := by
  have hi : ∀ x ∈ ([1, 3, 5] : List ℚ), Item (.fin x : Fl ℚ) ∧ Item ((.fin x : Fl ℚ).affine (9 / 5) 32) := by
    intro x hx
    simp only [List.mem_cons, List.not_mem_nil, or_false] at hx
    rcases hx with rfl | rfl | rfl <;> exact ⟨⟨⟨_, rfl⟩, by decide +kernel⟩, ⟨_, rfl⟩, by decide +kernel⟩
  intro o ho
  simp only [List.mem_cons, List.not_mem_nil, or_false] at ho
  rcases ho with rfl | rfl | rfl
  · intro x hx
    simp only [List.mem_cons, List.not_mem_nil, or_false] at hx
    rcases hx with rfl | rfl <;> exact hi _ (by simp)
  · exact ⟨2, rfl⟩
  · intro x hx
    rw [List.mem_singleton.1 hx]; exact hi _ (by simp)

/-- C172 is about quantile queries only: the value search of a `ParallelDigest` stops when the interval is small compared with the values
themselves, so it depends on the origin. The median of -1, 0 and 1 is found up to 1/100000; with 10⁷ added to the items the answer is the largest
item. -/
theorem C172_value_search_depends_on_origin :
    Always (ParallelDigest.addBuffer (ParallelDigest.new [LinearDigest.new] : ParallelDigest (LinearDigest ℚ) ℚ) [.fin (-1), .fin 0, .fin 1] >>= fun p =>
      p.estValueAtQuantile (.fin (1 / 2)) >>= fun r => .ret r.1) (fun v => Fl.le (.fin 0) v = true ∧ Fl.le v (.fin (1 / 100000)) = true) ∧
    Always (ParallelDigest.addBuffer (ParallelDigest.new [LinearDigest.new] : ParallelDigest (LinearDigest ℚ) ℚ)
      [.fin (10 ^ 7 - 1), .fin (10 ^ 7), .fin (10 ^ 7 + 1)] >>= fun p =>
      p.estValueAtQuantile (.fin (1 / 2)) >>= fun r => .ret r.1) (fun v => v = .fin (10 ^ 7 + 1)) := by
  decide +kernel

end examples
end AQ

/-
Property C173: value queries of nested digests around sketches move with the unit and the origin in which the data are measured.
-/
import Verif.Props.AffineNest

set_option linter.unusedSectionVars false
set_option linter.unusedVariables false

namespace AQ
open Prog Spec
variable {K : Type} [Field K] [LinearOrder K] [IsStrictOrderedRing K] [FloatFmt K]

/-- A finite number and its image, or NaN twice (a `MultiDigest` without members divides 0 by 0). -/
def AffV (a b : K) (v v' : Fl K) : Prop := AffR a b v v' ∨ v = .nan ∧ v' = .nan

theorem AffV.affine {a b : K} {v v' : Fl K} (h : AffV a b v v') : v' = v.affine a b := by
  obtain ⟨r, rfl, rfl⟩ | ⟨rfl, rfl⟩ := h <;> rfl

/-- `R` is kept as in C172 and moreover turns the answers of value queries into their images. -/
structure EquiV {D : Type} [Digest D (Fl K)] (a b : K) (R : D → D → Prop) : Prop extends Equi a b R where
  value : ∀ {d d' : D} (q : K), R d d' → Rel (fun r r' => AffV a b r.1 r'.1 ∧ R r.2 r'.2) (Digest.estValueAtQuantile d (.fin q : Fl K))
    (Digest.estValueAtQuantile d' (.fin q : Fl K))

section
variable {D : Type} [Digest D (Fl K)] {a b : K} {R : D → D → Prop}

/-! ### The wrappers -/

/-- C173. A `BufferedDigest`. -/
theorem C173_buffered (h : EquiV a b R) : EquiV a b (BAff a b R) where
  toEqui := C172_buffered h.toEqui
  value q hp := by
    rename_i p p'
    show Rel _ (BufferedDigest.estValueAtQuantile p _) (BufferedDigest.estValueAtQuantile p' _)
    unfold BufferedDigest.estValueAtQuantile
    refine rel_bind (bflush_rel h.toEqui hp) (fun e e' he => ?_)
    exact rel_bind (h.value q he.digest) (fun r r' hr => ⟨hr.1, hr.2, he.capacity, he.buffer, he.data⟩)

/-- C173. Two types of digests side by side (`Box<dyn Digest>`). -/
theorem C173_boxed {E : Type} [Digest E (Fl K)] {S : E → E → Prop} (h : EquiV a b R) (h' : EquiV a b S) : EquiV (D := D ⊕ E) a b (Sum.LiftRel R S) where
  toEqui := C172_boxed h.toEqui h'.toEqui
  value q hd := by
    cases hd with
    | inl hd => exact rel_bind (h.value q hd) (fun r r' hr => ⟨hr.1, .inl hr.2⟩)
    | inr hd => exact rel_bind (h'.value q hd) (fun r r' hr => ⟨hr.1, .inr hr.2⟩)

variable [FloatFmt.Exact K]

/-- The sum of answers of `MultiDigest` moves by the origin once for every member. -/
theorem sumLoop_aff {f g : D → Prog (Fl K × D)} (h : ∀ d d', R d d' → Rel (fun r r' => AffV a b r.1 r'.1 ∧ R r.2 r'.2) (f d) (g d')) :
    ∀ {ds ds' : List D} {acc acc' : Fl K} (k : K), List.Forall₂ R ds ds' → AffV a (k * b) acc acc' →
    Rel (fun r r' => AffV a ((k + ds.length) * b) r.1 r'.1 ∧ List.Forall₂ R r.2 r'.2) (MultiDigest.sumLoop f ds acc) (MultiDigest.sumLoop g ds' acc')
  | [], [], acc, acc', k, _, ha => by
    refine ⟨?_, .nil⟩
    simpa using ha
  | d :: ds, d' :: ds', acc, acc', k, .cons hd hds, ha => by
    unfold MultiDigest.sumLoop
    refine rel_bind (h d d' hd) (fun r r' hr => ?_)
    have hs : AffV a ((k + 1) * b) (acc + r.1) (acc' + r'.1) := by
      obtain ⟨x, e1, e2⟩ | ⟨e1, e2⟩ := ha
      · obtain ⟨y, e3, e4⟩ | ⟨e3, e4⟩ := hr.1
        · refine Or.inl ⟨x + y, by rw [e1, e3, Fl.add_exact], ?_⟩
          rw [e2, e4, Fl.add_exact]
          congr 1
          ring
        · exact Or.inr ⟨by rw [e3, Fl.add_nan], by rw [e4, Fl.add_nan]⟩
      · exact Or.inr ⟨by rw [e1, Fl.nan_add], by rw [e2, Fl.nan_add]⟩
    refine rel_bind (sumLoop_aff h (k + 1) hds hs) (fun s s' hss => ⟨?_, .cons hr.2 hss.2⟩)
    have e : k + ((d :: ds).length : K) = k + 1 + (ds.length : K) := by
      rw [List.length_cons]
      push_cast
      ring
    rw [e]
    exact hss.1

/-- C173. A `MultiDigest`. -/
theorem C173_multi (h : EquiV a b R) : EquiV a b (fun m m' : MultiDigest D => List.Forall₂ R m.digests m'.digests) where
  toEqui := C172_multi h.toEqui
  value q hm := by
    rename_i m m'
    show Rel _ (MultiDigest.estValueAtQuantile m _) (MultiDigest.estValueAtQuantile m' _)
    unfold MultiDigest.estValueAtQuantile
    by_cases hn : m.digests = []
    · have hn' : m'.digests = [] := by
        rw [hn] at hm
        exact List.forall₂_nil_left_iff.1 hm
      rw [hn, hn']
      refine ⟨Or.inr ?_, .nil⟩
      have e : (Fl.lit 0 / Fl.ofNat ([] : List D).length : Fl K) = .nan := by
        rw [Fl.ofNat_exact, Fl.lit_exact, Fl.div_fin]
        simp [Fl.signInf]
      exact ⟨e, e⟩
    have h0 : AffV a (0 * b) (Fl.lit 0 : Fl K) (Fl.lit 0) :=
      Or.inl ⟨0, by simp, by simp⟩
    refine rel_bind (sumLoop_aff (fun d d' hd => h.value q hd) 0 hm h0) (fun r r' hr => ⟨?_, hr.2⟩)
    rw [← hm.length_eq]
    have hs := hr.1
    rw [zero_add] at hs
    show AffV a b (r.1 / Fl.ofNat m.digests.length) (r'.1 / Fl.ofNat m.digests.length)
    obtain ⟨x, e1, e2⟩ | ⟨e1, e2⟩ := hs
    · rw [e1, e2, Fl.ofNat_exact]
      have hl : (m.digests.length : K) ≠ 0 := by
        simpa using hn
      rw [Fl.div_fin_of_ne _ hl, Fl.div_fin_of_ne _ hl, Fl.rnd_exact, Fl.rnd_exact]
      refine Or.inl ⟨_, rfl, ?_⟩
      congr 1
      field_simp
    · exact Or.inr ⟨by rw [e1, Fl.nan_div], by rw [e2, Fl.nan_div]⟩

/-- C173. A `SymDigest`. -/
theorem C173_sym {S : D → D → Prop} (h : EquiV a b R) (h' : EquiV a (-b) S) :
    EquiV a b (fun p p' : SymDigest D => R p.low p'.low ∧ S p.high p'.high) where
  toEqui := C172_sym h.toEqui h'.toEqui
  value q hp := by
    rename_i p p'
    show Rel _ (SymDigest.estValueAtQuantile p _) (SymDigest.estValueAtQuantile p' _)
    unfold SymDigest.estValueAtQuantile
    refine rel_bind (h.value q hp.1) (fun l l' hl => ?_)
    have e : (Fl.lit 1 - Fl.fin q : Fl K) = .fin (1 - q) := by simp
    rw [e]
    refine rel_bind (h'.value (1 - q) hp.2) (fun g g' hg => ?_)
    have hn : AffV a b (-g.1) (-g'.1) := by
      obtain ⟨y, e3, e4⟩ | ⟨e3, e4⟩ := hg.1
      · refine Or.inl ⟨-y, by rw [e3]; rfl, ?_⟩
        rw [e4, Fl.neg_fin]
        congr 1
        ring
      · exact Or.inr ⟨by rw [e3]; rfl, by rw [e4]; rfl⟩
    refine rel_bind (R := AffV a b) ?_ (fun r r' hr => ⟨hr, hl.2, hg.2⟩)
    unfold SymDigest.chooseValue
    rcases Fl.cmp (Fl.fin q) (Fl.lit (1 / 2)) with _ | _ | _ | _
    · rfl
    · exact hl.1
    · show AffV a b ((l.1 + -g.1) / Fl.lit 2) ((l'.1 + -g'.1) / Fl.lit 2)
      have two : (2 : K) ≠ 0 := two_ne_zero
      obtain ⟨x, e1, e2⟩ | ⟨e1, e2⟩ := hl.1
      · obtain ⟨y, e3, e4⟩ | ⟨e3, e4⟩ := hn
        · refine Or.inl ⟨(x + y) / 2, ?_, ?_⟩
          · rw [e1, e3, Fl.add_exact, Fl.lit_exact, Fl.div_fin_of_ne _ two, Fl.rnd_exact]
          · rw [e2, e4, Fl.add_exact, Fl.lit_exact, Fl.div_fin_of_ne _ two, Fl.rnd_exact]
            congr 1
            ring
        · exact Or.inr ⟨by rw [e3, Fl.add_nan, Fl.nan_div], by rw [e4, Fl.add_nan, Fl.nan_div]⟩
      · exact Or.inr ⟨by rw [e1, Fl.nan_add, Fl.nan_div], by rw [e2, Fl.nan_add, Fl.nan_div]⟩
    · exact hn
end

/-! ### The sketches and the exact digest -/
section
variable {a b : K}

/-- C173. An `RCSketch`. -/
theorem C173_rcsketch (ha : 0 < a) : EquiV a b (RCSketch.Like (AffR a b)) where
  toEqui := C172_rcsketch ha
  value q hd := by
    rename_i s t
    show Rel _ (estValueFrom s.buffers s.count (.fin q) >>= fun r => .ret (r, s)) (estValueFrom t.buffers t.count (.fin q) >>= fun r => .ret (r, t))
    rw [hd.count]
    exact rel_bind ((affR_alike ha).estValueFrom hd.buffers _ _) (fun r r' hr => ⟨Or.inl hr, hd⟩)

/-- C173. An `RCSketch2`. -/
theorem C173_rcsketch2 (ha : 0 < a) {sec : Nat → Nat} : EquiV (D := RC2 sec K) a b (RCSketch2.Like (AffR a b)) where
  toEqui := C172_rcsketch2 ha
  value q hd := by
    rename_i s t
    show Rel _ (estValueFrom (RCSketch2.buffers s) (RCSketch2.count s) (.fin q) >>= fun r => .ret (r, s))
      (estValueFrom (RCSketch2.buffers t) (RCSketch2.count t) (.fin q) >>= fun r => .ret (r, t))
    rw [hd.count]
    exact rel_bind ((affR_alike ha).estValueFrom hd.buffers _ _) (fun r r' hr => ⟨Or.inl hr, hd⟩)

/-- C173. A `LinearDigest`. -/
theorem C173_linear [FloorRing K] (ha : 0 < a) : EquiV a b (fun d d' : LinearDigest K => List.Forall₂ (AffR a b) d.values d'.values) where
  toEqui := C172_linear ha
  value q hd := by
    rename_i d d'
    show Rel _ (d.estValueAtQuantile _) (d'.estValueAtQuantile _)
    unfold LinearDigest.estValueAtQuantile
    rw [hd.length_eq]
    refine rel_bind (R := (· = ·)) (rel_refl (fun _ => rfl) _) ?_
    rintro i _ rfl
    refine rel_bind ((affR_alike ha).sortFl hd) ?_
    intro s s' hs
    rw [hs.length_eq]
    split
    · exact rel_bind (R := AffR a b) (rel_getLast hs) (fun x y h => ⟨Or.inl h, hs⟩)
    · exact rel_bind (rel_idx hs i) (fun x y h => ⟨Or.inl h, hs⟩)
end

/-! ### What follows for whole histories -/
section
variable {D : Type} [Digest D (Fl K)] {a b : K} {R : D → D → Prop}

/-- Insertions of items that stay in range, and queries of finite numbers. -/
def AffineVOp (a b : K) : Op (Fl K) → Prop
  | .value q => ∃ x, q = .fin x
  | o => AffineOp a b o

theorem execAll_relV (h : EquiV a b R) : ∀ (ops : List (Op (Fl K))) {d d' : D}, R d d' → (∀ o ∈ ops, AffineVOp a b o) →
    Rel R (execAll d ops) (execAll d' (ops.map (Op.affine a b)))
  | [], d, d', hd, _ => hd
  | o :: ops, d, d', hd, ho => by
    have hrest := fun {e e' : D} (he : R e e') => execAll_relV h ops he (fun o h => ho o (by simp [h]))
    have h0 := ho o (by simp)
    rw [List.map_cons]
    match o, h0 with
    | .add x, h0 => exact rel_bind (h.add x hd h0) (fun e e' he => hrest he)
    | .addBuffer xs, h0 => exact rel_bind (h.addBuffer xs hd h0) (fun e e' he => hrest he)
    | .quantile v, h0 =>
      obtain ⟨x, rfl⟩ := h0
      exact rel_bind (R := R) (rel_bind (h.quantile x hd) (fun r r' hr => hr.2)) (fun e e' he => hrest he)
    | .value v, h0 =>
      obtain ⟨x, rfl⟩ := h0
      exact rel_bind (R := R) (rel_bind (h.value x hd) (fun r r' hr => hr.2)) (fun e e' he => hrest he)

/-- C173. After the transformed calls `est_value_at_quantile` answers with the image of its answer after the calls themselves, and quantile
queries and counts are unchanged, coin for coin and panic for panic; the calls may contain queries of both kinds. -/
theorem C173_answers (h : EquiV a b R) {d d' : D} (hd : R d d') (ops : List (Op (Fl K))) (ho : ∀ o ∈ ops, AffineVOp a b o) (q x : K) :
    (execAll d' (ops.map (Op.affine a b)) >>= fun s => Digest.estValueAtQuantile s (.fin q : Fl K) >>= fun r => .ret r.1) =
      (execAll d ops >>= fun s => Digest.estValueAtQuantile s (.fin q : Fl K) >>= fun r => .ret (r.1.affine a b)) ∧
    (execAll d' (ops.map (Op.affine a b)) >>= fun s => Digest.estQuantileAtValue s (.fin (a * x + b) : Fl K) >>= fun r => .ret r.1) =
      (execAll d ops >>= fun s => Digest.estQuantileAtValue s (.fin x : Fl K) >>= fun r => .ret r.1) ∧
    (execAll d' (ops.map (Op.affine a b)) >>= fun s => Digest.count (F := Fl K) s) = (execAll d ops >>= fun s => Digest.count (F := Fl K) s) :=
  ⟨rel_eq_eq (rel_bind (execAll_relV h ops hd ho) (fun s s' hs => rel_bind (h.value q hs) (fun r r' hr => hr.1.affine.symm))),
    rel_eq_eq (rel_bind (execAll_relV h ops hd ho) (fun s s' hs => rel_bind (h.quantile x hs) (fun r r' hr => hr.1))),
    rel_eq_eq (rel_bind (execAll_relV h ops hd ho) (fun s s' hs => h.count hs))⟩

/-- C173. A nesting written out: a `SymDigest` of two `BufferedDigest`s of `m` sketches each. -/
theorem C173_sketchNest [FloatFmt.Exact K] (ha : 0 < a) (n k capacity m : Nat) (ops : List (Op (Fl K))) (ho : ∀ o ∈ ops, AffineVOp a b o) (q : K) :
    let side := BufferedDigest.new (⟨List.replicate m (RCSketch.fresh n k)⟩ : MultiDigest (RCSketch K)) capacity
    (execAll (SymDigest.new side side) (ops.map (Op.affine a b)) >>= fun t => Digest.estValueAtQuantile t (.fin q : Fl K) >>= fun r => .ret r.1) =
      (execAll (SymDigest.new side side) ops >>= fun t => Digest.estValueAtQuantile t (.fin q : Fl K) >>= fun r => .ret (r.1.affine a b)) := by
  have hb : ∀ b : K, BAff a b (fun m m' : MultiDigest (RCSketch K) => List.Forall₂ (RCSketch.Like (AffR a b)) m.digests m'.digests)
      (BufferedDigest.new (⟨List.replicate m (RCSketch.fresh n k)⟩ : MultiDigest (RCSketch K)) capacity)
      (BufferedDigest.new (⟨List.replicate m (RCSketch.fresh n k)⟩ : MultiDigest (RCSketch K)) capacity) := by
    intro b
    refine ⟨?_, rfl, rfl, by intro x hx; simp [BufferedDigest.new] at hx⟩
    show List.Forall₂ _ (List.replicate m _) (List.replicate m _)
    induction m with
    | zero => exact .nil
    | succ m ih => exact .cons ⟨.nil, rfl, rfl, rfl, rfl, rfl⟩ ih
  exact (C173_answers (C173_sym (C173_buffered (C173_multi (C173_rcsketch (b := b) ha))) (C173_buffered (C173_multi (C173_rcsketch (b := -b) ha))))
    ⟨hb b, hb (-b)⟩ ops ho q 0).1

/-- C173. A `MultiDigest` with members of two types, a sketch and an exact digest. -/
theorem C173_mixed [FloorRing K] [FloatFmt.Exact K] (ha : 0 < a) (n k : Nat) (ops : List (Op (Fl K))) (ho : ∀ o ∈ ops, AffineVOp a b o) (q : K) :
    let both : MultiDigest (RCSketch K ⊕ LinearDigest K) := (MultiDigest.new.addDigest (.inl (RCSketch.fresh n k))).addDigest (.inr LinearDigest.new)
    (execAll both (ops.map (Op.affine a b)) >>= fun t => Digest.estValueAtQuantile t (.fin q : Fl K) >>= fun r => .ret r.1) =
      (execAll both ops >>= fun t => Digest.estValueAtQuantile t (.fin q : Fl K) >>= fun r => .ret (r.1.affine a b)) := by
  refine (C173_answers (C173_multi (C173_boxed (C173_rcsketch (b := b) ha) (C173_linear (b := b) ha))) ?_ ops ho q 0).1
  exact .cons (.inl ⟨.nil, rfl, rfl, rfl, rfl, rfl⟩) (.cons (.inr .nil) .nil)
end

/-! ### Concrete cases -/
section examples
attribute [local instance] ratExact ratExact_exact

/-- The hypotheses of C173 (degrees Celsius and Fahrenheit), with queries of both kinds among the calls. -/
example : ∀ o ∈ ([.addBuffer [.fin 3, .fin 1, .fin 2], .value (.fin (1 / 2)), .quantile (.fin 2), .add (.fin 5)] : List (Op (Fl ℚ))),
    AffineVOp (9 / 5) 32 o := by
  have hi : ∀ x ∈ ([1, 2, 3, 5] : List ℚ), Item (.fin x : Fl ℚ) ∧ Item ((.fin x : Fl ℚ).affine (9 / 5) 32) := by
    intro x hx
    simp only [List.mem_cons, List.not_mem_nil, or_false] at hx
    rcases hx with rfl | rfl | rfl | rfl <;> exact ⟨⟨⟨_, rfl⟩, by decide +kernel⟩, ⟨_, rfl⟩, by decide +kernel⟩
  intro o ho
  simp only [List.mem_cons, List.not_mem_nil, or_false] at ho
  rcases ho with rfl | rfl | rfl | rfl
  · intro x hx
    simp only [List.mem_cons, List.not_mem_nil, or_false] at hx
    rcases hx with rfl | rfl | rfl
    · exact hi 3 (by decide)
    · exact hi 1 (by decide)
    · exact hi 2 (by decide)
  · exact ⟨_, rfl⟩
  · exact ⟨_, rfl⟩
  · intro x hx
    simp only [List.mem_cons, List.not_mem_nil, or_false] at hx
    subst hx
    exact hi 5 (by decide)

/-- The two medians of a `SymDigest` of exact digests, which answers with the mean of both sides: 5/2 and 9/5 · 5/2 + 32. -/
example :
    Always (execAll (SymDigest.new LinearDigest.new LinearDigest.new : SymDigest (LinearDigest ℚ)) [.addBuffer [.fin 3, .fin 1, .fin 2, .fin 5]] >>= fun s =>
      Digest.estValueAtQuantile s (.fin (1 / 2) : Fl ℚ) >>= fun r => .ret r.1) (fun v => v = .fin (5 / 2)) ∧
    Always (execAll (SymDigest.new LinearDigest.new LinearDigest.new : SymDigest (LinearDigest ℚ))
        ([.addBuffer [.fin 3, .fin 1, .fin 2, .fin 5]].map (Op.affine (9 / 5) 32)) >>= fun s =>
      Digest.estValueAtQuantile s (.fin (1 / 2) : Fl ℚ) >>= fun r => .ret r.1) (fun v => v = .fin (73 / 2)) := by
  decide +kernel

/-- C173. An empty `TDigest` answers value queries with the largest number whatever the origin, which is why t-digests are left out here
(C113 treats them once they contain data). -/
theorem C173_empty_tdigest_not_shifted (q : ℚ) :
    (TDigest.new k0 invK0 (.fin 10) : TDigest ℚ).estValueAtQuantile (.fin q) = .ret Fl.maxValue := by
  have ht : (TDigest.new k0 invK0 (.fin 10) : TDigest ℚ).totalWeight = .fin 0 := by decide +kernel
  unfold TDigest.estValueAtQuantile
  rw [ht]
  dsimp only
  rw [if_pos]
  · rfl
  · rw [Fl.mul_exact, zero_mul]
    decide +kernel
end examples
end AQ

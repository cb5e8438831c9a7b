/-
ParTDigests as layers of passes: what one pass preserves carries over to any history, with the number of passes bounded by the flushes.
-/
import Verif.Props.ParTDrift

set_option linter.unusedSectionVars false
set_option linter.unusedVariables false

namespace AQ
open Prog Spec
variable {K : Type} [Field K] [LinearOrder K] [IsStrictOrderedRing K] [FloatFmt K]
namespace ParTDigest
open TDigest

/-- Good clusters of weight at least 1. -/
def Ones (l : List (Centroid K)) : Prop := ∀ e ∈ l, Good e ∧ 1 ≤ e.weight.toK

theorem Ones.append {a b : List (Centroid K)} (ha : Ones a) (hb : Ones b) : Ones (a ++ b) := by
  intro e he
  rcases List.mem_append.1 he with he | he
  · exact ha e he
  · exact hb e he

theorem Ones.good {a : List (Centroid K)} (h : Ones a) : ∀ e ∈ a, Good e := fun e he => (h e he).1

theorem ones_units [FloatFmt.Exact K] {xs : List (Fl K)} (h : ∀ x ∈ xs, Item x) : Ones (xs.map unit) := by
  intro e he
  obtain ⟨y, hy, rfl⟩ := List.mem_map.1 he
  exact ⟨unit_good (h y hy).1, by simp [unit, Fl.toK]⟩

/-- `J m cs sup`: the centroids `cs` represent `sup` after at most `m` passes over each cluster. -/
structure Layered (s i : ScaleFn K) (cf : Fl K) (N : K) (J : Nat → List (Centroid K) → List (Centroid K) → Prop) : Prop where
  refl : ∀ xs : List (Fl K), (∀ x ∈ xs, Item x) → J 0 (xs.map unit) (xs.map unit)
  mono : ∀ {m m' a sa}, m ≤ m' → Ones a → Ones sa → J m a sa → J m' a sa
  append : ∀ {m a b sa sb}, Ones a → Ones b → Ones sa → Ones sb → J m a sa → J m b sb → J m (a ++ b) (sa ++ sb)
  perm : ∀ {m a sa sa'}, sa.Perm sa' → J m a sa → J m a sa'
  step : ∀ {m d d' b runs sup}, Merged d b d' runs → d.scaleFunc = s → d.inverseScaleFunc = i → d.compressFactor = cf → Ones (b ++ d.centroids) →
    Ones sup → totalW (b ++ d.centroids) = totalW sup → totalW sup ≤ N → J m (b ++ d.centroids) sup → J (m + 1) d'.centroids sup

variable {s i : ScaleFn K} {cf : Fl K} {N : K} {J : Nat → List (Centroid K) → List (Centroid K) → Prop}

theorem Layered.and {J J' : Nat → List (Centroid K) → List (Centroid K) → Prop} (L : Layered s i cf N J) (L' : Layered s i cf N J') :
    Layered s i cf N (fun m a sa => J m a sa ∧ J' m a sa) :=
  ⟨fun xs h => ⟨L.refl xs h, L'.refl xs h⟩, fun h a b j => ⟨L.mono h a b j.1, L'.mono h a b j.2⟩,
    fun a b c d j k => ⟨L.append a b c d j.1 k.1, L'.append a b c d j.2 k.2⟩, fun h j => ⟨L.perm h j.1, L'.perm h j.2⟩,
    fun a b c d e f g h j => ⟨L.step a b c d e f g h j.1, L'.step a b c d e f g h j.2⟩⟩

/-- The chunk stage. -/
theorem chunkDigests_layer [FloatFmt.Exact K] (L : Layered s i cf N J) : ∀ cs : List (List (Fl K)), (∀ c ∈ cs, ∀ x ∈ c, Item x) →
    (cs.flatten.length : K) ≤ N →
    Always (chunkDigests (.ret (TDigest.new s i cf)) cs) (fun ds =>
      Ones (ds.flatMap TDigest.centroids) ∧ totalW (ds.flatMap TDigest.centroids) = (cs.flatten.length : K) ∧
      J 1 (ds.flatMap TDigest.centroids) (cs.flatten.map unit))
  | [], _, _ => ⟨by simp [Ones], by simp, L.mono (Nat.zero_le _) (by simp [Ones]) (by simp [Ones]) (L.refl [] (by simp))⟩
  | c :: cs, h, hN => by
    have hlen : ((c :: cs).flatten.length : K) = c.length + cs.flatten.length := by
      rw [List.flatten_cons, List.length_append]; push_cast; rfl
    have l1 : (0 : K) ≤ c.length := Nat.cast_nonneg _
    have l2 : (0 : K) ≤ cs.flatten.length := Nat.cast_nonneg _
    unfold chunkDigests
    rw [bind_ret, always_bind]
    have hc : ∀ x ∈ c, Item x := h c (by simp)
    have h1 : ∀ u ∈ c.map unit, Good u ∧ InRange u := by
      intro u hu
      obtain ⟨y, hy, rfl⟩ := List.mem_map.1 hu
      exact ⟨unit_good (hc y hy).1, (hc y hy).2⟩
    have hu := ones_units hc
    have h2 := addCentroidBuffer_inv (new_inv s i cf).toCInv (by simp) (fun x hx => (h1 x hx).1) (fun x hx => (h1 x hx).2)
    rw [List.nil_append] at h2
    have h3 := merged (TDigest.new s i cf) (c.map unit) (by simp [TDigest.new]) (fun u hu => (h1 u hu).1)
    refine (h2.and h3.partially).mono ?_
    rintro d' ⟨hi, runs, hm⟩
    have e0 : c.map unit ++ (TDigest.new s i cf).centroids = c.map unit := by simp [TDigest.new]
    have hJ : J 1 d'.centroids (c.map unit) := by
      refine L.step hm rfl rfl rfl (by rw [e0]; exact hu) hu (by rw [e0]) (by rw [totalW_units]; linarith) ?_
      rw [e0]
      exact L.refl c hc
    have ho : Ones d'.centroids := fun e he =>
      ⟨hi.good e he, hi.closed _ one_le_closed (fun e he => (hu e he).2) e he⟩
    rw [always_bind]
    refine (chunkDigests_layer L cs (fun c' hc' => h c' (by simp [hc'])) (by linarith)).mono ?_
    rintro ds ⟨i1, i2, i3⟩
    show _ ∧ _ ∧ _
    have hus : Ones (cs.flatten.map unit) := ones_units (fun x hx => by
      obtain ⟨c', hc', hx⟩ := List.mem_flatten.1 hx
      exact h c' (by simp [hc']) x hx)
    refine ⟨?_, ?_, ?_⟩
    · rw [List.flatMap_cons]; exact ho.append i1
    · rw [List.flatMap_cons, totalW_append, hi.weight, totalW_units, i2, hlen]
    · rw [List.flatMap_cons, List.flatten_cons, List.map_append]
      exact L.append ho i1 hu hus hJ i3

/-- What the inner digest knows about the items flushed into it. -/
structure LInv (s i : ScaleFn K) (cf : Fl K) (J : Nat → List (Centroid K) → List (Centroid K) → Prop) (d : TDigest K) (fl : List (Fl K)) (m : Nat) : Prop where
  sf : d.scaleFunc = s
  isf : d.inverseScaleFunc = i
  cf : d.compressFactor = cf
  items : ∀ x ∈ fl, Item x
  rep : J m d.centroids (fl.map unit)

theorem PInv.ones {d : TDigest K} {fl : List (Fl K)} (h : PInv d fl) : Ones d.centroids := fun e he =>
  ⟨h.good e he, h.closed _ one_le_closed le_rfl e he⟩

theorem flush_linv [FloatFmt.Exact K] (L : Layered s i cf N J) {p : ParTDigest K} {fl : List (Fl K)} {m : Nat} (hm1 : 1 ≤ m) (hp : PInv p.digest fl)
    (h : LInv s i cf J p.digest fl m) (hb : ∀ x ∈ p.buffer, Item x) (hc : p.creator = .ret (TDigest.new s i cf)) (ht : p.threads ≠ 0)
    (hbn : p.buffer ≠ []) (hN : ((fl ++ p.buffer).length : K) ≤ N) : Partially p.flush (fun p' => LInv s i cf J p'.digest (fl ++ p.buffer) (m + 1)) := by
  have hlen : ((fl ++ p.buffer).length : K) = fl.length + p.buffer.length := by rw [List.length_append]; push_cast; rfl
  have l1 : (0 : K) ≤ fl.length := Nat.cast_nonneg _
  unfold flush
  rw [if_neg hbn]
  unfold chunks
  rw [if_neg ht, bind_ret, hc, partially_bind]
  have hfl := chunksAux_flatten p.threads ht p.buffer.length p.buffer (le_refl _)
  generalize chunksAux p.threads p.buffer.length p.buffer = cs at hfl
  refine (chunkDigests_layer L cs (fun c hc x hx => hb x (by rw [← hfl]; exact List.mem_flatten.2 ⟨c, hc, hx⟩))
    (by rw [hfl]; linarith)).partially.mono ?_
  rw [hfl]
  rintro ds ⟨h1, h2, h3⟩
  rw [partially_bind]
  refine (partially_true _).mono (fun mn _ => ?_)
  rw [partially_bind]
  refine (partially_true _).mono (fun dmin _ => ?_)
  rw [partially_bind]
  refine (partially_true _).mono (fun mx _ => ?_)
  rw [partially_bind]
  refine (partially_true _).mono (fun dmax _ => ?_)
  rw [partially_bind]
  refine (merged ({ p.digest with min := dmin.min, max := dmax.max } : TDigest K) (ds.flatMap TDigest.centroids) hp.good
    h1.good).partially.mono ?_
  rintro d' ⟨runs, hm⟩
  have ho := hp.ones
  have hb1 := ones_units hb
  have hf1 := ones_units h.items
  have hall : ∀ x ∈ fl ++ p.buffer, Item x := by
    intro x hx
    rcases List.mem_append.1 hx with hx | hx
    · exact h.items x hx
    · exact hb x hx
  refine ⟨hm.sf.trans h.sf, hm.isf.trans h.isf, hm.cf.trans h.cf, hall, ?_⟩
  refine L.step hm h.sf h.isf h.cf (h1.append ho) (ones_units hall) ?_ (by rw [totalW_units]; exact hN) ?_
  · show totalW (ds.flatMap TDigest.centroids ++ p.digest.centroids) = _
    rw [totalW_append, h2, hp.weight, totalW_units, hlen, add_comm]
  · show J m (ds.flatMap TDigest.centroids ++ p.digest.centroids) _
    rw [List.map_append]
    exact L.perm List.perm_append_comm (L.append h1 ho hb1 hf1 (L.mono hm1 h1 hb1 h3) h.rep)

section
variable [FloorRing K]

/-- The state after a history that supplied `sup` and made `q` flushing calls. -/
def LHist (s i : ScaleFn K) (cf : Fl K) (J : Nat → List (Centroid K) → List (Centroid K) → Prop) (c : Nat) (p : ParTDigest K) (sup : List (Fl K)) (q : Nat) :
    Prop :=
  ∃ (fl : List (Fl K)) (F : Nat), sup = fl ++ p.buffer ∧ LInv s i cf J p.digest fl (F + 1) ∧ F * (c + 1) ≤ q * (c + 1) + fl.length

theorem flush_lhist [FloatFmt.Exact K] (L : Layered s i cf N J) {t c : Nat} (ht : t ≠ 0) {p : ParTDigest K} {fl : List (Fl K)} {F q : Nat}
    (h : PInv p.digest fl) (hb : ∀ x ∈ p.buffer, Item x) (e1 : p.threads = t) (e2 : p.capacity = c) (e3 : p.creator = .ret (TDigest.new s i cf))
    (hN : ((fl ++ p.buffer).length : K) ≤ N) (hd : LInv s i cf J p.digest fl (F + 1)) (hF : (F + 1) * (c + 1) ≤ q * (c + 1) + (fl ++ p.buffer).length) :
    Partially p.flush (fun p' => LHist s i cf J c p' (fl ++ p.buffer) q) := by
  by_cases hbn : p.buffer = []
  · unfold flush
    rw [if_pos hbn]
    refine ⟨fl, F, rfl, hd, ?_⟩
    rw [hbn, List.append_nil] at hF
    exact le_trans (Nat.mul_le_mul_right _ (Nat.le_succ F)) hF
  · have h1 := flush_linv L (Nat.succ_le_succ (Nat.zero_le F)) h hd hb e3 (by rw [e1]; exact ht) hbn hN
    refine (h1.and (flush_buffer p)).mono ?_
    rintro p' ⟨h2, h3⟩
    exact ⟨fl ++ p.buffer, F + 1, by rw [h3, List.append_nil], h2, hF⟩

theorem exec_lhist [FloatFmt.Exact K] (L : Layered s i cf N J) {t c : Nat} (ht : t ≠ 0) {p : ParTDigest K} {sup : List (Fl K)} {q : Nat}
    (h : HInv s i cf t c p sup) (hd : LHist s i cf J c p sup q) (o : Op (Fl K)) (ho : OrdinaryOp o) (hN : ((sup ++ o.items).length : K) ≤ N) :
    Partially (o.exec p) (fun p' => LHist s i cf J c p' (sup ++ o.items) (q + queriesIn [o])) := by
  obtain ⟨fl, e0, h1, h2, h3, e1, e2, e3⟩ := h
  obtain ⟨fl', F, e0', d1, d2⟩ := hd
  obtain rfl : fl = fl' := List.append_cancel_right (e0.symm.trans e0')
  have hins : ∀ xs : List (Fl K), (∀ x ∈ xs, Item x) → ((sup ++ xs).length : K) ≤ N →
      Partially (flushIfFull { p with buffer := p.buffer ++ xs }) (fun p' => LHist s i cf J c p' (sup ++ xs) q) := by
    intro xs hxs hN
    have hb : ∀ x ∈ p.buffer ++ xs, Item x := by
      intro x hx
      rcases List.mem_append.1 hx with hx | hx
      · exact h2 x hx
      · exact hxs x hx
    unfold flushIfFull
    split
    · next hlt =>
      simp only [e2] at hlt
      rw [e0, List.append_assoc] at hN ⊢
      refine flush_lhist (p := { p with buffer := p.buffer ++ xs }) L ht h1 hb e1 e2 e3 hN d1 ?_
      rw [List.length_append]
      nlinarith
    · exact ⟨fl, F, by rw [e0, List.append_assoc], d1, d2⟩
  cases o with
  | add x => exact hins [x] (by intro y hy; rw [List.mem_singleton] at hy; subst hy; exact ho) hN
  | addBuffer xs => exact hins xs ho hN
  | quantile v =>
    simp only [Op.exec, Op.items, List.append_nil] at hN ⊢
    rw [partially_bind]
    show Partially (estQuantileAtValue p v) _
    unfold estQuantileAtValue
    rw [partially_bind]
    have := flush_lhist (q := q + 1) L ht h1 h2 e1 e2 e3 (by rw [← e0]; exact hN) d1 (by rw [List.length_append]; nlinarith)
    rw [← e0] at this
    refine this.mono (fun p' h' => ?_)
    rw [partially_bind]
    exact (partially_true _).mono (fun _ _ => h')
  | value v =>
    simp only [Op.exec, Op.items, List.append_nil] at hN ⊢
    rw [partially_bind]
    show Partially (estValueAtQuantile p v) _
    unfold estValueAtQuantile
    rw [partially_bind]
    have := flush_lhist (q := q + 1) L ht h1 h2 e1 e2 e3 (by rw [← e0]; exact hN) d1 (by rw [List.length_append]; nlinarith)
    rw [← e0] at this
    refine this.mono (fun p' h' => ?_)
    rw [partially_bind]
    exact (partially_true _).mono (fun _ _ => h')

theorem execAll_lhist [FloatFmt.Exact K] (L : Layered s i cf N J) {t c : Nat} (ht : t ≠ 0) :
    ∀ (ops : List (Op (Fl K))) (p : ParTDigest K) (sup : List (Fl K)) (q : Nat), HInv s i cf t c p sup → LHist s i cf J c p sup q →
    (∀ o ∈ ops, OrdinaryOp o) → ((sup ++ itemsOf ops).length : K) < 2 ^ 64 → ((sup ++ itemsOf ops).length : K) ≤ N →
    Always (execAll p ops) (fun p' => HInv s i cf t c p' (sup ++ itemsOf ops) ∧ LHist s i cf J c p' (sup ++ itemsOf ops) (q + queriesIn ops))
  | [], p, sup, q, h, hd, _, _, _ => by
    show _ ∧ _
    simpa [itemsOf, queriesIn] using And.intro h hd
  | o :: os, p, sup, q, h, hd, ho, h64, hN => by
    have e : sup ++ itemsOf (o :: os) = (sup ++ o.items) ++ itemsOf os := by
      simp [itemsOf, List.flatMap_cons, List.append_assoc]
    have e' : q + queriesIn (o :: os) = (q + queriesIn [o]) + queriesIn os := by
      unfold queriesIn
      rw [List.countP_cons, List.countP_singleton]
      omega
    rw [e] at h64 hN ⊢
    rw [e']
    unfold execAll
    rw [always_bind]
    refine ((exec_hinv ht h o (ho o (by simp)) ?_).and (exec_lhist L ht h hd o (ho o (by simp)) ?_)).mono ?_
    · refine lt_of_le_of_lt ?_ h64
      exact Nat.cast_le.2 (by simp only [List.length_append]; omega)
    · refine le_trans ?_ hN
      exact Nat.cast_le.2 (by simp only [List.length_append]; omega)
    · rintro p' ⟨h1, h2⟩
      exact execAll_lhist L ht os p' _ _ h1 h2 (fun o' ho' => ho o' (by simp [ho'])) h64 hN

theorem callHistory_lhist [FloatFmt.Exact K] (L : Layered s i cf N J) (threads capacity : Nat) (ht : threads ≠ 0)
    (cs : List (Call K)) (ho : ∀ o, .op o ∈ cs → OrdinaryOp o) (h64 : ((itemsOfCalls cs).length : K) < 2 ^ 64)
    (hN : ((itemsOfCalls cs).length : K) ≤ N) :
    Always (callHistory s i cf threads capacity cs) (fun p =>
      HInv s i cf threads capacity p (itemsOfCalls cs) ∧ LHist s i cf J capacity p (itemsOfCalls cs) (flushingCalls cs)) := by
  rw [← itemsOf_asOp] at h64 hN ⊢
  unfold callHistory ParTDigest.new
  rw [bind_ret]
  apply execCalls_always
  have hn : Ones ([] : List (Centroid K)) := by simp [Ones]
  have := execAll_lhist (t := threads) (c := capacity) L ht (cs.map Call.asOp)
    { digest := TDigest.new s i cf, threads := threads, buffer := [], capacity := capacity, creator := .ret (TDigest.new s i cf) } [] 0
    ⟨[], rfl, new_pinv s i cf, by simp, by simp, rfl, rfl, rfl⟩
    ⟨[], 0, rfl, ⟨rfl, rfl, rfl, by simp, L.mono (Nat.zero_le _) hn hn (L.refl [] (by simp))⟩, by simp⟩ (by
      intro o h
      obtain ⟨c, hc, rfl⟩ := List.mem_map.1 h
      cases c with
      | op o => exact ho o hc
      | flush => exact ⟨0, rfl⟩) (by simpa using h64) (by simpa using hN)
  refine this.mono (fun p h => ?_)
  rw [List.nil_append, zero_add, queriesIn_asOp] at h
  exact h

/-- The items of ordinary calls. -/
theorem items_of_calls {cs : List (Call K)} (ho : ∀ o, .op o ∈ cs → OrdinaryOp o) : ∀ x ∈ itemsOfCalls cs, Item x := by
  intro y hy
  obtain ⟨c, hc, hy⟩ := List.mem_flatMap.1 hy
  cases c with
  | flush => simp at hy
  | op o =>
    have := ho o hc
    cases o with
    | add z => simp only [Op.items, List.mem_singleton] at hy; subst hy; exact this
    | addBuffer zs => exact this y hy
    | quantile v => simp [Op.items] at hy
    | value v => simp [Op.items] at hy

/-- The state a query sees. -/
theorem callHistory_flushed [FloatFmt.Exact K] (L : Layered s i cf N J) (threads capacity : Nat) (ht : threads ≠ 0)
    (cs : List (Call K)) (ho : ∀ o, .op o ∈ cs → OrdinaryOp o) (h64 : ((itemsOfCalls cs).length : K) < 2 ^ 64)
    (hN : ((itemsOfCalls cs).length : K) ≤ N) :
    Always (callHistory s i cf threads capacity cs >>= flush) (fun p => PInv p.digest (itemsOfCalls cs) ∧
      J (passesOf capacity cs) p.digest.centroids ((itemsOfCalls cs).map unit)) := by
  rw [always_bind]
  refine (callHistory_lhist L threads capacity ht cs ho h64 hN).mono ?_
  rintro p ⟨⟨fl, e0, h1, h2, h3, e1, e2, e3⟩, fl', F, e0', d1, d2⟩
  obtain rfl : fl = fl' := List.append_cancel_right (e0.symm.trans e0')
  have hf := flush_lhist (q := flushingCalls cs + 1) L ht h1 h2 e1 e2 e3 (by rw [← e0]; exact hN) d1 (by rw [List.length_append]; nlinarith)
  refine ((flush_hinv ht h1 h2 e1 e2 e3).and hf).mono ?_
  rw [← e0]
  rintro p' ⟨⟨hb, hp, -⟩, fl', F', e4, h5, h6⟩
  rw [hb, List.append_nil] at e4
  subst e4
  refine ⟨hp, L.mono ?_ hp.ones (ones_units h5.items) h5.rep⟩
  have : F' ≤ (flushingCalls cs + 1) + (itemsOfCalls cs).length / (capacity + 1) := by
    have h7 := Nat.div_le_div_right (c := capacity + 1) h6
    rw [Nat.mul_div_cancel _ (Nat.succ_pos capacity), Nat.mul_comm, Nat.mul_add_div (Nat.succ_pos capacity)] at h7
    exact h7
  unfold passesOf
  omega

end
end ParTDigest
end AQ

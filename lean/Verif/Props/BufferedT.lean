/-
Property C110: how often a BufferedDigest calls its inner digest, and the accuracy of a TDigest used through one.
-/
import Verif.Props.ParTDrift
import Verif.Props.BufferedDigest

set_option linter.unusedSectionVars false
set_option linter.unusedVariables false

namespace AQ
open Prog Spec

/-- C110. A history of `q` queries that delivers `n` items makes the wrapper insert into the inner digest at most
`q + n / (capacity + 1)` times, always with `add_buffer`, whatever the inner digest is; the answers are those the inner digest
gives to that history (compare C47). -/
theorem C110_inner_calls {F : Type} (capacity : Nat) (hc : capacity ≠ 0) (ops : List (Op F)) :
    ∃ (ops' : List (Op F)) (pending : List F), itemsOf ops' ++ pending = itemsOf ops ∧ queriesOf ops' = queriesOf ops ∧
      (∀ x, Op.add x ∉ ops') ∧ insertCalls ops' ≤ queryCalls ops + (itemsOf ops').length / (capacity + 1) ∧
      ∀ (D : Type) [Digest D F] (d : D), answers (BufferedDigest.new d capacity) ops =
        (answers d ops' >>= fun r => .ret (r.1, { digest := r.2, buffer := pending, capacity := capacity })) := by
  obtain ⟨ops', buf, h1, h2, h3, h4, h5, h6, h7⟩ := BufferedDigest.history_cost capacity hc ops [] (by simp)
  refine ⟨ops', buf, by simpa using h3, by simpa [queriesOf] using h4 [], h5, ?_, fun D _ d => h1 D d⟩
  have e := Nat.add_mul_div_right (itemsOf ops').length (queryCalls ops) (Nat.succ_pos capacity)
  rw [Nat.succ_eq_add_one] at e
  rw [add_comm (queryCalls ops), ← e, Nat.le_div_iff_mul_le (Nat.succ_pos capacity), Nat.succ_eq_add_one]
  omega

variable {K : Type} [Field K] [LinearOrder K] [IsStrictOrderedRing K] [FloatFmt K] [FloorRing K]

namespace TDigest
open ParTDigest (DInv)

theorem Inv.queries [FloatFmt.Exact K] {d : TDigest K} {sup : List (Centroid K)} (h : d.Inv sup) (hs : ∀ c ∈ sup, Good c)
    (hw : ∀ c ∈ sup, 1 ≤ c.weight.toK) (h64 : totalW sup < 2 ^ 64) (x : K) :
    (∃ r, d.estQuantileAtValue (.fin x) = .ret r) ∧ ∃ r, d.estValueAtQuantile (.fin x) = .ret r := by
  by_cases hne : sup = []
  · have h1 := h.empty.2 hne
    constructor
    · refine ⟨.nan, ?_⟩
      unfold TDigest.estQuantileAtValue
      rw [h1]
    · refine ⟨d.min, ?_⟩
      unfold TDigest.estValueAtQuantile TDigest.totalWeight
      rw [h1]
      simp [TDigest.weightSum, Fl.sum64]
  · obtain ⟨l, a, b, hv, hwt, hcl⟩ := h.view hs hne
    have h1 := hcl _ TDigest.one_le_closed hw
    constructor
    · obtain ⟨p, hp, -⟩ := TDigest.estQuantile_total hv h1 x
      exact ⟨_, hp⟩
    · rw [← hwt] at h64
      exact ⟨_, TDigest.estValue_eq hv h1 h64 x⟩

/-- A digest with `k0` that was supplied `sup`. -/
structure KInv (δ : K) (d : TDigest K) (sup : List (Fl K)) (E : K) : Prop where
  inv : d.Inv (sup.map unit)
  items : ∀ x ∈ sup, Item x
  dinv : DInv δ d sup E

theorem units_good [FloatFmt.Exact K] {xs : List (Fl K)} (h : ∀ x ∈ xs, Item x) : ∀ c ∈ xs.map unit, Good c ∧ InRange c := by
  intro c hc
  obtain ⟨y, hy, rfl⟩ := List.mem_map.1 hc
  exact ⟨unit_good (h y hy).1, (h y hy).2⟩

theorem KInv.insert [FloatFmt.Exact K] {δ : K} (hδ : 0 < δ) {d : TDigest K} {sup : List (Fl K)} {E : K} (h : KInv δ d sup E)
    (xs : List (Fl K)) (hx : ∀ x ∈ xs, Item x) :
    Always (d.addBuffer xs) (fun d' => KInv δ d' (sup ++ xs) (E + 2 / δ * (sup ++ xs).length)) := by
  have hs := units_good h.items
  have hg := units_good hx
  unfold addBuffer
  refine ((addCentroidBuffer_inv h.inv.toCInv (fun c hc => (hs c hc).1) (fun c hc => (hg c hc).1) (fun c hc => (hg c hc).2)).and
    (merged d _ h.inv.good (fun c hc => (hg c hc).1)).partially).mono ?_
  rintro d' ⟨hi, runs, hm⟩
  have htot : totalW (xs.map unit ++ d.centroids) = ((sup ++ xs).length : K) := by
    rw [totalW_append, h.inv.weight, totalW_units, totalW_units, List.length_append]
    push_cast
    ring
  have hrun := hm.k0_run hδ h.dinv.sf h.dinv.isf h.dinv.cf (by
    intro c hc
    rcases List.mem_append.1 hc with hc | hc
    · exact (hg c hc).1
    · exact h.inv.good c hc)
  rw [htot] at hrun
  have hlen : ((sup ++ xs).length : K) = sup.length + xs.length := by rw [List.length_append]; push_cast; rfl
  have l2 : (0 : K) ≤ xs.length := Nat.cast_nonneg _
  refine ⟨by rw [List.map_append]; exact hi, ?_, hm.sf.trans h.dinv.sf, hm.isf.trans h.dinv.isf, hm.cf.trans h.dinv.cf, ?_, ?_⟩
  · intro x hx'
    rcases List.mem_append.1 hx' with hx' | hx'
    · exact h.items x hx'
    · exact hx x hx'
  · refine hm.weight_le hrun (le_max_right _ _) ?_
    intro c hc
    rcases List.mem_append.1 hc with hc | hc
    · obtain ⟨y, hy, rfl⟩ := List.mem_map.1 hc
      exact le_max_of_le_left (by simp [unit, Fl.toK])
    · refine (h.dinv.wt c hc).trans (max_le_max le_rfl ?_)
      rw [div_le_div_iff_of_pos_right hδ, hlen]
      linarith
  · intro x
    rw [List.map_append]
    exact (h.dinv.near x).step hm (by positivity) (fun r hr h2 => (hrun r hr h2).trans (le_of_eq (by ring)))

theorem KInv.mono {δ : K} {d : TDigest K} {sup : List (Fl K)} {E F : K} (h : KInv δ d sup E) (hE : E ≤ F) : KInv δ d sup F :=
  ⟨h.inv, h.items, h.dinv.sf, h.dinv.isf, h.dinv.cf, h.dinv.wt, fun x => (h.dinv.near x).mono hE⟩

theorem new_kinv (δ : K) : KInv δ (TDigest.new k0 invK0 (.fin δ)) [] 0 :=
  ⟨new_inv _ _ _, by simp, ParTDigest.new_dinv δ⟩

theorem KInv.exec [FloatFmt.Exact K] {δ : K} (hδ : 0 < δ) {d : TDigest K} {sup : List (Fl K)} {E : K} (h : KInv δ d sup E)
    (o : Op (Fl K)) (ho : OrdinaryOp o) (h64 : (sup.length : K) < 2 ^ 64) :
    Always (o.exec d) (fun d' => KInv δ d' (sup ++ o.items) (E + 2 / δ * (sup ++ o.items).length * insertCalls [o])) := by
  have hs := units_good h.items
  have hq := h.inv.queries (fun c hc => (hs c hc).1) (by
    intro c hc
    obtain ⟨y, hy, rfl⟩ := List.mem_map.1 hc
    simp [unit, Fl.toK]) (by rw [totalW_units]; exact h64)
  cases o with
  | add x =>
    have := h.insert hδ [x] (by intro y hy; rw [List.mem_singleton] at hy; subst hy; exact ho)
    refine Always.mono this (fun d' h' => h'.mono ?_)
    simp [insertCalls, Op.items]
  | addBuffer xs =>
    refine Always.mono (h.insert hδ xs ho) (fun d' h' => h'.mono ?_)
    simp [insertCalls, Op.items]
  | quantile v =>
    obtain ⟨z, rfl⟩ := ho
    obtain ⟨r, hr⟩ := (hq z).1
    simp only [Op.exec, Op.items, List.append_nil]
    show Always (((d.estQuantileAtValue (.fin z)) >>= _) >>= _) _
    rw [hr]
    simpa [insertCalls] using h
  | value v =>
    obtain ⟨z, rfl⟩ := ho
    obtain ⟨r, hr⟩ := (hq z).2
    simp only [Op.exec, Op.items, List.append_nil]
    show Always (((d.estValueAtQuantile (.fin z)) >>= _) >>= _) _
    rw [hr]
    simpa [insertCalls] using h

theorem KInv.execAll [FloatFmt.Exact K] {δ : K} (hδ : 0 < δ) : ∀ (ops : List (Op (Fl K))) {d : TDigest K} {sup : List (Fl K)} {E : K}
    (h : KInv δ d sup E) (ho : ∀ o ∈ ops, OrdinaryOp o) (h64 : ((sup ++ itemsOf ops).length : K) < 2 ^ 64),
    Always (AQ.execAll d ops) (fun d' => KInv δ d' (sup ++ itemsOf ops) (E + 2 / δ * (sup ++ itemsOf ops).length * insertCalls ops))
  | [], d, sup, E, h, _, _ => by
    show KInv _ _ _ _
    simpa [itemsOf, insertCalls] using h
  | o :: os, d, sup, E, h, ho, h64 => by
    have e : sup ++ itemsOf (o :: os) = (sup ++ o.items) ++ itemsOf os := by
      simp [itemsOf, List.flatMap_cons, List.append_assoc]
    have e' : insertCalls (o :: os) = insertCalls [o] + insertCalls os := BufferedDigest.insertCalls_append [o] os
    rw [e] at h64 ⊢
    rw [e']
    unfold AQ.execAll
    rw [always_bind]
    have hle : ((sup.length : ℕ) : K) ≤ ((sup ++ o.items ++ itemsOf os).length : ℕ) :=
      Nat.cast_le.2 (by simp only [List.length_append]; omega)
    have hle2 : (((sup ++ o.items).length : ℕ) : K) ≤ ((sup ++ o.items ++ itemsOf os).length : ℕ) :=
      Nat.cast_le.2 (by simp only [List.length_append]; omega)
    refine (h.exec hδ o (ho o (by simp)) (lt_of_le_of_lt hle h64)).mono ?_
    intro d' h'
    refine (KInv.execAll hδ os h' (fun o' ho' => ho o' (by simp [ho'])) h64).mono (fun d'' h'' => h''.mono ?_)
    have h0 : (0 : K) ≤ (insertCalls [o] : K) := Nat.cast_nonneg _
    have h1 : 2 / δ * ((sup ++ o.items).length : K) * insertCalls [o] ≤ 2 / δ * ((sup ++ o.items ++ itemsOf os).length : K) * insertCalls [o] :=
      mul_le_mul_of_nonneg_right (mul_le_mul_of_nonneg_left hle2 (by positivity)) h0
    push_cast
    rw [mul_add]
    linarith

theorem KInv.query [FloatFmt.Exact K] {δ : K} {d : TDigest K} {sup : List (Fl K)} {E : K} (h : KInv δ d sup E) (hne : sup ≠ []) (x : K) :
    ∃ e : K, d.estQuantileAtValue (.fin x) = .ret (.fin e) ∧ RankWithin sup (sup.length * e) x (Max.max 1 (sup.length / δ) + E) := by
  have hs := units_good h.items
  obtain ⟨l, a, b, hv, hwt, hcl⟩ := h.inv.view (fun c hc => (hs c hc).1) (by simpa using hne)
  obtain ⟨e, h4, h5⟩ := TDigest.Near.query (H := Max.max 1 (sup.length / δ)) h.dinv.near (fun c hc => (hs c hc).1) hv hwt (le_max_left _ _) (by
      intro c hc
      have h5 := h.dinv.wt c hc
      rcases le_max_iff.1 h5 with h | h
      · exact le_max_of_le_left (by linarith)
      · refine le_max_of_le_right ?_
        rw [mul_div_assoc] at h
        linarith) x
  rw [totalW_units, TDigest.unit_eq, TDigest.weightWithin_items h.items] at h5
  exact ⟨e, h4, h5⟩

theorem KInv.value [FloatFmt.Exact K] {δ : K} {d : TDigest K} {sup : List (Fl K)} {E : K} (h : KInv δ d sup E) (hne : sup ≠ [])
    (h64 : (sup.length : K) < 2 ^ 64) {last : Centroid K} {q : K} (hlast : d.centroids.getLast? = some last) (h0 : 0 ≤ q) (h1 : q ≤ 1)
    (ht : ¬ InLastTail (sup.length : K) last.weight.toK q) :
    ∃ v : K, d.estValueAtQuantile (.fin q) = .ret (.fin v) ∧ RankWithin sup (sup.length * q) v (Max.max 1 (sup.length / δ) + E) := by
  have hs := units_good h.items
  obtain ⟨l, a, b, hv, hwt, hcl⟩ := h.inv.view (fun c hc => (hs c hc).1) (by simpa using hne)
  obtain ⟨v, h4, h5⟩ := TDigest.Near.value (H := Max.max 1 (sup.length / δ)) h.dinv.near (fun c hc => (hs c hc).1) hv hwt
      (hcl _ one_le_closed (by
        intro c hc
        obtain ⟨y, hy, rfl⟩ := List.mem_map.1 hc
        simp [unit, Fl.toK])) (by rw [totalW_units]; exact h64) (le_max_left _ _) (by
      intro c hc
      have h5 := h.dinv.wt c hc
      rcases le_max_iff.1 h5 with h | h
      · exact le_max_of_le_left (by linarith)
      · refine le_max_of_le_right ?_
        rw [mul_div_assoc] at h
        linarith) hlast h0 h1 (by rw [totalW_units]; exact ht)
  rw [totalW_units, TDigest.unit_eq, TDigest.weightWithin_items h.items] at h5
  exact ⟨v, h4, h5⟩

end TDigest

/-- C110. A TDigest with `k0` used through the trait `Digest`, insertions and queries interleaved in any way: after `I` insertion
calls that supplied `n` items the quantile estimated for `x` is, as a rank, off by at most `max 1 (n / δ) + 2 n I / δ`. -/
theorem C110_tdigest_quantile_error [FloatFmt.Exact K] (δ : K) (hδ : 0 < δ) (ops : List (Op (Fl K))) (ho : ∀ o ∈ ops, OrdinaryOp o)
    (hne : itemsOf ops ≠ []) (h64 : ((itemsOf ops).length : K) < 2 ^ 64) (x : K) :
    Always (execAll (TDigest.new k0 invK0 (.fin δ)) ops >>= fun d => d.estQuantileAtValue (.fin x)) (fun r => ∃ e : K, r = .fin e ∧
      RankWithin (itemsOf ops) ((itemsOf ops).length * e) x
        (Max.max 1 ((itemsOf ops).length / δ) + 2 / δ * (itemsOf ops).length * insertCalls ops)) := by
  rw [always_bind]
  refine (TDigest.KInv.execAll hδ ops (TDigest.new_kinv δ) ho (by simpa using h64)).mono ?_
  intro d h
  rw [List.nil_append, zero_add] at h
  obtain ⟨e, h1, h2⟩ := h.query hne x
  rw [h1]
  exact ⟨e, rfl, h2⟩

namespace BufferedDigest
open TDigest (KInv)

theorem execAll_eq {F D : Type} [Digest D F] {α : Type} (c : Nat) (ops ops' : List (Op F)) (buf : List F) (h : Sim c [] ops ops' buf) (d : D)
    (f : BufferedDigest D F → Prog α) :
    (execAll (BufferedDigest.new d c) ops >>= f) = (execAll d ops' >>= fun d' => f { digest := d', buffer := buf, capacity := c }) := by
  rw [← answers_execAll, ← answers_execAll]
  have := h D d
  unfold BufferedDigest.new
  rw [this]
  simp only [bind_assoc', bind_ret]

theorem items_ordinary {ops : List (Op (Fl K))} (ho : ∀ o ∈ ops, OrdinaryOp o) : ∀ x ∈ itemsOf ops, Item x := by
  intro y hy
  obtain ⟨o, hc, hy⟩ := List.mem_flatMap.1 hy
  have := ho o hc
  cases o with
  | add z => simp only [Op.items, List.mem_singleton] at hy; subst hy; exact this
  | addBuffer zs => exact this y hy
  | quantile v => simp [Op.items] at hy
  | value v => simp [Op.items] at hy

theorem mem_queriesFrom {F : Type} (o : Op F) (hq : (∃ v, o = .quantile v) ∨ ∃ v, o = .value v) : ∀ (ops : List (Op F)) (seen : List F),
    o ∈ ops ↔ ∃ s, (s, o) ∈ queriesFrom seen ops
  | [], seen => by simp [queriesFrom]
  | p :: os, seen => by
    have ih := mem_queriesFrom o hq os
    cases p with
    | add x =>
      have : o ≠ .add x := by rintro rfl; simp at hq
      simp only [List.mem_cons, this, false_or, queriesFrom]
      exact ih _
    | addBuffer xs =>
      have : o ≠ .addBuffer xs := by rintro rfl; simp at hq
      simp only [List.mem_cons, this, false_or, queriesFrom]
      exact ih _
    | quantile v =>
      simp only [List.mem_cons, queriesFrom, Prod.mk.injEq, ih seen]
      constructor
      · rintro (h | ⟨s, h⟩)
        · exact ⟨seen, Or.inl ⟨rfl, h⟩⟩
        · exact ⟨s, Or.inr h⟩
      · rintro ⟨s, h | h⟩
        · exact Or.inl h.2
        · exact Or.inr ⟨s, h⟩
    | value v =>
      simp only [List.mem_cons, queriesFrom, Prod.mk.injEq, ih seen]
      constructor
      · rintro (h | ⟨s, h⟩)
        · exact ⟨seen, Or.inl ⟨rfl, h⟩⟩
        · exact ⟨s, Or.inr h⟩
      · rintro ⟨s, h | h⟩
        · exact Or.inl h.2
        · exact Or.inr ⟨s, h⟩

/-- The calls reaching the inner digest are as ordinary as those made. -/
theorem inner_ordinary {ops ops' : List (Op (Fl K))} (ho : ∀ o ∈ ops, OrdinaryOp o) (hi : ∀ x ∈ itemsOf ops', x ∈ itemsOf ops)
    (hq : queriesFrom [] ops' = queriesFrom [] ops) : ∀ o ∈ ops', OrdinaryOp o := by
  intro o h
  have hit := items_ordinary ho
  have hmem : ∀ x ∈ o.items, Item x := fun x hx => hit x (hi x (List.mem_flatMap.2 ⟨o, h, hx⟩))
  cases o with
  | add x => exact hmem x (by simp [Op.items])
  | addBuffer xs => exact hmem
  | quantile v =>
    have h1 := (mem_queriesFrom (.quantile v) (Or.inl ⟨v, rfl⟩) ops' []).1 h
    rw [hq] at h1
    exact ho _ ((mem_queriesFrom (.quantile v) (Or.inl ⟨v, rfl⟩) ops []).2 h1)
  | value v =>
    have h1 := (mem_queriesFrom (.value v) (Or.inr ⟨v, rfl⟩) ops' []).1 h
    rw [hq] at h1
    exact ho _ ((mem_queriesFrom (.value v) (Or.inr ⟨v, rfl⟩) ops []).2 h1)

/-- The state of the wrapper after a flush. -/
theorem flush_kinv [FloatFmt.Exact K] {δ : K} (hδ : 0 < δ) (capacity : Nat) (hc : capacity ≠ 0) (ops : List (Op (Fl K)))
    (ho : ∀ o ∈ ops, OrdinaryOp o) (h64 : ((itemsOf ops).length : K) < 2 ^ 64) {α : Type} (f : BufferedDigest (TDigest K) (Fl K) → Prog α)
    (P : α → Prop) (hf : ∀ d : TDigest K, KInv δ d (itemsOf ops) (2 / δ * (itemsOf ops).length *
        (1 + queryCalls ops + (itemsOf ops).length / (capacity + 1))) →
      Always (f { digest := d, buffer := [], capacity := capacity }) P) :
    Always (execAll (BufferedDigest.new (TDigest.new k0 invK0 (.fin δ)) capacity) ops >>= fun b => b.flush >>= f) P := by
  obtain ⟨ops', buf, h1, h2, h3, h4, h5, h6, h7⟩ := BufferedDigest.history_cost capacity hc ops [] (by simp)
  rw [execAll_eq capacity ops ops' buf h1, always_bind]
  rw [List.nil_append] at h3
  have hle : (((itemsOf ops').length : ℕ) : K) ≤ ((itemsOf ops).length : ℕ) :=
    Nat.cast_le.2 (by rw [← h3, List.length_append]; omega)
  have hio := inner_ordinary ho (fun x hx => by rw [← h3]; exact List.mem_append_left _ hx) (h4 [])
  refine (TDigest.KInv.execAll hδ ops' (TDigest.new_kinv δ) hio (by simpa using lt_of_le_of_lt hle h64)).mono ?_
  intro d h
  rw [List.nil_append, zero_add] at h
  unfold flush
  rw [bind_assoc', always_bind]
  have hins := h.insert hδ buf (fun x hx => items_ordinary ho x (by rw [← h3]; exact List.mem_append_right _ hx))
  refine Always.mono hins (fun d' h' => ?_)
  rw [pure_eq, bind_ret]
  refine hf d' ?_
  rw [h3] at h'
  refine h'.mono ?_
  have hcp : (0 : K) < capacity + 1 := by positivity
  have h8 : (insertCalls ops' : K) ≤ queryCalls ops + (itemsOf ops).length / (capacity + 1) := by
    rw [← mul_le_mul_iff_left₀ hcp, add_mul, div_mul_cancel₀ _ hcp.ne']
    have : (insertCalls ops' : K) * (capacity + 1) ≤ queryCalls ops * (capacity + 1) + (itemsOf ops').length := by exact_mod_cast h7
    linarith
  have h9 : 2 / δ * ((itemsOf ops').length : K) * insertCalls ops' ≤
      2 / δ * (itemsOf ops).length * (queryCalls ops + (itemsOf ops).length / (capacity + 1)) := by
    apply mul_le_mul (mul_le_mul_of_nonneg_left hle (by positivity)) h8 (by positivity) (by positivity)
  have e : 2 / δ * ((itemsOf ops).length : K) * (1 + queryCalls ops + (itemsOf ops).length / (capacity + 1)) =
    2 / δ * (itemsOf ops).length * (queryCalls ops + (itemsOf ops).length / (capacity + 1)) + 2 / δ * (itemsOf ops).length := by ring
  rw [e]
  linarith

end BufferedDigest

/-- C110. A TDigest with `k0` in a BufferedDigest, after any history of `q` queries and insertions of `n` items: the quantile
estimated for `x` is, as a rank, off by at most `max 1 (n / δ) + 2 n / δ * (1 + q + n / (capacity + 1))`. -/
theorem C110_buffered_quantile_error [FloatFmt.Exact K] (δ : K) (hδ : 0 < δ) (capacity : Nat) (hc : capacity ≠ 0) (ops : List (Op (Fl K)))
    (ho : ∀ o ∈ ops, OrdinaryOp o) (hne : itemsOf ops ≠ []) (h64 : ((itemsOf ops).length : K) < 2 ^ 64) (x : K) :
    Always (execAll (BufferedDigest.new (TDigest.new k0 invK0 (.fin δ)) capacity) ops >>= fun b => b.estQuantileAtValue (.fin x)) (fun r =>
      ∃ e : K, r.1 = .fin e ∧ RankWithin (itemsOf ops) ((itemsOf ops).length * e) x
        (Max.max 1 ((itemsOf ops).length / δ) + 2 / δ * (itemsOf ops).length *
          (1 + queryCalls ops + (itemsOf ops).length / (capacity + 1)))) := by
  refine BufferedDigest.flush_kinv hδ capacity hc ops ho h64 (fun b' => do
    let r ← Digest.estQuantileAtValue b'.digest (.fin x)
    return (r.1, { b' with digest := r.2 })) _ ?_
  intro d h
  obtain ⟨e, h1, h2⟩ := h.query hne x
  show Always (((d.estQuantileAtValue (.fin x)) >>= _) >>= _) _
  rw [h1]
  exact ⟨e, rfl, h2⟩

/-- C110 for value queries not right of the middle of the last centroid. -/
theorem C110_buffered_value_error [FloatFmt.Exact K] (δ : K) (hδ : 0 < δ) (capacity : Nat) (hc : capacity ≠ 0) (ops : List (Op (Fl K)))
    (ho : ∀ o ∈ ops, OrdinaryOp o) (hne : itemsOf ops ≠ []) (h64 : ((itemsOf ops).length : K) < 2 ^ 64) (q : K) (hq0 : 0 ≤ q) (hq1 : q ≤ 1) :
    Always (execAll (BufferedDigest.new (TDigest.new k0 invK0 (.fin δ)) capacity) ops >>= fun b => b.estValueAtQuantile (.fin q)) (fun r =>
      ∀ last : Centroid K, r.2.digest.centroids.getLast? = some last →
      ¬ InLastTail ((itemsOf ops).length : K) last.weight.toK q →
      ∃ v : K, r.1 = .fin v ∧ RankWithin (itemsOf ops) ((itemsOf ops).length * q) v
        (Max.max 1 ((itemsOf ops).length / δ) + 2 / δ * (itemsOf ops).length *
          (1 + queryCalls ops + (itemsOf ops).length / (capacity + 1)))) := by
  refine BufferedDigest.flush_kinv hδ capacity hc ops ho h64 (fun b' => do
    let r ← Digest.estValueAtQuantile b'.digest (.fin q)
    return (r.1, { b' with digest := r.2 })) _ ?_
  intro d h
  have hs := TDigest.units_good h.items
  obtain ⟨-, r, hr⟩ := h.inv.queries (fun c hc => (hs c hc).1) (by
    intro c hc
    obtain ⟨y, hy, rfl⟩ := List.mem_map.1 hc
    simp [TDigest.unit, Fl.toK]) (by rw [TDigest.totalW_units]; exact h64) q
  show Always (((d.estValueAtQuantile (.fin q)) >>= _) >>= _) _
  rw [hr]
  intro last hlast hnt
  obtain ⟨v, h4, h5⟩ := h.value hne h64 hlast hq0 hq1 hnt
  rw [hr] at h4
  exact ⟨v, by injection h4, h5⟩

section examples
attribute [local instance] ratExact ratExact_exact

/-- 60 items in two buffers and one item, one query between. -/
def bufferedCalls : List (Op (Fl ℚ)) :=
  [.addBuffer ((List.range 30).map (fun i : ℕ => .fin ((3 * i : ℕ) : ℚ))), .quantile (.fin 4),
    .addBuffer ((List.range 29).map (fun i : ℕ => .fin ((2 * i : ℕ) : ℚ))), .add (.fin 7)]

/-- Non-vacuity: the history meets the hypotheses, centroids are merged, and the bound is less than the number of items. -/
theorem C110_example : (∀ o ∈ bufferedCalls, OrdinaryOp o) ∧ (itemsOf bufferedCalls).length = 60 ∧ queryCalls bufferedCalls = 1 ∧
    Always (execAll (BufferedDigest.new (TDigest.new k0 invK0 (.fin 20) : TDigest ℚ) 19) bufferedCalls) (fun b =>
      b.digest.centroids.length < 30 ∧ b.buffer.length = 1) ∧
    Max.max 1 ((60 : ℚ) / 20) + 2 / 20 * 60 * (1 + 1 + 60 / (19 + 1)) = 33 := by
  refine ⟨?_, by decide +kernel, by decide +kernel, by decide +kernel, by norm_num⟩
  have h : ∀ x ∈ itemsOf bufferedCalls, x = .fin x.toK ∧ Fl.minValue ≤ x ∧ x ≤ Fl.maxValue := by decide +kernel
  have h' : ∀ x ∈ itemsOf bufferedCalls, Item x := fun x hx => ⟨⟨_, (h x hx).1⟩, (h x hx).2⟩
  intro o ho
  have hm : ∀ x ∈ o.items, Item x := fun x hx => h' x (List.mem_flatMap.2 ⟨o, ho, hx⟩)
  cases o with
  | add x => exact hm x (by simp [Op.items])
  | addBuffer xs => exact hm
  | quantile v =>
    simp only [bufferedCalls, List.mem_cons, List.not_mem_nil, or_false, reduceCtorEq, false_or, Op.quantile.injEq] at ho
    exact ⟨4, ho⟩
  | value v => simp [bufferedCalls] at ho

end examples
end AQ

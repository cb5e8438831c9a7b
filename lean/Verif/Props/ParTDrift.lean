/-
Property C109: accuracy of a ParTDigest with the scale function `k0` (src/t_digest/par_t_digest.rs).
-/
import Verif.Props.TDDrift
import Verif.Props.ParTFlush

set_option linter.unusedSectionVars false
set_option linter.unusedVariables false

namespace AQ
open Prog Spec
variable {K : Type} [Field K] [LinearOrder K] [IsStrictOrderedRing K] [FloatFmt K]

namespace Spec

/-- The calls of a history that may flush a ParTDigest whose buffer is not full: queries and explicit flushes. -/
def flushingCalls (cs : List (ParTDigest.Call K)) : Nat :=
  cs.countP (fun c => match c with
    | .op (.add _) => false
    | .op (.addBuffer _) => false
    | _ => true)

/-- A bound on the passes that a ParTDigest makes over any item, chunk digests included: calls that flush, overflows of the buffer, the query itself. -/
def passesOf (capacity : Nat) (cs : List (ParTDigest.Call K)) : Nat := 2 + flushingCalls cs + (ParTDigest.itemsOfCalls cs).length / (capacity + 1)

end Spec

namespace TDigest

theorem unit_eq [FloatFmt.Exact K] : (unit : Fl K → Centroid K) = fun x => ⟨x, .fin 1⟩ := by
  funext x
  simp [unit]

theorem Near.append {x E F : K} {a b sa sb : List (Centroid K)} (h1 : Near x a sa E) (h2 : Near x b sb F) :
    Near x (a ++ b) (sa ++ sb) (E + F) := by
  unfold Near at *
  simp only [lw_append, uw_append]
  obtain ⟨h1, h1'⟩ := h1
  obtain ⟨h3, h4⟩ := h2
  constructor <;> linarith

theorem Near.mono {x E F : K} {a sa : List (Centroid K)} (h : Near x a sa E) (hE : E ≤ F) : Near x a sa F :=
  ⟨by linarith [h.1], by linarith [h.2]⟩

theorem Merged.k0_run [FloatFmt.Exact K] {d d' : TDigest K} {batch : List (Centroid K)} {runs : List (List (Centroid K))}
    (h : Merged d batch d' runs) {δ : K} (hδ : 0 < δ) (h1 : d.scaleFunc = k0) (h2 : d.inverseScaleFunc = invK0)
    (h3 : d.compressFactor = .fin δ) (hg : ∀ c ∈ batch ++ d.centroids, Good c) :
    ∀ r ∈ runs, 2 ≤ r.length → totalW r ≤ 2 * totalW (batch ++ d.centroids) / δ := by
  intro r hr hr2
  obtain ⟨pre, post, he⟩ := List.append_of_mem hr
  have h4 := h.limit pre r post he hr2
  have hpos : totalW (batch ++ d.centroids) ≠ 0 := by
    refine (totalW_pos hg ?_).ne'
    intro h0
    have hp := h.perm
    rw [h0, List.perm_nil, he] at hp
    simp only [List.flatten_append, List.flatten_cons, List.append_eq_nil_iff] at hp
    rw [hp.2.1] at hr2
    simp at hr2
  rw [h1, h2, h3, sizeLimit_k0 hδ.ne' hpos, Fl.le_fin] at h4
  exact of_decide_eq_true h4

theorem Merged.weight_le {d d' : TDigest K} {batch : List (Centroid K)} {runs : List (List (Centroid K))}
    (h : Merged d batch d' runs) {D H : K} (hr : ∀ r ∈ runs, 2 ≤ r.length → totalW r ≤ D) (hD : D ≤ H)
    (hw : ∀ c ∈ batch ++ d.centroids, c.weight.toK ≤ H) : ∀ c ∈ d'.centroids, c.weight.toK ≤ H := by
  intro c hc
  rw [h.cs] at hc
  obtain ⟨r, hrm, rfl⟩ := List.mem_map.1 hc
  by_cases hr2 : 2 ≤ r.length
  · exact (hr r hrm hr2).trans hD
  · obtain ⟨e, rfl⟩ : ∃ e, r = [e] := by
      match r, h.ne r hrm, hr2 with
      | [e], _, _ => exact ⟨e, rfl⟩
      | _ :: _ :: _, _, h => simp at h
    show totalW [e] ≤ _
    rw [totalW_cons, totalW_nil, add_zero]
    exact hw e (h.perm.mem_iff.1 (List.mem_flatten.2 ⟨[e], hrm, by simp⟩))

end TDigest

namespace ParTDigest
open TDigest

/-- The chunk stage. -/
theorem chunkDigests_near [FloatFmt.Exact K] {δ : K} (hδ : 0 < δ) : ∀ cs : List (List (Fl K)), (∀ c ∈ cs, ∀ x ∈ c, Item x) →
    Always (chunkDigests (.ret (TDigest.new k0 invK0 (.fin δ))) cs) (fun ds =>
      (∀ c ∈ ds.flatMap TDigest.centroids, Good c ∧ c.weight.toK ≤ Max.max 1 (2 * cs.flatten.length / δ)) ∧
      totalW (ds.flatMap TDigest.centroids) = (cs.flatten.length : K) ∧
      ∀ x, Near x (ds.flatMap TDigest.centroids) (cs.flatten.map unit) (2 / δ * cs.flatten.length))
  | [], _ => ⟨by simp, by simp, fun x => by simp [Near]⟩
  | c :: cs, h => by
    unfold chunkDigests
    rw [bind_ret, always_bind]
    have hc : ∀ x ∈ c, Item x := h c (by simp)
    have h1 : ∀ u ∈ c.map unit, Good u ∧ InRange u := by
      intro u hu
      obtain ⟨y, hy, rfl⟩ := List.mem_map.1 hu
      exact ⟨unit_good (hc y hy).1, (hc y hy).2⟩
    have h2 := addCentroidBuffer_inv (new_inv (k0 : ScaleFn K) invK0 (.fin δ)).toCInv (by simp) (fun x hx => (h1 x hx).1)
      (fun x hx => (h1 x hx).2)
    rw [List.nil_append] at h2
    have h3 := merged (TDigest.new (k0 : ScaleFn K) invK0 (.fin δ)) (c.map unit) (by simp [TDigest.new]) (fun u hu => (h1 u hu).1)
    refine (h2.and h3.partially).mono ?_
    rintro d' ⟨hi, runs, hm⟩
    have e0 : c.map unit ++ (TDigest.new (k0 : ScaleFn K) invK0 (.fin δ)).centroids = c.map unit := by simp [TDigest.new]
    have hrun := hm.k0_run hδ rfl rfl rfl (by rw [e0]; exact fun u hu => (h1 u hu).1)
    rw [e0, totalW_units] at hrun
    have hnear : ∀ x, Near x d'.centroids (c.map unit) (2 / δ * c.length) := by
      intro x
      have hn0 : Near x (TDigest.new (k0 : ScaleFn K) invK0 (.fin δ)).centroids [] 0 := by simp [Near, TDigest.new]
      have := hn0.step hm (D := 2 / δ * c.length) (by positivity) (fun r hr h2 => (hrun r hr h2).trans (le_of_eq (by ring)))
      rwa [List.nil_append, zero_add] at this
    have hwt := hm.weight_le (H := Max.max 1 (2 * c.length / δ)) hrun (le_max_right _ _) (by
      rw [e0]
      intro u hu
      obtain ⟨y, hy, rfl⟩ := List.mem_map.1 hu
      exact le_max_of_le_left (by simp [unit, Fl.toK]))
    rw [always_bind]
    refine (chunkDigests_near hδ cs (fun c' hc' => h c' (by simp [hc']))).mono ?_
    rintro ds ⟨i1, i2, i3⟩
    have hlen : ((c :: cs).flatten.length : K) = c.length + cs.flatten.length := by
      rw [List.flatten_cons, List.length_append]; push_cast; rfl
    have l1 : (0 : K) ≤ c.length := Nat.cast_nonneg _
    have l2 : (0 : K) ≤ cs.flatten.length := Nat.cast_nonneg _
    show _ ∧ _ ∧ _
    refine ⟨?_, ?_, ?_⟩
    · intro u hu
      rw [List.flatMap_cons] at hu
      rw [hlen]
      rcases List.mem_append.1 hu with hu | hu
      · refine ⟨hi.good u hu, (hwt u hu).trans (max_le_max le_rfl ?_)⟩
        rw [div_le_div_iff_of_pos_right hδ]
        linarith
      · refine ⟨(i1 u hu).1, (i1 u hu).2.trans (max_le_max le_rfl ?_)⟩
        rw [div_le_div_iff_of_pos_right hδ]
        linarith
    · rw [List.flatMap_cons, totalW_append, hi.weight, totalW_units, i2, hlen]
    · intro x
      rw [List.flatMap_cons, List.flatten_cons, List.map_append, ← List.flatten_cons, hlen, mul_add]
      exact (hnear x).append (i3 x)

/-- What a digest with `k0` knows about the items flushed into it. -/
structure DInv (δ : K) (d : TDigest K) (fl : List (Fl K)) (E : K) : Prop where
  sf : d.scaleFunc = k0
  isf : d.inverseScaleFunc = invK0
  cf : d.compressFactor = .fin δ
  wt : ∀ c ∈ d.centroids, c.weight.toK ≤ Max.max 1 (2 * fl.length / δ)
  near : ∀ x, Near x d.centroids (fl.map unit) E

theorem flush_dinv [FloatFmt.Exact K] {δ : K} (hδ : 0 < δ) {p : ParTDigest K} {fl : List (Fl K)} {E : K} (hp : PInv p.digest fl)
    (h : DInv δ p.digest fl E) (hb : ∀ x ∈ p.buffer, Item x) (hc : p.creator = .ret (TDigest.new k0 invK0 (.fin δ))) (ht : p.threads ≠ 0)
    (hbn : p.buffer ≠ []) : Partially p.flush (fun p' =>
      DInv δ p'.digest (fl ++ p.buffer) (E + 2 / δ * p.buffer.length + 2 / δ * (fl ++ p.buffer).length)) := by
  unfold flush
  rw [if_neg hbn]
  unfold chunks
  rw [if_neg ht, bind_ret, hc, partially_bind]
  have hfl := chunksAux_flatten p.threads ht p.buffer.length p.buffer (le_refl _)
  generalize chunksAux p.threads p.buffer.length p.buffer = cs at hfl
  refine (chunkDigests_near hδ cs (fun c hc x hx => hb x (by rw [← hfl]; exact List.mem_flatten.2 ⟨c, hc, hx⟩))).partially.mono ?_
  rw [hfl]
  rintro ds ⟨h1, h2, h3⟩
  rw [partially_bind]
  refine (partially_true _).mono (fun mn _ => ?_)
  rw [partially_bind]
  refine (partially_true _).mono (fun dmin _ => ?_)
  rw [partially_bind]
  refine (partially_true _).mono (fun mx _ => ?_)
  rw [partially_bind]
  refine (partially_true _).mono (fun dmax _ => ?_)
  rw [partially_bind]
  refine (merged ({ p.digest with min := dmin.min, max := dmax.max } : TDigest K) (ds.flatMap TDigest.centroids) hp.good
    (fun c hc => (h1 c hc).1)).partially.mono ?_
  rintro d' ⟨runs, hm⟩
  have htot : totalW (ds.flatMap TDigest.centroids ++ p.digest.centroids) = ((fl ++ p.buffer).length : K) := by
    rw [totalW_append, h2, hp.weight, List.length_append]
    push_cast
    ring
  have hrun := hm.k0_run hδ h.sf h.isf h.cf (by
    intro c hc
    rcases List.mem_append.1 hc with hc | hc
    · exact (h1 c hc).1
    · exact hp.good c hc)
  rw [show totalW (ds.flatMap TDigest.centroids ++ ({ p.digest with min := dmin.min, max := dmax.max } : TDigest K).centroids) =
    ((fl ++ p.buffer).length : K) from htot] at hrun
  have hlen : ((fl ++ p.buffer).length : K) = fl.length + p.buffer.length := by rw [List.length_append]; push_cast; rfl
  have l1 : (0 : K) ≤ fl.length := Nat.cast_nonneg _
  have l2 : (0 : K) ≤ p.buffer.length := Nat.cast_nonneg _
  refine ⟨hm.sf.trans h.sf, hm.isf.trans h.isf, hm.cf.trans h.cf, ?_, ?_⟩
  · refine hm.weight_le hrun (le_max_right _ _) ?_
    intro c hc
    rw [hlen]
    rcases List.mem_append.1 hc with hc | hc
    · refine ((h1 c hc).2).trans (max_le_max le_rfl ?_)
      rw [div_le_div_iff_of_pos_right hδ]
      linarith
    · refine (h.wt c hc).trans (max_le_max le_rfl ?_)
      rw [div_le_div_iff_of_pos_right hδ]
      linarith
  · intro x
    have hn := hm.drift (D := 2 / δ * (fl ++ p.buffer).length) (by positivity)
      (fun r hr h2 => (hrun r hr h2).trans (le_of_eq (by ring))) x
    rw [lw_append, uw_append] at hn
    obtain ⟨n1, n2⟩ := hn
    obtain ⟨n3, n4⟩ := h.near x
    obtain ⟨n5, n6⟩ := h3 x
    unfold Near
    rw [List.map_append, lw_append, uw_append]
    simp only at n1 n2
    constructor <;> linarith

section
variable [FloorRing K]

/-- The state after a history that supplied `sup` and made `q` queries, with the bound on the error so far. -/
def DHist (δ : K) (c : Nat) (p : ParTDigest K) (sup : List (Fl K)) (q : Nat) : Prop :=
  ∃ (fl : List (Fl K)) (F : Nat), sup = fl ++ p.buffer ∧ DInv δ p.digest fl (2 / δ * fl.length * (1 + F)) ∧ F * (c + 1) ≤ q * (c + 1) + fl.length

theorem new_dinv (δ : K) : DInv δ (TDigest.new k0 invK0 (.fin δ)) [] 0 :=
  ⟨rfl, rfl, rfl, by simp [TDigest.new], fun x => by simp [Near, TDigest.new]⟩

theorem flush_dhist [FloatFmt.Exact K] {δ : K} (hδ : 0 < δ) {t c : Nat} (ht : t ≠ 0) {p : ParTDigest K} {fl : List (Fl K)} {F q : Nat}
    (h : PInv p.digest fl) (hb : ∀ x ∈ p.buffer, Item x) (e1 : p.threads = t) (e2 : p.capacity = c)
    (e3 : p.creator = .ret (TDigest.new k0 invK0 (.fin δ))) (hd : DInv δ p.digest fl (2 / δ * fl.length * (1 + F)))
    (hF : (F + 1) * (c + 1) ≤ q * (c + 1) + (fl ++ p.buffer).length) :
    Partially p.flush (fun p' => DHist δ c p' (fl ++ p.buffer) q) := by
  by_cases hbn : p.buffer = []
  · unfold flush
    rw [if_pos hbn]
    refine ⟨fl, F, rfl, hd, ?_⟩
    rw [hbn, List.append_nil] at hF
    exact le_trans (Nat.mul_le_mul_right _ (Nat.le_succ F)) hF
  · have h1 := flush_dinv hδ h hd hb e3 (by rw [e1]; exact ht) hbn
    refine (h1.and (flush_buffer p)).mono ?_
    rintro p' ⟨h2, h3⟩
    refine ⟨fl ++ p.buffer, F + 1, by rw [h3, List.append_nil], ⟨h2.sf, h2.isf, h2.cf, h2.wt, fun x => (h2.near x).mono ?_⟩, hF⟩
    have hlen : ((fl ++ p.buffer).length : K) = fl.length + p.buffer.length := by rw [List.length_append]; push_cast; rfl
    rw [hlen]
    push_cast
    have l2 : (0 : K) ≤ p.buffer.length := Nat.cast_nonneg _
    have l3 : (0 : K) ≤ F := Nat.cast_nonneg _
    have l4 : 0 ≤ 2 / δ * p.buffer.length * F := by positivity
    nlinarith

/-- Number of queries in a history. -/
def queriesIn (ops : List (Op (Fl K))) : Nat :=
  ops.countP (fun o => match o with
    | .add _ => false
    | .addBuffer _ => false
    | _ => true)

theorem exec_dhist [FloatFmt.Exact K] {δ : K} (hδ : 0 < δ) {t c : Nat} (ht : t ≠ 0) {p : ParTDigest K} {sup : List (Fl K)} {q : Nat}
    (h : HInv k0 invK0 (.fin δ) t c p sup) (hd : DHist δ c p sup q) (o : Op (Fl K)) (ho : OrdinaryOp o) :
    Partially (o.exec p) (fun p' => DHist δ c p' (sup ++ o.items) (q + queriesIn [o])) := by
  obtain ⟨fl, e0, h1, h2, h3, e1, e2, e3⟩ := h
  obtain ⟨fl', F, e0', d1, d2⟩ := hd
  obtain rfl : fl = fl' := List.append_cancel_right (e0.symm.trans e0')
  have hins : ∀ xs : List (Fl K), (∀ x ∈ xs, Item x) →
      Partially (flushIfFull { p with buffer := p.buffer ++ xs }) (fun p' => DHist δ c p' (sup ++ xs) q) := by
    intro xs hxs
    have hb : ∀ x ∈ p.buffer ++ xs, Item x := by
      intro x hx
      rcases List.mem_append.1 hx with hx | hx
      · exact h2 x hx
      · exact hxs x hx
    unfold flushIfFull
    split
    · next hlt =>
      simp only [e2] at hlt
      rw [e0, List.append_assoc]
      refine flush_dhist (p := { p with buffer := p.buffer ++ xs }) hδ ht h1 hb e1 e2 e3 d1 ?_
      rw [List.length_append]
      nlinarith
    · exact ⟨fl, F, by rw [e0, List.append_assoc], d1, d2⟩
  cases o with
  | add x => exact hins [x] (by intro y hy; rw [List.mem_singleton] at hy; subst hy; exact ho)
  | addBuffer xs => exact hins xs ho
  | quantile v =>
    simp only [Op.exec, Op.items, List.append_nil]
    rw [partially_bind]
    show Partially (estQuantileAtValue p v) _
    unfold estQuantileAtValue
    rw [partially_bind]
    have := flush_dhist (q := q + 1) hδ ht h1 h2 e1 e2 e3 d1 (by rw [List.length_append]; nlinarith)
    rw [← e0] at this
    refine this.mono (fun p' h' => ?_)
    rw [partially_bind]
    exact (partially_true _).mono (fun _ _ => h')
  | value v =>
    simp only [Op.exec, Op.items, List.append_nil]
    rw [partially_bind]
    show Partially (estValueAtQuantile p v) _
    unfold estValueAtQuantile
    rw [partially_bind]
    have := flush_dhist (q := q + 1) hδ ht h1 h2 e1 e2 e3 d1 (by rw [List.length_append]; nlinarith)
    rw [← e0] at this
    refine this.mono (fun p' h' => ?_)
    rw [partially_bind]
    exact (partially_true _).mono (fun _ _ => h')

theorem execAll_dhist [FloatFmt.Exact K] {δ : K} (hδ : 0 < δ) {t c : Nat} (ht : t ≠ 0) :
    ∀ (ops : List (Op (Fl K))) (p : ParTDigest K) (sup : List (Fl K)) (q : Nat), HInv k0 invK0 (.fin δ) t c p sup → DHist δ c p sup q →
    (∀ o ∈ ops, OrdinaryOp o) → ((sup ++ itemsOf ops).length : K) < 2 ^ 64 →
    Always (execAll p ops) (fun p' => HInv k0 invK0 (.fin δ) t c p' (sup ++ itemsOf ops) ∧ DHist δ c p' (sup ++ itemsOf ops) (q + queriesIn ops))
  | [], p, sup, q, h, hd, _, _ => by
    show _ ∧ _
    simpa [itemsOf, queriesIn] using And.intro h hd
  | o :: os, p, sup, q, h, hd, ho, h64 => by
    have e : sup ++ itemsOf (o :: os) = (sup ++ o.items) ++ itemsOf os := by
      simp [itemsOf, List.flatMap_cons, List.append_assoc]
    have e' : q + queriesIn (o :: os) = (q + queriesIn [o]) + queriesIn os := by
      unfold queriesIn
      rw [List.countP_cons, List.countP_singleton]
      omega
    rw [e] at h64 ⊢
    rw [e']
    unfold execAll
    rw [always_bind]
    refine ((exec_hinv ht h o (ho o (by simp)) ?_).and (exec_dhist hδ ht h hd o (ho o (by simp)))).mono ?_
    · refine lt_of_le_of_lt ?_ h64
      exact Nat.cast_le.2 (by simp only [List.length_append]; omega)
    · rintro p' ⟨h1, h2⟩
      exact execAll_dhist hδ ht os p' _ _ h1 h2 (fun o' ho' => ho o' (by simp [ho'])) h64

theorem queriesIn_asOp (cs : List (Call K)) : queriesIn (cs.map Call.asOp) = flushingCalls cs := by
  unfold queriesIn flushingCalls
  rw [List.countP_map]
  congr 1
  funext c
  match c with
  | .op (.add _) => rfl
  | .op (.addBuffer _) => rfl
  | .op (.quantile _) => rfl
  | .op (.value _) => rfl
  | .flush => rfl

theorem callHistory_dhist [FloatFmt.Exact K] {δ : K} (hδ : 0 < δ) (threads capacity : Nat) (ht : threads ≠ 0)
    (cs : List (Call K)) (ho : ∀ o, .op o ∈ cs → OrdinaryOp o) (h64 : ((itemsOfCalls cs).length : K) < 2 ^ 64) :
    Always (callHistory k0 invK0 (.fin δ) threads capacity cs) (fun p =>
      HInv k0 invK0 (.fin δ) threads capacity p (itemsOfCalls cs) ∧ DHist δ capacity p (itemsOfCalls cs) (flushingCalls cs)) := by
  rw [← itemsOf_asOp] at h64 ⊢
  unfold callHistory ParTDigest.new
  rw [bind_ret]
  apply execCalls_always
  have := execAll_dhist (t := threads) (c := capacity) hδ ht (cs.map Call.asOp)
    { digest := TDigest.new k0 invK0 (.fin δ), threads := threads, buffer := [], capacity := capacity,
      creator := .ret (TDigest.new k0 invK0 (.fin δ)) } [] 0
    ⟨[], rfl, new_pinv k0 invK0 (.fin δ), by simp, by simp, rfl, rfl, rfl⟩
    ⟨[], 0, rfl, by simpa using new_dinv δ, by simp⟩ (by
      intro o h
      obtain ⟨c, hc, rfl⟩ := List.mem_map.1 h
      cases c with
      | op o => exact ho o hc
      | flush => exact ⟨0, rfl⟩) (by simpa using h64)
  refine this.mono (fun p h => ?_)
  rw [List.nil_append, zero_add, queriesIn_asOp] at h
  exact h

/-- The error allowed after `q` flushing calls. -/
theorem DHist.final {δ : K} (hδ : 0 < δ) {c q : Nat} {p : ParTDigest K} {sup : List (Fl K)} (h : DHist δ c p sup q) (hb : p.buffer = []) :
    DInv δ p.digest sup (2 / δ * sup.length * (1 + q + sup.length / (c + 1))) := by
  obtain ⟨fl, F, e0, h1, h2⟩ := h
  rw [hb, List.append_nil] at e0
  subst e0
  refine ⟨h1.sf, h1.isf, h1.cf, h1.wt, fun x => (h1.near x).mono ?_⟩
  apply mul_le_mul_of_nonneg_left _ (by positivity)
  have h3 : (F : K) * (c + 1) ≤ q * (c + 1) + sup.length := by exact_mod_cast h2
  have hc : (0 : K) < c + 1 := by positivity
  have h4 : (F : K) ≤ q + sup.length / (c + 1) := by
    rw [← mul_le_mul_iff_left₀ hc, add_mul, div_mul_cancel₀ _ hc.ne']
    exact h3
  linarith

end
end ParTDigest

/-- C109. A ParTDigest with `k0` after any history of insertions, queries and flushes that supplied `n` items, `q` of the calls
queries or flushes: the estimated quantile of `x` is, as a rank, off by at most
`max 1 (n / δ) + 2 n / δ * (2 + q + n / (capacity + 1))`. -/
theorem C109_quantile_error [FloorRing K] [FloatFmt.Exact K] (δ : K) (hδ : 0 < δ) (threads capacity : Nat) (ht : threads ≠ 0)
    (cs : List (ParTDigest.Call K)) (ho : ∀ o, .op o ∈ cs → OrdinaryOp o) (hne : ParTDigest.itemsOfCalls cs ≠ [])
    (h64 : ((ParTDigest.itemsOfCalls cs).length : K) < 2 ^ 64) (x : K) :
    Always (ParTDigest.callHistory k0 invK0 (.fin δ) threads capacity cs >>= fun p => p.estQuantileAtValue (.fin x)) (fun r =>
      ∃ e : K, r.1 = .fin e ∧ RankWithin (ParTDigest.itemsOfCalls cs) ((ParTDigest.itemsOfCalls cs).length * e) x
        (Max.max 1 ((ParTDigest.itemsOfCalls cs).length / δ) + 2 / δ * (ParTDigest.itemsOfCalls cs).length *
          (2 + flushingCalls cs + (ParTDigest.itemsOfCalls cs).length / (capacity + 1)))) := by
  have hit : ∀ x ∈ ParTDigest.itemsOfCalls cs, Item x := by
    intro y hy
    obtain ⟨c, hc, hy⟩ := List.mem_flatMap.1 hy
    cases c with
    | flush => simp at hy
    | op o =>
      have := ho o hc
      cases o with
      | add z => simp only [Op.items, List.mem_singleton] at hy; subst hy; exact this
      | addBuffer zs => exact this y hy
      | quantile v => simp [Op.items] at hy
      | value v => simp [Op.items] at hy
  rw [always_bind]
  refine (ParTDigest.callHistory_dhist hδ threads capacity ht cs ho h64).mono ?_
  rintro p ⟨⟨fl, e0, h1, h2, h3, e1, e2, e3⟩, fl', F, e0', d1, d2⟩
  obtain rfl : fl = fl' := List.append_cancel_right (e0.symm.trans e0')
  unfold ParTDigest.estQuantileAtValue
  rw [always_bind]
  have hf := ParTDigest.flush_dhist (q := flushingCalls cs + 1) hδ ht h1 h2 e1 e2 e3 d1 (by rw [List.length_append]; nlinarith)
  refine ((ParTDigest.flush_hinv ht h1 h2 e1 e2 e3).and hf).mono ?_
  rw [← e0]
  rintro p' ⟨⟨hb, hp, -⟩, hd⟩
  have hfin := hd.final hδ hb
  obtain ⟨l, a, b, hv, hwt, hw1⟩ := hp.view hne
  have hsw : totalW ((ParTDigest.itemsOfCalls cs).map TDigest.unit) = ((ParTDigest.itemsOfCalls cs).length : K) := TDigest.totalW_units _
  obtain ⟨e, h4, h5⟩ := TDigest.Near.query (H := Max.max 1 ((ParTDigest.itemsOfCalls cs).length / δ)) hfin.near (by
      intro c hc
      obtain ⟨y, hy, rfl⟩ := List.mem_map.1 hc
      exact TDigest.unit_good (hit y hy).1) hv (by rw [hwt, hsw]) (le_max_left _ _) (by
      intro c hc
      have h5 := hfin.wt c hc
      rcases le_max_iff.1 h5 with h | h
      · exact le_max_of_le_left (by linarith)
      · refine le_max_of_le_right ?_
        rw [mul_div_assoc] at h
        linarith) x
  rw [h4, bind_ret]
  refine ⟨e, rfl, ?_⟩
  rw [hsw, TDigest.unit_eq, TDigest.weightWithin_items hit] at h5
  obtain ⟨h6, h7⟩ := h5
  push_cast at h6 h7
  have e4 : (1 : K) + ((flushingCalls cs : K) + 1) + ((ParTDigest.itemsOfCalls cs).length : K) / (capacity + 1) =
    2 + flushingCalls cs + (ParTDigest.itemsOfCalls cs).length / (capacity + 1) := by ring
  rw [e4] at h6 h7
  exact ⟨h6, h7⟩

/-- C109 for value queries not right of the middle of the last centroid. -/
theorem C109_value_error [FloorRing K] [FloatFmt.Exact K] (δ : K) (hδ : 0 < δ) (threads capacity : Nat) (ht : threads ≠ 0)
    (cs : List (ParTDigest.Call K)) (ho : ∀ o, .op o ∈ cs → OrdinaryOp o) (hne : ParTDigest.itemsOfCalls cs ≠ [])
    (h64 : ((ParTDigest.itemsOfCalls cs).length : K) < 2 ^ 64) (q : K) (hq0 : 0 ≤ q) (hq1 : q ≤ 1) :
    Always (ParTDigest.callHistory k0 invK0 (.fin δ) threads capacity cs >>= fun p => p.estValueAtQuantile (.fin q)) (fun r =>
      ∀ last : Centroid K, r.2.digest.centroids.getLast? = some last →
      ¬ InLastTail ((ParTDigest.itemsOfCalls cs).length : K) last.weight.toK q →
      ∃ v : K, r.1 = .fin v ∧ RankWithin (ParTDigest.itemsOfCalls cs) ((ParTDigest.itemsOfCalls cs).length * q) v
        (Max.max 1 ((ParTDigest.itemsOfCalls cs).length / δ) + 2 / δ * (ParTDigest.itemsOfCalls cs).length *
          (2 + flushingCalls cs + (ParTDigest.itemsOfCalls cs).length / (capacity + 1)))) := by
  have hit : ∀ x ∈ ParTDigest.itemsOfCalls cs, Item x := by
    intro y hy
    obtain ⟨c, hc, hy⟩ := List.mem_flatMap.1 hy
    cases c with
    | flush => simp at hy
    | op o =>
      have := ho o hc
      cases o with
      | add z => simp only [Op.items, List.mem_singleton] at hy; subst hy; exact this
      | addBuffer zs => exact this y hy
      | quantile v => simp [Op.items] at hy
      | value v => simp [Op.items] at hy
  rw [always_bind]
  refine (ParTDigest.callHistory_dhist hδ threads capacity ht cs ho h64).mono ?_
  rintro p ⟨⟨fl, e0, h1, h2, h3, e1, e2, e3⟩, fl', F, e0', d1, d2⟩
  obtain rfl : fl = fl' := List.append_cancel_right (e0.symm.trans e0')
  unfold ParTDigest.estValueAtQuantile
  rw [always_bind]
  have hf := ParTDigest.flush_dhist (q := flushingCalls cs + 1) hδ ht h1 h2 e1 e2 e3 d1 (by rw [List.length_append]; nlinarith)
  refine ((ParTDigest.flush_hinv ht h1 h2 e1 e2 e3).and hf).mono ?_
  rw [← e0]
  rintro p' ⟨⟨hb, hp, -⟩, hd⟩
  have hfin := hd.final hδ hb
  obtain ⟨l, a, b, hv, hwt, hw1⟩ := hp.view hne
  have hsw : totalW ((ParTDigest.itemsOfCalls cs).map TDigest.unit) = ((ParTDigest.itemsOfCalls cs).length : K) := TDigest.totalW_units _
  obtain ⟨-, r, hr⟩ := hp.queries h64 q
  rw [hr, bind_ret]
  intro last hlast hnt
  obtain ⟨v, h4, h5⟩ := TDigest.Near.value (H := Max.max 1 ((ParTDigest.itemsOfCalls cs).length / δ)) hfin.near (by
      intro c hc
      obtain ⟨y, hy, rfl⟩ := List.mem_map.1 hc
      exact TDigest.unit_good (hit y hy).1) hv (by rw [hwt, hsw]) hw1 (by rw [hsw]; exact h64) (le_max_left _ _) (by
      intro c hc
      have h5 := hfin.wt c hc
      rcases le_max_iff.1 h5 with h | h
      · exact le_max_of_le_left (by linarith)
      · refine le_max_of_le_right ?_
        rw [mul_div_assoc] at h
        linarith) hlast hq0 hq1 (by rw [hsw]; exact hnt)
  rw [hr] at h4
  refine ⟨v, by injection h4, ?_⟩
  rw [hsw, TDigest.unit_eq, TDigest.weightWithin_items hit] at h5
  obtain ⟨h6, h7⟩ := h5
  push_cast at h6 h7
  have e4 : (1 : K) + ((flushingCalls cs : K) + 1) + ((ParTDigest.itemsOfCalls cs).length : K) / (capacity + 1) =
    2 + flushingCalls cs + (ParTDigest.itemsOfCalls cs).length / (capacity + 1) := by ring
  rw [e4] at h6 h7
  exact ⟨h6, h7⟩

section examples
attribute [local instance] ratExact ratExact_exact

/-- A history of 24 items in three insertions, two flushes when full, one query. -/
def driftCalls : List (ParTDigest.Call ℚ) :=
  [.op (.addBuffer ((List.range 10).map (fun i : ℕ => .fin ((3 * i : ℕ) : ℚ)))), .op (.quantile (.fin 4)),
    .op (.addBuffer ((List.range 13).map (fun i : ℕ => .fin ((2 * i : ℕ) : ℚ)))), .op (.add (.fin 7))]

/-- Non-vacuity: the history meets the hypotheses of C109 and centroids are merged in the chunks and in the digest. -/
theorem C109_example : (∀ o, .op o ∈ driftCalls → OrdinaryOp o) ∧ (ParTDigest.itemsOfCalls driftCalls).length = 24 ∧ flushingCalls driftCalls = 1 ∧
    Always (ParTDigest.callHistory k0 invK0 (.fin 10) 12 9 driftCalls >>= fun p => p.estQuantileAtValue (.fin 7)) (fun r =>
      r.2.digest.centroids.length ≤ 11) := by
  refine ⟨?_, by decide +kernel, by decide +kernel, by decide +kernel⟩
  intro o ho
  simp only [driftCalls, List.mem_cons, ParTDigest.Call.op.injEq, List.not_mem_nil, or_false] at ho
  have h : ∀ x ∈ ParTDigest.itemsOfCalls driftCalls, x = .fin x.toK ∧ Fl.minValue ≤ x ∧ x ≤ Fl.maxValue := by decide +kernel
  have h' : ∀ x ∈ ParTDigest.itemsOfCalls driftCalls, Item x := fun x hx => ⟨⟨_, (h x hx).1⟩, (h x hx).2⟩
  rcases ho with rfl | rfl | rfl | rfl
  · intro x hx
    exact h' x (by simp only [driftCalls, ParTDigest.itemsOfCalls, List.flatMap_cons, Op.items, List.mem_append]; exact Or.inl hx)
  · exact ⟨_, rfl⟩
  · intro x hx
    exact h' x (by
      simp only [driftCalls, ParTDigest.itemsOfCalls, List.flatMap_cons, Op.items, List.mem_append]
      exact Or.inr (Or.inr (Or.inl hx)))
  · exact h' _ (by decide +kernel)

end examples
end AQ

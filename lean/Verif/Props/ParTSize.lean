/-
C126: how many centroids a ParTDigest keeps (src/t_digest/par_t_digest.rs).
-/
import Verif.Props.ParTRoundRank
import Verif.Props.ScaleSize
import Verif.Props.TDRoundSize

set_option linter.unusedSectionVars false
set_option linter.unusedVariables false

namespace AQ
open Prog Spec
variable {K : Type} [Field K] [LinearOrder K] [IsStrictOrderedRing K] [FloatFmt K]

/-- The centroids after a merge are those of a new digest given the batch and the old centroids at once. -/
theorem TDigest.centroids_as_new (d : TDigest K) (b : List (Centroid K)) {P : List (Centroid K) → Prop}
    (h : Always ((TDigest.new d.scaleFunc d.inverseScaleFunc d.compressFactor).addCentroidBuffer (b ++ d.centroids)) (fun d' => P d'.centroids)) :
    Always (d.addCentroidBuffer b) (fun d' => P d'.centroids ∧ d'.scaleFunc = d.scaleFunc ∧ d'.inverseScaleFunc = d.inverseScaleFunc ∧
      d'.compressFactor = d.compressFactor ∨ b ++ d.centroids = [] ∧ d' = d) := by
  unfold TDigest.addCentroidBuffer at h ⊢
  rw [always_bind] at h ⊢
  rw [show (TDigest.new d.scaleFunc d.inverseScaleFunc d.compressFactor).centroids = [] from rfl, List.append_nil] at h
  by_cases hn : b ++ d.centroids = []
  · rw [hn, show (sortUnstable Centroid.mean ([] : List (Centroid K))) = .ret [] from rfl]
    exact Or.inr ⟨rfl, rfl⟩
  · refine (h.and (sortUnstable_partially Centroid.mean (b ++ d.centroids))).mono ?_
    rintro l ⟨h1, h2⟩
    left
    cases l with
    | nil => exact absurd h2.1.symm.eq_nil hn
    | cons c cs => exact ⟨h1, rfl, rfl, rfl⟩

theorem TDigest.size_of_exec {s i : ScaleFn K} {cf : Fl K} {L : Nat → Prop} (l : List (Centroid K))
    (h : Always ((TDigest.new s i cf).execOps [.addCentroids l]) (fun d => L d.centroids.length)) :
    Always ((TDigest.new s i cf).addCentroidBuffer l) (fun d => L d.centroids.length) := by
  unfold TDigest.execOps at h
  rw [always_bind] at h
  exact h.mono (fun d h => h)

namespace ParTDigest
variable [FloorRing K]

/-- What calls preserve if `flush` does. -/
theorem exec_closed {J : ParTDigest K → Prop} (hf : ∀ p, J p → Partially p.flush J)
    (hp : ∀ p xs, (∀ x ∈ xs, Item x) → J p → J { p with buffer := p.buffer ++ xs }) (o : Op (Fl K)) (ho : OrdinaryOp o) (p : ParTDigest K) (h : J p) :
    Partially (o.exec p) J := by
  have hins : ∀ xs : List (Fl K), (∀ x ∈ xs, Item x) → Partially (flushIfFull { p with buffer := p.buffer ++ xs }) J := by
    intro xs hxs
    unfold flushIfFull
    split
    · exact hf _ (hp p xs hxs h)
    · exact hp p xs hxs h
  cases o with
  | add x => exact hins [x] (by intro y hy; rw [List.mem_singleton] at hy; subst hy; exact ho)
  | addBuffer xs => exact hins xs ho
  | quantile v =>
    simp only [Op.exec]
    rw [partially_bind]
    show Partially (estQuantileAtValue p v) _
    unfold estQuantileAtValue
    rw [partially_bind]
    refine (hf p h).mono (fun p' h' => ?_)
    rw [partially_bind]
    exact (partially_true _).mono (fun r _ => h')
  | value q =>
    simp only [Op.exec]
    rw [partially_bind]
    show Partially (estValueAtQuantile p q) _
    unfold estValueAtQuantile
    rw [partially_bind]
    refine (hf p h).mono (fun p' h' => ?_)
    rw [partially_bind]
    exact (partially_true _).mono (fun r _ => h')

theorem execAll_closed {J : ParTDigest K → Prop} (hf : ∀ p, J p → Partially p.flush J)
    (hp : ∀ p xs, (∀ x ∈ xs, Item x) → J p → J { p with buffer := p.buffer ++ xs }) :
    ∀ (ops : List (Op (Fl K))), (∀ o ∈ ops, OrdinaryOp o) → ∀ p, J p → Partially (execAll p ops) J
  | [], _, p, h => h
  | o :: os, ho, p, h => by
    unfold execAll
    rw [partially_bind]
    exact (exec_closed hf hp o (ho o (by simp)) p h).mono (fun p' h' => execAll_closed hf hp os (fun o' ho' => ho o' (by simp [ho'])) p' h')

/-- The state of a ParTDigest whose inner digest has a number of centroids meeting `L`. -/
def Small (s i : ScaleFn K) (cf : Fl K) (L : Nat → Prop) (p : ParTDigest K) : Prop :=
  (∃ fl, PInv p.digest fl) ∧ (∀ x ∈ p.buffer, Item x) ∧ p.threads ≠ 0 ∧ p.creator = .ret (TDigest.new s i cf) ∧
    p.digest.scaleFunc = s ∧ p.digest.inverseScaleFunc = i ∧ p.digest.compressFactor = cf ∧ L p.digest.centroids.length

theorem heavy_of {c : Centroid K} (h : Good c) (h1 : 1 ≤ c.weight.toK) : Heavy c := by
  obtain ⟨hm, w, -, hw⟩ := h
  rw [hw] at h1
  exact ⟨hm, w, h1, hw⟩

theorem flush_small [FloatFmt.Exact K] {s i : ScaleFn K} {cf : Fl K} {L : Nat → Prop}
    (hT : ∀ cs : List (Centroid K), cs ≠ [] → (∀ c ∈ cs, Heavy c) → Always ((TDigest.new s i cf).addCentroidBuffer cs) (fun d => L d.centroids.length))
    (p : ParTDigest K) (h : Small s i cf L p) : Partially p.flush (Small s i cf L) := by
  obtain ⟨⟨fl, h1⟩, h2, h3, h4, h5, h6, h7, h8⟩ := h
  have hspec := (flush_spec s i cf p fl h4 h3 h1 h2).partially
  have hsize : Partially p.flush (fun p' => p'.digest.scaleFunc = s ∧ p'.digest.inverseScaleFunc = i ∧ p'.digest.compressFactor = cf ∧
      L p'.digest.centroids.length) := by
    unfold flush
    split
    · exact ⟨h5, h6, h7, h8⟩
    · next hbn =>
      obtain ⟨cs, hcs, hall⟩ : ∃ cs, chunks p.threads p.buffer = .ret cs ∧ ∀ c ∈ cs, ∀ x ∈ c, Item x := by
        have hj := chunksAux_flatten p.threads h3 p.buffer.length p.buffer (le_refl _)
        unfold chunks
        rw [if_neg h3]
        exact ⟨_, rfl, fun c hc x hx => h2 x (by rw [← hj]; exact List.mem_flatten.2 ⟨c, hc, hx⟩)⟩
      rw [hcs, bind_ret, partially_bind, h4]
      refine (chunkDigests_spec s i cf cs hall).partially.mono (fun ds hds => ?_)
      rw [partially_bind]
      refine (partially_true _).mono (fun mn _ => ?_)
      rw [partially_bind]
      refine (partially_true _).mono (fun dmin _ => ?_)
      rw [partially_bind]
      refine (partially_true _).mono (fun mx _ => ?_)
      rw [partially_bind]
      refine (partially_true _).mono (fun dmax _ => ?_)
      rw [partially_bind]
      have hheavy : ∀ c ∈ ds.flatMap TDigest.centroids ++ p.digest.centroids, Heavy c := by
        intro c hc
        rcases List.mem_append.1 hc with hc | hc
        · obtain ⟨d, hd, hcd⟩ := List.mem_flatMap.1 hc
          obtain ⟨ch, hch, hi⟩ := forall₂_left hds d hd
          refine heavy_of (hi.good c hcd) (hi.closed (fun w => 1 ≤ w) (fun a b ha hb => by linarith) ?_ c hcd)
          intro u hu
          obtain ⟨x, hx, rfl⟩ := List.mem_map.1 hu
          simp [TDigest.unit, Fl.toK]
        · exact heavy_of (h1.good c hc) (h1.closed (fun w => 1 ≤ w) (fun a b ha hb => by linarith) le_rfl c hc)
      by_cases hne : ds.flatMap TDigest.centroids ++ p.digest.centroids = []
      · have e : p.digest.centroids = [] := (List.append_eq_nil_iff.1 hne).2
        have e' := (List.append_eq_nil_iff.1 hne).1
        rw [e', TDigest.addCentroidBuffer_nil { p.digest with min := dmin.min, max := dmax.max } e]
        exact ⟨h5, h6, h7, h8⟩
      · have := TDigest.centroids_as_new { p.digest with min := dmin.min, max := dmax.max } (ds.flatMap TDigest.centroids)
          (P := fun cs => L cs.length) (by
            simp only [h5, h6, h7]
            exact hT _ hne hheavy)
        refine this.partially.mono (fun d' h' => ?_)
        rcases h' with ⟨g1, g2, g3, g4⟩ | ⟨g1, -⟩
        · exact ⟨g2.trans h5, g3.trans h6, g4.trans h7, g1⟩
        · exact absurd g1 hne
  refine (hspec.and (hsize.and (flush_buffer p))).mono ?_
  rintro p' ⟨⟨⟨g1, g2⟩, -⟩, ⟨g3, g4, g5, g6⟩, g7⟩
  refine ⟨⟨_, g1⟩, by rw [g7]; simp, ?_, ?_, g3, g4, g5, g6⟩
  · rw [g2]; exact h3
  · rw [g2]; exact h4

theorem callHistory_small [FloatFmt.Exact K] {s i : ScaleFn K} {cf : Fl K} {L : Nat → Prop} (hT0 : L 0)
    (hT : ∀ cs : List (Centroid K), cs ≠ [] → (∀ c ∈ cs, Heavy c) → Always ((TDigest.new s i cf).addCentroidBuffer cs) (fun d => L d.centroids.length))
    (threads capacity : Nat) (ht : threads ≠ 0) (cs : List (Call K)) (ho : ∀ o, .op o ∈ cs → OrdinaryOp o) (hn : (itemsOfCalls cs).length < 2 ^ 64) :
    Always (callHistory s i cf threads capacity cs) (fun p => L p.digest.centroids.length ∧ p.buffer.length ≤ capacity) := by
  have ho' : ∀ o ∈ cs.map Call.asOp, OrdinaryOp o := by
    intro o h
    obtain ⟨c, hc, rfl⟩ := List.mem_map.1 h
    cases c with
    | op o => exact ho o hc
    | flush => exact ⟨0, rfl⟩
  have h1 := C45_count s i cf threads capacity ht _ ho' (by rw [itemsOf_asOp]; exact hn)
  have h2 := C71_buffer_bounded s i cf threads capacity ht _ ho' (by rw [itemsOf_asOp]; exact hn)
  have h3 : Partially (ParTDigest.history s i cf threads capacity (cs.map Call.asOp)) (Small s i cf L) := by
    unfold ParTDigest.history ParTDigest.new
    rw [bind_ret]
    refine execAll_closed (flush_small hT) ?_ _ ho' _ ⟨⟨[], new_pinv s i cf⟩, by simp, ht, rfl, rfl, rfl, rfl, hT0⟩
    rintro p xs hxs ⟨a1, a2, a3⟩
    refine ⟨a1, ?_, a3⟩
    intro x hx
    rcases List.mem_append.1 hx with hx | hx
    · exact a2 x hx
    · exact hxs x hx
  have h := (h1.and (h2.partially.and h3)).mono (R := fun p => L p.digest.centroids.length ∧ p.buffer.length ≤ capacity)
    (fun p h => ⟨h.2.2.2.2.2.2.2.2.2, h.2.1⟩)
  unfold ParTDigest.history ParTDigest.new at h
  unfold callHistory ParTDigest.new
  rw [bind_ret] at h ⊢
  exact execCalls_always _ _ h

end ParTDigest

section
variable [FloorRing K]

/-- C126. With `k0`: whatever the history of insertions, queries and flushes, the digest keeps fewer than `δ + 1` centroids, and at most `capacity`
pending items. -/
theorem C126_k0 [FloatFmt.Exact K] (δ : K) (hδ : 0 < δ) (threads capacity : Nat) (ht : threads ≠ 0) (cs : List (ParTDigest.Call K))
    (ho : ∀ o, .op o ∈ cs → OrdinaryOp o) (hn : (ParTDigest.itemsOfCalls cs).length < 2 ^ 64) :
    Always (ParTDigest.callHistory k0 invK0 (.fin δ) threads capacity cs) (fun p =>
      (p.digest.centroids.length : K) < δ + 1 ∧ p.buffer.length ≤ capacity) := by
  refine ParTDigest.callHistory_small (L := fun l => (l : K) < δ + 1) (by push_cast; linarith) (fun l hl hh => ?_) threads capacity ht cs ho hn
  exact (TDigest.k0_size (TDigest.new k0 invK0 (.fin δ)) δ hδ rfl rfl rfl l (by simp [TDigest.new]) (fun c hc => (hh c hc).good)).mono (fun d h => by
    exact h)

/-- C126 in arithmetic with rounding: the size and the weights of C117. -/
theorem C126_round [FloatFmt.Mono K] {N : Nat} {A B u η Rm X δ : K} (H : TDigest.K0Room N A B u η Rm X δ) (h64 : N < 2 ^ 64)
    (threads capacity : Nat) (ht : threads ≠ 0) (cs : List (ParTDigest.Call K)) (ho : ∀ o, .op o ∈ cs → OpIn A B o)
    (hN : (ParTDigest.itemsOfCalls cs).length ≤ N) :
    Always (ParTDigest.callHistory k0 invK0 (.fin δ) threads capacity cs) (fun p =>
      ((p.digest.centroids.length : K) - 1) * (2 / δ - 40 * u) < 2 ∧ p.buffer.length ≤ capacity ∧
      ∀ c ∈ p.digest.centroids, c.weight ≤ .fin (Max.max 1 ((ParTDigest.itemsOfCalls cs).length * (2 / δ + 40 * u)))) := by
  refine (ParTDigest.callHistory_rdhist (M := Max.max 1 ((ParTDigest.itemsOfCalls cs).length * (2 / δ + 40 * u))) H (le_max_left _ _) h64 threads capacity
    ht cs ho hN (le_max_right _ _)).mono ?_
  rintro p ⟨⟨n, e0, -, -, hb, -⟩, fl, F, e1, hd, -⟩
  refine ⟨hd.size.size, hb, fun c hc => ?_⟩
  obtain ⟨w, hw, hle⟩ := hd.size.weights c hc
  rw [hw, Fl.fin_le_fin]
  refine hle.trans (max_le_max le_rfl (mul_le_mul_of_nonneg_right ?_ H.rate_nonneg))
  rw [e1, List.length_append]
  push_cast
  linarith [(Nat.cast_nonneg p.buffer.length : (0 : K) ≤ (p.buffer.length : K))]
end

section
variable [FloatFmt ℝ] [FloatFmt.Exact ℝ]

/-- C126. With `k2` and a compression factor of at most a million: at most `δ + 3` centroids. -/
theorem C126_k2 (δ : ℝ) (h0 : 0 < δ) (h6 : δ ≤ 10 ^ 6) (threads capacity : Nat) (ht : threads ≠ 0) (cs : List (ParTDigest.Call ℝ))
    (ho : ∀ o, .op o ∈ cs → OrdinaryOp o) (hn : (ParTDigest.itemsOfCalls cs).length < 2 ^ 64) :
    Always (ParTDigest.callHistory k2 invK2 (.fin δ) threads capacity cs) (fun p =>
      (p.digest.centroids.length : ℝ) ≤ δ + 3 ∧ p.buffer.length ≤ capacity) :=
  ParTDigest.callHistory_small (L := fun l => (l : ℝ) ≤ δ + 3) (by push_cast; linarith)
    (fun l hl hh => TDigest.size_of_exec (L := fun l => (l : ℝ) ≤ δ + 3) l (C77_k2_size δ h0 h6 [.addCentroids l] (by
      intro c hc
      exact hh c (by simpa [TDigest.supplied, TDigest.TOp.supplied] using hc))))
    threads capacity ht cs ho hn

/-- C126. With `k2_asym` and a compression factor of at most a quarter of a million: at most `δ + 3` centroids. -/
theorem C126_k2_asym (δ : ℝ) (h0 : 0 < δ) (h6 : 4 * δ ≤ 10 ^ 6) (threads capacity : Nat) (ht : threads ≠ 0) (cs : List (ParTDigest.Call ℝ))
    (ho : ∀ o, .op o ∈ cs → OrdinaryOp o) (hn : (ParTDigest.itemsOfCalls cs).length < 2 ^ 64) :
    Always (ParTDigest.callHistory k2Asym invK2Asym (.fin δ) threads capacity cs) (fun p =>
      (p.digest.centroids.length : ℝ) ≤ δ + 3 ∧ p.buffer.length ≤ capacity) :=
  ParTDigest.callHistory_small (L := fun l => (l : ℝ) ≤ δ + 3) (by push_cast; linarith)
    (fun l hl hh => TDigest.size_of_exec (L := fun l => (l : ℝ) ≤ δ + 3) l (C77_k2_asym_size δ h0 h6 [.addCentroids l] (by
      intro c hc
      exact hh c (by simpa [TDigest.supplied, TDigest.TOp.supplied] using hc))))
    threads capacity ht cs ho hn

/-- C126. With `k3` and a compression factor of at most a hundred thousand: at most `δ + 3` centroids. -/
theorem C126_k3 (δ : ℝ) (h0 : 0 < δ) (h5 : δ ≤ 10 ^ 5) (threads capacity : Nat) (ht : threads ≠ 0) (cs : List (ParTDigest.Call ℝ))
    (ho : ∀ o, .op o ∈ cs → OrdinaryOp o) (hn : (ParTDigest.itemsOfCalls cs).length < 2 ^ 64) :
    Always (ParTDigest.callHistory k3 invK3 (.fin δ) threads capacity cs) (fun p =>
      (p.digest.centroids.length : ℝ) ≤ δ + 3 ∧ p.buffer.length ≤ capacity) :=
  ParTDigest.callHistory_small (L := fun l => (l : ℝ) ≤ δ + 3) (by push_cast; linarith)
    (fun l hl hh => TDigest.size_of_exec (L := fun l => (l : ℝ) ≤ δ + 3) l (C78_k3_size δ h0 h5 [.addCentroids l] (by
      intro c hc
      exact hh c (by simpa [TDigest.supplied, TDigest.TOp.supplied] using hc))))
    threads capacity ht cs ho hn

end

section F64
attribute [local instance] f64Fmt f64_mono

/-- C126 over f64: at most `D + 1` centroids, each of weight 1 or at most `n (2/D + 40/2^53)`, and at most `capacity` pending items. -/
theorem C126_f64 (D : Nat) (hD : 1 ≤ D) (hD7 : D ≤ 10 ^ 7) (threads capacity : Nat) (ht : threads ≠ 0) (cs : List (ParTDigest.Call ℚ))
    (ho : ∀ o, .op o ∈ cs → OpUpTo (2 ^ (970 : ℤ)) o) (hN : (ParTDigest.itemsOfCalls cs).length ≤ 2 ^ 52) :
    Always (ParTDigest.callHistory k0 invK0 (.fin (D : ℚ)) threads capacity cs) (fun p => p.digest.centroids.length ≤ D + 1 ∧ p.buffer.length ≤ capacity ∧
      ∀ c ∈ p.digest.centroids, c.weight ≤ .fin (Max.max 1 ((ParTDigest.itemsOfCalls cs).length * (2 / D + 40 / 2 ^ 53)))) := by
  have e : (2 : ℚ) ^ (-53 : ℤ) = 1 / 2 ^ 53 := by decide +kernel
  refine (C126_round (f64_k0Room D hD hD7 970 (by norm_num) le_rfl) (by norm_num) threads capacity ht cs (fun o h => (ho o h).opIn) hN).mono ?_
  rintro p ⟨h1, h2, h3⟩
  rw [e] at h1
  have hD7q : (D : ℚ) ≤ 10 ^ 7 := by exact_mod_cast hD7
  have hDq : (1 : ℚ) ≤ D := by exact_mod_cast hD
  refine ⟨size_le_of_round hD ?_ (by norm_num) h1, h2, fun c hc => ?_⟩
  · have : (D : ℚ) * (D + 1) ≤ 10 ^ 7 * (10 ^ 7 + 1) := by nlinarith
    nlinarith
  · have := h3 c hc
    rwa [e, show (40 : ℚ) * (1 / 2 ^ 53) = 40 / 2 ^ 53 by ring] at this

/-- The hypotheses are met by the 72 doubles of `parNinths`, of which a digest with factor 5 keeps at most 6 centroids. -/
theorem C126_example : (∀ o, .op o ∈ parNinths → OpUpTo ((2 : ℚ) ^ (970 : ℤ)) o) ∧ (ParTDigest.itemsOfCalls parNinths).length ≤ 2 ^ 52 ∧ 6 < 72 := by
  refine ⟨?_, by rw [parNinths_length]; norm_num, by norm_num⟩
  have h := parNinths_upTo
  generalize parNinths = cs at h
  have h1 : (2 : ℚ) ^ (0 : ℤ) ≤ 2 ^ (970 : ℤ) := zpow_le_zpow_right₀ (by norm_num) (by norm_num)
  generalize (2 : ℚ) ^ (970 : ℤ) = X at h1 ⊢
  intro o ho
  have := h o ho
  cases o with
  | add x => obtain ⟨m, e, hm⟩ := this; exact ⟨m, e, hm.trans h1⟩
  | addBuffer xs => intro x hx; obtain ⟨m, e, hm⟩ := this x hx; exact ⟨m, e, hm.trans h1⟩
  | quantile v => exact this
  | value q => exact this

end F64

section F32
attribute [local instance] f32Fmt f32_mono

/-- C126 over f32: at most `D + 1` centroids, each of weight 1 or at most `n (2/D + 40/2^24)`, and at most `capacity` pending items. -/
theorem C126_f32 (D : Nat) (hD : 1 ≤ D) (hD7 : D ≤ 900) (threads capacity : Nat) (ht : threads ≠ 0) (cs : List (ParTDigest.Call ℚ))
    (ho : ∀ o, .op o ∈ cs → OpUpTo (2 ^ (103 : ℤ)) o) (hN : (ParTDigest.itemsOfCalls cs).length ≤ 2 ^ 23) :
    Always (ParTDigest.callHistory k0 invK0 (.fin (D : ℚ)) threads capacity cs) (fun p => p.digest.centroids.length ≤ D + 1 ∧ p.buffer.length ≤ capacity ∧
      ∀ c ∈ p.digest.centroids, c.weight ≤ .fin (Max.max 1 ((ParTDigest.itemsOfCalls cs).length * (2 / D + 40 / 2 ^ 24)))) := by
  have e : (2 : ℚ) ^ (-24 : ℤ) = 1 / 2 ^ 24 := by decide +kernel
  refine (C126_round (f32_k0Room D hD hD7 103 (by norm_num) le_rfl) (by norm_num) threads capacity ht cs (fun o h => (ho o h).opIn) hN).mono ?_
  rintro p ⟨h1, h2, h3⟩
  rw [e] at h1
  have hD7q : (D : ℚ) ≤ 900 := by exact_mod_cast hD7
  have hDq : (1 : ℚ) ≤ D := by exact_mod_cast hD
  refine ⟨size_le_of_round hD ?_ (by norm_num) h1, h2, fun c hc => ?_⟩
  · have : (D : ℚ) * (D + 1) ≤ 900 * (900 + 1) := by nlinarith
    nlinarith
  · have := h3 c hc
    rwa [e, show (40 : ℚ) * (1 / 2 ^ 24) = 40 / 2 ^ 24 by ring] at this

end F32

end AQ

/-
ParTDigest in rounding arithmetic.
-/
import Verif.Proofs.TDRoundQuery
import Verif.Proofs.ParTDigest

set_option linter.unusedSectionVars false
set_option linter.unusedVariables false

namespace AQ
open Prog Spec
variable {K : Type} [Field K] [LinearOrder K] [IsStrictOrderedRing K] [FloatFmt K]

namespace TDigest

/-- A merging pass in rounding arithmetic on a digest whose limits are arbitrary numbers. -/
theorem addCentroidBuffer_round [FloatFmt.Mono K] {A B : K} {N : Nat} (R : Roomy N A B) (d : TDigest K) (b : List (Centroid K))
    (hd : ∀ c ∈ d.centroids, Within A B c) (hb : ∀ c ∈ b, Within A B c) (hne : b ++ d.centroids ≠ [])
    (hN : totalW (b ++ d.centroids) ≤ N) {mn mx : K} (hmn : d.min = .fin mn) (hmx : d.max = .fin mx) :
    Always (d.addCentroidBuffer b) (fun d' => (∀ c ∈ d'.centroids, Within A B c) ∧ d'.centroids ≠ [] ∧
      totalW d'.centroids = totalW (b ++ d.centroids) ∧
      (∃ m, IsMinMean (b ++ d.centroids) m ∧ d'.min = Min.min d.min m) ∧
      (∃ m, IsMaxMean (b ++ d.centroids) m ∧ d'.max = Max.max d.max m)) := by
  have hg : ∀ c ∈ b ++ d.centroids, Within A B c := by
    intro c hc
    rcases List.mem_append.1 hc with hc | hc
    · exact hb c hc
    · exact hd c hc
  unfold addCentroidBuffer
  rw [always_bind]
  refine (sortUnstable_spec Centroid.mean _ (fun c hc => (hg c hc).mean_ne_nan)).mono ?_
  rintro l ⟨h1, h2⟩
  cases l with
  | nil => exact absurd h1.nil_eq.symm hne
  | cons c cs =>
    have hl : ∀ a ∈ c :: cs, Within A B a := fun a ha => hg a (h1.mem_iff.1 ha)
    obtain ⟨m, w, hm, m1, m2, hw, w1⟩ := hl c (by simp)
    have hcs : ∀ a ∈ cs, Within A B a := fun a ha => hl a (by simp [ha])
    obtain ⟨n, hn, -⟩ := totalW_nat hcs
    have hcw : c.weight.toK = (w : K) := by rw [hw]; rfl
    have hN2 : (w : K) + totalW cs ≤ N := by
      rw [← hcw, ← totalW_cons, totalW_perm h1]; exact hN
    have hN' : w + n ≤ N := by rw [hn] at hN2; exact_mod_cast hN2
    have hwpos : (0 : K) ≤ w := by positivity
    obtain ⟨p, hp, p1, p2⟩ := rnd_between (x := m * w) (R.lo w (by omega)) (R.hi w (by omega))
      (mul_le_mul_of_nonneg_right m1 hwpos) (mul_le_mul_of_nonneg_right m2 hwpos)
    have eP : c.mean * c.weight = .fin p := by rw [hm, hw, Fl.mul_fin, hp]
    obtain ⟨r1, r2⟩ := mergeLoop_roomy R (d.wLimit (weightSum (c :: cs))) cs (Fl.lit 0) (d.wLimit (weightSum (c :: cs)) (Fl.lit 0))
      w p w1 p1 p2 hcs hN2
    have ecs : (d.mergeSorted (c :: cs)).centroids = mergeLoop (d.wLimit (weightSum (c :: cs))) (Fl.lit 0)
        (d.wLimit (weightSum (c :: cs)) (Fl.lit 0)) (.fin (w : K)) (.fin p) cs := by
      show mergeLoop _ _ _ c.weight (c.mean * c.weight) cs = _
      rw [eP, hw]
    have hhead := head_le (l := c :: cs) (by simp) h2
    have hlast := le_getLast (l := c :: cs) (by simp) h2
    have hgl := hl _ (List.getLast_mem (l := c :: cs) (by simp))
    show _ ∧ _
    refine ⟨by rw [ecs]; exact r1, ?_, ?_, ⟨c.mean, ⟨⟨c, h1.mem_iff.1 (by simp), rfl⟩,
      fun a ha => hhead a (h1.mem_iff.2 ha)⟩, ?_⟩, ⟨((c :: cs).getLast (by simp)).mean,
      ⟨⟨_, h1.mem_iff.1 (List.getLast_mem _), rfl⟩, fun a ha => hlast a (h1.mem_iff.2 ha)⟩, ?_⟩⟩
    · rw [ecs]
      intro e
      rw [e, totalW_nil, hn] at r2
      have : ((0 : ℕ) : K) = ((w + n : ℕ) : K) := by push_cast; exact r2
      have := Nat.cast_injective this
      omega
    · rw [ecs, r2, ← hcw, ← totalW_cons, totalW_perm h1]
    · exact Fl.fmin_eq (by rw [hmn]; simp) (by rw [hm]; simp)
    · exact Fl.fmax_eq (by rw [hmx]; simp) hgl.mean_ne_nan

end TDigest

namespace ParTDigest

theorem unit_within [FloatFmt.Mono K] {A B : K} {x : Fl K} (h : ItemIn A B x) : Within A B (TDigest.unit x) := by
  obtain ⟨y, rfl, h1, h2⟩ := h
  exact ⟨y, 1, rfl, h1, h2, by simp [TDigest.unit, TDigest.lit_one], le_rfl⟩

theorem totalW_units' [FloatFmt.Mono K] : ∀ xs : List (Fl K), totalW (xs.map TDigest.unit) = (xs.length : K)
  | [] => by simp
  | x :: xs => by
    rw [List.map_cons, totalW_cons, totalW_units' xs]
    simp [TDigest.unit, TDigest.lit_one, Fl.toK, add_comm]

/-- Relation between the inner digest and the number of items flushed into it. -/
structure PRInv (A B : K) (d : TDigest K) (n : Nat) : Prop where
  within : ∀ c ∈ d.centroids, Within A B c
  weight : totalW d.centroids = (n : K)
  empty : d.centroids = [] ↔ n = 0
  min : n ≠ 0 → ItemIn A B d.min
  max : n ≠ 0 → ItemIn A B d.max

theorem new_prinv (A B : K) (s i : ScaleFn K) (cf : Fl K) : PRInv A B (TDigest.new s i cf) 0 :=
  ⟨by simp [TDigest.new], by simp [TDigest.new], by simp [TDigest.new], by simp, by simp⟩

theorem chunkDigests_round [FloatFmt.Mono K] {A B : K} {N : Nat} (R : Roomy N A B) (s i : ScaleFn K) (cf : Fl K) :
    ∀ cs : List (List (Fl K)), (∀ c ∈ cs, ∀ x ∈ c, ItemIn A B x) → cs.flatten.length ≤ N →
    Always (chunkDigests (.ret (TDigest.new s i cf)) cs) (fun ds =>
      List.Forall₂ (fun (d : TDigest K) c => d.RInv A B (c.map TDigest.unit)) ds cs)
  | [], _, _ => List.Forall₂.nil
  | c :: cs, h, hN => by
    unfold chunkDigests
    rw [bind_ret, always_bind]
    rw [List.flatten_cons, List.length_append] at hN
    have h1 : ∀ x ∈ c.map TDigest.unit, Within A B x := by
      intro x hx
      obtain ⟨y, hy, rfl⟩ := List.mem_map.1 hx
      exact unit_within (h c (by simp) y hy)
    have h2 := TDigest.addCentroidBuffer_rinv R (TDigest.new_rinv A B s i cf) (by simp) (c.map TDigest.unit) h1
      (by rw [List.nil_append, totalW_units']; exact_mod_cast (by omega : c.length ≤ N))
    rw [List.nil_append] at h2
    refine h2.mono ?_
    intro d' hd'
    rw [always_bind]
    refine (chunkDigests_round R s i cf cs (fun c' hc' => h c' (by simp [hc'])) (by omega)).mono ?_
    intro ds hds
    exact List.Forall₂.cons hd' hds

theorem chunk_totals_round [FloatFmt.Mono K] {A B : K} : ∀ (ds : List (TDigest K)) (cs : List (List (Fl K))),
    List.Forall₂ (fun (d : TDigest K) c => d.RInv A B (c.map TDigest.unit)) ds cs →
    totalW (ds.flatMap TDigest.centroids) = (cs.flatten.length : K)
  | [], [], _ => by simp
  | d :: ds, c :: cs, h => by
    cases h with
    | cons h1 h2 =>
      rw [List.flatMap_cons, totalW_append, chunk_totals_round ds cs h2, h1.weight, totalW_units', List.flatten_cons,
        List.length_append]
      push_cast
      rfl

/-- A flush moves the buffer into the digest. -/
theorem flush_round [FloatFmt.Mono K] {A B : K} {N : Nat} (R : Roomy N A B) (s i : ScaleFn K) (cf : Fl K) (p : ParTDigest K) (n : Nat)
    (hc : p.creator = .ret (TDigest.new s i cf)) (ht : p.threads ≠ 0) (h : PRInv A B p.digest n) (hb : ∀ x ∈ p.buffer, ItemIn A B x)
    (hN : n + p.buffer.length ≤ N) :
    Always p.flush (fun p' => PRInv A B p'.digest (n + p.buffer.length) ∧ p' = { p with digest := p'.digest, buffer := [] } ∧
      (p.buffer ≠ [] → (∀ x ∈ p.buffer, p'.digest.min ≤ x ∧ x ≤ p'.digest.max) ∧
        ∀ c ∈ p.digest.centroids, p'.digest.min ≤ c.mean ∧ c.mean ≤ p'.digest.max)) := by
  unfold flush
  by_cases hbn : p.buffer = []
  · rw [if_pos hbn]
    rw [hbn, List.length_nil, Nat.add_zero]
    obtain ⟨d, t, b, c, cr⟩ := p
    simp only at hbn h ⊢
    subst hbn
    exact ⟨h, rfl, by simp⟩
  rw [if_neg hbn]
  unfold chunks
  rw [if_neg ht, bind_ret, hc, always_bind]
  have hfl := chunksAux_flatten p.threads ht p.buffer.length p.buffer (le_refl _)
  have hcne := chunksAux_ne_nil p.threads ht p.buffer.length p.buffer
  generalize chunksAux p.threads p.buffer.length p.buffer = cs at hfl hcne
  refine (chunkDigests_round R s i cf cs (fun c hc x hx => hb x (by rw [← hfl]; exact List.mem_flatten.2 ⟨c, hc, hx⟩))
    (by rw [hfl]; omega)).mono ?_
  intro ds hds
  have hW := chunk_totals_round ds cs hds
  rw [hfl] at hW
  have hL := forall₂_left hds
  have hR := forall₂_right hds
  have hne1 : ∀ c ∈ cs, c.map TDigest.unit ≠ [] := fun c hc => by simpa using hcne c hc
  have hbuf : ∀ x ∈ p.buffer, ∃ d ∈ ds, ∃ c ∈ cs, x ∈ c ∧ d.RInv A B (c.map TDigest.unit) := by
    intro x hx
    rw [← hfl] at hx
    obtain ⟨c, hc, hxc⟩ := List.mem_flatten.1 hx
    obtain ⟨d, hd, hi⟩ := hR c hc
    exact ⟨d, hd, c, hc, hxc, hi⟩
  have hdsne : ds ≠ [] := by
    obtain ⟨x, hx⟩ := List.exists_mem_of_ne_nil _ hbn
    obtain ⟨d, hd, -⟩ := hbuf x hx
    exact List.ne_nil_of_mem hd
  have hin : ∀ d ∈ ds, ItemIn A B d.min ∧ ItemIn A B d.max := by
    intro d hd
    obtain ⟨c, hc, hi⟩ := hL d hd
    obtain ⟨⟨x, e1, a1, -⟩, ⟨y, e2, a2, -⟩⟩ := hi.range
    exact ⟨⟨x, e1, a1 (hne1 c hc)⟩, ⟨y, e2, a2 (hne1 c hc)⟩⟩
  have hnn : ∀ {x : Fl K}, ItemIn A B x → x ≠ .nan := by rintro x ⟨a, rfl, -⟩; simp
  obtain ⟨dmn, e1, m1, l1⟩ := minBy_spec TDigest.min ds hdsne (fun d hd => hnn (hin d hd).1)
  obtain ⟨dmx, e2, m2, l2⟩ := maxBy_spec TDigest.max ds hdsne (fun d hd => hnn (hin d hd).2)
  rw [e1, bind_ret, unwrap_some, bind_ret, e2, bind_ret, unwrap_some, bind_ret, always_bind]
  have hbw : ∀ c ∈ ds.flatMap TDigest.centroids, Within A B c := by
    intro c hc
    obtain ⟨d, hd, hcd⟩ := List.mem_flatMap.1 hc
    obtain ⟨ch, hch, hi⟩ := hL d hd
    exact hi.within c hcd
  have hbp : ds.flatMap TDigest.centroids ≠ [] := by
    intro h0
    rw [h0, totalW_nil] at hW
    have := List.length_pos_of_ne_nil hbn
    have : (0 : K) < (p.buffer.length : K) := by exact_mod_cast this
    linarith
  obtain ⟨mn, hmn, mn1, mn2⟩ := (hin _ m1).1
  obtain ⟨mx, hmx, mx1, mx2⟩ := (hin _ m2).2
  have htot : totalW (ds.flatMap TDigest.centroids ++ p.digest.centroids) = ((n + p.buffer.length : ℕ) : K) := by
    rw [totalW_append, hW, h.weight]; push_cast; ring
  refine (TDigest.addCentroidBuffer_round R { p.digest with min := dmn.min, max := dmx.max } (ds.flatMap TDigest.centroids)
    h.within hbw (by simp [hbp]) (by rw [htot]; exact_mod_cast hN) hmn hmx).mono ?_
  rintro d' ⟨g1, g2, g3, ⟨u, ⟨⟨cu, hcu, eu⟩, g5⟩, g6⟩, ⟨v, ⟨⟨cv, hcv, ev⟩, g8⟩, g9⟩⟩
  simp only at g3 hcu hcv g5 g8 g6 g9
  have hpos : n + p.buffer.length ≠ 0 := by
    have := List.length_pos_of_ne_nil hbn
    omega
  have hcw : ∀ c ∈ ds.flatMap TDigest.centroids ++ p.digest.centroids, Within A B c := by
    intro c hc
    rcases List.mem_append.1 hc with hc | hc
    · exact hbw c hc
    · exact h.within c hc
  refine ⟨⟨g1, g3.trans htot, iff_of_false g2 hpos, fun _ => ?_, fun _ => ?_⟩, rfl, fun _ => ⟨?_, ?_⟩⟩
  · show ItemIn A B d'.min
    obtain ⟨m, w, hm, b1, b2, -⟩ := hcw cu hcu
    rw [g6, hmn, ← eu, hm]
    rcases le_total mn m with hle | hle
    · rw [min_eq_left (Fl.fin_le_fin.2 hle)]; exact ⟨mn, rfl, mn1, mn2⟩
    · rw [min_eq_right (Fl.fin_le_fin.2 hle)]; exact ⟨m, rfl, b1, b2⟩
  · show ItemIn A B d'.max
    obtain ⟨m, w, hm, b1, b2, -⟩ := hcw cv hcv
    rw [g9, hmx, ← ev, hm]
    rcases le_total mx m with hle | hle
    · rw [max_eq_right (Fl.fin_le_fin.2 hle)]; exact ⟨m, rfl, b1, b2⟩
    · rw [max_eq_left (Fl.fin_le_fin.2 hle)]; exact ⟨mx, rfl, mx1, mx2⟩
  · intro x hx
    obtain ⟨d, hd, c, hc, hxc, hi⟩ := hbuf x hx
    obtain ⟨q1, q2⟩ := hi.limits _ (List.mem_map.2 ⟨x, hxc, rfl⟩)
    show d'.min ≤ x ∧ x ≤ d'.max
    rw [g6, g9]
    exact ⟨(min_le_left _ _).trans ((l1 d hd).trans q1), (q2.trans (l2 d hd)).trans (le_max_left _ _)⟩
  · intro c hc
    show d'.min ≤ c.mean ∧ c.mean ≤ d'.max
    rw [g6, g9]
    exact ⟨(min_le_right _ _).trans (g5 c (by simp [hc])), (g8 c (by simp [hc])).trans (le_max_right _ _)⟩

section
variable [FloorRing K]

/-- Queries of the inner digest return. -/
theorem PRInv.queries [FloatFmt.Mono K] {A B : K} {N : Nat} (R : Roomy N A B) (h64 : N < 2 ^ 64) {d : TDigest K} {n : Nat}
    (h : PRInv A B d n) (hn : n ≤ N) (x : K) :
    Always (d.estQuantileAtValue (.fin x)) (fun _ => True) ∧ Always (d.estValueAtQuantile (.fin x)) (fun _ => True) := by
  have hN : totalW d.centroids ≤ N := by rw [h.weight]; exact_mod_cast hn
  by_cases hne : n = 0
  · have h1 := h.empty.2 hne
    constructor
    · unfold TDigest.estQuantileAtValue
      rw [h1]
      trivial
    · have ht : d.totalWeight = .fin 0 := by
        have := TDigest.weightSum_roomy R h.within hN
        rw [h.weight, hne, Nat.cast_zero] at this
        exact this
      unfold TDigest.estValueAtQuantile
      simp only [ht, Fl.mul_fin, zero_mul, FloatFmt.Mono.rnd_zero, TDigest.lit_one, Fl.lt_fin, zero_lt_one, decide_true, if_true]
      trivial
  · obtain ⟨a, ha, ha'⟩ := h.min hne
    obtain ⟨b, hb, hb'⟩ := h.max hne
    exact ⟨(TDigest.quantile_roomy R h.within (fun e => hne (h.empty.1 e)) hN ha hb ha' hb' (by simp)).mono (fun _ _ => trivial),
      TDigest.value_roomy R h.within (fun e => hne (h.empty.1 e)) hN h64 (by simp)⟩

/-- The state after a history that supplied `m` items. -/
def RHInv (A B : K) (s i : ScaleFn K) (cf : Fl K) (t c : Nat) (p : ParTDigest K) (m : Nat) : Prop :=
  ∃ n, m = n + p.buffer.length ∧ PRInv A B p.digest n ∧ (∀ x ∈ p.buffer, ItemIn A B x) ∧ p.buffer.length ≤ c ∧
    p.threads = t ∧ p.capacity = c ∧ p.creator = .ret (TDigest.new s i cf)

theorem flush_rhinv [FloatFmt.Mono K] {A B : K} {N : Nat} (R : Roomy N A B) {s i : ScaleFn K} {cf : Fl K} {t c : Nat} (ht : t ≠ 0)
    {p : ParTDigest K} {n : Nat} (h : PRInv A B p.digest n) (hb : ∀ x ∈ p.buffer, ItemIn A B x) (e1 : p.threads = t) (e2 : p.capacity = c)
    (e3 : p.creator = .ret (TDigest.new s i cf)) (hN : n + p.buffer.length ≤ N) :
    Always p.flush (fun p' => p'.buffer = [] ∧ PRInv A B p'.digest (n + p.buffer.length) ∧
      RHInv A B s i cf t c p' (n + p.buffer.length)) := by
  refine (flush_round R s i cf p n e3 (by rw [e1]; exact ht) h hb hN).mono ?_
  rintro p' ⟨h1, h2, -⟩
  have hbuf : p'.buffer = [] := by rw [h2]
  refine ⟨hbuf, h1, n + p.buffer.length, by rw [hbuf]; simp, h1, by rw [hbuf]; simp, by rw [hbuf]; simp, ?_, ?_, ?_⟩
  · rw [h2]; exact e1
  · rw [h2]; exact e2
  · rw [h2]; exact e3

theorem exec_rhinv [FloatFmt.Mono K] {A B : K} {N : Nat} (R : Roomy N A B) (h64 : N < 2 ^ 64) {s i : ScaleFn K} {cf : Fl K} {t c : Nat}
    (ht : t ≠ 0) {p : ParTDigest K} {m : Nat} (h : RHInv A B s i cf t c p m) (o : Op (Fl K)) (ho : OpIn A B o)
    (hN : m + o.items.length ≤ N) :
    Always (o.exec p) (fun p' => RHInv A B s i cf t c p' (m + o.items.length)) := by
  obtain ⟨n, e0, h1, h2, h3, e1, e2, e3⟩ := h
  have hins : ∀ xs : List (Fl K), (∀ x ∈ xs, ItemIn A B x) → m + xs.length ≤ N →
      Always (flushIfFull { p with buffer := p.buffer ++ xs }) (fun p' => RHInv A B s i cf t c p' (m + xs.length)) := by
    intro xs hxs hNx
    have hb : ∀ x ∈ p.buffer ++ xs, ItemIn A B x := by
      intro x hx
      rcases List.mem_append.1 hx with hx | hx
      · exact h2 x hx
      · exact hxs x hx
    have hlen : n + (p.buffer ++ xs).length = m + xs.length := by rw [List.length_append]; omega
    unfold flushIfFull
    split
    · refine (flush_rhinv R (p := { p with buffer := p.buffer ++ xs }) ht h1 hb e1 e2 e3 (by simp only [hlen]; exact hNx)).mono ?_
      rintro p' ⟨-, -, h'⟩
      simp only [hlen] at h'
      exact h'
    · next hle =>
      refine ⟨n, hlen.symm, h1, hb, ?_, e1, e2, e3⟩
      simp only [e2] at hle
      exact not_lt.1 hle
  cases o with
  | add x => exact hins [x] (by intro y hy; rw [List.mem_singleton] at hy; subst hy; exact ho) hN
  | addBuffer xs => exact hins xs ho hN
  | quantile v =>
    obtain ⟨x, rfl⟩ := ho
    simp only [Op.exec, Op.items, List.length_nil, Nat.add_zero] at hN ⊢
    rw [always_bind]
    show Always (estQuantileAtValue p (.fin x)) _
    unfold estQuantileAtValue
    rw [always_bind]
    refine (flush_rhinv R ht h1 h2 e1 e2 e3 (by omega)).mono ?_
    rintro p' ⟨-, h4, h5⟩
    rw [← e0] at h4 h5
    rw [always_bind]
    exact (h4.queries R h64 hN x).1.mono (fun r _ => h5)
  | value q =>
    obtain ⟨x, rfl⟩ := ho
    simp only [Op.exec, Op.items, List.length_nil, Nat.add_zero] at hN ⊢
    rw [always_bind]
    show Always (estValueAtQuantile p (.fin x)) _
    unfold estValueAtQuantile
    rw [always_bind]
    refine (flush_rhinv R ht h1 h2 e1 e2 e3 (by omega)).mono ?_
    rintro p' ⟨-, h4, h5⟩
    rw [← e0] at h4 h5
    rw [always_bind]
    exact (h4.queries R h64 hN x).2.mono (fun r _ => h5)

theorem execAll_rhinv [FloatFmt.Mono K] {A B : K} {N : Nat} (R : Roomy N A B) (h64 : N < 2 ^ 64) {s i : ScaleFn K} {cf : Fl K}
    {t c : Nat} (ht : t ≠ 0) :
    ∀ (ops : List (Op (Fl K))) (p : ParTDigest K) (m : Nat), RHInv A B s i cf t c p m → (∀ o ∈ ops, OpIn A B o) →
    m + (itemsOf ops).length ≤ N →
    Always (execAll p ops) (fun p' => RHInv A B s i cf t c p' (m + (itemsOf ops).length))
  | [], p, m, h, _, _ => by simpa [execAll, itemsOf] using h
  | o :: os, p, m, h, ho, hN => by
    have e : m + (itemsOf (o :: os)).length = (m + o.items.length) + (itemsOf os).length := by
      simp [itemsOf, List.flatMap_cons]; omega
    rw [e] at hN ⊢
    unfold execAll
    rw [always_bind]
    refine (exec_rhinv R h64 ht h o (ho o (by simp)) (by omega)).mono ?_
    intro p' h'
    exact execAll_rhinv R h64 ht os p' _ h' (fun o' ho' => ho o' (by simp [ho'])) hN

end
end ParTDigest
end AQ

/-
C123: accuracy, in floating point, of a TDigest used through a BufferedDigest, after any mixture of insertions and queries.
-/
import Verif.Props.BufferedT
import Verif.Props.TDRoundValue

set_option linter.unusedSectionVars false
set_option linter.unusedVariables false

namespace AQ
open Prog Spec

variable {K : Type} [Field K] [LinearOrder K] [IsStrictOrderedRing K] [FloatFmt K]

namespace Spec

/-- What a user of `BufferedDigest<TDigest<F>, F>` passes: items of magnitude up to `X`, and finite arguments of queries. -/
def OpUpTo (X : K) : Op (Fl K) → Prop
  | .add x => ∃ m : K, x = .fin m ∧ |m| ≤ X
  | .addBuffer xs => ∀ x ∈ xs, ∃ m : K, x = .fin m ∧ |m| ≤ X
  | .quantile v => v.IsFin
  | .value q => q.IsFin

/-- An upper bound of the number of batches a TDigest has received through a BufferedDigest, when the answer to a query is computed: one per
earlier query, one per full buffer and the last one. -/
def batchesUpTo (capacity : Nat) (ops : List (Op (Fl K))) : K :=
  1 + queryCalls ops + (itemsOf ops).length / (capacity + 1)

theorem RankAround.mono {xs : List (Fl K)} (hfin : ∀ y ∈ xs, ∃ m : K, y = .fin m) {r x s s' err err' : K} (h : RankAround xs r x s err)
    (hs : s ≤ s') (he : err ≤ err') : RankAround xs r x s' err' := by
  obtain ⟨h1, h2⟩ := h
  constructor
  · have : xs.countP (fun y => Fl.lt y (.fin (x - s'))) ≤ xs.countP (fun y => Fl.lt y (.fin (x - s))) := by
      refine List.countP_mono_left ?_
      intro z hz h
      obtain ⟨m, rfl⟩ := hfin z hz
      rw [Fl.lt_fin, decide_eq_true_eq] at h ⊢
      linarith
    have : (xs.countP (fun y => Fl.lt y (.fin (x - s'))) : K) ≤ (xs.countP (fun y => Fl.lt y (.fin (x - s))) : K) := by exact_mod_cast this
    linarith
  · have : xs.countP (fun y => Fl.le y (.fin (x + s))) ≤ xs.countP (fun y => Fl.le y (.fin (x + s'))) := by
      refine List.countP_mono_left ?_
      intro z hz h
      obtain ⟨m, rfl⟩ := hfin z hz
      rw [Fl.le_fin, decide_eq_true_eq] at h ⊢
      linarith
    have : (xs.countP (fun y => Fl.le y (.fin (x + s))) : K) ≤ (xs.countP (fun y => Fl.le y (.fin (x + s'))) : K) := by exact_mod_cast this
    linarith

end Spec

namespace TDigest

/-- The batches of a history, without its queries. -/
def batchesOf (ops : List (Op (Fl K))) : List (List (Fl K)) :=
  ops.flatMap (fun o => match o with
    | .add x => [[x]]
    | .addBuffer xs => [xs]
    | .quantile _ => []
    | .value _ => [])

theorem batchesOf_flatten : ∀ (ops : List (Op (Fl K))), (batchesOf ops).flatten = itemsOf ops
  | [] => rfl
  | o :: os => by
    have ih := batchesOf_flatten os
    unfold batchesOf itemsOf at *
    cases o <;> simp [ih, Op.items]

theorem batchesOf_length : ∀ (ops : List (Op (Fl K))), (batchesOf ops).length = insertCalls ops
  | [] => rfl
  | o :: os => by
    have ih := batchesOf_length os
    unfold batchesOf insertCalls at *
    cases o <;> simp_all [List.countP_cons] <;> omega

variable [FloorRing K]

/-- Queries with finite arguments return. -/
def Answers (d : TDigest K) : Prop :=
  ∀ x : K, Always (d.estQuantileAtValue (.fin x)) (fun _ => True) ∧ Always (d.estValueAtQuantile (.fin x)) (fun _ => True)

theorem RInv.answers [FloatFmt.Mono K] {A B : K} {N : Nat} (R : Roomy N A B) (h64 : N < 2 ^ 64) {d : TDigest K} {all : List (Centroid K)}
    (h : RInv A B d all) (hN : totalW all ≤ N) : d.Answers := by
  intro x
  have hN' : totalW d.centroids ≤ N := by rw [h.weight]; exact hN
  by_cases hne : all = []
  · have h1 := h.empty.2 hne
    constructor
    · unfold TDigest.estQuantileAtValue
      rw [h1]
      trivial
    · have ht : d.totalWeight = .fin 0 := by
        have := TDigest.weightSum_roomy R h.within hN'
        rw [h.weight, hne] at this
        exact this
      unfold TDigest.estValueAtQuantile
      simp only [ht, Fl.mul_fin, zero_mul, FloatFmt.Mono.rnd_zero, TDigest.lit_one, Fl.lt_fin, zero_lt_one, decide_true, if_true]
      trivial
  · obtain ⟨⟨a, ha, ha', -⟩, ⟨b, hb, hb', -⟩⟩ := h.range
    exact ⟨(TDigest.quantile_roomy R h.within (fun e => hne (h.empty.1 e)) hN' ha hb (ha' hne) (hb' hne) (by simp)).mono (fun _ _ => trivial),
      TDigest.value_roomy R h.within (fun e => hne (h.empty.1 e)) hN' h64 (by simp)⟩

/-- When queries answer, a history is its batches. -/
theorem execAll_of_batches {Q : TDigest K → Prop} : ∀ (ops : List (Op (Fl K))) (d : TDigest K), (∀ x, Op.add x ∉ ops) →
    (∀ v, Op.quantile v ∈ ops ∨ Op.value v ∈ ops → v.IsFin) →
    (∀ pre suf, pre ++ suf = batchesOf ops → Always (d.execOps (pre.map TOp.addBuffer)) Answers) →
    Always (d.execOps ((batchesOf ops).map TOp.addBuffer)) Q → Always (execAll d ops) Q
  | [], d, _, _, _, h => h
  | o :: os, d, ha, hv, hsafe, h => by
    have ha' : ∀ x, Op.add x ∉ os := fun x hx => ha x (List.mem_cons_of_mem _ hx)
    have hv' : ∀ v, Op.quantile v ∈ os ∨ Op.value v ∈ os → v.IsFin := fun v hx =>
      hv v (hx.imp (List.mem_cons_of_mem _) (List.mem_cons_of_mem _))
    have h0 : d.Answers := hsafe [] _ rfl
    unfold execAll
    cases o with
    | add x => exact absurd (List.mem_cons_self) (ha x)
    | addBuffer xs =>
      have hb : batchesOf (Op.addBuffer xs :: os) = xs :: batchesOf os := rfl
      rw [hb] at h hsafe
      have e : ∀ bs : List (List (Fl K)), d.execOps ((xs :: bs).map TOp.addBuffer) = (d.addBuffer xs >>= fun d' => d'.execOps (bs.map TOp.addBuffer)) :=
        fun _ => rfl
      rw [e, always_bind] at h
      show Always (d.addBuffer xs >>= fun d' => execAll d' os) Q
      rw [always_bind]
      rw [always_iff] at h ⊢
      refine ⟨fun d' hd' => ?_, h.2⟩
      refine execAll_of_batches os d' ha' hv' ?_ (h.1 d' hd')
      intro pre suf hps
      have := hsafe (xs :: pre) suf (by rw [← hps]; rfl)
      rw [e, always_bind, always_iff] at this
      exact this.1 d' hd'
    | quantile v =>
      obtain ⟨x, rfl⟩ := hv v (Or.inl List.mem_cons_self)
      show Always (((d.estQuantileAtValue (.fin x) >>= _) >>= _) >>= _) Q
      rw [bind_assoc', bind_assoc', always_bind]
      exact (h0 x).1.mono (fun r _ => execAll_of_batches os d ha' hv' hsafe h)
    | value v =>
      obtain ⟨x, rfl⟩ := hv v (Or.inr List.mem_cons_self)
      show Always (((d.estValueAtQuantile (.fin x) >>= _) >>= _) >>= _) Q
      rw [bind_assoc', bind_assoc', always_bind]
      exact (h0 x).2.mono (fun r _ => execAll_of_batches os d ha' hv' hsafe h)

end TDigest

namespace BufferedDigest
variable [FloorRing K]

theorem items_upTo {X : K} {ops : List (Op (Fl K))} (ho : ∀ o ∈ ops, OpUpTo X o) : ∀ x ∈ itemsOf ops, ∃ m : K, x = .fin m ∧ |m| ≤ X := by
  intro y hy
  obtain ⟨o, hc, hy⟩ := List.mem_flatMap.1 hy
  have := ho o hc
  cases o with
  | add x => rw [List.mem_singleton.1 hy]; exact this
  | addBuffer xs => exact this y hy
  | quantile v => simp [Op.items] at hy
  | value v => simp [Op.items] at hy

/-- The answer to a query is computed from a TDigest that got the items in few batches. -/
theorem flush_batches [FloatFmt.Mono K] {X : K} {N : Nat} (R : Roomy N (-X) X) (h64 : N < 2 ^ 64) (s i : ScaleFn K) (cf : Fl K)
    (capacity : Nat) (hc : capacity ≠ 0) (ops : List (Op (Fl K))) (ho : ∀ o ∈ ops, OpUpTo X o) (hN : (itemsOf ops).length ≤ N) {α : Type}
    (f : BufferedDigest (TDigest K) (Fl K) → Prog α) (P : α → Prop)
    (hP : ∀ batches : List (List (Fl K)), batches.flatten = itemsOf ops → (batches.length : K) ≤ batchesUpTo capacity ops →
      Always ((TDigest.new s i cf).execOps (batches.map TDigest.TOp.addBuffer)) (fun d =>
        Always (f { digest := d, buffer := [], capacity := capacity }) P)) :
    Always (execAll (BufferedDigest.new (TDigest.new s i cf) capacity) ops >>= fun b => b.flush >>= f) P := by
  obtain ⟨ops', buf, h1, h2, h3, h4, h5, h6, h7⟩ := BufferedDigest.history_cost capacity hc ops [] (by simp)
  rw [List.nil_append] at h3
  have hitems : itemsOf (ops' ++ [Op.addBuffer buf]) = itemsOf ops := by
    rw [← h3]; simp [itemsOf, Op.items]
  have hflat := TDigest.batchesOf_flatten (ops' ++ [Op.addBuffer buf])
  rw [hitems] at hflat
  have hin := items_upTo ho
  have key : Always (execAll (TDigest.new s i cf) (ops' ++ [Op.addBuffer buf])) (fun d =>
      Always (f { digest := d, buffer := [], capacity := capacity }) P) := by
    refine TDigest.execAll_of_batches _ _ ?_ ?_ ?_ (hP _ hflat ?_)
    · intro x hx
      rcases List.mem_append.1 hx with hx | hx
      · exact h5 x hx
      · simp at hx
    · intro v hv
      have hv' : Op.quantile v ∈ ops' ∨ Op.value v ∈ ops' := by simpa using hv
      rcases hv' with h | h
      · have g := (mem_queriesFrom (.quantile v) (Or.inl ⟨v, rfl⟩) ops' []).1 h
        rw [h4 []] at g
        exact ho _ ((mem_queriesFrom (.quantile v) (Or.inl ⟨v, rfl⟩) ops []).2 g)
      · have g := (mem_queriesFrom (.value v) (Or.inr ⟨v, rfl⟩) ops' []).1 h
        rw [h4 []] at g
        exact ho _ ((mem_queriesFrom (.value v) (Or.inr ⟨v, rfl⟩) ops []).2 g)
    · intro pre suf hps
      have hpf : pre.flatten ++ suf.flatten = itemsOf ops := by rw [← List.flatten_append, hps, hflat]
      have hsup := TDigest.supplied_batches pre
      have hw : ∀ c ∈ TDigest.supplied (pre.map TDigest.TOp.addBuffer), Within (-X) X c := by
        intro c hc
        rw [hsup] at hc
        obtain ⟨y, hy, rfl⟩ := List.mem_map.1 hc
        obtain ⟨m, rfl, hm⟩ := hin y (by rw [← hpf]; exact List.mem_append_left _ hy)
        obtain ⟨m1, m2⟩ := abs_le.1 hm
        exact ⟨m, 1, rfl, m1, m2, by simp, le_rfl⟩
      have htot : totalW (TDigest.supplied (pre.map TDigest.TOp.addBuffer)) ≤ N := by
        rw [hsup, TDigest.totalW_items]
        have : pre.flatten.length ≤ N := by
          refine le_trans ?_ hN
          rw [← hpf, List.length_append]; omega
        exact_mod_cast this
      refine (TDigest.execOps_rinv R _ _ [] (TDigest.new_rinv _ _ s i cf) (by simp) hw (by simpa using htot)).mono ?_
      intro d h
      rw [List.nil_append] at h
      exact h.answers R h64 htot
    · rw [TDigest.batchesOf_length]
      have e : insertCalls (ops' ++ [Op.addBuffer buf]) = insertCalls ops' + 1 := by simp [insertCalls]
      have hle : (((itemsOf ops').length : ℕ) : K) ≤ ((itemsOf ops).length : ℕ) :=
        Nat.cast_le.2 (by rw [← h3, List.length_append]; omega)
      have hcp : (0 : K) < capacity + 1 := by positivity
      have h8 : (insertCalls ops' : K) ≤ queryCalls ops + (itemsOf ops).length / (capacity + 1) := by
        rw [← mul_le_mul_iff_left₀ hcp, add_mul, div_mul_cancel₀ _ hcp.ne']
        have : (insertCalls ops' : K) * (capacity + 1) ≤ queryCalls ops * (capacity + 1) + (itemsOf ops').length := by exact_mod_cast h7
        linarith
      rw [e]
      unfold batchesUpTo
      push_cast
      linarith
  rw [execAll_eq capacity ops ops' buf h1]
  have hsplit : ∀ (l : List (Op (Fl K))) (d : TDigest K), execAll d (l ++ [Op.addBuffer buf]) = (execAll d l >>= fun d' => d'.addBuffer buf) := by
    intro l
    induction l with
    | nil => intro d; show (d.addBuffer buf >>= fun d' => Prog.ret d') = _; rw [bind_ret_right]; rfl
    | cons o l ih =>
      intro d
      show (o.exec d >>= fun d' => execAll d' (l ++ [Op.addBuffer buf])) = ((o.exec d >>= fun d' => execAll d' l) >>= _)
      rw [bind_assoc']
      simp only [ih]
  rw [hsplit, always_bind] at key
  rw [always_bind]
  refine key.mono ?_
  intro d h
  unfold flush
  rw [bind_assoc', always_bind]
  exact h

end BufferedDigest

section F64
attribute [local instance] f64Fmt f64_mono

/-- C123. `BufferedDigest` with any capacity except 0 around a `TDigest::<f64>` with `k0`, `inv_k0` and a factor `1 ≤ D ≤ 10^7`, after any history of `q`
queries and of insertions of together `n ≤ 2^52` items of magnitude up to `2^e`: with `M = max 1 (n (2/D + 40/2^53))` and
`P = 1 + q + n / (capacity + 1)` the quantile answered for `x` is the rank of a value within `P (M + 1) 2^e / 2^52` of `x`, up to
`(P + 1) M + n / 2^51` items. -/
theorem C123_quantile_f64 (D : Nat) (hD : 1 ≤ D) (hD7 : D ≤ 10 ^ 7) (e : ℤ) (he1 : -1022 ≤ e) (he2 : e ≤ 970) (capacity : Nat) (hc : capacity ≠ 0)
    (ops : List (Op (Fl ℚ))) (ho : ∀ o ∈ ops, OpUpTo (2 ^ e) o) (hne : itemsOf ops ≠ []) (hN : (itemsOf ops).length ≤ 2 ^ 52) (x : ℚ)
    (M P : ℚ) (hM : M = Max.max 1 (((itemsOf ops).length : ℚ) * (2 / D + 40 / 2 ^ 53))) (hP : P = batchesUpTo capacity ops) :
    Always (execAll (BufferedDigest.new (TDigest.new k0 invK0 (.fin (D : ℚ))) capacity) ops >>= fun b => b.estQuantileAtValue (.fin x)) (fun r =>
      ∃ y : ℚ, r.1 = .fin y ∧ RankAround (itemsOf ops) (y * (itemsOf ops).length) x (P * ((M + 1) * 2 ^ e / 2 ^ 52))
        ((P + 1) * M + (itemsOf ops).length / 2 ^ 51)) := by
  have hin := BufferedDigest.items_upTo ho
  refine BufferedDigest.flush_batches (f64_roomy (e := e) (by omega) he2) (by norm_num) _ _ _ capacity hc ops ho hN (fun b' => do
    let r ← Digest.estQuantileAtValue b'.digest (.fin x)
    return (r.1, { b' with digest := r.2 })) _ ?_
  intro batches hb hl
  refine (C118_f64 D hD hD7 e he1 he2 batches (by rw [hb]; exact hin) (by rw [hb]; exact hne) (by rw [hb]; exact hN)).mono ?_
  intro d h
  rw [hb] at h
  obtain ⟨y, h1, h2⟩ := h M hM x
  show Always (((d.estQuantileAtValue (.fin x)) >>= _) >>= _) _
  rw [h1]
  rw [← hP] at hl
  have hM0 : 1 ≤ M := by rw [hM]; exact le_max_left _ _
  have h2e : (0 : ℚ) < 2 ^ e := by positivity
  refine ⟨y, rfl, h2.mono (fun z hz => by obtain ⟨m, hm, -⟩ := hin z hz; exact ⟨m, hm⟩) ?_ ?_⟩
  · exact mul_le_mul_of_nonneg_right hl (by positivity)
  · have := mul_le_mul_of_nonneg_right hl (show 0 ≤ M by linarith)
    linarith

/-- C123 for values: the value answered for a quantile `q ≥ 0` with `n q < n - M/2 - n/2^51` is within `(P (M + 1) + 12) 2^e / 2^52` of a value whose rank
is `n q`, up to `(P + 1) M + n / 2^51` items. -/
theorem C123_value_f64 (D : Nat) (hD : 1 ≤ D) (hD7 : D ≤ 10 ^ 7) (e : ℤ) (he1 : -1022 ≤ e) (he2 : e ≤ 970) (capacity : Nat) (hc : capacity ≠ 0)
    (ops : List (Op (Fl ℚ))) (ho : ∀ o ∈ ops, OpUpTo (2 ^ e) o) (hne : itemsOf ops ≠ []) (hN : (itemsOf ops).length ≤ 2 ^ 52)
    (M P : ℚ) (hM : M = Max.max 1 (((itemsOf ops).length : ℚ) * (2 / D + 40 / 2 ^ 53))) (hP : P = batchesUpTo capacity ops) (q : ℚ) (hq0 : 0 ≤ q)
    (hq : (itemsOf ops).length * q < (itemsOf ops).length - M / 2 - (itemsOf ops).length / 2 ^ 51) :
    Always (execAll (BufferedDigest.new (TDigest.new k0 invK0 (.fin (D : ℚ))) capacity) ops >>= fun b => b.estValueAtQuantile (.fin q)) (fun r =>
      ∃ v : ℚ, r.1 = .fin v ∧ RankAround (itemsOf ops) (q * (itemsOf ops).length) v ((P * (M + 1) + 12) * 2 ^ e / 2 ^ 52)
        ((P + 1) * M + (itemsOf ops).length / 2 ^ 51)) := by
  have hin := BufferedDigest.items_upTo ho
  refine BufferedDigest.flush_batches (f64_roomy (e := e) (by omega) he2) (by norm_num) _ _ _ capacity hc ops ho hN (fun b' => do
    let r ← Digest.estValueAtQuantile b'.digest (.fin q)
    return (r.1, { b' with digest := r.2 })) _ ?_
  intro batches hb hl
  refine (C120_f64 D hD hD7 e he1 he2 batches (by rw [hb]; exact hin) (by rw [hb]; exact hne) (by rw [hb]; exact hN)).mono ?_
  intro d h
  rw [hb] at h
  obtain ⟨v, h1, h2⟩ := h M hM q hq0 hq
  show Always (((d.estValueAtQuantile (.fin q)) >>= _) >>= _) _
  rw [h1]
  rw [← hP] at hl
  have hM0 : 1 ≤ M := by rw [hM]; exact le_max_left _ _
  have h2e : (0 : ℚ) < 2 ^ e := by positivity
  refine ⟨v, rfl, h2.mono (fun z hz => by obtain ⟨m, hm, -⟩ := hin z hz; exact ⟨m, hm⟩) ?_ ?_⟩
  · have := mul_le_mul_of_nonneg_right hl (show 0 ≤ M + 1 by linarith)
    gcongr
  · have := mul_le_mul_of_nonneg_right hl (show 0 ≤ M by linarith)
    linarith

/-- Ninths, a query, and the ninths again. -/
def bufferedNinths : List (Op (Fl ℚ)) := [.addBuffer ninths64, .quantile (.fin (1 / 2)), .addBuffer ninths64]

theorem bufferedNinths_upTo : ∀ o ∈ bufferedNinths, OpUpTo ((2 : ℚ) ^ (0 : ℤ)) o := by
  have hsize : OpUpTo ((2 : ℚ) ^ (0 : ℤ)) (Op.addBuffer ninths64) :=
    fun x hx => ninths64_size x (by rw [List.flatten_cons, List.flatten_nil, List.append_nil]; exact hx)
  intro o ho
  unfold bufferedNinths at ho
  generalize ninths64 = xs at ho hsize
  simp only [List.mem_cons, List.not_mem_nil, or_false] at ho
  rcases ho with rfl | rfl | rfl
  · exact hsize
  · exact ⟨_, rfl⟩
  · exact hsize

theorem bufferedNinths_length : (itemsOf bufferedNinths).length = 72 := by decide +kernel

/-- The hypotheses are met by two buffers of 36 items and a query between them; the bound on the rank error is less than the number of items. -/
theorem C123_example : (∀ o ∈ bufferedNinths, OpUpTo ((2 : ℚ) ^ (0 : ℤ)) o) ∧ (itemsOf bufferedNinths).length = 72 ∧
    batchesUpTo 35 bufferedNinths = (4 : ℚ) ∧ (4 + 1) * Max.max (1 : ℚ) (72 * (2 / 40 + 40 / 2 ^ 53)) + 72 / 2 ^ 51 < 72 := by
  refine ⟨bufferedNinths_upTo, bufferedNinths_length, ?_, by norm_num⟩
  unfold batchesUpTo
  rw [bufferedNinths_length, show queryCalls bufferedNinths = 1 from rfl]
  norm_num

/-- So the median query is answered there. -/
example : Always (execAll (BufferedDigest.new (TDigest.new k0 invK0 (.fin ((40 : ℕ) : ℚ))) 35) bufferedNinths >>= fun b =>
    b.estValueAtQuantile (.fin (1 / 2))) (fun r => ∃ v : ℚ, r.1 = .fin v) := by
  have h1 := bufferedNinths_upTo
  have h2 := bufferedNinths_length
  generalize bufferedNinths = ops at h1 h2 ⊢
  refine (C123_value_f64 40 (by norm_num) (by norm_num) 0 (by norm_num) (by norm_num) 35 (by norm_num) ops h1 (by
    intro h; rw [h] at h2; simp [itemsOf] at h2) (by rw [h2]; norm_num) _ _ rfl rfl (1 / 2) (by norm_num) (by
    rw [h2]
    have : Max.max 1 (((72 : ℕ) : ℚ) * (2 / ((40 : ℕ) : ℚ) + 40 / 2 ^ 53)) ≤ 10 := by norm_num
    push_cast at this ⊢
    linarith)).mono ?_
  rintro r ⟨v, hv, -⟩
  exact ⟨v, hv⟩

end F64

section F32
attribute [local instance] f32Fmt f32_mono

/-- C123 for `f32`: factors up to 900 and `n ≤ 2^23` items of magnitude up to `2^e`, with `M = max 1 (n (2/D + 40/2^24))`. -/
theorem C123_quantile_f32 (D : Nat) (hD : 1 ≤ D) (hD7 : D ≤ 900) (e : ℤ) (he1 : -126 ≤ e) (he2 : e ≤ 103) (capacity : Nat) (hc : capacity ≠ 0)
    (ops : List (Op (Fl ℚ))) (ho : ∀ o ∈ ops, OpUpTo (2 ^ e) o) (hne : itemsOf ops ≠ []) (hN : (itemsOf ops).length ≤ 2 ^ 23) (x : ℚ)
    (M P : ℚ) (hM : M = Max.max 1 (((itemsOf ops).length : ℚ) * (2 / D + 40 / 2 ^ 24))) (hP : P = batchesUpTo capacity ops) :
    Always (execAll (BufferedDigest.new (TDigest.new k0 invK0 (.fin (D : ℚ))) capacity) ops >>= fun b => b.estQuantileAtValue (.fin x)) (fun r =>
      ∃ y : ℚ, r.1 = .fin y ∧ RankAround (itemsOf ops) (y * (itemsOf ops).length) x (P * ((M + 1) * 2 ^ e / 2 ^ 23))
        ((P + 1) * M + (itemsOf ops).length / 2 ^ 22)) := by
  have hin := BufferedDigest.items_upTo ho
  refine BufferedDigest.flush_batches (f32_roomy (e := e) (by omega) he2) (by norm_num) _ _ _ capacity hc ops ho hN (fun b' => do
    let r ← Digest.estQuantileAtValue b'.digest (.fin x)
    return (r.1, { b' with digest := r.2 })) _ ?_
  intro batches hb hl
  refine (C118_f32 D hD hD7 e he1 he2 batches (by rw [hb]; exact hin) (by rw [hb]; exact hne) (by rw [hb]; exact hN)).mono ?_
  intro d h
  rw [hb] at h
  obtain ⟨y, h1, h2⟩ := h M hM x
  show Always (((d.estQuantileAtValue (.fin x)) >>= _) >>= _) _
  rw [h1]
  rw [← hP] at hl
  have hM0 : 1 ≤ M := by rw [hM]; exact le_max_left _ _
  have h2e : (0 : ℚ) < 2 ^ e := by positivity
  refine ⟨y, rfl, h2.mono (fun z hz => by obtain ⟨m, hm, -⟩ := hin z hz; exact ⟨m, hm⟩) ?_ ?_⟩
  · exact mul_le_mul_of_nonneg_right hl (by positivity)
  · have := mul_le_mul_of_nonneg_right hl (show 0 ≤ M by linarith)
    linarith

/-- C123 for `f32`: values. -/
theorem C123_value_f32 (D : Nat) (hD : 1 ≤ D) (hD7 : D ≤ 900) (e : ℤ) (he1 : -126 ≤ e) (he2 : e ≤ 103) (capacity : Nat) (hc : capacity ≠ 0)
    (ops : List (Op (Fl ℚ))) (ho : ∀ o ∈ ops, OpUpTo (2 ^ e) o) (hne : itemsOf ops ≠ []) (hN : (itemsOf ops).length ≤ 2 ^ 23)
    (M P : ℚ) (hM : M = Max.max 1 (((itemsOf ops).length : ℚ) * (2 / D + 40 / 2 ^ 24))) (hP : P = batchesUpTo capacity ops) (q : ℚ) (hq0 : 0 ≤ q)
    (hq : (itemsOf ops).length * q < (itemsOf ops).length - M / 2 - (itemsOf ops).length / 2 ^ 22) :
    Always (execAll (BufferedDigest.new (TDigest.new k0 invK0 (.fin (D : ℚ))) capacity) ops >>= fun b => b.estValueAtQuantile (.fin q)) (fun r =>
      ∃ v : ℚ, r.1 = .fin v ∧ RankAround (itemsOf ops) (q * (itemsOf ops).length) v ((P * (M + 1) + 12) * 2 ^ e / 2 ^ 23)
        ((P + 1) * M + (itemsOf ops).length / 2 ^ 22)) := by
  have hin := BufferedDigest.items_upTo ho
  refine BufferedDigest.flush_batches (f32_roomy (e := e) (by omega) he2) (by norm_num) _ _ _ capacity hc ops ho hN (fun b' => do
    let r ← Digest.estValueAtQuantile b'.digest (.fin q)
    return (r.1, { b' with digest := r.2 })) _ ?_
  intro batches hb hl
  refine (C120_f32 D hD hD7 e he1 he2 batches (by rw [hb]; exact hin) (by rw [hb]; exact hne) (by rw [hb]; exact hN)).mono ?_
  intro d h
  rw [hb] at h
  obtain ⟨v, h1, h2⟩ := h M hM q hq0 hq
  show Always (((d.estValueAtQuantile (.fin q)) >>= _) >>= _) _
  rw [h1]
  rw [← hP] at hl
  have hM0 : 1 ≤ M := by rw [hM]; exact le_max_left _ _
  have h2e : (0 : ℚ) < 2 ^ e := by positivity
  refine ⟨v, rfl, h2.mono (fun z hz => by obtain ⟨m, hm, -⟩ := hin z hz; exact ⟨m, hm⟩) ?_ ?_⟩
  · have := mul_le_mul_of_nonneg_right hl (show 0 ≤ M + 1 by linarith)
    gcongr
  · have := mul_le_mul_of_nonneg_right hl (show 0 ≤ M by linarith)
    linarith

end F32

end AQ

/-
Property C107: the answers of an RCSketch and of an RCSketch2 do not depend on how the stream is cut into calls, so a BufferedDigest
around one of them is indistinguishable from it (src/buffered_digest.rs, src/rc_sketch/rc_sketch.rs, src/rc_sketch/rc_sketch2.rs).
-/
import Verif.Props.BufferedDigest
import Verif.Props.RCSketch
import Verif.Proofs.Nondet
import Verif.Proofs.RC2Sections
import Verif.Props.RCSketch2

set_option linter.unusedSectionVars false
set_option linter.unusedVariables false

namespace AQ
open Prog Spec

namespace Prog

theorem bind_congr_partially {α β : Type} {p : Prog α} {f g : α → Prog β} (h : Partially p (fun a => f a = g a)) :
    p >>= f = p >>= g := by
  induction p with
  | ret a => exact h
  | fail e => rfl
  | flip c ih =>
    show Prog.flip (fun b => c b >>= f) = Prog.flip (fun b => c b >>= g)
    congr 1
    funext b
    exact ih b (h b)

end Prog

section flat
variable {F : Type}

/-- The same history with every buffer handed over item by item. -/
def Op.flat : Op F → List (Op F)
  | .addBuffer xs => xs.map .add
  | o => [o]

/-- The same history with every buffer handed over item by item. -/
def flatOps (ops : List (Op F)) : List (Op F) := ops.flatMap Op.flat

theorem queriesFrom_adds (xs : List F) : ∀ (seen : List F) (os : List (Op F)),
    queriesFrom seen (xs.map .add ++ os) = queriesFrom (seen ++ xs) os := by
  induction xs with
  | nil => intro seen os; simp
  | cons x xs ih =>
    intro seen os
    rw [List.map_cons, List.cons_append, queriesFrom, ih]
    simp

theorem queriesFrom_flat : ∀ (ops : List (Op F)) (seen : List F), queriesFrom seen (flatOps ops) = queriesFrom seen ops
  | [], seen => rfl
  | .add x :: os, seen => queriesFrom_flat os _
  | .addBuffer xs :: os, seen => by
    rw [flatOps, List.flatMap_cons, Op.flat, queriesFrom_adds]
    exact queriesFrom_flat os _
  | .quantile v :: os, seen => by
    rw [show flatOps (Op.quantile v :: os) = Op.quantile v :: flatOps os from rfl, queriesFrom, queriesFrom, queriesFrom_flat os seen]
  | .value q :: os, seen => by
    rw [show flatOps (Op.value q :: os) = Op.value q :: flatOps os from rfl, queriesFrom, queriesFrom, queriesFrom_flat os seen]

theorem itemsOf_flat : ∀ ops : List (Op F), itemsOf (flatOps ops) = itemsOf ops
  | [] => rfl
  | o :: os => by
    have ih := itemsOf_flat os
    unfold itemsOf flatOps at *
    rw [List.flatMap_cons, List.flatMap_append, ih, List.flatMap_cons]
    congr 1
    cases o <;> simp [Op.flat, Op.items, List.flatMap_map]

/-- No call hands over a buffer. -/
def IsFlat (ops : List (Op F)) : Prop := ∀ o ∈ ops, ∀ xs, o ≠ .addBuffer xs

theorem isFlat_flat (ops : List (Op F)) : IsFlat (flatOps ops) := by
  intro o ho xs hx
  obtain ⟨a, -, h⟩ := List.mem_flatMap.1 ho
  subst hx
  cases a <;> simp [Op.flat] at h

theorem queriesFrom_seen : ∀ (ops : List (Op F)) (seen : List F), ∀ p ∈ queriesFrom seen ops, seen.length ≤ p.1.length
  | [], seen => by simp [queriesFrom]
  | .add x :: os, seen => fun p hp => by
    have := queriesFrom_seen os _ p hp
    simp at this
    omega
  | .addBuffer xs :: os, seen => fun p hp => by
    have := queriesFrom_seen os _ p hp
    simp at this
    omega
  | .quantile v :: os, seen => fun p hp => by
    rcases List.mem_cons.1 hp with rfl | h
    · simp
    · exact queriesFrom_seen os _ p h
  | .value q :: os, seen => fun p hp => by
    rcases List.mem_cons.1 hp with rfl | h
    · simp
    · exact queriesFrom_seen os _ p h

theorem queriesFrom_ne (os os' : List (Op F)) (seen : List F) (x : F) (q : Op F) :
    queriesFrom (seen ++ [x]) os ≠ (seen, q) :: queriesFrom seen os' := by
  intro h
  have := queriesFrom_seen os (seen ++ [x]) (seen, q) (by rw [h]; simp)
  simp at this

/-- A flat history is determined by its items and its queries. -/
theorem flat_unique : ∀ (l m : List (Op F)) (seen : List F), IsFlat l → IsFlat m → itemsOf l = itemsOf m →
    queriesFrom seen l = queriesFrom seen m → l = m
  | [], [], seen, _, _, _, _ => rfl
  | [], .add x :: m, seen, _, _, h, _ => by simp [itemsOf, Op.items] at h
  | [], .quantile v :: m, seen, _, _, _, h => by simp [queriesFrom] at h
  | [], .value v :: m, seen, _, _, _, h => by simp [queriesFrom] at h
  | _, .addBuffer xs :: m, seen, _, hm, _, _ => absurd rfl (hm _ List.mem_cons_self xs)
  | .addBuffer xs :: l, _, seen, hl, _, _, _ => absurd rfl (hl _ List.mem_cons_self xs)
  | .add x :: l, [], seen, _, _, h, _ => by simp [itemsOf, Op.items] at h
  | .quantile v :: l, [], seen, _, _, _, h => by simp [queriesFrom] at h
  | .value v :: l, [], seen, _, _, _, h => by simp [queriesFrom] at h
  | .add x :: l, .add y :: m, seen, hl, hm, h1, h2 => by
    have h1' : x :: itemsOf l = y :: itemsOf m := h1
    obtain ⟨rfl, h3⟩ := List.cons.inj h1'
    rw [flat_unique l m (seen ++ [x]) (fun o ho => hl o (List.mem_cons_of_mem _ ho)) (fun o ho => hm o (List.mem_cons_of_mem _ ho)) h3 h2]
  | .add x :: l, .quantile v :: m, seen, _, _, _, h => absurd h (queriesFrom_ne _ _ _ _ _)
  | .add x :: l, .value v :: m, seen, _, _, _, h => absurd h (queriesFrom_ne _ _ _ _ _)
  | .quantile v :: l, .add x :: m, seen, _, _, _, h => absurd h.symm (queriesFrom_ne _ _ _ _ _)
  | .value v :: l, .add x :: m, seen, _, _, _, h => absurd h.symm (queriesFrom_ne _ _ _ _ _)
  | .quantile v :: l, .value w :: m, seen, _, _, _, h => by simp [queriesFrom] at h
  | .value v :: l, .quantile w :: m, seen, _, _, _, h => by simp [queriesFrom] at h
  | .quantile v :: l, .quantile w :: m, seen, hl, hm, h1, h2 => by
    simp only [queriesFrom, List.cons.injEq, Prod.mk.injEq, true_and, Op.quantile.injEq] at h2
    rw [h2.1, flat_unique l m seen (fun o ho => hl o (List.mem_cons_of_mem _ ho)) (fun o ho => hm o (List.mem_cons_of_mem _ ho)) h1 h2.2]
  | .value v :: l, .value w :: m, seen, hl, hm, h1, h2 => by
    simp only [queriesFrom, List.cons.injEq, Prod.mk.injEq, true_and, Op.value.injEq] at h2
    rw [h2.1, flat_unique l m seen (fun o ho => hl o (List.mem_cons_of_mem _ ho)) (fun o ho => hm o (List.mem_cons_of_mem _ ho)) h1 h2.2]

end flat

section steps
variable {D F : Type} [Digest D F]

theorem answers_adds (os : List (Op F)) : ∀ (xs : List F) (d : D),
    answers d (xs.map .add ++ os) = (execAll d (xs.map .add) >>= fun d' => answers d' os)
  | [], d => rfl
  | x :: xs, d => by
    rw [List.map_cons, List.cons_append, answers, execAll, Op.call, Op.exec, bind_assoc', bind_assoc']
    refine congrArg _ (funext fun d' => ?_)
    rw [pure_eq, bind_ret, answers_adds os xs d']
    exact Prog.bind_ret_right _

/-- If, within a budget of items, handing over a buffer is the same as handing over its items one by one, then every history is the
same as its flat form. -/
theorem answers_flat {I : D → Nat → Prop} {G : F → Prop}
    (hadd : ∀ d m x, I d (m + 1) → G x → Partially (Digest.add d x) (fun d' => I d' m))
    (hbuf : ∀ d m xs, I d m → xs.length ≤ m → (∀ x ∈ xs, G x) → Digest.addBuffer d xs = execAll d (xs.map .add))
    (hq : ∀ d m v, I d m → Partially (Digest.estQuantileAtValue d v) (fun r => I r.2 m))
    (hv : ∀ d m v, I d m → Partially (Digest.estValueAtQuantile d v) (fun r => I r.2 m)) :
    ∀ (ops : List (Op F)) (d : D) (m : Nat), I d (m + (itemsOf ops).length) → (∀ x ∈ itemsOf ops, G x) →
      answers d ops = answers d (flatOps ops) := by
  have hadds : ∀ (xs : List F) (d : D) (m : Nat), I d (m + xs.length) → (∀ x ∈ xs, G x) →
      Partially (execAll d (xs.map .add)) (fun d' => I d' m) := by
    intro xs
    induction xs with
    | nil => intro d m h _; exact h
    | cons x xs ih =>
      intro d m h hG
      rw [List.map_cons, execAll, partially_bind]
      exact (hadd d (m + xs.length) x h (hG x List.mem_cons_self)).mono (fun d' h' => ih d' m h' (fun y hy => hG y (List.mem_cons_of_mem _ hy)))
  intro ops
  induction ops with
  | nil => intro d m _ _; rfl
  | cons o os ih =>
    intro d m h hG
    have hG' : ∀ x ∈ itemsOf os, G x := fun x hx => hG x (by simp only [itemsOf, List.flatMap_cons, List.mem_append]; exact .inr hx)
    cases o with
    | add x =>
      rw [show flatOps (Op.add x :: os) = Op.add x :: flatOps os from rfl, answers, answers, Op.call, bind_assoc', bind_assoc']
      refine Prog.bind_congr_partially ((hadd d (m + (itemsOf os).length) x (by show I d _; rw [Nat.add_assoc]; exact h)
        (hG x (by simp [itemsOf, Op.items]))).mono fun d' h' => ?_)
      rw [pure_eq, bind_ret, bind_ret, ih d' m h' hG']
    | addBuffer xs =>
      have hx : ∀ x ∈ xs, G x := fun x hx => hG x (by simp only [itemsOf, List.flatMap_cons, List.mem_append]; exact .inl hx)
      have hl : (itemsOf (Op.addBuffer xs :: os)).length = xs.length + (itemsOf os).length := by
        simp [itemsOf, Op.items]
      rw [hl] at h
      rw [show flatOps (Op.addBuffer xs :: os) = xs.map .add ++ flatOps os from rfl, answers_adds, answers, Op.call, bind_assoc',
        hbuf d _ xs h (by omega) hx]
      refine Prog.bind_congr_partially ((hadds xs d (m + (itemsOf os).length) (by rw [Nat.add_assoc, Nat.add_comm _ xs.length]; exact h) hx).mono fun d' h' => ?_)
      rw [pure_eq, bind_ret, ih d' m h' hG']
      exact Prog.bind_ret_right _
    | quantile v =>
      rw [show flatOps (Op.quantile v :: os) = Op.quantile v :: flatOps os from rfl, answers, answers, Op.call, bind_assoc', bind_assoc']
      refine Prog.bind_congr_partially ((hq d (m + (itemsOf os).length) v h).mono fun d' h' => ?_)
      rw [pure_eq, bind_ret, bind_ret, ih d'.2 m h' hG']
    | value v =>
      rw [show flatOps (Op.value v :: os) = Op.value v :: flatOps os from rfl, answers, answers, Op.call, bind_assoc', bind_assoc']
      refine Prog.bind_congr_partially ((hv d (m + (itemsOf os).length) v h).mono fun d' h' => ?_)
      rw [pure_eq, bind_ret, bind_ret, ih d'.2 m h' hG']

end steps

variable {K : Type} [Field K] [LinearOrder K] [IsStrictOrderedRing K] [FloatFmt K]

namespace RCSketch

theorem addEach_execAll : ∀ (xs : List (Fl K)) (s : RCSketch K), s.addEach xs = execAll s (xs.map .add)
  | [], s => rfl
  | x :: xs, s => congrArg (s.add x >>= ·) (funext fun s' => addEach_execAll xs s')

/-- A state reached within the declared input length, with room for `m` further items. -/
def Room (n k : Nat) (s : RCSketch K) (m : Nat) : Prop :=
  ∃ ops : List (InsOp K), (∀ o ∈ ops, o.method = .default) ∧ (∀ y ∈ insItems ops, y ≠ .nan) ∧ (insItems ops).length + m ≤ n ∧
    CanReturn (runHist n k ops) s

theorem execOps_snoc (o : InsOp K) : ∀ (ops : List (InsOp K)) (s : RCSketch K),
    s.execOps (ops ++ [o]) = (s.execOps ops >>= fun s' => s'.execOp o)
  | [], s => by
    rw [List.nil_append, execOps, execOps, bind_ret]
    exact Prog.bind_ret_right _
  | p :: ops, s => by
    rw [List.cons_append, execOps, execOps, bind_assoc']
    exact congrArg _ (funext fun s' => execOps_snoc o ops s')

theorem answers_flat_rc (n k : Nat) (hk : 1 ≤ k) (hn : n < 2 ^ 32) (ops : List (Op (Fl K))) (hnan : ∀ y ∈ itemsOf ops, y ≠ .nan)
    (hlen : (itemsOf ops).length ≤ n) (s : RCSketch K) (hs : CanReturn (RCSketch.new n k) s) :
    answers s ops = answers s (flatOps ops) := by
  refine answers_flat (I := Room n k) (G := (· ≠ .nan)) ?_ ?_ ?_ ?_ ops s 0 ⟨[], by simp, by simp [insItems], by simpa [insItems] using hlen, ?_⟩ hnan
  · rintro s m x ⟨l, h1, h2, h3, h4⟩ hx
    rw [partially_iff]
    intro s' hs'
    refine ⟨l ++ [.add x], ?_, ?_, ?_, ?_⟩
    · intro o ho
      rcases List.mem_append.1 ho with ho | ho
      · exact h1 o ho
      · rw [List.mem_singleton.1 ho]; rfl
    · intro y hy
      simp only [insItems, List.flatMap_append, List.mem_append] at hy
      rcases hy with hy | hy
      · exact h2 y hy
      · simp [InsOp.items] at hy; rw [hy]; exact hx
    · simp [insItems, InsOp.items] at h3 ⊢; omega
    · unfold runHist at h4 ⊢
      rw [canReturn_bind] at h4 ⊢
      obtain ⟨s0, h5, h6⟩ := h4
      exact ⟨s0, h5, by rw [execOps_snoc, canReturn_bind]; exact ⟨s, h6, hs'⟩⟩
  · rintro s m xs ⟨l, h1, h2, h3, h4⟩ hxm hx
    have h := C16_add_buffer_is_repeated_add n k hk hn l xs h1 (by omega) h2 hx
    rw [← addEach_execAll]
    exact ((always_iff _ _).1 h).1 s h4
  · rintro s m v hI
    show Partially (s.estQuantileAtValue v >>= fun r => .ret (r, s)) _
    rw [partially_bind]
    exact (partially_true _).mono (fun _ _ => hI)
  · rintro s m v hI
    show Partially (s.estValueAtQuantile v >>= fun r => .ret (r, s)) _
    rw [partially_bind]
    exact (partially_true _).mono (fun _ _ => hI)
  · unfold runHist
    rw [canReturn_bind]
    exact ⟨s, hs, rfl⟩

end RCSketch

namespace RCSketch2

theorem addEach_execAll (sec : Nat → Nat) : ∀ (xs : List (Fl K)) (s : RC2 sec K), RCSketch2.addEach sec s xs = execAll s (xs.map .add)
  | [], s => rfl
  | x :: xs, s => congrArg (RCSketch2.add sec s x >>= ·) (funext fun s' => addEach_execAll sec xs s')

theorem execOps_snoc (sec : Nat → Nat) (o : InsOp K) : ∀ (ops : List (InsOp K)) (s : RCSketch2 K),
    s.execOps sec (ops ++ [o]) = (s.execOps sec ops >>= fun s' => s'.execOp sec o)
  | [], s => by
    rw [List.nil_append, execOps, execOps, bind_ret]
    exact Prog.bind_ret_right _
  | p :: ops, s => by
    rw [List.cons_append, execOps, execOps, bind_assoc']
    exact congrArg _ (funext fun s' => execOps_snoc sec o ops s')

theorem answers_flat_rc2 (sec : Nat → Nat) (hs : SecOK sec) (k : Nat) (ops : List (Op (Fl K))) :
    answers (RC2.new sec k : RC2 sec K) ops = answers (RC2.new sec k : RC2 sec K) (flatOps ops) := by
  refine answers_flat (I := fun (s : RC2 sec K) _ => ∃ ops : List (InsOp K), CanReturn (runHist sec k ops) s) (G := fun _ => True) ?_ ?_ ?_ ?_ ops _ 0
    ⟨[], rfl⟩ (fun _ _ => trivial)
  · rintro s m x ⟨l, h4⟩ hx
    rw [partially_iff]
    intro s' hs'
    refine ⟨l ++ [.add x], ?_⟩
    unfold runHist at h4 ⊢
    rw [execOps_snoc]
    exact canReturn_bind.2 ⟨s, h4, hs'⟩
  · rintro s m xs ⟨l, h4⟩ hxm hx
    have h := C65_add_buffer_is_repeated_add sec hs k l xs
    rw [← addEach_execAll]
    exact (partially_iff _ _).1 h s h4
  · rintro s m v hI
    show Partially (RCSketch2.estQuantileAtValue s v >>= fun r => .ret (r, s)) _
    rw [partially_bind]
    exact (partially_true _).mono (fun _ _ => hI)
  · rintro s m v hI
    show Partially (RCSketch2.estValueAtQuantile s v >>= fun r => .ret (r, s)) _
    rw [partially_bind]
    exact (partially_true _).mono (fun _ _ => hI)

end RCSketch2

/-- Two histories that supply the same items and make the same queries at the same points of the stream. -/
def Spec.SameStream {F : Type} (ops ops' : List (Op F)) : Prop := itemsOf ops = itemsOf ops' ∧ queriesOf ops = queriesOf ops'

theorem flatOps_congr {F : Type} {ops ops' : List (Op F)} (h : SameStream ops ops') : flatOps ops = flatOps ops' :=
  flat_unique _ _ [] (isFlat_flat _) (isFlat_flat _) (by rw [itemsOf_flat, itemsOf_flat, h.1])
    (by rw [queriesFrom_flat, queriesFrom_flat]; exact h.2)

open RCSketch2 (SecOK)

/-- C107. However a stream is cut into `add` and `add_buffer` calls, an `RCSketch` used within its declared input length gives the
same answers and ends in the same state, coin for coin. -/
theorem C107_rcsketch_same_stream (n k : Nat) (hk : 1 ≤ k) (hn : n < 2 ^ 32) (ops ops' : List (Op (Fl K)))
    (h : SameStream ops ops') (hnan : ∀ y ∈ itemsOf ops, y ≠ .nan) (hlen : (itemsOf ops).length ≤ n) :
    ((RCSketch.new n k : Prog (RCSketch K)) >>= fun s => answers s ops) = ((RCSketch.new n k : Prog (RCSketch K)) >>= fun s => answers s ops') := by
  apply Prog.bind_congr_partially
  rw [partially_iff]
  intro s hs
  rw [RCSketch.answers_flat_rc n k hk hn ops hnan hlen s hs, flatOps_congr h,
    ← RCSketch.answers_flat_rc n k hk hn ops' (by rw [← h.1]; exact hnan) (by rw [← h.1]; exact hlen) s hs]

/-- C107. The same for an `RCSketch2`, with no limit on the items. -/
theorem C107_rcsketch2_same_stream (sec : Nat → Nat) (hs : SecOK sec) (k : Nat) (ops ops' : List (Op (Fl K)))
    (h : SameStream ops ops') :
    answers (RC2.new sec k : RC2 sec K) ops = answers (RC2.new sec k : RC2 sec K) ops' := by
  rw [RCSketch2.answers_flat_rc2 sec hs k ops, flatOps_congr h, ← RCSketch2.answers_flat_rc2 sec hs k ops']

/-- A history on a `BufferedDigest` and a final flush: the answers and the wrapped digest. -/
def bufferedAnswers {D F : Type} [Digest D F] (d : D) (capacity : Nat) (ops : List (Op F)) : Prog (List F × D) := do
  let r ← answers (BufferedDigest.new d capacity) ops
  let b ← r.2.flush
  return (r.1, b.digest)

theorem bufferedAnswers_stream {F : Type} (capacity : Nat) (hc : capacity ≠ 0) (ops : List (Op F)) :
    ∃ ops' : List (Op F), SameStream ops' ops ∧ ∀ (D : Type) [Digest D F] (d : D), bufferedAnswers d capacity ops = answers d ops' := by
  obtain ⟨os, pending, h1, h2, -, h3⟩ := C47_transparent capacity hc ops
  refine ⟨os ++ [.addBuffer pending], ⟨?_, ?_⟩, ?_⟩
  · rw [← h1]; simp [itemsOf, Op.items]
  · rw [← h2]
    have : ∀ (l : List (Op F)) (seen : List F), queriesFrom seen (l ++ [.addBuffer pending]) = queriesFrom seen l := by
      intro l
      induction l with
      | nil => intro seen; rfl
      | cons o l ih => intro seen; cases o <;> simp [queriesFrom, ih]
    exact this os []
  · intro D _ d
    unfold bufferedAnswers
    rw [h3 D d, answers_append, bind_assoc']
    refine congrArg _ (funext fun r => ?_)
    simp only [answers, Op.call, BufferedDigest.flush, bind_assoc', bind_ret, pure_eq, List.append_nil]

/-- C107. A `BufferedDigest` around an `RCSketch` gives the same answers, coin for coin, as the sketch fed directly, and after a flush
holds the same sketch. -/
theorem C107_buffered_rcsketch (n k capacity : Nat) (hk : 1 ≤ k) (hn : n < 2 ^ 32) (hc : capacity ≠ 0) (ops : List (Op (Fl K)))
    (hnan : ∀ y ∈ itemsOf ops, y ≠ .nan) (hlen : (itemsOf ops).length ≤ n) :
    ((RCSketch.new n k : Prog (RCSketch K)) >>= fun s => bufferedAnswers s capacity ops) = ((RCSketch.new n k : Prog (RCSketch K)) >>= fun s => answers s ops) := by
  obtain ⟨os, h1, h2⟩ := bufferedAnswers_stream capacity hc ops
  simp only [h2]
  exact C107_rcsketch_same_stream n k hk hn os ops h1 (by rw [h1.1]; exact hnan) (by rw [h1.1]; exact hlen)

/-- C107. The same for an `RCSketch2`. -/
theorem C107_buffered_rcsketch2 (sec : Nat → Nat) (hs : SecOK sec) (k capacity : Nat) (hc : capacity ≠ 0) (ops : List (Op (Fl K))) :
    bufferedAnswers (RC2.new sec k : RC2 sec K) capacity ops = answers (RC2.new sec k : RC2 sec K) ops := by
  obtain ⟨os, h1, h2⟩ := bufferedAnswers_stream capacity hc ops
  rw [h2]
  exact C107_rcsketch2_same_stream sec hs k os ops h1

/-- C107. With the section sizes as the code computes them. -/
theorem C107_buffered_rcsketch2_f32 (k capacity : Nat) (hk : 4 ≤ k) (hk2 : k < 2 ^ 24) (hc : capacity ≠ 0) (ops : List (Op (Fl K))) :
    bufferedAnswers (RC2.new (f32Sec k) k : RC2 (f32Sec k) K) capacity ops = answers (RC2.new (f32Sec k) k : RC2 (f32Sec k) K) ops :=
  C107_buffered_rcsketch2 _ (f32Sec_ok hk hk2) k capacity hc ops

section examples
attribute [local instance] ratExact ratExact_exact

/-- Eight items and three queries, cut into calls in one way. -/
def streamA : List (Op (Fl ℚ)) := [.addBuffer [.fin 3, .fin 1], .add (.fin 2), .quantile (.fin 1), .addBuffer [.fin 5, .fin 4, .fin 8, .fin 7],
  .value (.fin (1 / 2)), .addBuffer [], .add (.fin 6), .quantile (.fin 7)]

/-- The same stream cut differently. -/
def streamB : List (Op (Fl ℚ)) := [.add (.fin 3), .addBuffer [.fin 1, .fin 2], .quantile (.fin 1), .addBuffer [.fin 5], .addBuffer [.fin 4, .fin 8],
  .add (.fin 7), .value (.fin (1 / 2)), .add (.fin 6), .quantile (.fin 7)]

/-- The cuts meet the hypothesis of C107. -/
theorem C107_example : SameStream streamA streamB := ⟨rfl, rfl⟩

/-- The buffered sketch of the example compacts, so coins are flipped and the answers depend on them. -/
theorem C107_example_random : CanReturn ((RCSketch.new 8 2 : Prog (RCSketch ℚ)) >>= fun s => bufferedAnswers s 3 streamA >>= fun r => .ret r.1)
      [.fin (1 / 3), .fin 4, .fin (3 / 4)] ∧
    CanReturn ((RCSketch.new 8 2 : Prog (RCSketch ℚ)) >>= fun s => bufferedAnswers s 3 streamA >>= fun r => .ret r.1)
      [.fin (1 / 3), .fin 4, .fin 1] := by decide +kernel

end examples
end AQ

/-
BufferedDigests of TDigests: what one pass of the inner digest preserves, through histories of insertions, queries and flushes (src/buffered_digest.rs).
-/
import Verif.Proofs.ParTScale
import Verif.Props.BufferedT

set_option linter.unusedSectionVars false
set_option linter.unusedVariables false

namespace AQ
open Prog Spec
variable {K : Type} [Field K] [LinearOrder K] [IsStrictOrderedRing K] [FloorRing K] [FloatFmt K]

/-- Execute a history of calls of a BufferedDigest: those of the trait, and `flush` (buffered_digest.rs:40-43). -/
def BufferedDigest.execCalls {D : Type} [Digest D (Fl K)] (b : BufferedDigest D (Fl K)) : List (ParTDigest.Call K) → Prog (BufferedDigest D (Fl K))
  | [] => .ret b
  | .op o :: cs => o.exec b >>= fun b' => execCalls b' cs
  | .flush :: cs => b.flush >>= fun b' => execCalls b' cs

/-- A BufferedDigest around a new TDigest and then a history of calls. -/
def BufferedDigest.callHistory (s i : ScaleFn K) (cf : Fl K) (capacity : Nat) (cs : List (ParTDigest.Call K)) : Prog (BufferedDigest (TDigest K) (Fl K)) :=
  execCalls (BufferedDigest.new (TDigest.new s i cf) capacity) cs

/-- A bound on the insertions a BufferedDigest makes into its inner digest up to and including a query: calls that flush, overflows of the buffer, the query. -/
def Spec.batchesWithin (capacity : Nat) (cs : List (ParTDigest.Call K)) : Nat := 1 + flushingCalls cs + (ParTDigest.itemsOfCalls cs).length / (capacity + 1)

namespace TDigest
open ParTDigest (Layered Ones LInv ones_units)
variable {s i : ScaleFn K} {cf : Fl K} {N : K} {J : Nat → List (Centroid K) → List (Centroid K) → Prop}

theorem Inv.ones [FloatFmt.Exact K] {d : TDigest K} {fl : List (Fl K)} (h : d.Inv (fl.map unit)) : Ones d.centroids := fun e he =>
  ⟨h.good e he, h.closed _ one_le_closed (fun c hc => by
    obtain ⟨y, hy, rfl⟩ := List.mem_map.1 hc
    simp [unit, Fl.toK]) e he⟩

/-- One insertion call. -/
theorem insert_layer [FloatFmt.Exact K] (L : Layered s i cf N J) {d : TDigest K} {fl : List (Fl K)} {m : Nat} (hi : d.Inv (fl.map unit))
    (h : LInv s i cf J d fl m) (xs : List (Fl K)) (hx : ∀ x ∈ xs, Item x) (hN : ((fl ++ xs).length : K) ≤ N) :
    Always (d.addBuffer xs) (fun d' => d'.Inv ((fl ++ xs).map unit) ∧ LInv s i cf J d' (fl ++ xs) (m + 1)) := by
  have hs := units_good h.items
  have hg := units_good hx
  unfold addBuffer
  refine ((addCentroidBuffer_inv hi.toCInv (fun c hc => (hs c hc).1) (fun c hc => (hg c hc).1) (fun c hc => (hg c hc).2)).and
    (merged d _ hi.good (fun c hc => (hg c hc).1)).partially).mono ?_
  rintro d' ⟨hi', runs, hm⟩
  have hall : ∀ x ∈ fl ++ xs, Item x := by
    intro x hx'
    rcases List.mem_append.1 hx' with hx' | hx'
    · exact h.items x hx'
    · exact hx x hx'
  have o1 := ones_units hx
  have o2 := hi.ones
  refine ⟨by rw [List.map_append]; exact hi', hm.sf.trans h.sf, hm.isf.trans h.isf, hm.cf.trans h.cf, hall, ?_⟩
  refine L.step hm h.sf h.isf h.cf (o1.append o2) (ones_units hall) ?_ (by rw [totalW_units]; exact hN) ?_
  · rw [totalW_append, hi.weight, totalW_units, totalW_units, totalW_units, List.length_append]
    push_cast
    ring
  · rw [List.map_append]
    exact L.perm List.perm_append_comm (L.append o1 o2 o1 (ones_units h.items) (L.mono (Nat.zero_le _) o1 o1 (L.refl xs hx)) h.rep)

end TDigest

namespace BufferedDigest
open ParTDigest (Layered Ones LInv ones_units itemsOfCalls)
variable {s i : ScaleFn K} {cf : Fl K} {N : K} {J : Nat → List (Centroid K) → List (Centroid K) → Prop}

/-- The state of a BufferedDigest of capacity `c` that got the items `sup` and made `q` flushing calls. -/
def LState (s i : ScaleFn K) (cf : Fl K) (J : Nat → List (Centroid K) → List (Centroid K) → Prop) (c : Nat) (b : BufferedDigest (TDigest K) (Fl K))
    (sup : List (Fl K)) (q : Nat) : Prop :=
  ∃ (fl : List (Fl K)) (F : Nat), sup = fl ++ b.buffer ∧ (∀ x ∈ b.buffer, Item x) ∧ b.capacity = c ∧ b.digest.Inv (fl.map TDigest.unit) ∧
    LInv s i cf J b.digest fl F ∧ F * (c + 1) ≤ q * (c + 1) + fl.length

theorem flush_layer [FloatFmt.Exact K] (L : Layered s i cf N J) {c : Nat} {b : BufferedDigest (TDigest K) (Fl K)} {fl : List (Fl K)} {F q : Nat}
    (hb : ∀ x ∈ b.buffer, Item x) (hc : b.capacity = c) (hi : b.digest.Inv (fl.map TDigest.unit)) (h : LInv s i cf J b.digest fl F)
    (hF : (F + 1) * (c + 1) ≤ q * (c + 1) + (fl ++ b.buffer).length) (hN : ((fl ++ b.buffer).length : K) ≤ N) :
    Always b.flush (fun b' => LState s i cf J c b' (fl ++ b.buffer) q ∧ b'.buffer = []) := by
  unfold flush
  rw [always_bind]
  refine Always.mono (TDigest.insert_layer L hi h b.buffer hb hN) ?_
  rintro d' ⟨h1, h2⟩
  exact ⟨⟨fl ++ b.buffer, F + 1, by simp, by simp, hc, h1, h2, hF⟩, rfl⟩

theorem LState.flush [FloatFmt.Exact K] (L : Layered s i cf N J) {c : Nat} {b : BufferedDigest (TDigest K) (Fl K)} {sup : List (Fl K)} {q : Nat}
    (h : LState s i cf J c b sup q) (hN : (sup.length : K) ≤ N) : Always b.flush (fun b' => LState s i cf J c b' sup (q + 1) ∧ b'.buffer = []) := by
  obtain ⟨fl, F, rfl, h2, h3, h4, h5, h6⟩ := h
  refine flush_layer L h2 h3 h4 h5 ?_ hN
  rw [List.length_append]
  nlinarith

theorem LState.extend [FloatFmt.Exact K] (L : Layered s i cf N J) {c : Nat} {b : BufferedDigest (TDigest K) (Fl K)} {sup : List (Fl K)} {q : Nat}
    (h : LState s i cf J c b sup q) (xs : List (Fl K)) (hx : ∀ x ∈ xs, Item x) (hN : ((sup ++ xs).length : K) ≤ N) :
    Always (flushIfFull { b with buffer := b.buffer ++ xs }) (fun b' => LState s i cf J c b' (sup ++ xs) q) := by
  obtain ⟨fl, F, rfl, h2, h3, h4, h5, h6⟩ := h
  have hb : ∀ x ∈ b.buffer ++ xs, Item x := by
    intro x hx'
    rcases List.mem_append.1 hx' with hx' | hx'
    · exact h2 x hx'
    · exact hx x hx'
  rw [List.append_assoc] at hN ⊢
  unfold flushIfFull
  split
  · next hlt =>
    simp only [h3] at hlt
    refine (flush_layer (b := { b with buffer := b.buffer ++ xs }) L hb h3 h4 h5 ?_ hN).mono (fun b' h' => h'.1)
    rw [List.length_append]
    nlinarith
  · exact ⟨fl, F, rfl, hb, h3, h4, h5, h6⟩

theorem LState.addChunks [FloatFmt.Exact K] (L : Layered s i cf N J) {c : Nat} : ∀ (cs : List (List (Fl K))) (b : BufferedDigest (TDigest K) (Fl K))
    (sup : List (Fl K)) (q : Nat), LState s i cf J c b sup q → (∀ x ∈ cs.flatten, Item x) → ((sup ++ cs.flatten).length : K) ≤ N →
    Always (b.addChunks cs) (fun b' => LState s i cf J c b' (sup ++ cs.flatten) q)
  | [], b, sup, q, h, _, _ => by
    show LState _ _ _ _ _ _ _ _
    simpa using h
  | x :: xs, b, sup, q, h, hx, hN => by
    unfold BufferedDigest.addChunks
    rw [always_bind, List.flatten_cons, ← List.append_assoc]
    rw [List.flatten_cons, ← List.append_assoc] at hN
    refine (h.extend L x (fun y hy => hx y (by simp [hy])) (le_trans ?_ hN)).mono (fun b' h' => ?_)
    · exact Nat.cast_le.2 (by simp only [List.length_append]; omega)
    · exact LState.addChunks L xs b' _ q h' (fun y hy => hx y (by rw [List.flatten_cons]; exact List.mem_append_right _ hy)) hN

theorem LState.exec [FloatFmt.Exact K] (L : Layered s i cf N J) {c : Nat} (hc : c ≠ 0) {b : BufferedDigest (TDigest K) (Fl K)} {sup : List (Fl K)} {q : Nat}
    (h : LState s i cf J c b sup q) (o : Op (Fl K)) (ho : OrdinaryOp o) (h64 : ((sup ++ o.items).length : K) < 2 ^ 64) (hN : ((sup ++ o.items).length : K) ≤ N) :
    Always (o.exec b) (fun b' => LState s i cf J c b' (sup ++ o.items) (q + flushingCalls [.op o])) := by
  cases o with
  | add x => exact h.extend L [x] (by intro y hy; rw [List.mem_singleton] at hy; subst hy; exact ho) hN
  | addBuffer xs =>
    have hc' : b.capacity ≠ 0 := by
      obtain ⟨_, _, _, _, e, _⟩ := h
      rw [e]; exact hc
    show Always (b.addBuffer xs) _
    unfold BufferedDigest.addBuffer chunks
    rw [if_neg hc', bind_ret]
    have hfl := chunksAux_flatten b.capacity hc' xs.length xs (le_refl _)
    generalize chunksAux b.capacity xs.length xs = cs at hfl
    subst hfl
    exact LState.addChunks L cs b sup q h ho hN
  | quantile v =>
    obtain ⟨z, rfl⟩ := ho
    simp only [Op.exec, Op.items, List.append_nil] at h64 hN ⊢
    rw [always_bind]
    show Always (estQuantileAtValue b (.fin z)) _
    unfold estQuantileAtValue
    rw [always_bind]
    refine (h.flush L hN).mono ?_
    rintro b' ⟨h', -⟩
    have h'' := h'
    obtain ⟨fl, F, e, h2, h3, h4, h5, h6⟩ := h''
    have hs := TDigest.units_good h5.items
    obtain ⟨r, hr⟩ := (h4.queries (fun c hc => (hs c hc).1) (fun c hc => by
      obtain ⟨y, hy, rfl⟩ := List.mem_map.1 hc
      simp [TDigest.unit, Fl.toK]) (by
        rw [TDigest.totalW_units]
        refine lt_of_le_of_lt (Nat.cast_le.2 ?_) h64
        rw [e, List.length_append]; omega) z).1
    show Always (((b'.digest.estQuantileAtValue (.fin z)) >>= _) >>= _) _
    rw [hr]
    exact h'
  | value v =>
    obtain ⟨z, rfl⟩ := ho
    simp only [Op.exec, Op.items, List.append_nil] at h64 hN ⊢
    rw [always_bind]
    show Always (estValueAtQuantile b (.fin z)) _
    unfold estValueAtQuantile
    rw [always_bind]
    refine (h.flush L hN).mono ?_
    rintro b' ⟨h', -⟩
    have h'' := h'
    obtain ⟨fl, F, e, h2, h3, h4, h5, h6⟩ := h''
    have hs := TDigest.units_good h5.items
    obtain ⟨r, hr⟩ := (h4.queries (fun c hc => (hs c hc).1) (fun c hc => by
      obtain ⟨y, hy, rfl⟩ := List.mem_map.1 hc
      simp [TDigest.unit, Fl.toK]) (by
        rw [TDigest.totalW_units]
        refine lt_of_le_of_lt (Nat.cast_le.2 ?_) h64
        rw [e, List.length_append]; omega) z).2
    show Always (((b'.digest.estValueAtQuantile (.fin z)) >>= _) >>= _) _
    rw [hr]
    exact h'

theorem LState.execCalls [FloatFmt.Exact K] (L : Layered s i cf N J) {c : Nat} (hc : c ≠ 0) : ∀ (cs : List (ParTDigest.Call K))
    (b : BufferedDigest (TDigest K) (Fl K)) (sup : List (Fl K)) (q : Nat), LState s i cf J c b sup q → (∀ o, .op o ∈ cs → OrdinaryOp o) →
    ((sup ++ itemsOfCalls cs).length : K) < 2 ^ 64 → ((sup ++ itemsOfCalls cs).length : K) ≤ N →
    Always (b.execCalls cs) (fun b' => LState s i cf J c b' (sup ++ itemsOfCalls cs) (q + flushingCalls cs))
  | [], b, sup, q, h, _, _, _ => by
    show LState _ _ _ _ _ _ _ _
    simpa [itemsOfCalls, flushingCalls] using h
  | .flush :: cs, b, sup, q, h, ho, h64, hN => by
    have e : q + flushingCalls (.flush :: cs) = (q + 1) + flushingCalls cs := by
      unfold flushingCalls
      rw [List.countP_cons]
      simp only [if_true]
      omega
    have e' : itemsOfCalls (.flush :: cs) = itemsOfCalls cs := rfl
    rw [e'] at h64 hN ⊢
    rw [e]
    unfold BufferedDigest.execCalls
    rw [always_bind]
    refine (h.flush L (le_trans (Nat.cast_le.2 (by simp only [List.length_append]; omega)) hN)).mono (fun b' h' => ?_)
    exact LState.execCalls L hc cs b' sup _ h'.1 (fun o hm => ho o (List.mem_cons_of_mem _ hm)) h64 hN
  | .op o :: cs, b, sup, q, h, ho, h64, hN => by
    have e : q + flushingCalls (.op o :: cs) = (q + flushingCalls [.op o]) + flushingCalls cs := by
      unfold flushingCalls
      rw [List.countP_cons, List.countP_singleton]
      omega
    have e' : sup ++ itemsOfCalls (.op o :: cs) = (sup ++ o.items) ++ itemsOfCalls cs := by
      rw [List.append_assoc]; rfl
    rw [e'] at h64 hN ⊢
    rw [e]
    unfold BufferedDigest.execCalls
    rw [always_bind]
    have hle : (((sup ++ o.items).length : ℕ) : K) ≤ ((sup ++ o.items ++ itemsOfCalls cs).length : ℕ) :=
      Nat.cast_le.2 (by simp only [List.length_append]; omega)
    refine (h.exec L hc o (ho o (by simp)) (lt_of_le_of_lt hle h64) (le_trans hle hN)).mono (fun b' h' => ?_)
    exact LState.execCalls L hc cs b' _ _ h' (fun o hm => ho o (List.mem_cons_of_mem _ hm)) h64 hN

/-- The state a query sees. -/
theorem callHistory_flushed [FloatFmt.Exact K] (L : Layered s i cf N J) (capacity : Nat) (hc : capacity ≠ 0)
    (cs : List (ParTDigest.Call K)) (ho : ∀ o, .op o ∈ cs → OrdinaryOp o) (h64 : ((itemsOfCalls cs).length : K) < 2 ^ 64)
    (hN : ((itemsOfCalls cs).length : K) ≤ N) :
    Always (callHistory s i cf capacity cs >>= flush) (fun b => b.buffer = [] ∧ b.digest.Inv ((itemsOfCalls cs).map TDigest.unit) ∧
      J (batchesWithin capacity cs) b.digest.centroids ((itemsOfCalls cs).map TDigest.unit)) := by
  have h0 : LState s i cf J capacity (BufferedDigest.new (TDigest.new s i cf) capacity) [] 0 :=
    ⟨[], 0, rfl, by simp [BufferedDigest.new], rfl, TDigest.new_inv s i cf, ⟨rfl, rfl, rfl, by simp, L.refl [] (by simp)⟩, by simp⟩
  rw [always_bind]
  unfold callHistory
  refine (LState.execCalls L hc cs _ [] 0 h0 ho (by simpa using h64) (by simpa using hN)).mono ?_
  intro b hb
  rw [List.nil_append, zero_add] at hb
  refine (hb.flush L hN).mono ?_
  rintro b' ⟨⟨fl, F, e1, h2, h3, h4, h5, h6⟩, e2⟩
  rw [e2, List.append_nil] at e1
  subst e1
  refine ⟨e2, h4, L.mono ?_ h4.ones (ones_units h5.items) h5.rep⟩
  have h7 := Nat.div_le_div_right (c := capacity + 1) h6
  rw [Nat.mul_div_cancel _ (Nat.succ_pos capacity), Nat.mul_comm, Nat.mul_add_div (Nat.succ_pos capacity)] at h7
  rw [Nat.succ_eq_add_one] at h7
  unfold batchesWithin
  omega

/-- A query is a flush and a query of the inner digest. -/
theorem quantile_flushed {h : Prog (BufferedDigest (TDigest K) (Fl K))} {x : Fl K} {P : BufferedDigest (TDigest K) (Fl K) → Prop}
    {R : Fl K × BufferedDigest (TDigest K) (Fl K) → Prop} (hf : Always (h >>= flush) P)
    (hR : ∀ b, P b → ∃ r, b.digest.estQuantileAtValue x = .ret r ∧ R (r, b)) : Always (h >>= fun b => b.estQuantileAtValue x) R := by
  rw [always_bind] at hf ⊢
  refine hf.mono (fun p hp => ?_)
  unfold estQuantileAtValue
  rw [always_bind]
  refine hp.mono (fun p' hp' => ?_)
  obtain ⟨r, h1, h2⟩ := hR p' hp'
  show Always (((p'.digest.estQuantileAtValue x) >>= _) >>= _) _
  rw [h1]
  exact h2

theorem value_flushed {h : Prog (BufferedDigest (TDigest K) (Fl K))} {x : Fl K} {P : BufferedDigest (TDigest K) (Fl K) → Prop}
    {R : Fl K × BufferedDigest (TDigest K) (Fl K) → Prop} (hf : Always (h >>= flush) P)
    (hR : ∀ b, P b → ∃ r, b.digest.estValueAtQuantile x = .ret r ∧ R (r, b)) : Always (h >>= fun b => b.estValueAtQuantile x) R := by
  rw [always_bind] at hf ⊢
  refine hf.mono (fun p hp => ?_)
  unfold estValueAtQuantile
  rw [always_bind]
  refine hp.mono (fun p' hp' => ?_)
  obtain ⟨r, h1, h2⟩ := hR p' hp'
  show Always (((p'.digest.estValueAtQuantile x) >>= _) >>= _) _
  rw [h1]
  exact h2

end BufferedDigest
end AQ

/-
Properties C45, C46, C70 and C71 (ParTDigest, src/t_digest/par_t_digest.rs).
-/
import Verif.Proofs.ParTDigest

set_option linter.unusedSectionVars false
set_option linter.unusedVariables false

namespace AQ
open Prog Spec
variable {K : Type} [Field K] [LinearOrder K] [IsStrictOrderedRing K] [FloatFmt K] [FloorRing K]

theorem exists_min_mem {α : Type} [LinearOrder α] : ∀ {l : List α}, l ≠ [] → ∃ x ∈ l, ∀ y ∈ l, x ≤ y
  | [a], _ => ⟨a, by simp, by simp⟩
  | a :: b :: l, _ => by
    obtain ⟨x, hx, hm⟩ := exists_min_mem (l := b :: l) (by simp)
    rcases le_total a x with h | h
    · refine ⟨a, by simp, fun y hy => ?_⟩
      rcases List.mem_cons.1 hy with rfl | hy
      · exact le_rfl
      · exact h.trans (hm y hy)
    · refine ⟨x, List.mem_cons_of_mem _ hx, fun y hy => ?_⟩
      rcases List.mem_cons.1 hy with rfl | hy
      · exact h
      · exact hm y hy

theorem exists_max_mem {α : Type} [LinearOrder α] {l : List α} (h : l ≠ []) : ∃ x ∈ l, ∀ y ∈ l, y ≤ x :=
  exists_min_mem (α := αᵒᵈ) h

/-- A new ParTDigest over empty digests and then a history of calls. -/
def ParTDigest.history (s i : ScaleFn K) (cf : Fl K) (threads capacity : Nat) (ops : List (Op (Fl K))) :
    Prog (ParTDigest K) := do
  let p ← ParTDigest.new threads capacity (.ret (TDigest.new s i cf))
  execAll p ops

theorem ParTDigest.history_inv [FloatFmt.Exact K] (s i : ScaleFn K) (cf : Fl K) (threads capacity : Nat) (ht : threads ≠ 0)
    (ops : List (Op (Fl K))) (ho : ∀ o ∈ ops, OrdinaryOp o) (hn : (itemsOf ops).length < 2 ^ 64) :
    Always (ParTDigest.history s i cf threads capacity ops) (fun p =>
      ParTDigest.HInv s i cf threads capacity p (itemsOf ops) ∧ ((itemsOf ops).length : K) < 2 ^ 64) := by
  have h64 : ((itemsOf ops).length : K) < 2 ^ 64 := by
    have : (((itemsOf ops).length : ℕ) : K) < ((2 ^ 64 : ℕ) : K) := Nat.cast_lt.2 hn
    rwa [Nat.cast_pow, Nat.cast_ofNat] at this
  unfold ParTDigest.history ParTDigest.new
  rw [bind_ret]
  have := ParTDigest.execAll_hinv (s := s) (i := i) (cf := cf) (t := threads) (c := capacity) ht ops
    { digest := TDigest.new s i cf, threads := threads, buffer := [], capacity := capacity,
      creator := .ret (TDigest.new s i cf) } []
    ⟨[], rfl, ParTDigest.new_pinv s i cf, by simp, by simp, rfl, rfl, rfl⟩ ho (by simpa using h64)
  exact this.mono (fun p h => ⟨by simpa using h, h64⟩)

/-- C45. After any history of insertions and queries, with any number of threads and any capacity, `count()` is the number of
items supplied; no call panics. -/
theorem C45_count [FloatFmt.Exact K] (s i : ScaleFn K) (cf : Fl K) (threads capacity : Nat) (ht : threads ≠ 0)
    (ops : List (Op (Fl K))) (ho : ∀ o ∈ ops, OrdinaryOp o) (hn : (itemsOf ops).length < 2 ^ 64) :
    Always (ParTDigest.history s i cf threads capacity ops) (fun p => p.count = .ret (itemsOf ops).length) := by
  refine (ParTDigest.history_inv s i cf threads capacity ht ops ho hn).mono ?_
  rintro p ⟨⟨fl, e0, h, -⟩, h64⟩
  rw [e0, List.length_append] at h64 ⊢
  unfold ParTDigest.count TDigest.count TDigest.totalWeight
  rw [TDigest.weightSum_exact h.good, h.weight]
  have hlt : ((fl.length : ℕ) : K) < 2 ^ 64 := by
    refine lt_of_le_of_lt ?_ h64
    exact Nat.cast_le.2 (by omega)
  rw [TDigest.toUsize_fin (Nat.cast_nonneg _) hlt, unwrap_some, bind_ret, Nat.floor_natCast]
  rfl

/-- C45. A query (or an explicit flush) leaves nothing pending: the inner digest then holds exactly the weight and the sum of all
items supplied. -/
theorem C45_flush_delivers_everything [FloatFmt.Exact K] (s i : ScaleFn K) (cf : Fl K) (threads capacity : Nat)
    (ht : threads ≠ 0) (ops : List (Op (Fl K))) (ho : ∀ o ∈ ops, OrdinaryOp o) (hn : (itemsOf ops).length < 2 ^ 64) :
    Always (ParTDigest.history s i cf threads capacity ops >>= ParTDigest.flush) (fun p =>
      p.buffer = [] ∧ p.digest.totalWeight = .fin ((itemsOf ops).length : K) ∧
      totalMass p.digest.centroids = ((itemsOf ops).map Fl.toK).sum) := by
  rw [always_bind]
  refine (ParTDigest.history_inv s i cf threads capacity ht ops ho hn).mono ?_
  rintro p ⟨⟨fl, e0, h, h2, h3, e1, e2, e3⟩, h64⟩
  refine (ParTDigest.flush_hinv ht h h2 e1 e2 e3).mono ?_
  rintro p' ⟨a1, a2, -⟩
  rw [← e0] at a2
  refine ⟨a1, ?_, a2.mass⟩
  unfold TDigest.totalWeight
  rw [TDigest.weightSum_exact a2.good, a2.weight]

/-- C45. A query answers from a digest that holds all items supplied so far, pending ones included. -/
theorem C45_query_sees_everything [FloatFmt.Exact K] (s i : ScaleFn K) (cf : Fl K) (threads capacity : Nat)
    (ht : threads ≠ 0) (ops : List (Op (Fl K))) (ho : ∀ o ∈ ops, OrdinaryOp o) (hn : (itemsOf ops).length < 2 ^ 64) (x : K) :
    Always (ParTDigest.history s i cf threads capacity ops >>= fun p => p.estQuantileAtValue (.fin x)) (fun r =>
      r.2.digest.estQuantileAtValue (.fin x) = .ret r.1 ∧ r.2.digest.count = .ret (itemsOf ops).length) ∧
    Always (ParTDigest.history s i cf threads capacity ops >>= fun p => p.estValueAtQuantile (.fin x)) (fun r =>
      r.2.digest.estValueAtQuantile (.fin x) = .ret r.1 ∧ r.2.digest.count = .ret (itemsOf ops).length) := by
  have hh := ParTDigest.history_inv s i cf threads capacity ht ops ho hn
  have hcount : ∀ d : TDigest K, ParTDigest.PInv d (itemsOf ops) → ((itemsOf ops).length : K) < 2 ^ 64 →
      d.count = .ret (itemsOf ops).length := by
    intro d h h64
    unfold TDigest.count TDigest.totalWeight
    rw [TDigest.weightSum_exact h.good, h.weight, TDigest.toUsize_fin (Nat.cast_nonneg _) h64, unwrap_some, Nat.floor_natCast]
  constructor <;> rw [always_bind] <;> refine hh.mono ?_
  · rintro p ⟨⟨fl, e0, h, h2, h3, e1, e2, e3⟩, h64⟩
    unfold ParTDigest.estQuantileAtValue
    rw [always_bind]
    refine (ParTDigest.flush_hinv ht h h2 e1 e2 e3).mono ?_
    rintro p' ⟨-, a2, -⟩
    rw [← e0] at a2
    obtain ⟨⟨r, hr⟩, -⟩ := a2.queries h64 x
    rw [hr, bind_ret]
    exact ⟨hr, hcount _ a2 h64⟩
  · rintro p ⟨⟨fl, e0, h, h2, h3, e1, e2, e3⟩, h64⟩
    unfold ParTDigest.estValueAtQuantile
    rw [always_bind]
    refine (ParTDigest.flush_hinv ht h h2 e1 e2 e3).mono ?_
    rintro p' ⟨-, a2, -⟩
    rw [← e0] at a2
    obtain ⟨-, r, hr⟩ := a2.queries h64 x
    rw [hr, bind_ret]
    exact ⟨hr, hcount _ a2 h64⟩

/-- C46, partial: a flush sets `min` and `max` to the exact extremes of the items flushed now and the *means* of the centroids
from earlier flushes; so they are exact for the first flush, and later unless an earlier extreme was merged. The full statement
is false: `C46_earlier_minimum_forgotten`. -/
theorem C46_limits_after_flush_partial [FloatFmt.Exact K] (s i : ScaleFn K) (cf : Fl K) (threads capacity : Nat)
    (ht : threads ≠ 0) (ops : List (Op (Fl K))) (ho : ∀ o ∈ ops, OrdinaryOp o) (hn : (itemsOf ops).length < 2 ^ 64) :
    Always (ParTDigest.history s i cf threads capacity ops) (fun p => p.buffer ≠ [] → Always p.flush (fun p' =>
      IsMinMean (p.buffer.map (fun x => ⟨x, .fin 1⟩) ++ p.digest.centroids) p'.digest.min ∧
      IsMaxMean (p.buffer.map (fun x => ⟨x, .fin 1⟩) ++ p.digest.centroids) p'.digest.max)) := by
  refine (ParTDigest.history_inv s i cf threads capacity ht ops ho hn).mono ?_
  rintro p ⟨⟨fl, e0, h, h2, h3, e1, e2, e3⟩, h64⟩ hne
  refine (ParTDigest.flush_spec s i cf p fl e3 (by rw [e1]; exact ht) h h2).mono ?_
  rintro p' ⟨-, -, h4⟩
  have hu : p.buffer.map (fun x => (⟨x, .fin 1⟩ : Centroid K)) = p.buffer.map TDigest.unit :=
    List.map_congr_left (fun x _ => by simp [TDigest.unit])
  rw [hu]
  exact h4 hne

/-- C46, partial: if everything was still pending, the flush makes `min` and `max` exactly the extremes of all items. -/
theorem C46_first_flush_exact_partial [FloatFmt.Exact K] (s i : ScaleFn K) (cf : Fl K) (threads : Nat) (ht : threads ≠ 0)
    (xs : List (Fl K)) (hne : xs ≠ []) (hx : ∀ x ∈ xs, Item x) :
    Always (ParTDigest.history s i cf threads xs.length [.addBuffer xs] >>= ParTDigest.flush) (fun p =>
      (p.digest.min ∈ xs ∧ ∀ x ∈ xs, p.digest.min ≤ x) ∧ p.digest.max ∈ xs ∧ ∀ x ∈ xs, x ≤ p.digest.max) := by
  have hh : ParTDigest.history s i cf threads xs.length [.addBuffer xs] = .ret
      { digest := TDigest.new s i cf, threads := threads, buffer := xs, capacity := xs.length,
        creator := .ret (TDigest.new s i cf) } := by
    show ParTDigest.flushIfFull _ >>= _ = _
    unfold ParTDigest.flushIfFull
    rw [if_neg (by simp)]
    rfl
  rw [hh, bind_ret]
  refine (ParTDigest.flush_spec s i cf _ [] rfl ht (ParTDigest.new_pinv s i cf) hx).mono ?_
  rintro p' ⟨-, -, h4⟩
  obtain ⟨⟨⟨u, hu, e1⟩, l1⟩, ⟨v, hv, e2⟩, l2⟩ := h4 hne
  simp only [TDigest.new, List.append_nil] at hu hv l1 l2
  obtain ⟨a, ha, rfl⟩ := List.mem_map.1 hu
  obtain ⟨b, hb, rfl⟩ := List.mem_map.1 hv
  refine ⟨⟨?_, fun x hx' => l1 _ (List.mem_map.2 ⟨x, hx', rfl⟩)⟩, ?_, fun x hx' => l2 _ (List.mem_map.2 ⟨x, hx', rfl⟩)⟩
  · rw [← e1]; exact ha
  · rw [← e2]; exact hb

/-- C70. Whatever the history, after a flush all centroid means lie between `min` and `max`, which lie between the smallest and
the largest item; the centroids are sorted and every weight is at least 1. -/
theorem C70_flushed_digest_in_data_range [FloatFmt.Exact K] (s i : ScaleFn K) (cf : Fl K) (threads capacity : Nat)
    (ht : threads ≠ 0) (ops : List (Op (Fl K))) (ho : ∀ o ∈ ops, OrdinaryOp o) (hn : (itemsOf ops).length < 2 ^ 64)
    (hne : itemsOf ops ≠ []) :
    Always (ParTDigest.history s i cf threads capacity ops >>= ParTDigest.flush) (fun p =>
      (∃ x ∈ itemsOf ops, x ≤ p.digest.min) ∧ (∃ x ∈ itemsOf ops, p.digest.max ≤ x) ∧
      (∀ c ∈ p.digest.centroids, p.digest.min ≤ c.mean ∧ c.mean ≤ p.digest.max ∧ 1 ≤ c.weight.toK) ∧
      p.digest.centroids.Pairwise (fun a b => a.mean.toK ≤ b.mean.toK)) := by
  rw [always_bind]
  refine (ParTDigest.history_inv s i cf threads capacity ht ops ho hn).mono ?_
  rintro p ⟨⟨fl, e0, h, h2, h3, e1, e2, e3⟩, h64⟩
  refine (ParTDigest.flush_hinv ht h h2 e1 e2 e3).mono ?_
  rintro p' ⟨a1, a2, -⟩
  rw [← e0] at a2
  refine ⟨?_, ?_, fun c hc => ⟨a2.min_le c hc, a2.le_max c hc,
    a2.closed (fun w => 1 ≤ w) (fun a b ha hb => by linarith) le_rfl c hc⟩, a2.sorted⟩
  · obtain ⟨x, hx, hm⟩ := exists_min_mem hne
    exact ⟨x, hx, a2.lower hne x hm⟩
  · obtain ⟨x, hx, hm⟩ := exists_max_mem hne
    exact ⟨x, hx, a2.upper hne x hm⟩

/-- C70. Quantile estimates of a ParTDigest that has seen items are probabilities, 0 below all items and 1 above all. -/
theorem C70_quantile_is_probability [FloatFmt.Exact K] (s i : ScaleFn K) (cf : Fl K) (threads capacity : Nat)
    (ht : threads ≠ 0) (ops : List (Op (Fl K))) (ho : ∀ o ∈ ops, OrdinaryOp o) (hn : (itemsOf ops).length < 2 ^ 64)
    (hne : itemsOf ops ≠ []) (x : K) :
    Always (ParTDigest.history s i cf threads capacity ops >>= fun p => p.estQuantileAtValue (.fin x)) (fun r =>
      ∃ q : K, r.1 = .fin q ∧ 0 ≤ q ∧ q ≤ 1 ∧ ((∀ y ∈ itemsOf ops, .fin x < y) → q = 0) ∧
        ((∀ y ∈ itemsOf ops, y < .fin x) → q = 1)) := by
  rw [always_bind]
  refine (ParTDigest.history_inv s i cf threads capacity ht ops ho hn).mono ?_
  rintro p ⟨⟨fl, e0, h, h2, h3, e1, e2, e3⟩, h64⟩
  unfold ParTDigest.estQuantileAtValue
  rw [always_bind]
  refine (ParTDigest.flush_hinv ht h h2 e1 e2 e3).mono ?_
  rintro p' ⟨a1, a2, -⟩
  rw [← e0] at a2
  obtain ⟨l, a, b, hv, hw, h1⟩ := a2.view hne
  obtain ⟨q, hq, q0, q1, ql, qr⟩ := TDigest.estQuantile_total hv h1 x
  rw [hq, bind_ret]
  refine ⟨q, rfl, q0, q1, fun hall => ql ?_, fun hall => qr ?_⟩
  · obtain ⟨y, hy, hm⟩ := exists_min_mem hne
    have := lt_of_lt_of_le (hall y hy) (a2.lower hne y hm)
    rw [hv.mn] at this
    simpa using this
  · obtain ⟨y, hy, hm⟩ := exists_max_mem hne
    have := lt_of_le_of_lt (a2.upper hne y hm) (hall y hy)
    rw [hv.mx] at this
    simpa using this

/-- C71. The pending buffer never exceeds the capacity after a call. -/
theorem C71_buffer_bounded [FloatFmt.Exact K] (s i : ScaleFn K) (cf : Fl K) (threads capacity : Nat)
    (ht : threads ≠ 0) (ops : List (Op (Fl K))) (ho : ∀ o ∈ ops, OrdinaryOp o) (hn : (itemsOf ops).length < 2 ^ 64) :
    Always (ParTDigest.history s i cf threads capacity ops) (fun p => p.buffer.length ≤ capacity) := by
  refine (ParTDigest.history_inv s i cf threads capacity ht ops ho hn).mono ?_
  rintro p ⟨⟨fl, e0, h, h2, h3, -⟩, -⟩
  exact h3

/-- C71. In any arithmetic, for any digests and arguments (NaN, infinities, zero threads included), the pending buffer never exceeds
the capacity after a history of calls that return. -/
theorem C71_any_arithmetic (creator : Prog (TDigest K)) (threads capacity : Nat) (ops : List (Op (Fl K))) :
    Partially (ParTDigest.new threads capacity creator >>= fun p => execAll p ops) (fun p => p.buffer.length ≤ capacity) := by
  have hflush : ∀ p : ParTDigest K, Partially p.flush (fun p' => p'.buffer = [] ∧ p'.capacity = p.capacity) := by
    intro p
    unfold ParTDigest.flush
    split
    · next h => exact ⟨h, rfl⟩
    · refine partially_bind.2 ((partially_true _).mono fun _ _ => ?_)
      refine partially_bind.2 ((partially_true _).mono fun _ _ => ?_)
      refine partially_bind.2 ((partially_true _).mono fun _ _ => ?_)
      refine partially_bind.2 ((partially_true _).mono fun _ _ => ?_)
      refine partially_bind.2 ((partially_true _).mono fun _ _ => ?_)
      refine partially_bind.2 ((partially_true _).mono fun _ _ => ?_)
      refine partially_bind.2 ((partially_true _).mono fun _ _ => ?_)
      exact ⟨rfl, rfl⟩
  have hins : ∀ p : ParTDigest K, Partially p.flushIfFull (fun p' => p'.buffer.length ≤ p.capacity ∧ p'.capacity = p.capacity) := by
    intro p
    unfold ParTDigest.flushIfFull
    split
    · refine (hflush p).mono ?_
      rintro p' ⟨h1, h2⟩
      exact ⟨by rw [h1]; simp, h2⟩
    · next h => exact ⟨not_lt.1 h, rfl⟩
  have hone : ∀ (o : Op (Fl K)) (p : ParTDigest K), p.buffer.length ≤ p.capacity →
      Partially (o.exec p) (fun p' => p'.buffer.length ≤ p'.capacity ∧ p'.capacity = p.capacity) := by
    intro o p hp
    cases o with
    | add x => exact (hins _).mono fun p' h => ⟨by rw [h.2]; exact h.1, h.2⟩
    | addBuffer xs => exact (hins _).mono fun p' h => ⟨by rw [h.2]; exact h.1, h.2⟩
    | quantile v =>
      simp only [Op.exec]
      rw [partially_bind]
      show Partially (ParTDigest.estQuantileAtValue p v) _
      unfold ParTDigest.estQuantileAtValue
      rw [partially_bind]
      refine (hflush p).mono ?_
      rintro p' ⟨h1, h2⟩
      rw [partially_bind]
      exact (partially_true _).mono fun _ _ => ⟨by rw [h1]; simp, h2⟩
    | value q =>
      simp only [Op.exec]
      rw [partially_bind]
      show Partially (ParTDigest.estValueAtQuantile p q) _
      unfold ParTDigest.estValueAtQuantile
      rw [partially_bind]
      refine (hflush p).mono ?_
      rintro p' ⟨h1, h2⟩
      rw [partially_bind]
      exact (partially_true _).mono fun _ _ => ⟨by rw [h1]; simp, h2⟩
  have hall : ∀ (ops : List (Op (Fl K))) (p : ParTDigest K), p.buffer.length ≤ p.capacity →
      Partially (execAll p ops) (fun p' => p'.buffer.length ≤ p.capacity) := by
    intro ops
    induction ops with
    | nil => intro p hp; exact hp
    | cons o os ih =>
      intro p hp
      unfold execAll
      rw [partially_bind]
      refine (hone o p hp).mono ?_
      rintro p' ⟨h1, h2⟩
      rw [← h2]
      exact ih p' h1
  unfold ParTDigest.new
  simp only [bind_assoc', partially_bind]
  refine (partially_true _).mono fun d _ => ?_
  exact hall ops _ (by simp)

section examples
attribute [local instance] ratExact

/-- A history with two automatic flushes, a query and pending items. -/
def ptOps : List (Op (Fl ℚ)) :=
  [.addBuffer [.fin 0, .fin 1, .fin 2, .fin 3], .add (.fin 7), .value (.fin (1 / 2)), .add (.fin (-4)), .addBuffer [.fin 5]]

/-- `ptOps` meets the hypotheses of C45, C46, C70 and C71. -/
example : (∀ o ∈ ptOps, OrdinaryOp o) ∧ (itemsOf ptOps).length < 2 ^ 64 ∧ itemsOf ptOps ≠ [] := by
  have hle : ∀ a b : ℚ, a ≤ b → (Fl.fin a : Fl ℚ) ≤ .fin b := fun a b h => h
  refine ⟨?_, by decide +kernel, by decide +kernel⟩
  have hi : ∀ x : ℚ, -10 ≤ x → x ≤ 10 → Item (Fl.fin x : Fl ℚ) := fun x h1 h2 =>
    ⟨⟨_, rfl⟩, hle _ _ ((show _ ≤ (-10 : ℚ) by decide +kernel).trans h1), hle _ _ (h2.trans (show (10 : ℚ) ≤ _ by decide +kernel))⟩
  intro o ho
  simp only [ptOps, List.mem_cons, List.not_mem_nil, or_false] at ho
  rcases ho with rfl | rfl | rfl | rfl | rfl
  · intro x hx
    simp only [List.mem_cons, List.not_mem_nil, or_false] at hx
    rcases hx with rfl | rfl | rfl | rfl <;> exact hi _ (by norm_num) (by norm_num)
  · exact hi _ (by norm_num) (by norm_num)
  · exact ⟨_, rfl⟩
  · exact hi _ (by norm_num) (by norm_num)
  · intro x hx
    rw [List.mem_singleton] at hx
    subst hx
    exact hi _ (by norm_num) (by norm_num)

/-- What C45, C70 and C71 say about it: seven items, of which two are pending. -/
example : Always (ParTDigest.history k0 invK0 (.fin 2) 2 3 ptOps) (fun p =>
    Always p.count (fun n => n = 7) ∧ p.buffer = [.fin (-4), .fin 5]) := by decide +kernel

/-- With zero threads the first flush panics (`par_chunks(0)`). -/
theorem C45_zero_threads_panics : Panics (ParTDigest.history k0 invK0 (.fin 2) 0 3 ptOps) := by decide +kernel

/-- C46 is false: the items 0, 1, 2, 3 are flushed and merged, then 7 is flushed; the digest forgets that 0 was supplied. -/
theorem C46_earlier_minimum_forgotten :
    Always (ParTDigest.history k0 invK0 (.fin 2) 2 3 [.addBuffer [.fin 0, .fin 1, .fin 2, .fin 3], .value (.fin 0), .add (.fin 7)]
      >>= fun p => p.estValueAtQuantile (.fin (0 : ℚ))) (fun r => r.1 = .fin (3 / 2)) := by decide +kernel

end examples

end AQ

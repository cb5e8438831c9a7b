/-
Properties C49–C52 and C76 (ParallelDigest, src/parallel_digest.rs).
-/
import Verif.Proofs.RCWeight
import Verif.Proofs.ParallelDigest
import Verif.Proofs.Linear
import Verif.Props.BufferedDigest
import Verif.Spec.F64
import Verif.Spec.TDigest

set_option linter.unusedSectionVars false
set_option linter.unusedVariables false

namespace AQ
open Prog Spec

section
variable {K : Type} [Field K] [LinearOrder K] [IsStrictOrderedRing K] [FloatFmt K]
variable {D : Type} [Digest D (Fl K)]

/-- C49. `add_buffer` of a non-empty slice on at least one sub-digest: the slice is cut into consecutive non-empty chunks, no
more than there are sub-digests; sub-digest `i` receives chunk `i`, those without a chunk are unchanged. -/
theorem C49_distributes (p : ParallelDigest D K) (hd : p.digests ≠ []) (buffer : List (Fl K)) :
    ∃ cs : List (List (Fl K)), cs.flatten = buffer ∧ (∀ c ∈ cs, c ≠ []) ∧ cs.length ≤ p.digests.length ∧
      Partially (p.addBuffer buffer) (fun p' => p'.digests.length = p.digests.length ∧
        ∀ (i : Nat) (d : D), p.digests[i]? = some d → ∃ d', p'.digests[i]? = some d' ∧
          match cs[i]? with
          | some c => CanReturn (Digest.addBuffer d c) d'
          | none => d' = d) := by
  have h0 := ParallelDigest.chunkLen_ne_zero buffer.length p.digests.length
  have hl : (chunksAux (ParallelDigest.chunkLen buffer.length p.digests.length) buffer.length buffer).length ≤
      p.digests.length := by
    rw [chunksAux_length _ h0 _ _ le_rfl]
    exact ParallelDigest.chunks_le_digests (List.length_pos_of_ne_nil hd).ne'
  refine ⟨_, chunksAux_flatten _ h0 _ _ le_rfl, chunksAux_ne_nil _ h0 _ _, hl, ?_⟩
  unfold ParallelDigest.addBuffer chunks
  rw [if_neg h0, bind_ret, partially_bind]
  refine (ParallelDigest.feed_partially _ _ hl).mono ?_
  intro ds hds
  rw [partially_bind]
  refine (partially_true _).mono ?_
  intro mx _
  rw [partially_bind]
  refine (partially_true _).mono ?_
  intro bmx _
  rw [partially_bind]
  refine (partially_true _).mono ?_
  intro mn _
  rw [partially_bind]
  refine (partially_true _).mono ?_
  intro bmn _
  exact hds

/-- C49. A non-empty slice without NaN is accepted whenever the sub-digests accept every chunk of it; the recorded limits become
the smallest and largest of the old limits and the items. -/
theorem C49_accepts (p : ParallelDigest D K) (hmn : p.min ≠ .nan) (hmx : p.max ≠ .nan) (buffer : List (Fl K))
    (hne : buffer ≠ []) (hnan : ∀ x ∈ buffer, x ≠ .nan)
    (hmem : ∀ d ∈ p.digests, ∀ c : List (Fl K), c ⊆ buffer → Always (Digest.addBuffer d c) (fun _ => True)) :
    Always (p.addBuffer buffer) (fun p' =>
      (p'.min = p.min ∨ p'.min ∈ buffer) ∧ p'.min ≤ p.min ∧ (∀ x ∈ buffer, p'.min ≤ x) ∧
      (p'.max = p.max ∨ p'.max ∈ buffer) ∧ p.max ≤ p'.max ∧ ∀ x ∈ buffer, x ≤ p'.max) := by
  have h0 := ParallelDigest.chunkLen_ne_zero buffer.length p.digests.length
  unfold ParallelDigest.addBuffer chunks
  rw [if_neg h0, bind_ret, always_bind]
  refine (ParallelDigest.feed_always _ _ ?_).mono ?_
  · intro c hc d hd
    refine hmem d hd c ?_
    intro x hx
    rw [← chunksAux_flatten _ h0 buffer.length buffer le_rfl]
    exact List.mem_flatten.2 ⟨c, hc, hx⟩
  · intro ds _
    obtain ⟨M, hM, hM1, hM2⟩ := maxBy_spec id buffer hne hnan
    obtain ⟨m, hm, hm1, hm2⟩ := minBy_spec id buffer hne hnan
    rw [hM, bind_ret, hm]
    simp only [unwrap_some, bind_ret]
    show ((Fl.fmin p.min m = p.min ∨ Fl.fmin p.min m ∈ buffer) ∧ Fl.fmin p.min m ≤ p.min ∧ (∀ x ∈ buffer, Fl.fmin p.min m ≤ x) ∧
      (Fl.fmax p.max M = p.max ∨ Fl.fmax p.max M ∈ buffer) ∧ p.max ≤ Fl.fmax p.max M ∧ ∀ x ∈ buffer, x ≤ Fl.fmax p.max M)
    rw [Fl.fmin_eq hmn (hnan _ hm1), Fl.fmax_eq hmx (hnan _ hM1)]
    refine ⟨?_, min_le_left _ _, fun x hx => (min_le_right _ _).trans (hm2 x hx), ?_, le_max_left _ _,
      fun x hx => (hM2 x hx).trans (le_max_right _ _)⟩
    · rcases min_choice p.min m with h | h
      · exact Or.inl h
      · rw [h]; exact Or.inr hm1
    · rcases max_choice p.max M with h | h
      · exact Or.inl h
      · rw [h]; exact Or.inr hM1

/-- `n` items have been counted, and this goes on. -/
def CountsFrom (d : D) (n : Nat) : Prop :=
  ∀ ops : List (Op (Fl K)), Partially (execAll d ops) (fun d' => Digest.count d' = .ret (n + (itemsOf ops).length))

theorem CountsFrom.step {d d' : D} {n : Nat} (h : CountsFrom (K := K) d n) (o : Op (Fl K)) (hr : CanReturn (o.exec d) d') :
    CountsFrom (K := K) d' (n + o.items.length) := by
  intro ops
  have := h (o :: ops)
  unfold execAll at this
  rw [partially_bind] at this
  refine ((partially_iff _ _).1 this _ hr).mono ?_
  intro e he
  rw [he]
  show Prog.ret (n + (o.items ++ itemsOf ops).length) = _
  rw [List.length_append, Nat.add_assoc]

theorem CountsFrom.count {d : D} {n : Nat} (h : CountsFrom (K := K) d n) : Digest.count d = .ret n := h []

/-- Members that have counted `N` items in all. -/
def ParallelDigest.Counted (N : Nat) (ds : List D) : Prop := ∃ ns : List Nat, List.Forall₂ (CountsFrom (K := K)) ds ns ∧ ns.sum = N

theorem ParallelDigest.feed_counted : ∀ (cs : List (List (Fl K))) (ds : List D) (N : Nat), cs.length ≤ ds.length →
    Counted (K := K) N ds → Partially (feed cs ds) (Counted (K := K) (N + cs.flatten.length))
  | [], ds, N, _, h => by simpa [feed] using h
  | c :: cs, [], N, h, _ => by simp at h
  | c :: cs, d :: ds, N, h, ⟨ns, hns, hsum⟩ => by
    cases hns with
    | cons hd hds =>
      rename_i n ns
      unfold feed
      rw [partially_bind, partially_iff]
      intro d' hd'
      rw [partially_bind]
      refine (feed_counted cs ds ns.sum (by simpa using h) ⟨ns, hds, rfl⟩).mono ?_
      rintro ds' ⟨ns', h1, h2⟩
      refine ⟨(n + c.length) :: ns', .cons (hd.step (.addBuffer c) hd') h1, ?_⟩
      rw [List.sum_cons] at hsum ⊢
      rw [h2, List.flatten_cons, List.length_append]
      omega

theorem ParallelDigest.addBuffer_counted (p : ParallelDigest D K) (hd : p.digests ≠ []) (N : Nat)
    (h : Counted (K := K) N p.digests) (buffer : List (Fl K)) :
    Partially (p.addBuffer buffer) (fun p' => p'.digests ≠ [] ∧ Counted (K := K) (N + buffer.length) p'.digests) := by
  have h0 := ParallelDigest.chunkLen_ne_zero buffer.length p.digests.length
  have hl : (chunksAux (ParallelDigest.chunkLen buffer.length p.digests.length) buffer.length buffer).length ≤
      p.digests.length := by
    rw [chunksAux_length _ h0 _ _ le_rfl]
    exact ParallelDigest.chunks_le_digests (List.length_pos_of_ne_nil hd).ne'
  have hfl := chunksAux_flatten _ h0 buffer.length buffer le_rfl
  unfold ParallelDigest.addBuffer chunks
  rw [if_neg h0, bind_ret, partially_bind]
  refine ((ParallelDigest.feed_partially _ _ hl).and (ParallelDigest.feed_counted _ _ N hl h)).mono ?_
  rintro ds ⟨⟨hlen, -⟩, hc⟩
  rw [hfl] at hc
  have : ds ≠ [] := by
    intro h0
    rw [h0] at hlen
    exact hd (List.length_eq_zero_iff.1 hlen.symm)
  rw [partially_bind]
  refine (partially_true _).mono ?_
  intro mx _
  rw [partially_bind]
  refine (partially_true _).mono ?_
  intro bmx _
  rw [partially_bind]
  refine (partially_true _).mono ?_
  intro mn _
  rw [partially_bind]
  refine (partially_true _).mono ?_
  intro bmn _
  exact ⟨this, hc⟩

theorem ParallelDigest.rankLoop_counted (v : Fl K) : ∀ (ds : List D) (acc : Fl K) (N : Nat), Counted (K := K) N ds →
    Partially (rankLoop v ds acc) (fun r => r.2.length = ds.length ∧ Counted (K := K) N r.2)
  | [], acc, N, h => ⟨rfl, h⟩
  | d :: ds, acc, N, ⟨ns, hns, hsum⟩ => by
    cases hns with
    | cons hd hds =>
      rename_i n ns
      unfold rankLoop
      rw [partially_bind, partially_iff]
      intro r hr
      rw [partially_bind, partially_iff]
      intro _ _
      rw [partially_bind]
      refine (rankLoop_counted v ds _ ns.sum ⟨ns, hds, rfl⟩).mono ?_
      rintro s ⟨h0, ns', h1, h2⟩
      refine ⟨by simp [h0], n :: ns', .cons ?_ h1, ?_⟩
      · exact hd.step (.quantile v) (canReturn_bind.2 ⟨r, hr, rfl⟩)
      · rw [List.sum_cons] at hsum ⊢
        rw [h2]; exact hsum

theorem ParallelDigest.estQuantile_counted (p : ParallelDigest D K) (v : Fl K) (N : Nat) (hd : p.digests ≠ [])
    (h : Counted (K := K) N p.digests) :
    Partially (p.estQuantileAtValue v) (fun r => r.2.digests ≠ [] ∧ Counted (K := K) N r.2.digests) := by
  unfold estQuantileAtValue
  rw [partially_bind]
  refine (rankLoop_counted v p.digests _ N h).mono ?_
  rintro r ⟨h1, h2⟩
  rw [partially_bind]
  refine (partially_true _).mono ?_
  intro c _
  refine ⟨?_, h2⟩
  intro h0
  have h0 : r.2 = [] := h0
  rw [h0] at h1
  exact hd (List.length_eq_zero_iff.1 h1.symm)

theorem ParallelDigest.searchLoop_counted (t : Fl K) (N : Nat) : ∀ (fuel : Nat) (p : ParallelDigest D K) (s e m : Fl K),
    p.digests ≠ [] → Counted (K := K) N p.digests →
    Partially (searchLoop t fuel p s e m) (fun r => r.2.2.2.digests ≠ [] ∧ Counted (K := K) N r.2.2.2.digests)
  | 0, _, _, _, _, _, _ => trivial
  | n + 1, p, s, e, m, hd, h => by
    unfold searchLoop
    split
    · simp only [partially_bind]
      refine (estQuantile_counted p _ N hd h).mono ?_
      rintro r ⟨h1, h2⟩
      split
      · trivial
      · exact searchLoop_counted t N n _ _ _ _ h1 h2
      · exact searchLoop_counted t N n _ _ _ _ h1 h2
    · exact ⟨hd, h⟩

theorem ParallelDigest.exec_counted (p : ParallelDigest D K) (N : Nat) (hd : p.digests ≠ [])
    (h : Counted (K := K) N p.digests) (o : Op (Fl K)) :
    Partially (o.exec p) (fun p' => p'.digests ≠ [] ∧ Counted (K := K) (N + o.items.length) p'.digests) := by
  cases o with
  | add x => exact addBuffer_counted p hd N h [x]
  | addBuffer xs => exact addBuffer_counted p hd N h xs
  | quantile v =>
    show Partially (p.estQuantileAtValue v >>= fun r => .ret r.2) _
    rw [partially_bind]
    exact estQuantile_counted p v N hd h
  | value q =>
    show Partially (p.estValueAtQuantile q >>= fun r => .ret r.2) _
    rw [partially_bind]
    unfold estValueAtQuantile
    rw [partially_bind]
    refine (searchLoop_counted q N _ p _ _ _ hd h).mono ?_
    rintro r ⟨h1, h2⟩
    rw [partially_bind]
    refine (estQuantile_counted _ _ N h1 h2).mono ?_
    rintro s ⟨h3, h4⟩
    split
    · exact ⟨h3, h4⟩
    · rw [partially_bind]
      refine (estQuantile_counted _ _ N h3 h4).mono ?_
      rintro s' ⟨h5, h6⟩
      split
      · exact ⟨h5, h6⟩
      · exact ⟨h5, h6⟩

theorem ParallelDigest.execAll_counted : ∀ (ops : List (Op (Fl K))) (p : ParallelDigest D K) (N : Nat), p.digests ≠ [] →
    Counted (K := K) N p.digests → Partially (execAll p ops) (fun p' => Counted (K := K) (N + (itemsOf ops).length) p'.digests)
  | [], p, N, _, h => h
  | o :: os, p, N, hd, h => by
    unfold execAll
    rw [partially_bind]
    refine (exec_counted p N hd h o).mono ?_
    rintro p' ⟨h1, h2⟩
    refine (execAll_counted os p' _ h1 h2).mono ?_
    intro p'' h3
    have e : (itemsOf (o :: os)).length = o.items.length + (itemsOf os).length := by
      show (o.items ++ itemsOf os).length = _
      rw [List.length_append]
    rw [e, ← Nat.add_assoc]
    exact h3

/-- C49. `count()` is the number of items supplied, after every history, if that is so for each of the (at least one) fresh
sub-digests: no item is lost or delivered twice. -/
theorem C49_count (ds : List D) (hne : ds ≠ []) (hd : ∀ d ∈ ds, CountsItems d) :
    CountsItems (ParallelDigest.new ds : ParallelDigest D K) := by
  intro ops
  have h0 : ParallelDigest.Counted (K := K) 0 ds := by
    refine ⟨ds.map (fun _ => 0), ?_, by simp⟩
    rw [List.forall₂_map_right_iff]
    exact List.forall₂_same.2 (fun d h os => by rw [Nat.zero_add]; exact hd d h os)
  refine (ParallelDigest.execAll_counted ops (ParallelDigest.new ds) 0 hne h0).mono ?_
  rintro p ⟨ns, h1, h2⟩
  rw [Nat.zero_add] at h2
  rw [← h2]
  exact ParallelDigest.sumCounts_eq _ _ (h1.imp (fun d n h => h.count))

/-- The limits after the items `l`. -/
def ParallelDigest.Limits (l : List (Fl K)) (p : ParallelDigest D K) : Prop :=
  (l = [] → p.min = Fl.maxValue ∧ p.max = Fl.minValue) ∧
  (l ≠ [] → (p.min ∈ l ∧ ∀ x ∈ l, p.min ≤ x) ∧ (p.max ∈ l ∧ ∀ x ∈ l, x ≤ p.max))

theorem ParallelDigest.estQuantile_limits (p : ParallelDigest D K) (v : Fl K) :
    Partially (p.estQuantileAtValue v) (fun r => r.2.min = p.min ∧ r.2.max = p.max) := by
  unfold ParallelDigest.estQuantileAtValue
  rw [partially_bind]
  refine (partially_true _).mono ?_
  intro r _
  rw [partially_bind]
  refine (partially_true _).mono ?_
  intro n _
  exact ⟨rfl, rfl⟩

theorem ParallelDigest.searchLoop_limits (t : Fl K) (P : Fl K → Prop) (hP : ∀ a b, P a → P b → P ((a + b) / Fl.lit 2)) :
    ∀ (n : Nat) (p : ParallelDigest D K) (s e m : Fl K), P s → P e → P m →
      Partially (searchLoop t n p s e m) (fun r => r.2.2.2.min = p.min ∧ r.2.2.2.max = p.max ∧ P r.1 ∧ P r.2.1 ∧ P r.2.2.1)
  | 0, p, s, e, m, _, _, _ => trivial
  | n + 1, p, s, e, m, hs, he, hm => by
    unfold searchLoop
    split
    · rw [partially_bind]
      refine (estQuantile_limits p _).mono ?_
      rintro r ⟨h1, h2⟩
      split
      · trivial
      · refine (searchLoop_limits t P hP n r.2 s _ _ hs (hP s e hs he) (hP s e hs he)).mono ?_
        rintro r' ⟨h3, h4, h5⟩
        exact ⟨h3.trans h1, h4.trans h2, h5⟩
      · refine (searchLoop_limits t P hP n r.2 _ e _ (hP s e hs he) he (hP s e hs he)).mono ?_
        rintro r' ⟨h3, h4, h5⟩
        exact ⟨h3.trans h1, h4.trans h2, h5⟩
    · exact ⟨rfl, rfl, hs, he, hm⟩

theorem ParallelDigest.estValue_limits (p : ParallelDigest D K) (t : Fl K) (P : Fl K → Prop)
    (hP : ∀ a b, P a → P b → P ((a + b) / Fl.lit 2)) (h1 : P p.min) (h2 : P p.max) :
    Partially (p.estValueAtQuantile t) (fun r => r.2.min = p.min ∧ r.2.max = p.max ∧ P r.1) := by
  unfold ParallelDigest.estValueAtQuantile
  rw [partially_bind]
  refine (searchLoop_limits t P hP 1000 p _ _ _ h1 h2 (hP _ _ h1 h2)).mono ?_
  rintro r ⟨a1, a2, a3, a4, a5⟩
  rw [partially_bind]
  refine (estQuantile_limits _ _).mono ?_
  rintro s ⟨b1, b2⟩
  split
  · exact ⟨b1.trans a1, b2.trans a2, a3⟩
  · rw [partially_bind]
    refine (estQuantile_limits _ _).mono ?_
    rintro u ⟨c1, c2⟩
    split
    · exact ⟨c1.trans (b1.trans a1), c2.trans (b2.trans a2), a5⟩
    · exact ⟨c1.trans (b1.trans a1), c2.trans (b2.trans a2), a4⟩

theorem ParallelDigest.addBuffer_limits {l : List (Fl K)} {p : ParallelDigest D K} (h : Limits l p) (xs : List (Fl K))
    (hl : ∀ x ∈ l ++ xs, x ≠ .nan ∧ Fl.minValue ≤ x ∧ x ≤ Fl.maxValue) :
    Partially (p.addBuffer xs) (fun p' => Limits (l ++ xs) p') := by
  have h0 := ParallelDigest.chunkLen_ne_zero xs.length p.digests.length
  unfold ParallelDigest.addBuffer chunks
  rw [if_neg h0, bind_ret, partially_bind]
  refine (partially_true _).mono ?_
  intro ds _
  rcases eq_or_ne xs [] with rfl | hne
  · exact trivial
  · have hnan : ∀ x ∈ xs, x ≠ .nan := fun x hx => (hl x (by simp [hx])).1
    obtain ⟨M, hM, hM1, hM2⟩ := maxBy_spec id xs hne hnan
    obtain ⟨m, hm, hm1, hm2⟩ := minBy_spec id xs hne hnan
    rw [hM, bind_ret, hm]
    simp only [unwrap_some, bind_ret]
    show Limits (l ++ xs) ⟨ds, Fl.fmin p.min m, Fl.fmax p.max M⟩
    refine ⟨fun e => absurd (List.append_eq_nil_iff.1 e).2 hne, fun _ => ?_⟩
    rcases eq_or_ne l [] with rfl | hl0
    · obtain ⟨e1, e2⟩ := h.1 rfl
      have n1 : (Fl.maxValue : Fl K) ≠ .nan := by simp [Fl.maxValue]
      have n2 : (Fl.minValue : Fl K) ≠ .nan := by simp [Fl.minValue]
      simp only [e1, e2, Fl.fmin_eq n1 (hnan _ hm1), Fl.fmax_eq n2 (hnan _ hM1), List.nil_append] at hl ⊢
      rw [min_eq_right (hl m hm1).2.2, max_eq_right (hl M hM1).2.1]
      exact ⟨⟨hm1, hm2⟩, ⟨hM1, hM2⟩⟩
    · obtain ⟨⟨a1, a2⟩, ⟨b1, b2⟩⟩ := h.2 hl0
      have n1 : p.min ≠ .nan := (hl _ (List.mem_append_left _ a1)).1
      have n2 : p.max ≠ .nan := (hl _ (List.mem_append_left _ b1)).1
      simp only [Fl.fmin_eq n1 (hnan _ hm1), Fl.fmax_eq n2 (hnan _ hM1)]
      refine ⟨⟨?_, ?_⟩, ⟨?_, ?_⟩⟩
      · rcases min_choice p.min m with e | e <;> rw [e]
        · exact List.mem_append_left _ a1
        · exact List.mem_append_right _ hm1
      · intro x hx
        rcases List.mem_append.1 hx with hx | hx
        · exact (min_le_left _ _).trans (a2 x hx)
        · exact (min_le_right _ _).trans (hm2 x hx)
      · rcases max_choice p.max M with e | e <;> rw [e]
        · exact List.mem_append_left _ b1
        · exact List.mem_append_right _ hM1
      · intro x hx
        rcases List.mem_append.1 hx with hx | hx
        · exact (b2 x hx).trans (le_max_left _ _)
        · exact (hM2 x hx).trans (le_max_right _ _)

theorem ParallelDigest.execAll_limits : ∀ (ops : List (Op (Fl K))) (l : List (Fl K)) (p : ParallelDigest D K), Limits l p →
    (∀ x ∈ l ++ itemsOf ops, x ≠ .nan ∧ Fl.minValue ≤ x ∧ x ≤ Fl.maxValue) →
    Partially (execAll p ops) (fun p' => Limits (l ++ itemsOf ops) p')
  | [], l, p, h, _ => by
    show Limits (l ++ []) p
    rwa [List.append_nil]
  | o :: os, l, p, h, hl => by
    have e : itemsOf (o :: os) = o.items ++ itemsOf os := rfl
    rw [e, ← List.append_assoc] at hl ⊢
    unfold execAll
    rw [partially_bind]
    have h1 : ∀ x ∈ l ++ o.items, x ≠ .nan ∧ Fl.minValue ≤ x ∧ x ≤ Fl.maxValue := fun x hx => hl x (List.mem_append_left _ hx)
    have step : Partially (o.exec p) (fun p' => Limits (l ++ o.items) p') := by
      cases o with
      | add x => exact addBuffer_limits h [x] h1
      | addBuffer xs => exact addBuffer_limits h xs h1
      | quantile v =>
        show Partially (p.estQuantileAtValue v >>= _) _
        rw [partially_bind]
        refine (estQuantile_limits p v).mono ?_
        rintro r ⟨e1, e2⟩
        show Limits (l ++ []) r.2
        rw [List.append_nil]
        unfold Limits
        rw [e1, e2]
        exact h
      | value q =>
        show Partially (p.estValueAtQuantile q >>= _) _
        rw [partially_bind]
        refine (estValue_limits p q (fun _ => True) (fun _ _ _ _ => trivial) trivial trivial).mono ?_
        rintro r ⟨e1, e2, -⟩
        show Limits (l ++ []) r.2
        rw [List.append_nil]
        unfold Limits
        rw [e1, e2]
        exact h
    refine step.mono ?_
    intro p' hp'
    exact execAll_limits os _ p' hp' hl

/-- C49. After any history with at least one item the recorded limits are the smallest and the largest item supplied (items within
the range of the format, not NaN), whatever the sub-digests do. -/
theorem C49_limits (ds : List D) (ops : List (Op (Fl K))) (hne : itemsOf ops ≠ [])
    (hl : ∀ x ∈ itemsOf ops, x ≠ .nan ∧ Fl.minValue ≤ x ∧ x ≤ Fl.maxValue) :
    Partially (execAll (ParallelDigest.new ds : ParallelDigest D K) ops) (fun p =>
      (p.min ∈ itemsOf ops ∧ ∀ x ∈ itemsOf ops, p.min ≤ x) ∧ (p.max ∈ itemsOf ops ∧ ∀ x ∈ itemsOf ops, x ≤ p.max)) := by
  refine (ParallelDigest.execAll_limits ops [] _ ⟨fun _ => ⟨rfl, rfl⟩, fun h => absurd rfl h⟩ (by simpa using hl)).mono ?_
  intro p hp
  exact hp.2 hne

/-- C51. After any history of finite items, none of which overflows when doubled, a value query that returns does so with a number
between the smallest and the largest item, whatever the sub-digests do and whatever the target. In exact and in floating-point
arithmetic; the restriction is needed, `C90_overflow_f64`. -/
theorem C51_value_within_data [hB : FloatFmt.Binary K] (ds : List D) (ops : List (Op (Fl K))) (hne : itemsOf ops ≠ [])
    (hl : ∀ x ∈ itemsOf ops, Item x ∧ x.CanDouble) (t : Fl K) :
    Partially (execAll (ParallelDigest.new ds : ParallelDigest D K) ops >>= fun p => p.estValueAtQuantile t) (fun r =>
      r.1.IsFin ∧ (∃ x ∈ itemsOf ops, x ≤ r.1) ∧ ∃ x ∈ itemsOf ops, r.1 ≤ x) := by
  rw [partially_bind]
  refine (C49_limits ds ops hne (fun x hx => ?_)).mono ?_
  · obtain ⟨⟨⟨y, hy⟩, h2⟩, -⟩ := hl x hx
    exact ⟨by rw [hy]; simp, h2⟩
  · rintro p ⟨⟨a1, -⟩, ⟨b1, b2⟩⟩
    have hof : (Fl.ofNat 2 : Fl K) = Fl.lit 2 := by
      show FloatFmt.rnd ((2 : ℕ) : K) = FloatFmt.rnd 2
      rw [Nat.cast_ofNat]
    refine (ParallelDigest.estValue_limits p t (fun z => z.CanDouble ∧ p.min ≤ z ∧ z ≤ p.max) ?_ ⟨(hl _ a1).2, le_rfl, b2 _ a1⟩
      ⟨(hl _ b1).2, b2 _ a1, le_rfl⟩).mono ?_
    · have key : ∀ a b : Fl K, a ≤ b → (a.CanDouble ∧ p.min ≤ a ∧ a ≤ p.max) → (b.CanDouble ∧ p.min ≤ b ∧ b ≤ p.max) →
          ((a + b) / Fl.lit 2).CanDouble ∧ p.min ≤ (a + b) / Fl.lit 2 ∧ (a + b) / Fl.lit 2 ≤ p.max := by
        rintro a b hab ⟨u0, u1, u2⟩ ⟨v0, v1, v2⟩
        have := RCSketch.avg_mem u0 v0 hab
        rw [hof] at this
        exact ⟨this.1, u1.trans this.2.1, this.2.2.trans v2⟩
      intro a b ha hb
      rcases le_total a b with hab | hab
      · exact key a b hab ha hb
      · have := key b a hab hb ha
        have e : a + b = b + a := by
          obtain ⟨⟨x, rfl, -⟩, -⟩ := ha
          obtain ⟨⟨y, rfl, -⟩, -⟩ := hb
          rw [Fl.add_fin, Fl.add_fin, add_comm]
        rwa [e]
    · rintro r ⟨-, -, ⟨v, hv, -⟩, v1, v2⟩
      exact ⟨⟨v, hv⟩, ⟨_, a1, v1⟩, ⟨_, b1, v2⟩⟩

/-- C52, what holds: see `C49_accepts` for non-empty buffers. The empty buffer panics, whatever the digests. -/
theorem C52_empty_buffer_panics (p : ParallelDigest D K) : Panics (p.addBuffer []) := by
  have h0 := ParallelDigest.chunkLen_ne_zero 0 p.digests.length
  unfold ParallelDigest.addBuffer chunks
  rw [List.length_nil, if_neg h0, bind_ret]
  show Panics (Prog.ret p.digests >>= _)
  rw [bind_ret]
  show Panics (Prog.ret none >>= _)
  rw [bind_ret]
  exact panics_bind_left (by simp [Panics, unwrap])

/-- C52, a consequence: in a BufferedDigest around a ParallelDigest, every query that follows another query with no item between
panics, because flushing hands over the empty buffer. -/
theorem C52_buffered_second_query_panics (b : BufferedDigest (ParallelDigest D K) (Fl K)) (v w : Fl K) :
    (Partially (b.estQuantileAtValue v) (fun r => Panics (r.2.estQuantileAtValue w) ∧ Panics (r.2.estValueAtQuantile w))) ∧
    (Partially (b.estValueAtQuantile v) (fun r => Panics (r.2.estQuantileAtValue w) ∧ Panics (r.2.estValueAtQuantile w))) := by
  have key : ∀ b : BufferedDigest (ParallelDigest D K) (Fl K), b.buffer = [] →
      Panics (b.estQuantileAtValue w) ∧ Panics (b.estValueAtQuantile w) := by
    intro b hb
    have hf : Panics b.flush := by
      unfold BufferedDigest.flush
      rw [hb]
      exact panics_bind_left (C52_empty_buffer_panics b.digest)
    exact ⟨panics_bind_left hf, panics_bind_left hf⟩
  have hfl : Partially b.flush (fun b' => b'.buffer = []) := by
    unfold BufferedDigest.flush
    rw [partially_bind]
    exact (partially_true _).mono (fun _ _ => rfl)
  constructor
  · unfold BufferedDigest.estQuantileAtValue
    rw [partially_bind]
    refine hfl.mono ?_
    intro b' hb'
    rw [partially_bind]
    exact (partially_true _).mono (fun r _ => key _ hb')
  · unfold BufferedDigest.estValueAtQuantile
    rw [partially_bind]
    refine hfl.mono ?_
    intro b' hb'
    rw [partially_bind]
    exact (partially_true _).mono (fun r _ => key _ hb')

/-- C52, partial: every other buffer (without NaN) is accepted when the sub-digests accept its chunks. -/
theorem C52_nonempty_accepted_partial (p : ParallelDigest D K) (hmn : p.min ≠ .nan) (hmx : p.max ≠ .nan)
    (buffer : List (Fl K)) (hne : buffer ≠ []) (hnan : ∀ x ∈ buffer, x ≠ .nan)
    (hmem : ∀ d ∈ p.digests, ∀ c : List (Fl K), c ≠ [] → c ⊆ buffer → Always (Digest.addBuffer d c) (fun _ => True)) :
    Always (p.addBuffer buffer) (fun _ => True) := by
  have h0 := ParallelDigest.chunkLen_ne_zero buffer.length p.digests.length
  unfold ParallelDigest.addBuffer chunks
  rw [if_neg h0, bind_ret, always_bind]
  refine (ParallelDigest.feed_always _ _ ?_).mono ?_
  · intro c hc d hd
    refine hmem d hd c (chunksAux_ne_nil _ h0 _ _ c hc) ?_
    intro x hx
    rw [← chunksAux_flatten _ h0 buffer.length buffer le_rfl]
    exact List.mem_flatten.2 ⟨c, hc, hx⟩
  · intro ds _
    obtain ⟨M, hM, hM1, hM2⟩ := maxBy_spec id buffer hne hnan
    obtain ⟨m, hm, hm1, hm2⟩ := minBy_spec id buffer hne hnan
    rw [hM, bind_ret, hm]
    simp only [unwrap_some, bind_ret]
    exact trivial

/-- C50, partial: when all sub-digests answer with numbers the answer is their mean weighted by the counts. The restriction is
needed: `C50_empty_member_nan`. -/
theorem C50_weighted_mean_partial [FloatFmt.Exact K] (p : ParallelDigest D K) (v : Fl K) :
    Partially (p.estQuantileAtValue v) (fun r => ∃ rs : List (Fl K × D),
      List.Forall₂ (fun d s => CanReturn (Digest.estQuantileAtValue d v) s) p.digests rs ∧
      r.2 = { p with digests := rs.map Prod.snd } ∧
      ∀ (as : List K) (ns : List Nat), rs.map Prod.fst = as.map Fl.fin →
        List.Forall₂ (fun s n => Digest.count s.2 = .ret n) rs ns → ns.sum ≠ 0 →
        r.1 = .fin ((List.zipWith (fun a (n : Nat) => a * (n : K)) as ns).sum / (ns.sum : Nat))) := by
  unfold ParallelDigest.estQuantileAtValue
  rw [partially_bind]
  refine (ParallelDigest.rankLoop_partially v p.digests _).mono ?_
  rintro r ⟨rs, h1, h2, h3⟩
  rw [partially_bind, partially_iff]
  intro c hc
  refine ⟨rs, h1, by rw [← h2], ?_⟩
  intro as ns has hns h0
  have hc' : sumCounts (rs.map Prod.snd) = .ret ns.sum :=
    ParallelDigest.sumCounts_eq _ _ (by rw [List.forall₂_map_left_iff]; exact hns)
  have hc : CanReturn (sumCounts r.2) c := hc
  rw [h2, hc'] at hc
  obtain rfl : ns.sum = c := hc
  show r.1 / _ = _
  rw [h3 0 as ns (Fl.lit_exact _) has hns, Fl.ofNat_exact, Fl.div_exact _ (Nat.cast_ne_zero.2 h0), zero_add]

theorem zipWith_between {lo hi : K} : ∀ (as : List K) (ns : List Nat), as.length = ns.length → (∀ a ∈ as, lo ≤ a ∧ a ≤ hi) →
    lo * (ns.sum : Nat) ≤ (List.zipWith (fun a (n : Nat) => a * (n : K)) as ns).sum ∧
    (List.zipWith (fun a (n : Nat) => a * (n : K)) as ns).sum ≤ hi * (ns.sum : Nat)
  | [], [], _, _ => by simp
  | [], _ :: _, h, _ => by simp at h
  | _ :: _, [], h, _ => by simp at h
  | a :: as, n :: ns, h, hb => by
    obtain ⟨h1, h2⟩ := zipWith_between as ns (by simpa using h) (fun b hb' => hb b (by simp [hb']))
    have ha := hb a (by simp)
    have hn : (0 : K) ≤ n := Nat.cast_nonneg _
    simp only [List.zipWith_cons_cons, List.sum_cons, Nat.cast_add]
    constructor
    · nlinarith [mul_le_mul_of_nonneg_right ha.1 hn]
    · nlinarith [mul_le_mul_of_nonneg_right ha.2 hn]

/-- C50, partial: an interval that surely contains all sub-digests' answers contains the answer; in particular `[0, 1]`. -/
theorem C50_between_members_partial [FloatFmt.Exact K] (p : ParallelDigest D K) (hne : p.digests ≠ []) (v : Fl K) (lo hi : K)
    (h : ∀ d ∈ p.digests, Always (Digest.estQuantileAtValue d v) (fun r =>
      (∃ a : K, r.1 = .fin a ∧ lo ≤ a ∧ a ≤ hi) ∧ ∃ n, Digest.count r.2 = .ret n ∧ n ≠ 0)) :
    Always (p.estQuantileAtValue v) (fun r => ∃ a : K, r.1 = .fin a ∧ lo ≤ a ∧ a ≤ hi) := by
  have hrs : ∀ {ds : List D} {rs : List (Fl K × D)}, List.Forall₂ (fun d s => CanReturn (Digest.estQuantileAtValue d v) s) ds rs →
      (∀ d ∈ ds, Always (Digest.estQuantileAtValue d v) (fun r =>
      (∃ a : K, r.1 = .fin a ∧ lo ≤ a ∧ a ≤ hi) ∧ ∃ n, Digest.count r.2 = .ret n ∧ n ≠ 0)) →
      ∃ (as : List K) (ns : List Nat), rs.map Prod.fst = as.map Fl.fin ∧ as.length = ns.length ∧ as.length = ds.length ∧
        List.Forall₂ (fun s n => Digest.count s.2 = .ret n) rs ns ∧ (∀ a ∈ as, lo ≤ a ∧ a ≤ hi) ∧ ∀ n ∈ ns, n ≠ 0 := by
    intro ds rs hf
    induction hf with
    | nil => intro _; exact ⟨[], [], rfl, rfl, rfl, .nil, by simp, by simp⟩
    | cons h1 h2 ih =>
      rename_i d s ds rs
      intro h
      obtain ⟨as, ns, e1, e2, e3, e4, e5, e6⟩ := ih (fun d' hd' => h d' (by simp [hd']))
      obtain ⟨⟨a, ha, hab⟩, n, hn, hn0⟩ := (always_iff _ _).1 (h d (by simp)) |>.1 s h1
      refine ⟨a :: as, n :: ns, by simp [e1, ha], by simp [e2], by simp [e3], .cons hn e4, ?_, ?_⟩
      · intro b hb
        rcases List.mem_cons.1 hb with rfl | hb
        · exact hab
        · exact e5 b hb
      · intro b hb
        rcases List.mem_cons.1 hb with rfl | hb
        · exact hn0
        · exact e6 b hb
  have hsum : ∀ {ds : List D} {as : List K} {ns : List Nat}, ds ≠ [] → as.length = ns.length → as.length = ds.length →
      (∀ n ∈ ns, n ≠ 0) → ns.sum ≠ 0 := by
    intro ds as ns h0 h1 h2 h3 h4
    cases ns with
    | nil =>
      simp only [List.length_nil] at h1
      rw [h1] at h2
      exact h0 (List.length_eq_zero_iff.1 h2.symm)
    | cons n ns =>
      rw [List.sum_cons] at h4
      exact h3 n (by simp) (by omega)
  have hal : Always (p.estQuantileAtValue v) (fun _ => True) := by
    unfold ParallelDigest.estQuantileAtValue
    rw [always_bind]
    have h1 := (ParallelDigest.rankLoop_always v (P := fun _ => True) p.digests (Fl.lit 0) (fun d hd =>
      (h d hd).mono (fun r hr => ⟨trivial, hr.2.imp fun n hn => hn.1⟩)))
    refine (h1.and (ParallelDigest.rankLoop_partially v p.digests _)).mono ?_
    rintro r ⟨-, rs, h2, h3, -⟩
    obtain ⟨as, ns, e1, e2, e3, e4, e5, e6⟩ := hrs h2 h
    have hc' : sumCounts r.2 = .ret ns.sum := by
      rw [h3]
      exact ParallelDigest.sumCounts_eq _ _ (by rw [List.forall₂_map_left_iff]; exact e4)
    rw [always_bind]
    show Always (sumCounts r.2) _
    rw [hc']
    trivial
  refine (hal.and (C50_weighted_mean_partial p v)).mono ?_
  rintro r ⟨-, rs, h2, -, h4⟩
  obtain ⟨as, ns, e1, e2, e3, e4, e5, e6⟩ := hrs h2 h
  have h0 := hsum hne e2 e3 e6
  have hN : (0 : K) < (ns.sum : Nat) := Nat.cast_pos.2 (Nat.pos_of_ne_zero h0)
  obtain ⟨b1, b2⟩ := zipWith_between as ns e2 e5
  exact ⟨_, h4 as ns e1 e4 h0, by rw [le_div_iff₀ hN]; exact b1, by rw [div_le_iff₀ hN]; exact b2⟩

/-- A sub-digest that answers quantile queries with the function `Q` without changing, and has counted `n` items. -/
def Steady (d : D) (Q : K → K) (n : Nat) : Prop :=
  (∀ x : K, Digest.estQuantileAtValue d (.fin x) = .ret ((.fin (Q x) : Fl K), d)) ∧ Digest.count d = .ret n

/-- The mean of the functions `Q` weighted by `n`. -/
def weightedMean (Qs : List ((K → K) × Nat)) (x : K) : K := (Qs.map (fun s => s.1 x * (s.2 : K))).sum / ((Qs.map Prod.snd).sum : Nat)

theorem ParallelDigest.steady_eq [FloatFmt.Exact K] (p : ParallelDigest D K) (Qs : List ((K → K) × Nat))
    (h : List.Forall₂ (fun d s => Steady d s.1 s.2) p.digests Qs) (h0 : (Qs.map Prod.snd).sum ≠ 0) (x : K) :
    p.estQuantileAtValue (.fin x) = .ret (.fin (weightedMean Qs x), p) := by
  have hloop : ∀ {ds : List D} {Qs : List ((K → K) × Nat)}, List.Forall₂ (fun d s => Steady d s.1 s.2) ds Qs → ∀ a : K,
      rankLoop (.fin x) ds (.fin a) = .ret (.fin (a + (Qs.map (fun s => s.1 x * (s.2 : K))).sum), ds) := by
    intro ds Qs hf
    induction hf with
    | nil => intro a; simp [rankLoop]
    | cons h1 h2 ih =>
      intro a
      unfold rankLoop
      rw [h1.1 x, bind_ret, h1.2, bind_ret, Fl.ofNat_exact, Fl.mul_exact, Fl.add_exact, ih, bind_ret, List.map_cons,
        List.sum_cons, add_assoc]
      rfl
  have hcount : sumCounts p.digests = .ret (Qs.map Prod.snd).sum :=
    ParallelDigest.sumCounts_eq _ _ (by rw [List.forall₂_map_right_iff]; exact h.imp (fun d s hs => hs.2))
  unfold estQuantileAtValue
  rw [Fl.lit_exact, hloop h, bind_ret, zero_add]
  show (sumCounts p.digests >>= _) = _
  rw [hcount, bind_ret, Fl.ofNat_exact, Fl.div_exact _ (Nat.cast_ne_zero.2 h0)]
  rfl

/-- C50, partial: monotone sub-digests give a monotone answer. -/
theorem C50_monotone_partial [FloatFmt.Exact K] (p : ParallelDigest D K) (Qs : List ((K → K) × Nat))
    (h : List.Forall₂ (fun d s => Steady d s.1 s.2) p.digests Qs) (h0 : (Qs.map Prod.snd).sum ≠ 0)
    (hmono : ∀ s ∈ Qs, Monotone s.1) (x y : K) (hxy : x ≤ y) :
    ∃ a b : K, p.estQuantileAtValue (.fin x) = .ret (.fin a, p) ∧ p.estQuantileAtValue (.fin y) = .ret (.fin b, p) ∧ a ≤ b := by
  refine ⟨_, _, p.steady_eq Qs h h0 x, p.steady_eq Qs h h0 y, ?_⟩
  refine div_le_div_of_nonneg_right ?_ (Nat.cast_nonneg _)
  refine List.sum_le_sum ?_
  intro s hs
  exact mul_le_mul_of_nonneg_right (hmono s hs hxy) (Nat.cast_nonneg _)

/-- C51. Let the quantile queries inside `[min, max]` surely be answered with numbers (`A x y`: `y` is a possible answer at
`x`; `I`: what is known about the sub-digests, kept by queries). Then the value query returns, within the recorded limits, a
value `v` in a bracket `[s, e]` of relative width at most 10⁻⁶; the answer at `s` was at most the target (or `s` is the
minimum), the answer at `e` above it (or `e` is the maximum), and `v` is `e` unless its own answer reached the target. -/
theorem C51_value_search [FloatFmt.Exact K] (I : List D → Prop) (A : K → K → Prop) (lo hi t : K) (hlh : lo ≤ hi)
    (hI : ∀ ds, I ds → ∀ x, lo ≤ x → x ≤ hi →
      Always ((⟨ds, .fin lo, .fin hi⟩ : ParallelDigest D K).estQuantileAtValue (.fin x)) (fun r =>
        (∃ y, r.1 = .fin y ∧ A x y) ∧ I r.2.digests))
    (ds : List D) (hds : I ds) :
    Always ((⟨ds, .fin lo, .fin hi⟩ : ParallelDigest D K).estValueAtQuantile (.fin t)) (fun r =>
      I r.2.digests ∧ ∃ v s e : K, r.1 = .fin v ∧ lo ≤ s ∧ s ≤ v ∧ v ≤ e ∧ e ≤ hi ∧
        e - s ≤ 1 / 1000000 * (|lo| + |hi|) ∧ (s = lo ∨ ∃ y, A s y ∧ y ≤ t) ∧ (e = hi ∨ ∃ y, A e y ∧ t < y) ∧
        (v = e ∨ ∃ y, A v y ∧ t ≤ y)) := by
  unfold ParallelDigest.estValueAtQuantile
  rw [always_bind]
  simp only [Fl.add_exact, Fl.lit_exact, Fl.div_exact _ (two_ne_zero : (2 : K) ≠ 0)]
  have hw : hi - lo ≤ |lo| + |hi| := by
    have := le_abs_self hi
    have := neg_abs_le lo
    linarith
  refine (ParallelDigest.searchLoop_always I A lo hi t hI 20 1000 ds lo hi ((lo + hi) / 2) hds (by omega) le_rfl hlh le_rfl
    (by linarith) (by linarith) ?_ (Or.inl rfl) (Or.inl rfl)).mono ?_
  · have : 0 ≤ |lo| + |hi| := by positivity
    norm_num
    linarith
  have hlim : ∀ (p : ParallelDigest D K) x, Partially (p.estQuantileAtValue x) (fun r => r.2.min = p.min ∧ r.2.max = p.max) := by
    intro p x
    unfold ParallelDigest.estQuantileAtValue
    rw [partially_bind]
    refine (partially_true _).mono ?_
    intro r _
    rw [partially_bind]
    exact (partially_true _).mono (fun _ _ => ⟨rfl, rfl⟩)
  rintro r ⟨s, e, m, ds', rfl, h1, h2, h3, h4, h5, h6, h7, h8⟩
  rw [always_bind]
  refine ((hI ds' h1 s h2 (by linarith)).and (hlim _ _)).mono ?_
  rintro ⟨r, ⟨ds'', mn, mx⟩⟩ ⟨⟨⟨y, hy, hA⟩, h9⟩, hmn, hmx⟩
  obtain rfl : r = .fin y := hy
  obtain rfl : mn = .fin lo := hmn
  obtain rfl : mx = .fin hi := hmx
  dsimp only
  rw [Fl.le_fin]
  split
  · rename_i hty
    exact ⟨h9, s, s, e, rfl, h2, le_rfl, h3.trans h4, h5, h6, h7, h8, Or.inr ⟨y, hA, by simpa using hty⟩⟩
  · rw [always_bind]
    refine (hI ds'' h9 m (by linarith) (by linarith)).mono ?_
    rintro ⟨r, p⟩ ⟨⟨y', hy', hA'⟩, h10⟩
    obtain rfl : r = .fin y' := hy'
    dsimp only
    rw [Fl.le_fin]
    split
    · rename_i hty
      exact ⟨h10, m, s, e, rfl, h2, h3, h4, h5, h6, h7, h8, Or.inr ⟨y', hA', by simpa using hty⟩⟩
    · exact ⟨h10, e, s, e, rfl, h2, h3.trans h4, le_rfl, h5, h6, h7, h8, Or.inl rfl⟩

/-- C51. The search makes at most 20 rounds: it ends with fuel for 20 rounds and the final test of the loop condition. -/
theorem C51_at_most_20_rounds [FloatFmt.Exact K] (I : List D → Prop) (lo hi t : K) (hlh : lo ≤ hi)
    (hI : ∀ ds, I ds → ∀ x, lo ≤ x → x ≤ hi →
      Always ((⟨ds, .fin lo, .fin hi⟩ : ParallelDigest D K).estQuantileAtValue (.fin x)) (fun r =>
        (∃ y : K, r.1 = .fin y) ∧ I r.2.digests))
    (ds : List D) (hds : I ds) (m : K) (hm : lo ≤ m ∧ m ≤ hi) :
    Always (ParallelDigest.searchLoop (.fin t) 21 ⟨ds, .fin lo, .fin hi⟩ (.fin lo) (.fin hi) (.fin m)) (fun _ => True) := by
  have hw : hi - lo ≤ |lo| + |hi| := by
    have := le_abs_self hi
    have := neg_abs_le lo
    linarith
  refine (ParallelDigest.searchLoop_always I (fun _ _ => True) lo hi t (fun ds h x h1 h2 =>
    (hI ds h x h1 h2).mono (fun r hr => ⟨hr.1.imp fun y hy => ⟨hy, trivial⟩, hr.2⟩)) 20 21 ds lo hi m hds le_rfl le_rfl hlh le_rfl
    hm.1 hm.2 ?_ (Or.inl rfl) (Or.inl rfl)).mono (fun _ _ => trivial)
  have : 0 ≤ |lo| + |hi| := by positivity
  norm_num
  linarith

/-- C51 for steady monotone sub-digests: the returned value lies, up to 10⁻⁶ of `|min| + |max|`, where the estimated quantile
function crosses the target. -/
theorem C51_value_inverts_quantile [FloatFmt.Exact K] (ds : List D) (Qs : List ((K → K) × Nat))
    (h : List.Forall₂ (fun d s => Steady d s.1 s.2) ds Qs) (h0 : (Qs.map Prod.snd).sum ≠ 0)
    (hmono : ∀ s ∈ Qs, Monotone s.1) (lo hi t : K) (hlh : lo ≤ hi) :
    Always ((⟨ds, .fin lo, .fin hi⟩ : ParallelDigest D K).estValueAtQuantile (.fin t)) (fun r =>
      ∃ v s e : K, r.1 = .fin v ∧ lo ≤ s ∧ s ≤ v ∧ v ≤ e ∧ e ≤ hi ∧ e - s ≤ 1 / 1000000 * (|lo| + |hi|) ∧
        (∀ x, lo ≤ x → x < s → weightedMean Qs x ≤ t) ∧ (∀ x, e < x → x ≤ hi → t < weightedMean Qs x) ∧
        (v = hi ∨ t ≤ weightedMean Qs v)) := by
  have hm : Monotone (weightedMean Qs) := by
    intro x y hxy
    refine div_le_div_of_nonneg_right (List.sum_le_sum ?_) (Nat.cast_nonneg _)
    intro s hs
    exact mul_le_mul_of_nonneg_right (hmono s hs hxy) (Nat.cast_nonneg _)
  refine (C51_value_search (fun es => es = ds) (fun x y => y = weightedMean Qs x) lo hi t hlh ?_ ds rfl).mono ?_
  · rintro es rfl x - -
    rw [ParallelDigest.steady_eq ⟨es, .fin lo, .fin hi⟩ Qs h h0 x]
    exact ⟨⟨_, rfl, rfl⟩, rfl⟩
  · rintro r ⟨-, v, s, e, h1, h2, h3, h4, h5, h6, h7, h8, h9⟩
    refine ⟨v, s, e, h1, h2, h3, h4, h5, h6, ?_, ?_, ?_⟩
    · intro x hx hxs
      rcases h7 with rfl | ⟨y, rfl, hy⟩
      · exact absurd hxs (not_lt.2 hx)
      · exact (hm hxs.le).trans hy
    · intro x hx hxs
      rcases h8 with rfl | ⟨y, rfl, hy⟩
      · exact absurd hx (not_lt.2 hxs)
      · exact hy.trans_le (hm hx.le)
    · rcases h9 with rfl | ⟨y, rfl, hy⟩
      · rcases h8 with rfl | ⟨y, rfl, hy⟩
        · exact Or.inl rfl
        · exact Or.inr hy.le
      · exact Or.inr hy

end

section linear
variable {K : Type} [Field K] [LinearOrder K] [IsStrictOrderedRing K] [FloorRing K] [FloatFmt K]

/-- All stored items. -/
def allValues (ds : List (LinearDigest K)) : List (Fl K) := (ds.map LinearDigest.values).flatten

theorem ParallelDigest.feed_linear : ∀ (cs : List (List (Fl K))) (ds : List (LinearDigest K)), cs.length ≤ ds.length →
    Partially (feed cs ds) (fun ds' => ds'.length = ds.length ∧ (allValues ds').Perm (allValues ds ++ cs.flatten))
  | [], ds, _ => ⟨rfl, by simp⟩
  | c :: cs, [], h => by simp at h
  | c :: cs, d :: ds, h => by
    unfold feed
    show Partially (Prog.ret (d.addBuffer c) >>= _) _
    rw [bind_ret, partially_bind]
    refine (feed_linear cs ds (by simpa using h)).mono ?_
    rintro ds' ⟨h1, h2⟩
    refine ⟨by simp [h1], ?_⟩
    show ((d.values ++ c) ++ allValues ds').Perm ((d.values ++ allValues ds) ++ (c ++ cs.flatten))
    rw [List.append_assoc, List.append_assoc]
    refine List.Perm.append_left _ ?_
    refine (h2.append_left c).trans ?_
    rw [← List.append_assoc, ← List.append_assoc]
    exact (List.perm_append_comm).append_right _

theorem ParallelDigest.estQuantile_linear (p : ParallelDigest (LinearDigest K) K) (v : Fl K) :
    Partially (p.estQuantileAtValue v) (fun r => r.2 = p) := by
  have hloop : ∀ (ds : List (LinearDigest K)) (acc : Fl K), Partially (rankLoop v ds acc) (fun r => r.2 = ds) := by
    intro ds
    induction ds with
    | nil => intro acc; rfl
    | cons d ds ih =>
      intro acc
      unfold rankLoop
      show Partially (Prog.ret (d.estQuantileAtValue v, d) >>= _) _
      rw [bind_ret]
      show Partially (Prog.ret d.count >>= _) _
      rw [bind_ret, partially_bind]
      refine (ih _).mono ?_
      intro r hr
      show d :: r.2 = d :: ds
      rw [hr]
  unfold estQuantileAtValue
  rw [partially_bind]
  refine (hloop _ _).mono ?_
  intro r hr
  rw [partially_bind]
  refine (partially_true _).mono ?_
  intro c _
  show { p with digests := r.2 } = p
  rw [hr]

theorem ParallelDigest.searchLoop_linear (t : Fl K) : ∀ (fuel : Nat) (p : ParallelDigest (LinearDigest K) K) (s e m : Fl K),
    Partially (searchLoop t fuel p s e m) (fun r => r.2.2.2 = p)
  | 0, _, _, _, _ => trivial
  | n + 1, p, s, e, m => by
    unfold searchLoop
    split
    · simp only [partially_bind]
      refine (estQuantile_linear p _).mono ?_
      intro r hr
      rw [hr]
      split
      · trivial
      · exact searchLoop_linear t n _ _ _ _
      · exact searchLoop_linear t n _ _ _ _
    · rfl

theorem ParallelDigest.exec_linear (p : ParallelDigest (LinearDigest K) K) (hd : p.digests ≠ []) (o : Op (Fl K)) :
    Partially (o.exec p) (fun p' => p'.digests.length = p.digests.length ∧
      (allValues p'.digests).Perm (allValues p.digests ++ o.items)) := by
  have hadd : ∀ buffer : List (Fl K), Partially (p.addBuffer buffer) (fun p' => p'.digests.length = p.digests.length ∧
      (allValues p'.digests).Perm (allValues p.digests ++ buffer)) := by
    intro buffer
    have h0 := ParallelDigest.chunkLen_ne_zero buffer.length p.digests.length
    have hl : (chunksAux (ParallelDigest.chunkLen buffer.length p.digests.length) buffer.length buffer).length ≤
        p.digests.length := by
      rw [chunksAux_length _ h0 _ _ le_rfl]
      exact ParallelDigest.chunks_le_digests (List.length_pos_of_ne_nil hd).ne'
    have hfl := chunksAux_flatten _ h0 buffer.length buffer le_rfl
    unfold ParallelDigest.addBuffer chunks
    rw [if_neg h0, bind_ret, partially_bind]
    refine (ParallelDigest.feed_linear _ _ hl).mono ?_
    intro ds h
    rw [hfl] at h
    rw [partially_bind]
    refine (partially_true _).mono ?_
    intro mx _
    rw [partially_bind]
    refine (partially_true _).mono ?_
    intro bmx _
    rw [partially_bind]
    refine (partially_true _).mono ?_
    intro mn _
    rw [partially_bind]
    refine (partially_true _).mono ?_
    intro bmn _
    exact h
  cases o with
  | add x => exact hadd [x]
  | addBuffer xs => exact hadd xs
  | quantile v =>
    show Partially (p.estQuantileAtValue v >>= fun r => .ret r.2) _
    rw [partially_bind]
    refine (estQuantile_linear p v).mono ?_
    intro r hr
    show r.2.digests.length = _ ∧ _
    rw [hr]
    exact ⟨rfl, by simp [Op.items]⟩
  | value q =>
    show Partially (p.estValueAtQuantile q >>= fun r => .ret r.2) _
    have : Partially (p.estValueAtQuantile q) (fun r => r.2 = p) := by
      unfold estValueAtQuantile
      rw [partially_bind]
      refine (searchLoop_linear q _ p _ _ _).mono ?_
      intro r hr
      rw [hr, partially_bind]
      refine (estQuantile_linear _ _).mono ?_
      intro s hs
      rw [hs]
      split
      · rfl
      · rw [partially_bind]
        refine (estQuantile_linear _ _).mono ?_
        intro s' hs'
        rw [hs']
        split <;> rfl
    rw [partially_bind]
    refine this.mono ?_
    intro r hr
    show r.2.digests.length = _ ∧ _
    rw [hr]
    exact ⟨rfl, by simp [Op.items]⟩

theorem ParallelDigest.execAll_linear : ∀ (ops : List (Op (Fl K))) (p : ParallelDigest (LinearDigest K) K), p.digests ≠ [] →
    Partially (execAll p ops) (fun p' => (allValues p'.digests).Perm (allValues p.digests ++ itemsOf ops))
  | [], p, _ => by
    show (allValues p.digests).Perm (allValues p.digests ++ [])
    simp
  | o :: os, p, hd => by
    unfold execAll
    rw [partially_bind]
    refine (exec_linear p hd o).mono ?_
    rintro p' ⟨h1, h2⟩
    refine (execAll_linear os p' ?_).mono ?_
    · intro h0
      rw [h0] at h1
      exact hd (List.length_eq_zero_iff.1 h1.symm)
    · intro p'' h3
      show (allValues p''.digests).Perm (allValues p.digests ++ (o.items ++ itemsOf os))
      rw [← List.append_assoc]
      exact h3.trans (h2.append_right _)

theorem LinearDigest.steady [FloatFmt.Exact K] (d : LinearDigest K) (hne : d.values ≠ []) :
    Steady d (fun x => midRank d.values (.fin x) / d.values.length) d.values.length := by
  refine ⟨fun x => ?_, rfl⟩
  show Prog.ret (d.estQuantileAtValue (.fin x), d) = _
  rw [d.estQuantile_eq (.fin x) hne (exactCounts_of_exact _) (Fl.rnd_exact _) (Fl.rnd_exact _), Fl.rnd_exact]

/-- C76. A ParallelDigest of LinearDigests, none of them empty: the quantile estimate at `x` lies between the fraction of items
below `x` and that fraction plus half of the items equal to `x`; so it is the exact quantile of a value that is no item. -/
theorem C76_parallel_linear_exact [FloatFmt.Exact K] (m : Nat) (hm : m ≠ 0) (ops : List (Op (Fl K))) (x : K) :
    Partially (execAll (ParallelDigest.new (List.replicate m LinearDigest.new) : ParallelDigest (LinearDigest K) K) ops) (fun p =>
      (∀ d ∈ p.digests, d.values ≠ []) → Always (p.estQuantileAtValue (.fin x)) (fun r => ∃ a : K, r.1 = .fin a ∧ r.2 = p ∧
        ((itemsOf ops).countP (fun y => Fl.lt y (.fin x)) : K) / (itemsOf ops).length ≤ a ∧
        a ≤ (((itemsOf ops).countP (fun y => Fl.lt y (.fin x)) : K) + (itemsOf ops).countP (fun y => Fl.feq y (.fin x)) / 2) /
          (itemsOf ops).length)) := by
  have hne : (ParallelDigest.new (List.replicate m LinearDigest.new) : ParallelDigest (LinearDigest K) K).digests ≠ [] := by
    show List.replicate m _ ≠ []
    rw [Ne, List.replicate_eq_nil_iff]
    exact hm
  have hlen : Partially (execAll (ParallelDigest.new (List.replicate m LinearDigest.new) : ParallelDigest (LinearDigest K) K) ops)
      (fun p => p.digests ≠ []) := by
    have : ∀ (ops : List (Op (Fl K))) (p : ParallelDigest (LinearDigest K) K), p.digests ≠ [] →
        Partially (execAll p ops) (fun p => p.digests ≠ []) := by
      intro ops
      induction ops with
      | nil => intro p hp; exact hp
      | cons o os ih =>
        intro p hp
        unfold execAll
        rw [partially_bind]
        refine (ParallelDigest.exec_linear p hp o).mono ?_
        rintro p' ⟨h1, -⟩
        refine ih p' ?_
        intro h0
        rw [h0] at h1
        exact hp (List.length_eq_zero_iff.1 h1.symm)
    exact this ops _ hne
  refine ((ParallelDigest.execAll_linear ops _ hne).and hlen).mono ?_
  rintro p ⟨hp, hpne⟩ hall
  have hp : (allValues p.digests).Perm (itemsOf ops) := by
    have e : allValues (ParallelDigest.new (List.replicate m LinearDigest.new) : ParallelDigest (LinearDigest K) K).digests = [] := by
      show ((List.replicate m (LinearDigest.new : LinearDigest K)).map LinearDigest.values).flatten = []
      rw [List.flatten_eq_nil_iff]
      intro l hl
      obtain ⟨d, hd, rfl⟩ := List.mem_map.1 hl
      rw [List.eq_of_mem_replicate hd]
      rfl
    rw [e] at hp
    exact hp
  have hst : List.Forall₂ (fun (d : LinearDigest K) (s : (K → K) × Nat) => Steady d s.1 s.2) p.digests
      (p.digests.map (fun d => ((fun x => midRank d.values (.fin x) / (d.values.length : K)), d.values.length))) := by
    rw [List.forall₂_map_right_iff]
    exact List.forall₂_same.2 (fun d hd => d.steady (hall d hd))
  have hn : ((p.digests.map (fun d : LinearDigest K => ((fun x => midRank d.values (.fin x) / (d.values.length : K)),
      d.values.length))).map Prod.snd).sum = (itemsOf ops).length := by
    rw [← hp.length_eq, List.map_map]
    show (p.digests.map (fun d => d.values.length)).sum = (p.digests.map LinearDigest.values).flatten.length
    rw [List.length_flatten, List.map_map]
    rfl
  have h0 : (itemsOf ops).length ≠ 0 := by
    rw [← hp.length_eq]
    obtain ⟨d, ds, hds⟩ := List.exists_cons_of_ne_nil hpne
    have hd := hall d (by rw [hds]; simp)
    unfold allValues
    rw [hds, List.map_cons, List.flatten_cons, List.length_append]
    have := List.length_pos_of_ne_nil hd
    omega
  rw [p.steady_eq _ hst (by rw [hn]; exact h0) x]
  refine ⟨_, rfl, rfl, ?_⟩
  unfold weightedMean
  rw [hn]
  have hN : (0 : K) ≤ (itemsOf ops).length := Nat.cast_nonneg _
  rw [← hp.countP_eq, ← hp.countP_eq]
  have key : ∀ ds : List (LinearDigest K), (∀ d ∈ ds, d.values ≠ []) →
      ((allValues ds).countP (fun y => Fl.lt y (.fin x)) : K) ≤
        ((ds.map (fun d => ((fun x => midRank d.values (.fin x) / (d.values.length : K)), d.values.length))).map
          (fun s => s.1 x * (s.2 : K))).sum ∧
      ((ds.map (fun d => ((fun x => midRank d.values (.fin x) / (d.values.length : K)), d.values.length))).map
          (fun s => s.1 x * (s.2 : K))).sum ≤
        ((allValues ds).countP (fun y => Fl.lt y (.fin x)) : K) + (allValues ds).countP (fun y => Fl.feq y (.fin x)) / 2 := by
    intro ds
    induction ds with
    | nil => intro _; simp [allValues]
    | cons d ds ih =>
      intro h
      obtain ⟨h1, h2⟩ := ih (fun e he => h e (by simp [he]))
      have hl : (d.values.length : K) ≠ 0 := Nat.cast_ne_zero.2 (List.length_pos_of_ne_nil (h d (by simp))).ne'
      have e : allValues (d :: ds) = d.values ++ allValues ds := rfl
      have ec : (0 : K) ≤ (d.values.countP (fun y => Fl.feq y (.fin x)) : K) := Nat.cast_nonneg _
      have hmid : (d.values.countP (fun y => Fl.lt y (.fin x)) : K) ≤ midRank d.values (.fin x) ∧
          midRank d.values (.fin x) ≤ (d.values.countP (fun y => Fl.lt y (.fin x)) : K) +
            d.values.countP (fun y => Fl.feq y (.fin x)) / 2 := by
        unfold midRank
        split <;> constructor <;> linarith
      rw [e, List.countP_append, List.countP_append, Nat.cast_add, Nat.cast_add]
      simp only [List.map_cons, List.sum_cons]
      rw [div_mul_cancel₀ _ hl]
      constructor <;> linarith
  obtain ⟨k1, k2⟩ := key p.digests hall
  exact ⟨div_le_div_of_nonneg_right k1 hN, div_le_div_of_nonneg_right k2 hN⟩

/-- C76. No sub-digest is empty once a slice was added whose length is a positive multiple of their number. -/
theorem C76_all_members_fed (p : ParallelDigest (LinearDigest K) K) (buffer : List (Fl K)) (j : Nat) (hj : j ≠ 0)
    (hd : p.digests ≠ []) (hb : buffer.length = j * p.digests.length) :
    Partially (p.addBuffer buffer) (fun p' => ∀ d ∈ p'.digests, d.values ≠ []) := by
  have h0 := ParallelDigest.chunkLen_ne_zero buffer.length p.digests.length
  have hl : (chunksAux (ParallelDigest.chunkLen buffer.length p.digests.length) buffer.length buffer).length =
      p.digests.length := by
    rw [chunksAux_length _ h0 _ _ le_rfl, hb]
    exact ParallelDigest.chunks_eq_digests (List.length_pos_of_ne_nil hd).ne' hj
  have hcs := chunksAux_ne_nil _ h0 buffer.length buffer
  unfold ParallelDigest.addBuffer chunks
  rw [if_neg h0, bind_ret, partially_bind]
  have hfeed : ∀ (cs : List (List (Fl K))) (ds : List (LinearDigest K)), cs.length = ds.length → (∀ c ∈ cs, c ≠ []) →
      Partially (ParallelDigest.feed cs ds) (fun ds' => ∀ d ∈ ds', d.values ≠ []) := by
    intro cs
    induction cs with
    | nil =>
      intro ds h _
      have : ds = [] := List.length_eq_zero_iff.1 h.symm
      rw [this]
      show ∀ d ∈ ([] : List (LinearDigest K)), _
      simp
    | cons c cs ih =>
      intro ds h hc
      cases ds with
      | nil => simp at h
      | cons d ds =>
        unfold ParallelDigest.feed
        show Partially (Prog.ret (d.addBuffer c) >>= _) _
        rw [bind_ret, partially_bind]
        refine (ih ds (by simpa using h) (fun c' hc' => hc c' (by simp [hc']))).mono ?_
        intro ds' h' e he
        rcases List.mem_cons.1 he with rfl | he
        · show d.values ++ c ≠ []
          have := hc c (by simp)
          simp [this]
        · exact h' e he
  refine (hfeed _ _ hl hcs).mono ?_
  intro ds h
  rw [partially_bind]
  refine (partially_true _).mono ?_
  intro mx _
  rw [partially_bind]
  refine (partially_true _).mono ?_
  intro bmx _
  rw [partially_bind]
  refine (partially_true _).mono ?_
  intro mn _
  rw [partially_bind]
  refine (partially_true _).mono ?_
  intro bmn _
  exact h

end linear

section examples
attribute [local instance] ratExact ratExact_exact

/-- Four LinearDigests. -/
def four : ParallelDigest (LinearDigest ℚ) ℚ := ParallelDigest.new [LinearDigest.new, LinearDigest.new, LinearDigest.new, LinearDigest.new]

/-- C49_limits, C51_value_within_data: items -2, …, 9 in three batches, the extremes in different batches. -/
def pdOps : List (Op (Fl ℚ)) := [.addBuffer [.fin 3, .fin 9, .fin 1, .fin 2], .addBuffer [.fin 4, .fin (-2), .fin 7, .fin 6], .add (.fin 5)]
example : Always (execAll four pdOps) (fun p => p.min = .fin (-2) ∧ p.max = .fin 9) := by decide +kernel
example : Always (execAll four pdOps >>= fun p => p.estValueAtQuantile (.fin (3 / 4))) (fun r => .fin 6 < r.1 ∧ r.1 < .fin 7) := by
  decide +kernel

/-- C52_buffered_second_query_panics: the first query is answered. -/
example : Always (execAll (BufferedDigest.new four 3 : BufferedDigest (ParallelDigest (LinearDigest ℚ) ℚ) (Fl ℚ)) pdOps >>= fun b =>
    b.estQuantileAtValue (.fin 4)) (fun r => .fin (1 / 4) ≤ r.1 ∧ r.1 ≤ .fin (3 / 4)) := by decide +kernel

/-- C50 is false: five items over four sub-digests are cut into chunks of two, the fourth sub-digest stays empty, and its NaN
makes every answer NaN. The value query panics. -/
theorem C50_empty_member_nan :
    Always (execAll four [.addBuffer [.fin 1, .fin 2, .fin 3, .fin 4, .fin 5]]) (fun p =>
      Always (p.estQuantileAtValue (.fin 3)) (fun r => r.1 = .nan) ∧ Panics (p.estValueAtQuantile (.fin (1 / 2)))) := by
  decide +kernel

/-- C50, again: items added one at a time all go to the first sub-digest; the answers are NaN although four items are stored. -/
theorem C50_single_adds_nan :
    Always (execAll four [.add (.fin 1), .add (.fin 2), .add (.fin 3), .add (.fin 4)]) (fun p =>
      Always (p.estQuantileAtValue (.fin 3)) (fun r => r.1 = .nan) ∧ Always (Digest.count p) (fun n => n = 4)) := by
  decide +kernel

/-- C49: without sub-digests `add_buffer` silently drops the data. -/
theorem C49_no_digests_drops_data :
    Always (execAll (ParallelDigest.new [] : ParallelDigest (LinearDigest ℚ) ℚ) [.addBuffer [.fin 1, .fin 2]]) (fun p =>
      Always (Digest.count p) (fun n => n = 0)) := by decide +kernel

/-- C49, C76: eight items over four sub-digests. -/
example : Always (execAll four [.addBuffer [.fin 1, .fin 2, .fin 3, .fin 4, .fin 5, .fin 6, .fin 7, .fin 8]]) (fun p =>
    (∀ d ∈ p.digests, d.values ≠ []) ∧ p.min = .fin 1 ∧ p.max = .fin 8 ∧
      Always (p.estQuantileAtValue (.fin (7 / 2))) (fun r => r.1 = .fin (3 / 8)) ∧
      Always (p.estQuantileAtValue (.fin 4)) (fun r => r.1 = .fin (3 / 8))) := by decide +kernel

/-- C51: the value query of two steady sub-digests, as computed. -/
example : Always (execAll (ParallelDigest.new [LinearDigest.new, LinearDigest.new] : ParallelDigest (LinearDigest ℚ) ℚ)
    [.addBuffer [.fin 0, .fin 2, .fin 1, .fin 4]]) (fun p =>
      Always (p.estValueAtQuantile (.fin (1 / 2))) (fun r => r.1 = .fin 2)) := by decide +kernel

example : List.Forall₂ (fun (d : LinearDigest ℚ) (s : (ℚ → ℚ) × Nat) => Steady d s.1 s.2) [⟨[.fin 0, .fin 2]⟩, ⟨[.fin 1, .fin 4]⟩]
    [((fun x => midRank [.fin 0, .fin 2] (.fin x) / (2 : Nat)), 2), ((fun x => midRank [.fin 1, .fin 4] (.fin x) / (2 : Nat)), 2)] :=
  .cons (LinearDigest.steady _ (by simp)) (.cons (LinearDigest.steady _ (by simp)) .nil)

end examples
end AQ

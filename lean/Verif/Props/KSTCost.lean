/-
C156: how many nodes of a KeyedSumTree are visited.
-/
import Verif.Model.KSTCost
import Verif.Proofs.KeyedSumTree
import Verif.Proofs.Orders
import Mathlib.NumberTheory.Harmonic.Bounds

set_option linter.unusedSectionVars false
set_option linter.unusedVariables false

namespace AQ
open Prog Spec
variable {K : Type} [Field K] [LinearOrder K] [IsStrictOrderedRing K] [FloatFmt K]

namespace KNode

/-- Inserting a list into a node. -/
def insAll : List (Centroid K) → KNode K → Prog (KNode K)
  | [], n => .ret n
  | c :: cs, n => do
    let n' ← n.insert c.mean c.weight
    insAll cs n'

/-- Nodes on the way to `t`, equal keys counting as above. -/
def plen (t : Fl K) : KNode K → Nat
  | nil => 0
  | node k _ _ l r => 1 + if k < t then plen t r else plen t l

theorem bind_eq_ret {α β : Type} {p : Prog α} {f : α → Prog β} {v : β} (h : p >>= f = .ret v) : ∃ a, p = .ret a ∧ f a = .ret v := by
  cases p with
  | ret a => exact ⟨a, rfl, h⟩
  | fail e => exact absurd h (by intro h; cases h)
  | flip g => exact absurd h (by intro h; cases h)

theorem insAll_split {k : Fl K} (w : Fl K) (hk : k ≠ .nan) : ∀ (l : List (Centroid K)) (s : Fl K) (L R L' R' : KNode K),
    (∀ c ∈ l, c.mean ≠ .nan ∧ c.mean ≠ k) → insAll (l.filter (fun c => c.mean < k)) L = .ret L' →
    insAll (l.filter (fun c => k < c.mean)) R = .ret R' → ∃ s', insAll l (node k w s L R) = .ret (node k w s' L' R')
  | [], s, L, R, L', R', _, h1, h2 => by
    simp only [List.filter_nil, insAll, Prog.ret.injEq] at h1 h2
    subst h1 h2
    exact ⟨s, rfl⟩
  | c :: l, s, L, R, L', R', h, h1, h2 => by
    obtain ⟨hc, hne⟩ := h c (by simp)
    rcases lt_or_gt_of_ne hne with hlt | hgt
    · have f1 : (c :: l).filter (fun c => decide (c.mean < k)) = c :: l.filter (fun c => decide (c.mean < k)) := by
        rw [List.filter_cons_of_pos (by simpa using hlt)]
      have f2 : (c :: l).filter (fun c => decide (k < c.mean)) = l.filter (fun c => decide (k < c.mean)) := by
        rw [List.filter_cons_of_neg (by simpa using hlt.le)]
      rw [f1] at h1
      rw [f2] at h2
      unfold insAll at h1
      obtain ⟨L1, e1, e2⟩ := bind_eq_ret h1
      obtain ⟨s', e⟩ := insAll_split w hk l (s + c.weight) L1 R L' R' (fun c hc => h c (by simp [hc])) e2 h2
      refine ⟨s', ?_⟩
      have e3 : (node k w s L R).insert c.mean c.weight = .ret (node k w (s + c.weight) L1 R) := by
        unfold insert
        rw [Fl.lt_eq hc hk, if_pos (by simpa using hlt), e1]
        rfl
      unfold insAll
      rw [e3]
      exact e
    · have f1 : (c :: l).filter (fun c => decide (c.mean < k)) = l.filter (fun c => decide (c.mean < k)) := by
        rw [List.filter_cons_of_neg (by simpa using hgt.le)]
      have f2 : (c :: l).filter (fun c => decide (k < c.mean)) = c :: l.filter (fun c => decide (k < c.mean)) := by
        rw [List.filter_cons_of_pos (by simpa using hgt)]
      rw [f1] at h1
      rw [f2] at h2
      unfold insAll at h2
      obtain ⟨R1, e1, e2⟩ := bind_eq_ret h2
      obtain ⟨s', e⟩ := insAll_split w hk l (s + c.weight) L R1 L' R' (fun c hc => h c (by simp [hc])) h1 e2
      refine ⟨s', ?_⟩
      have e3 : (node k w s L R).insert c.mean c.weight = .ret (node k w (s + c.weight) L R1) := by
        unfold insert
        rw [Fl.lt_eq hc hk, Fl.lt_eq hk hc, if_neg (by simpa using hgt.le), if_pos (by simpa using hgt), e1]
        rfl
      unfold insAll
      rw [e3]
      exact e

/-- The tree that arises by inserting a list of distinct keys. -/
theorem insAll_build : ∀ (n : Nat) (l : List (Centroid K)), l.length ≤ n → (∀ c ∈ l, c.mean ≠ .nan) → (l.map Centroid.mean).Nodup →
    ∃ T, insAll l nil = .ret T ∧ (∀ t, plen t T = Orders.pathLen t (l.map Centroid.mean)) ∧ ∀ c ∈ T.sortedVecKey, c ∈ l
  | n, [], _, _, _ => ⟨nil, rfl, fun t => by simp [plen, Orders.pathLen], by simp [sortedVecKey]⟩
  | 0, c :: l, h, _, _ => by simp at h
  | n + 1, c :: l, h, hn, hd => by
    rw [List.map_cons, List.nodup_cons] at hd
    obtain ⟨hcd, hd⟩ := hd
    have hc := hn c (by simp)
    have len : ∀ P : Centroid K → Bool, (l.filter P).length ≤ n := by
      intro P
      have := List.length_filter_le P l
      rw [List.length_cons] at h
      omega
    obtain ⟨L, e1, p1, m1⟩ := insAll_build n (l.filter (fun d => d.mean < c.mean)) (len _) (fun d hd => hn d (by simp [List.mem_of_mem_filter hd]))
      (hd.sublist (List.filter_sublist.map _))
    obtain ⟨R, e2, p2, m2⟩ := insAll_build n (l.filter (fun d => c.mean < d.mean)) (len _) (fun d hd => hn d (by simp [List.mem_of_mem_filter hd]))
      (hd.sublist (List.filter_sublist.map _))
    obtain ⟨s', e⟩ := insAll_split c.weight hc l c.weight nil nil L R (fun d hd => ⟨hn d (by simp [hd]), by
      intro he
      exact hcd (he ▸ List.mem_map_of_mem hd)⟩) e1 e2
    refine ⟨node c.mean c.weight s' L R, ?_, ?_, ?_⟩
    · unfold insAll
      exact e
    · intro t
      rw [List.map_cons, Orders.pathLen, plen, p1, p2, List.filter_map, List.filter_map]
      rfl
    · intro d hd
      simp only [sortedVecKey, List.mem_append, List.mem_cons] at hd
      rcases hd with hd | rfl | hd
      · exact List.mem_cons_of_mem _ (List.mem_of_mem_filter (m1 d hd))
      · simp
      · exact List.mem_cons_of_mem _ (List.mem_of_mem_filter (m2 d hd))

theorem lessThanSumCount_len (t : Fl K) (ht : t ≠ .nan) : ∀ (n : KNode K) (acc : Fl K), (∀ c ∈ n.sortedVecKey, c.mean ≠ .nan) →
    ∃ x, lessThanSumCount t n acc = .ret (x, plen t n)
  | nil, acc, _ => ⟨acc, rfl⟩
  | node k w s l r, acc, h => by
    have hk : k ≠ .nan := h ⟨k, w⟩ (by simp [sortedVecKey])
    have hl : ∀ c ∈ l.sortedVecKey, c.mean ≠ .nan := fun c hc => h c (by simp [sortedVecKey, hc])
    have hr : ∀ c ∈ r.sortedVecKey, c.mean ≠ .nan := fun c hc => h c (by simp [sortedVecKey, hc])
    rcases lt_trichotomy t k with h1 | h1 | h1
    · obtain ⟨x, e⟩ := lessThanSumCount_len t ht l acc hl
      refine ⟨x, ?_⟩
      rw [lessThanSumCount.eq_def, plen, if_neg (not_lt.2 h1.le)]
      simp only [Fl.cmp_eq ht hk, compare_lt_iff_lt.2 h1, e]
      rw [add_comm]; rfl
    · obtain ⟨x, e⟩ := lessThanSumCount_len t ht l acc hl
      refine ⟨x, ?_⟩
      rw [lessThanSumCount.eq_def, plen, if_neg (not_lt.2 h1.le)]
      simp only [Fl.cmp_eq ht hk, compare_eq_iff_eq.2 h1, e]
      rw [add_comm]; rfl
    · rcases l with _ | ⟨k', w', s', l', r'⟩
      · obtain ⟨x, e⟩ := lessThanSumCount_len t ht r (acc + w) hr
        refine ⟨x, ?_⟩
        rw [lessThanSumCount.eq_def, plen, if_pos h1]
        simp only [Fl.cmp_eq ht hk, compare_gt_iff_gt.2 h1, e]
        rw [add_comm]; rfl
      · obtain ⟨x, e⟩ := lessThanSumCount_len t ht r (acc + (w + s')) hr
        refine ⟨x, ?_⟩
        rw [lessThanSumCount.eq_def, plen, if_pos h1]
        simp only [Fl.cmp_eq ht hk, compare_gt_iff_gt.2 h1, e]
        rw [add_comm]; rfl

theorem insertCount_len (t w' : Fl K) (ht : t ≠ .nan) : ∀ n : KNode K, (∀ c ∈ n.sortedVecKey, c.mean ≠ .nan ∧ c.mean ≠ t) →
    ∃ x, insertCount t w' n = .ret (x, plen t n)
  | nil, _ => ⟨_, rfl⟩
  | node k w s l r, h => by
    obtain ⟨hk, hne⟩ := h ⟨k, w⟩ (by simp [sortedVecKey])
    change k ≠ .nan at hk
    change k ≠ t at hne
    rcases lt_or_gt_of_ne hne with h1 | h1
    · obtain ⟨x, e⟩ := insertCount_len t w' ht r (fun c hc => h c (by simp [sortedVecKey, hc]))
      refine ⟨node k w (s + w') l x, ?_⟩
      · rw [insertCount, plen, if_pos h1, Fl.lt_eq ht hk, Fl.lt_eq hk ht, if_neg (by simpa using h1.le), if_pos (by simpa using h1), e, add_comm]
        rfl
    · obtain ⟨x, e⟩ := insertCount_len t w' ht l (fun c hc => h c (by simp [sortedVecKey, hc]))
      refine ⟨node k w (s + w') x r, ?_⟩
      · rw [insertCount, plen, if_neg (not_lt.2 (le_of_lt h1)), Fl.lt_eq ht hk, if_pos (by simpa using h1), e, add_comm]
        rfl

theorem closestPath_len (t : Fl K) (ht : t ≠ .nan) : ∀ n : KNode K, (∀ c ∈ n.sortedVecKey, c.mean ≠ .nan) →
    ∃ p, closestPath t n = .ret p ∧ p.length ≤ plen t n ∧ ((∀ c ∈ n.sortedVecKey, c.mean ≠ t) → p.length = plen t n)
  | nil, _ => ⟨[], rfl, le_refl _, fun _ => rfl⟩
  | node k w s l r, h => by
    have hk : k ≠ .nan := h ⟨k, w⟩ (by simp [sortedVecKey])
    rcases lt_trichotomy t k with h1 | h1 | h1
    · obtain ⟨p, e, a, b⟩ := closestPath_len t ht l (fun c hc => h c (by simp [sortedVecKey, hc]))
      refine ⟨⟨k, w⟩ :: p, ?_, ?_, ?_⟩
      · rw [closestPath.eq_def]
        simp only [Fl.cmp_eq ht hk, compare_lt_iff_lt.2 h1, e]
        rfl
      · rw [plen, if_neg (not_lt.2 h1.le), List.length_cons]; omega
      · intro hh
        rw [plen, if_neg (not_lt.2 h1.le), List.length_cons, b (fun c hc => hh c (by simp [sortedVecKey, hc])), add_comm]
    · refine ⟨[⟨k, w⟩], ?_, ?_, ?_⟩
      · rw [closestPath.eq_def]
        simp only [Fl.cmp_eq ht hk, compare_eq_iff_eq.2 h1]
      · rw [plen, List.length_singleton]; omega
      · intro hh
        exact absurd h1.symm (hh ⟨k, w⟩ (by simp [sortedVecKey]))
    · obtain ⟨p, e, a, b⟩ := closestPath_len t ht r (fun c hc => h c (by simp [sortedVecKey, hc]))
      refine ⟨⟨k, w⟩ :: p, ?_, ?_, ?_⟩
      · rw [closestPath.eq_def]
        simp only [Fl.cmp_eq ht hk, compare_gt_iff_gt.2 h1, e]
        rfl
      · rw [plen, if_pos h1, List.length_cons]; omega
      · intro hh
        rw [plen, if_pos h1, List.length_cons, b (fun c hc => hh c (by simp [sortedVecKey, hc])), add_comm]

theorem fromAux_root : ∀ (l : List (Centroid K)) (t : KeyedSumTree K) (T : KNode K), insAll l t.root = .ret T →
    t.fromAux l = .ret ⟨T, t.size + l.length⟩
  | [], t, T, h => by
    simp only [insAll, Prog.ret.injEq] at h
    rw [KeyedSumTree.fromAux, ← h]
    rfl
  | c :: l, t, T, h => by
    unfold insAll at h
    obtain ⟨n, e1, e2⟩ := bind_eq_ret h
    have e3 : t.insert c.mean c.weight = .ret ⟨n, t.size + 1⟩ := by
      unfold KeyedSumTree.insert
      rw [e1]
      rfl
    unfold KeyedSumTree.fromAux
    rw [e3]
    show KeyedSumTree.fromAux ⟨n, t.size + 1⟩ l = _
    rw [fromAux_root l ⟨n, t.size + 1⟩ T e2, List.length_cons]
    congr 2
    show t.size + 1 + l.length = _
    omega

end KNode

/-- C156. The counting loops are those of the code: without the counter they are the functions of the model. -/
theorem C156_counters (key w : Fl K) : (∀ (n : KNode K) (acc : Fl K), (n.lessThanSumCount key acc >>= fun x => .ret x.1) = n.lessThanSumGo key acc) ∧
    ∀ n : KNode K, (n.insertCount key w >>= fun x => .ret x.1) = n.insert key w := by
  constructor
  · intro n
    induction n with
    | nil => intro acc; rfl
    | node k w' s l r ihl ihr =>
      intro acc
      rw [KNode.lessThanSumCount.eq_def, KNode.lessThanSumGo.eq_def]
      simp only
      rcases Fl.cmp key k with _ | _ | _ | _
      · rfl
      · simp only [bind_assoc, pure_eq, bind_ret]
        exact ihl acc
      · simp only [bind_assoc, pure_eq, bind_ret]
        exact ihl acc
      · rcases l with _ | ⟨k', w'', s', l', r'⟩
        · simp only [bind_assoc, pure_eq, bind_ret]
          exact ihr _
        · simp only [bind_assoc, pure_eq, bind_ret]
          exact ihr _
  · intro n
    induction n with
    | nil => rfl
    | node k w' s l r ihl ihr =>
      rw [KNode.insertCount, KNode.insert]
      split_ifs
      · rw [← ihl]
        simp only [bind_assoc, pure_eq, bind_ret]
      · rw [← ihr]
        simp only [bind_assoc, pure_eq, bind_ret]
      · rfl

theorem KNode.mean_keys (t : Fl K) (cs : List (Centroid K)) (hd : (cs.map Centroid.mean).Nodup) :
    meanOrders cs (fun p => Orders.pathLen t (p.map Centroid.mean)) =
      harmonic (cs.countP (fun c => c.mean < t)) + harmonic (cs.countP (fun c => !decide (c.mean < t))) := by
  have h := Orders.mean_pathLen t _ (cs.map Centroid.mean) le_rfl hd
  unfold Orders.mean at h
  rw [← List.map_permutations, List.map_map, List.length_map] at h
  unfold meanOrders
  refine h.trans ?_
  have key : ∀ P : Fl K → Bool, ((cs.map Centroid.mean).toFinset.filter (fun y => P y = true)).card = cs.countP (fun c => P c.mean) := by
    intro P
    rw [← List.toFinset_filter, List.toFinset_card_of_nodup (hd.filter _), List.filter_map, List.length_map, ← List.countP_eq_length_filter]
    rfl
  congr 2
  · rw [← key (fun y => decide (y < t))]
    exact congrArg Finset.card (by ext y; simp)
  · rw [← key (fun y => !decide (y < t))]
    exact congrArg Finset.card (by ext y; simp)

/-- C156. `less_than_sum` on a tree built from clusters with distinct means in random order (all orders alike): on average `H_a + H_b` nodes are visited, `a` the
number of keys below the argument, `b` of the others. -/
theorem C156_less_than_sum (cs : List (Centroid K)) (hn : ∀ c ∈ cs, c.mean ≠ .nan) (hd : (cs.map Centroid.mean).Nodup) (t : Fl K) (ht : t ≠ .nan) :
    ∃ v : List (Centroid K) → ℕ,
      (∀ p, p.Perm cs → ∃ T x, KeyedSumTree.ofCentroids p = .ret T ∧ T.root.lessThanSumCount t (Fl.lit 0) = .ret (x, v p)) ∧
      meanOrders cs v = harmonic (cs.countP (fun c => c.mean < t)) + harmonic (cs.countP (fun c => !decide (c.mean < t))) := by
  refine ⟨fun p => Orders.pathLen t (p.map Centroid.mean), fun p hp => ?_, KNode.mean_keys t cs hd⟩
  obtain ⟨T, e, hl, hm⟩ := KNode.insAll_build _ p le_rfl (fun c hc => hn c (hp.mem_iff.1 hc)) ((hp.map _).nodup_iff.2 hd)
  obtain ⟨x, hx⟩ := KNode.lessThanSumCount_len t ht T (Fl.lit 0) (fun c hc => hn c (hp.mem_iff.1 (hm c hc)))
  exact ⟨_, x, KNode.fromAux_root p KeyedSumTree.new T e, by rw [hl t] at hx; exact hx⟩

/-- C156. The same for the insertion of a further key. -/
theorem C156_insert (cs : List (Centroid K)) (hn : ∀ c ∈ cs, c.mean ≠ .nan) (hd : (cs.map Centroid.mean).Nodup) (t w : Fl K) (ht : t ≠ .nan)
    (hf : ∀ c ∈ cs, c.mean ≠ t) :
    ∃ v : List (Centroid K) → ℕ,
      (∀ p, p.Perm cs → ∃ T x, KeyedSumTree.ofCentroids p = .ret T ∧ T.root.insertCount t w = .ret (x, v p)) ∧
      meanOrders cs v = harmonic (cs.countP (fun c => c.mean < t)) + harmonic (cs.countP (fun c => !decide (c.mean < t))) := by
  refine ⟨fun p => Orders.pathLen t (p.map Centroid.mean), fun p hp => ?_, KNode.mean_keys t cs hd⟩
  obtain ⟨T, e, hl, hm⟩ := KNode.insAll_build _ p le_rfl (fun c hc => hn c (hp.mem_iff.1 hc)) ((hp.map _).nodup_iff.2 hd)
  obtain ⟨x, hx⟩ := KNode.insertCount_len t w ht T (fun c hc => ⟨hn c (hp.mem_iff.1 (hm c hc)), hf c (hp.mem_iff.1 (hm c hc))⟩)
  exact ⟨_, x, KNode.fromAux_root p KeyedSumTree.new T e, by rw [hl t] at hx; exact hx⟩

/-- C156. `closest_keys` looks at no more nodes on average, and at exactly as many when its argument is not a key. -/
theorem C156_closest_keys (cs : List (Centroid K)) (hn : ∀ c ∈ cs, c.mean ≠ .nan) (hd : (cs.map Centroid.mean).Nodup) (t : Fl K) (ht : t ≠ .nan) :
    ∃ v : List (Centroid K) → ℕ,
      (∀ p, p.Perm cs → ∃ T path, KeyedSumTree.ofCentroids p = .ret T ∧ T.root.closestPath t = .ret path ∧ path.length = v p) ∧
      meanOrders cs v ≤ harmonic (cs.countP (fun c => c.mean < t)) + harmonic (cs.countP (fun c => !decide (c.mean < t))) ∧
      ((∀ c ∈ cs, c.mean ≠ t) →
        meanOrders cs v = harmonic (cs.countP (fun c => c.mean < t)) + harmonic (cs.countP (fun c => !decide (c.mean < t)))) := by
  have key : ∀ p : List (Centroid K), ∃ m : ℕ, p.Perm cs → ∃ T path, KeyedSumTree.ofCentroids p = .ret T ∧ T.root.closestPath t = .ret path ∧
      path.length = m ∧ m ≤ Orders.pathLen t (p.map Centroid.mean) ∧ ((∀ c ∈ cs, c.mean ≠ t) → m = Orders.pathLen t (p.map Centroid.mean)) := by
    intro p
    by_cases hp : p.Perm cs
    · obtain ⟨T, e, hl, hm⟩ := KNode.insAll_build _ p le_rfl (fun c hc => hn c (hp.mem_iff.1 hc)) ((hp.map _).nodup_iff.2 hd)
      obtain ⟨path, h1, h2, h3⟩ := KNode.closestPath_len t ht T (fun c hc => hn c (hp.mem_iff.1 (hm c hc)))
      exact ⟨path.length, fun _ => ⟨_, path, KNode.fromAux_root p KeyedSumTree.new T e, h1, rfl, by rw [← hl]; exact h2,
        fun hf => by rw [← hl]; exact h3 fun c hc => hf c (hp.mem_iff.1 (hm c hc))⟩⟩
    · exact ⟨0, fun h => absurd h hp⟩
  choose v hv using key
  refine ⟨v, fun p hp => ?_, ?_, fun hf => ?_⟩
  · obtain ⟨T, path, h1, h2, h3, -⟩ := hv p hp
    exact ⟨T, path, h1, h2, h3⟩
  · rw [← KNode.mean_keys t cs hd]
    refine Orders.mean_mono cs (fun p => (v p : ℚ)) (fun p => (Orders.pathLen t (p.map Centroid.mean) : ℚ)) fun p hp => ?_
    obtain ⟨T, path, -, -, -, h4, -⟩ := hv p hp
    exact_mod_cast h4
  · rw [← KNode.mean_keys t cs hd]
    refine Orders.mean_congr cs (fun p => (v p : ℚ)) (fun p => (Orders.pathLen t (p.map Centroid.mean) : ℚ)) fun p hp => ?_
    obtain ⟨T, path, -, -, -, -, h5⟩ := hv p hp
    rw [h5 hf]

/-- C156. This mean grows with the logarithm of the number of keys. -/
theorem C156_logarithmic (a b : ℕ) (h : 1 ≤ a + b) : ((harmonic a + harmonic b : ℚ) : ℝ) ≤ 2 + 2 * Real.log ((a + b : ℕ) : ℝ) := by
  have key : ∀ m : ℕ, m ≤ a + b → ((harmonic m : ℚ) : ℝ) ≤ 1 + Real.log ((a + b : ℕ) : ℝ) := by
    intro m hm
    rcases Nat.eq_zero_or_pos m with rfl | hp
    · simp only [harmonic_zero, Rat.cast_zero]
      have : 0 ≤ Real.log ((a + b : ℕ) : ℝ) := Real.log_nonneg (by exact_mod_cast h)
      linarith
    · refine (harmonic_le_one_add_log m).trans ?_
      have := Real.log_le_log (by exact_mod_cast hp) (by exact_mod_cast hm : (m : ℝ) ≤ ((a + b : ℕ) : ℝ))
      linarith
  have h1 := key a (by omega)
  have h2 := key b (by omega)
  rw [Rat.cast_add]
  linarith

/-- C156. The order matters: keys inserted in increasing order are all visited by a search beyond them. -/
theorem C156_increasing_order (cs : List (Centroid K)) (hn : ∀ c ∈ cs, c.mean ≠ .nan) (hs : cs.Pairwise (fun a b => a.mean < b.mean)) (t : Fl K)
    (ht : t ≠ .nan) (hl : ∀ c ∈ cs, c.mean < t) :
    ∃ T x, KeyedSumTree.ofCentroids cs = .ret T ∧ T.root.lessThanSumCount t (Fl.lit 0) = .ret (x, cs.length) := by
  have hd : (cs.map Centroid.mean).Nodup := by
    rw [List.Nodup, List.pairwise_map]
    exact hs.imp fun h => h.ne
  obtain ⟨T, e, hlen, hm⟩ := KNode.insAll_build _ cs le_rfl hn hd
  obtain ⟨x, hx⟩ := KNode.lessThanSumCount_len t ht T (Fl.lit 0) (fun c hc => hn c (hm c hc))
  refine ⟨_, x, KNode.fromAux_root cs KeyedSumTree.new T e, ?_⟩
  rw [hlen] at hx
  have key : ∀ l : List (Centroid K), l.Pairwise (fun a b => a.mean < b.mean) → (∀ c ∈ l, c.mean < t) →
      Orders.pathLen t (l.map Centroid.mean) = l.length := by
    intro l
    induction l with
    | nil => intro _ _; simp [Orders.pathLen]
    | cons c l ih =>
      intro h1 h2
      rw [List.pairwise_cons] at h1
      rw [List.map_cons, Orders.pathLen, if_pos (h2 c (by simp)), List.length_cons, List.filter_eq_self.2, ih h1.2 (fun d hd => h2 d (by simp [hd])), add_comm]
      intro y hy
      obtain ⟨d, hd, rfl⟩ := List.mem_map.1 hy
      simpa using h1.1 d hd
  rw [key cs hs hl] at hx
  exact hx

/-- Non-vacuity: three keys in all six orders; a search for 5/2 visits `H_2 + H_1 = 5/2` nodes on average, and in increasing order a search for 4 visits
all three. -/
theorem C156_example : let _ := ratExact;
    ∃ v : List (Centroid ℚ) → ℕ,
      (∀ p, p.Perm [⟨.fin 1, .fin 1⟩, ⟨.fin 2, .fin 5⟩, ⟨.fin 3, .fin 1⟩] →
        ∃ T x, KeyedSumTree.ofCentroids p = .ret T ∧ T.root.lessThanSumCount (.fin (5 / 2)) (Fl.lit 0) = .ret (x, v p)) ∧
      meanOrders [⟨.fin 1, .fin 1⟩, ⟨.fin 2, .fin 5⟩, ⟨.fin 3, .fin 1⟩] v = 5 / 2 := by
  intro i
  obtain ⟨v, h1, h2⟩ := C156_less_than_sum (K := ℚ) [⟨.fin 1, .fin 1⟩, ⟨.fin 2, .fin 5⟩, ⟨.fin 3, .fin 1⟩] (by decide) (by decide) (.fin (5 / 2)) (by decide)
  refine ⟨v, h1, h2.trans ?_⟩
  have e1 : List.countP (fun c : Centroid ℚ => decide (c.mean < .fin (5 / 2))) [⟨.fin 1, .fin 1⟩, ⟨.fin 2, .fin 5⟩, ⟨.fin 3, .fin 1⟩] = 2 := by decide +kernel
  have e2 : List.countP (fun c : Centroid ℚ => !decide (c.mean < .fin (5 / 2))) [⟨.fin 1, .fin 1⟩, ⟨.fin 2, .fin 5⟩, ⟨.fin 3, .fin 1⟩] = 1 := by decide +kernel
  rw [e1, e2]
  norm_num [harmonic, Finset.sum_range_succ]

end AQ

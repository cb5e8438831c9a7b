/-
Proofs about KeyedSumTree: search tree invariant, sums, search path.
-/
import Mathlib.Tactic.Linarith
import Mathlib.Tactic.Ring
import Verif.Spec.Centroid

set_option linter.unusedSectionVars false
set_option linter.unusedVariables false

namespace AQ
open Prog Spec
variable {K : Type} [Field K] [LinearOrder K] [IsStrictOrderedRing K] [FloatFmt K]

namespace KNode

/-- Binary search tree with NaN-free distinct keys, seen through the in-order listing. -/
def Bst (n : KNode K) : Prop :=
  n.sortedVecKey.Pairwise (fun a b => a.mean < b.mean) ∧ ∀ c ∈ n.sortedVecKey, c.mean ≠ .nan

theorem bst_nil : Bst (nil : KNode K) := by simp [Bst, sortedVecKey]

theorem bst_node {k w s : Fl K} {l r : KNode K} :
    Bst (node k w s l r) ↔ Bst l ∧ Bst r ∧ k ≠ .nan ∧ (∀ c ∈ l.sortedVecKey, c.mean < k) ∧
      (∀ c ∈ r.sortedVecKey, k < c.mean) := by
  simp only [Bst, sortedVecKey, List.pairwise_append, List.pairwise_cons, List.mem_append, List.mem_cons]
  constructor
  · rintro ⟨⟨h1, ⟨h2, h3⟩, h4⟩, h5⟩
    exact ⟨⟨h1, fun c hc => h5 c (Or.inl hc)⟩, ⟨h3, fun c hc => h5 c (Or.inr (Or.inr hc))⟩,
      h5 ⟨k, w⟩ (Or.inr (Or.inl rfl)), fun c hc => h4 c hc ⟨k, w⟩ (Or.inl rfl), h2⟩
  · rintro ⟨⟨h1, h2⟩, ⟨h3, h4⟩, h5, h6, h7⟩
    refine ⟨⟨h1, ⟨h7, h3⟩, ?_⟩, ?_⟩
    · rintro a ha b (rfl | hb)
      · exact h6 a ha
      · exact (h6 a ha).trans (h7 b hb)
    · rintro c (hc | rfl | hc)
      · exact h2 c hc
      · exact h5
      · exact h4 c hc

theorem insert_spec (key w : Fl K) (hk : key ≠ .nan) : ∀ (n : KNode K), Bst n →
    (∀ c ∈ n.sortedVecKey, c.mean ≠ key) →
    Always (n.insert key w) (fun n' => Bst n' ∧ n'.sortedVecKey.Perm (⟨key, w⟩ :: n.sortedVecKey))
  | nil, _, _ => by
    refine ⟨?_, ?_⟩
    · simp [Bst, sortedVecKey, hk]
    · simp [sortedVecKey]
  | node k w' s l r, hb, hf => by
    obtain ⟨hl, hr, hkn, hlk, hrk⟩ := bst_node.1 hb
    have hne : k ≠ key := hf ⟨k, w'⟩ (by simp [sortedVecKey])
    unfold insert
    rw [Fl.lt_eq hk hkn, Fl.lt_eq hkn hk]
    by_cases h1 : key < k
    · simp only [h1, decide_true, if_true]
      rw [always_bind]
      refine (insert_spec key w hk l hl (fun c hc => hf c (by simp [sortedVecKey, hc]))).mono ?_
      rintro l' ⟨hl', hp⟩
      refine ⟨bst_node.2 ⟨hl', hr, hkn, ?_, hrk⟩, ?_⟩
      · intro c hc
        rcases List.mem_cons.1 (hp.mem_iff.1 hc) with rfl | hc
        · exact h1
        · exact hlk c hc
      · simp only [sortedVecKey]
        exact hp.append_right _
    · have h2 : k < key := lt_of_le_of_ne (not_lt.1 h1) hne
      simp only [h1, decide_false, Bool.false_eq_true, if_false, h2, decide_true, if_true]
      rw [always_bind]
      refine (insert_spec key w hk r hr (fun c hc => hf c (by simp [sortedVecKey, hc]))).mono ?_
      rintro r' ⟨hr', hp⟩
      refine ⟨bst_node.2 ⟨hl, hr', hkn, hlk, ?_⟩, ?_⟩
      · intro c hc
        rcases List.mem_cons.1 (hp.mem_iff.1 hc) with rfl | hc
        · exact h2
        · exact hrk c hc
      · simp only [sortedVecKey]
        refine (List.Perm.append_left _ ((hp.cons _).trans (List.Perm.swap _ _ _))).trans ?_
        exact List.perm_middle

/-- A duplicate key makes the insertion panic. -/
theorem insert_dup (key w : Fl K) : ∀ (n : KNode K), Bst n → (∃ c ∈ n.sortedVecKey, c.mean = key) →
    n.insert key w = .fail .explicit
  | nil, _, h => by simp [sortedVecKey] at h
  | node k w' s l r, hb, h => by
    obtain ⟨hl, hr, hkn, hlk, hrk⟩ := bst_node.1 hb
    obtain ⟨c, hc, rfl⟩ := h
    have hcn : c.mean ≠ .nan := hb.2 c hc
    simp only [sortedVecKey, List.mem_append, List.mem_cons] at hc
    unfold insert
    rw [Fl.lt_eq hcn hkn, Fl.lt_eq hkn hcn]
    rcases hc with hc | rfl | hc
    · simp only [hlk c hc, decide_true, if_true]
      rw [insert_dup _ w l hl ⟨c, hc, rfl⟩]; rfl
    · simp
    · simp only [hrk c hc, (hrk c hc).not_gt, decide_true, decide_false, if_true, Bool.false_eq_true, if_false]
      rw [insert_dup _ w r hr ⟨c, hc, rfl⟩]; rfl

theorem rightmostChild_spec : ∀ (n : KNode K),
    (∀ t rest, n.rightmostChild = some (t, rest) → ∃ k w s l r, t = node k w s l r ∧
      n.sortedVecKey = rest.sortedVecKey ++ [⟨k, w⟩]) ∧
    (n.rightmostChild = none → ∀ k w s l r, n = node k w s l r → r = nil)
  | nil => by simp [rightmostChild]
  | node _ _ _ _ nil => by
    refine ⟨by simp [rightmostChild], ?_⟩
    intro _ k w s l r h
    injection h with _ _ _ _ h
    exact h.symm
  | node k w s l (node k' w' s' l' r') => by
    have ih := rightmostChild_spec (node k' w' s' l' r')
    unfold rightmostChild
    cases h : (node k' w' s' l' r').rightmostChild with
    | none =>
      have hr := ih.2 h _ _ _ _ _ rfl
      subst hr
      refine ⟨?_, by simp⟩
      rintro t rest h
      simp only [Option.some.injEq, Prod.mk.injEq] at h
      obtain ⟨rfl, rfl⟩ := h
      exact ⟨_, _, _, _, _, rfl, by simp [sortedVecKey]⟩
    | some p =>
      obtain ⟨t, right⟩ := p
      obtain ⟨k1, w1, s1, l1, r1, rfl, he⟩ := ih.1 t right h
      refine ⟨?_, by simp⟩
      rintro t rest h
      simp only [Option.some.injEq, Prod.mk.injEq] at h
      obtain ⟨rfl, rfl⟩ := h
      refine ⟨_, _, _, _, _, rfl, ?_⟩
      rw [sortedVecKey, he]
      simp [sortedVecKey]

theorem join_sortedVecKey (l r : KNode K) : (join l r).sortedVecKey = l.sortedVecKey ++ r.sortedVecKey := by
  cases l with
  | nil => cases r <;> simp [join, sortedVecKey]
  | node k w s l' r' =>
    cases r with
    | nil => simp [join, sortedVecKey]
    | node k2 w2 s2 l2 r2 =>
      unfold join
      have hs := rightmostChild_spec (node k w s l' r')
      cases h : (node k w s l' r').rightmostChild with
      | none =>
        have := hs.2 h _ _ _ _ _ rfl
        subst this
        simp only [h]
        simp [sortedVecKey]
      | some p =>
        obtain ⟨t, rest⟩ := p
        obtain ⟨k1, w1, s1, l1, r1, rfl, he⟩ := hs.1 t rest h
        rw [he]
        simp only [h]
        simp [sortedVecKey]

theorem filter_ne_of_forall {l : List (Centroid K)} {t : Fl K} (h : ∀ c ∈ l, c.mean ≠ t) :
    l.filter (fun p => p.mean ≠ t) = l := by
  rw [List.filter_eq_self]; intro a ha; simpa using h a ha

theorem delete_spec (t : Fl K) (ht : t ≠ .nan) : ∀ (n : KNode K), Bst n →
    ∃ n', n.delete t = .ret n' ∧ Bst n' ∧ n'.sortedVecKey = n.sortedVecKey.filter (fun p => p.mean ≠ t) := by
  have key : ∀ (n : KNode K), Bst n → ∃ n', n.delete t = .ret n' ∧
      n'.sortedVecKey = n.sortedVecKey.filter (fun p => p.mean ≠ t) := by
    intro n
    induction n with
    | nil => intro _; exact ⟨nil, rfl, rfl⟩
    | node k w s l r ihl ihr =>
      intro hb
      obtain ⟨hl, hr, hkn, hlk, hrk⟩ := bst_node.1 hb
      unfold delete
      rw [Fl.cmp_eq ht hkn]
      rcases lt_trichotomy t k with h | h | h
      · obtain ⟨l', h1, h2⟩ := ihl hl
        rw [compare_lt_iff_lt.2 h]
        refine ⟨node k w s l' r, by simp only [h1]; rfl, ?_⟩
        simp only [sortedVecKey, h2, List.filter_append, List.filter_cons, decide_eq_true (h.ne'), if_true]
        rw [filter_ne_of_forall (l := r.sortedVecKey) (fun c hc => (h.trans (hrk c hc)).ne')]
      · subst h
        rw [compare_eq_iff_eq.2 rfl]
        refine ⟨_, rfl, ?_⟩
        rw [join_sortedVecKey, sortedVecKey, List.filter_append, List.filter_cons,
          filter_ne_of_forall (fun c hc => (hlk c hc).ne), filter_ne_of_forall (fun c hc => (hrk c hc).ne')]
        simp
      · obtain ⟨r', h1, h2⟩ := ihr hr
        rw [compare_gt_iff_gt.2 h]
        refine ⟨node k w s l r', by simp only [h1]; rfl, ?_⟩
        simp only [sortedVecKey, h2, List.filter_append, List.filter_cons, decide_eq_true (h.ne), if_true]
        rw [filter_ne_of_forall (l := l.sortedVecKey) (fun c hc => ((hlk c hc).trans h).ne)]
  intro n hb
  obtain ⟨n', h1, h2⟩ := key n hb
  refine ⟨n', h1, ⟨?_, ?_⟩, h2⟩
  · rw [h2]; exact hb.1.sublist List.filter_sublist
  · intro c hc; rw [h2] at hc; exact hb.2 c (List.mem_of_mem_filter hc)

/-- Every `sum` field is the total weight of the subtree. -/
def SumOK : KNode K → Prop
  | nil => True
  | node k w s l r => s = .fin (((node k w s l r).sortedVecKey.map (fun c => c.weight.toK)).sum) ∧ SumOK l ∧ SumOK r

/-- The `sum` fields that `less_than_sum` can read are right: those of left subtrees along the right spine. -/
def SpineOK : KNode K → Prop
  | nil => True
  | node _ _ _ l r => SumOK l ∧ SpineOK r

theorem SumOK.spine : ∀ {n : KNode K}, SumOK n → SpineOK n
  | nil, _ => trivial
  | node _ _ _ _ _, h => ⟨h.2.1, h.2.2.spine⟩

/-- All weights are ordinary numbers. -/
def WFin (n : KNode K) : Prop := ∀ c ∈ n.sortedVecKey, c.weight.IsFin

theorem wfin_node {k w s : Fl K} {l r : KNode K} : WFin (node k w s l r) ↔ w.IsFin ∧ WFin l ∧ WFin r := by
  simp only [WFin, sortedVecKey, List.mem_append, List.mem_cons]
  constructor
  · intro h
    exact ⟨h ⟨k, w⟩ (by simp), fun c hc => h c (Or.inl hc), fun c hc => h c (Or.inr (Or.inr hc))⟩
  · rintro ⟨h1, h2, h3⟩ c (hc | rfl | hc)
    · exact h2 c hc
    · exact h1
    · exact h3 c hc

/-- Insertion keeps the in-order listing up to permutation whenever it returns. -/
theorem insert_perm (key w : Fl K) : ∀ n : KNode K,
    Partially (n.insert key w) (fun n' => n'.sortedVecKey.Perm (⟨key, w⟩ :: n.sortedVecKey))
  | nil => by simp [insert, sortedVecKey]
  | node k w' s l r => by
    unfold insert
    split
    · rw [partially_bind]
      refine (insert_perm key w l).mono ?_
      intro l' hp
      exact hp.append_right _
    · split
      · rw [partially_bind]
        refine (insert_perm key w r).mono ?_
        intro r' hp
        refine (List.Perm.append_left _ ((hp.cons _).trans (List.Perm.swap _ _ _))).trans ?_
        exact List.perm_middle
      · trivial

theorem insert_sumOK [FloatFmt.Exact K] (key : Fl K) (w : K) : ∀ n : KNode K, SumOK n →
    Partially (n.insert key (.fin w)) SumOK
  | nil, _ => by simp [insert, SumOK, sortedVecKey, Fl.toK]
  | node k w' s l r, h => by
    have hp := insert_perm key (.fin w) (node k w' s l r)
    unfold insert at hp ⊢
    obtain ⟨h1, h2, h3⟩ := h
    split
    · next hlt =>
      rw [if_pos hlt, partially_bind] at hp
      rw [partially_bind]
      refine ((insert_sumOK key w l h2).and hp).mono ?_
      rintro l' ⟨h4, h5⟩
      refine ⟨?_, h4, h3⟩
      have h5' : (node k w' (s + .fin w) l' r).sortedVecKey.Perm
        (⟨key, .fin w⟩ :: (node k w' s l r).sortedVecKey) := h5
      rw [(h5'.map (fun c => c.weight.toK)).sum_eq, List.map_cons, List.sum_cons]
      have h1' := h1
      rw [h1', Fl.add_exact, add_comm]
      rfl
    · next hlt =>
      rw [if_neg hlt] at hp
      split
      · next hlt' =>
        rw [if_pos hlt', partially_bind] at hp
        rw [partially_bind]
        refine ((insert_sumOK key w r h3).and hp).mono ?_
        rintro r' ⟨h4, h5⟩
        refine ⟨?_, h2, h4⟩
        have h5' : (node k w' (s + .fin w) l r').sortedVecKey.Perm
          (⟨key, .fin w⟩ :: (node k w' s l r).sortedVecKey) := h5
        rw [(h5'.map (fun c => c.weight.toK)).sum_eq, List.map_cons, List.sum_cons]
        have h1' := h1
        rw [h1', Fl.add_exact, add_comm]
        rfl
      · trivial

theorem insert_spineOK [FloatFmt.Exact K] (key : Fl K) (w : K) : ∀ n : KNode K, SpineOK n →
    Partially (n.insert key (.fin w)) SpineOK
  | nil, _ => by simp [insert, SpineOK, SumOK]
  | node k w' s l r, h => by
    obtain ⟨h2, h3⟩ := h
    unfold insert
    split
    · rw [partially_bind]
      refine (insert_sumOK key w l h2).mono ?_
      intro l' h4
      exact ⟨h4, h3⟩
    · split
      · rw [partially_bind]
        refine (insert_spineOK key w r h3).mono ?_
        intro r' h4
        exact ⟨h2, h4⟩
      · trivial

theorem lessThanSumGo_spec [FloatFmt.Exact K] (key : Fl K) (hk : key ≠ .nan) : ∀ (n : KNode K) (acc : K), Bst n →
    WFin n → SpineOK n →
    n.lessThanSumGo key (.fin acc) = .ret (.fin (acc + weightBelow n.sortedVecKey key))
  | nil, acc, _, _, _ => by simp [lessThanSumGo, weightBelow, sortedVecKey]
  | node k w s l r, acc, hb, hw, hs => by
    obtain ⟨hl, hr, hkn, hlk, hrk⟩ := bst_node.1 hb
    obtain ⟨⟨w0, rfl⟩, hwl, hwr⟩ := wfin_node.1 hw
    obtain ⟨hsl, hsr⟩ := hs
    have hwb : weightBelow (node k (.fin w0) s l r).sortedVecKey key =
        weightBelow l.sortedVecKey key + ((if k < key then w0 else 0) + weightBelow r.sortedVecKey key) := by
      simp only [weightBelow, sortedVecKey, List.filter_append, List.map_append, List.sum_append, List.filter_cons]
      congr 1
      by_cases h : k < key <;> simp [h, Fl.toK]
    have hbelow_r : key ≤ k → weightBelow r.sortedVecKey key = 0 := by
      intro h
      unfold weightBelow
      rw [List.filter_eq_nil_iff.2]
      · rfl
      · intro c hc
        have := h.trans_lt (hrk c hc)
        simp [this.le]
    have hbelow_l : k < key → weightBelow l.sortedVecKey key = (l.sortedVecKey.map (fun c => c.weight.toK)).sum := by
      intro h
      unfold weightBelow
      rw [List.filter_eq_self.2]
      intro c hc
      simpa using (hlk c hc).trans h
    unfold lessThanSumGo
    rw [Fl.cmp_eq hk hkn, hwb]
    rcases lt_trichotomy key k with h | h | h
    · rw [compare_lt_iff_lt.2 h, hbelow_r h.le, if_neg h.not_gt]
      simp only []
      rw [lessThanSumGo_spec key hk l acc hl hwl hsl.spine]
      simp
    · rw [compare_eq_iff_eq.2 h, hbelow_r h.le, if_neg (by rw [h]; simp)]
      simp only []
      rw [lessThanSumGo_spec key hk l acc hl hwl hsl.spine]
      simp
    · rw [compare_gt_iff_gt.2 h, hbelow_l h, if_pos h]
      simp only []
      cases l with
      | nil =>
        simp only [Fl.add_exact]
        rw [lessThanSumGo_spec key hk r _ hr hwr hsr]
        simp [sortedVecKey, add_assoc]
      | node k1 w1 s1 l1 r1 =>
        have := hsl.1
        generalize ((node k1 w1 s1 l1 r1).sortedVecKey.map (fun c => c.weight.toK)).sum = S at this ⊢
        simp only [this, Fl.add_exact]
        rw [lessThanSumGo_spec key hk r _ hr hwr hsr]
        congr 2
        ring

/-- Deleting the largest key keeps the sums that are read right. -/
theorem delete_max_spineOK (t : Fl K) (ht : t ≠ .nan) : ∀ (n n' : KNode K), Bst n → SpineOK n →
    (∀ c ∈ n.sortedVecKey, c.mean ≤ t) → n.delete t = .ret n' → SpineOK n'
  | nil, n', _, _, _, h => by
    simp only [delete, Prog.ret.injEq] at h
    subst h; trivial
  | node k w s l r, n', hb, hs, hm, h => by
    obtain ⟨hl, hr, hkn, hlk, hrk⟩ := bst_node.1 hb
    have hkt : k ≤ t := hm ⟨k, w⟩ (by simp [sortedVecKey])
    unfold delete at h
    rw [Fl.cmp_eq ht hkn] at h
    rcases hkt.lt_or_eq with h1 | h1
    · rw [compare_gt_iff_gt.2 h1] at h
      obtain ⟨r', h2, -, -⟩ := delete_spec t ht r hr
      simp only [h2] at h
      have h' : n' = node k w s l r' := by
        have : (Prog.ret (node k w s l r') : Prog (KNode K)) = .ret n' := h
        simpa using this.symm
      subst h'
      exact ⟨hs.1, delete_max_spineOK t ht r r' hr hs.2 (fun c hc => hm c (by simp [sortedVecKey, hc])) h2⟩
    · rw [compare_eq_iff_eq.2 h1.symm] at h
      simp only [Prog.ret.injEq] at h
      subst h
      cases r with
      | nil =>
        cases l with
        | nil => simp [join, SpineOK]
        | node k1 w1 s1 l1 r1 => exact hs.1.spine
      | node k1 w1 s1 l1 r1 =>
        exfalso
        have h2 := hrk ⟨k1, w1⟩ (by simp [sortedVecKey])
        have h3 := hm ⟨k1, w1⟩ (by simp [sortedVecKey])
        rw [h1] at h2
        exact absurd h2 (not_lt.2 h3)

/-- The search path: stored pairs, and anything off the path is beaten by a key on the path between it and the target. -/
theorem closestPath_spec (t : Fl K) (ht : t ≠ .nan) : ∀ n : KNode K, Bst n →
    ∃ path, n.closestPath t = .ret path ∧ (n ≠ nil → path ≠ []) ∧
      (∀ c ∈ path, c ∈ n.sortedVecKey) ∧
      (∀ c ∈ n.sortedVecKey, c ∈ path ∨ ∃ p ∈ path, (t ≤ p.mean ∧ p.mean < c.mean) ∨ (c.mean < p.mean ∧ p.mean ≤ t))
  | nil, _ => ⟨[], rfl, by simp, by simp, by simp [sortedVecKey]⟩
  | node k w s l r, hb => by
    obtain ⟨hl, hr, hkn, hlk, hrk⟩ := bst_node.1 hb
    unfold closestPath
    rw [Fl.cmp_eq ht hkn]
    rcases lt_trichotomy t k with h | h | h
    · obtain ⟨p, h1, -, h2, h3⟩ := closestPath_spec t ht l hl
      rw [compare_lt_iff_lt.2 h]
      refine ⟨⟨k, w⟩ :: p, by simp only [h1]; rfl, by simp, ?_, ?_⟩
      · intro c hc
        rcases List.mem_cons.1 hc with rfl | hc
        · simp [sortedVecKey]
        · simp [sortedVecKey, h2 c hc]
      · intro c hc
        simp only [sortedVecKey, List.mem_append, List.mem_cons] at hc
        rcases hc with hc | rfl | hc
        · rcases h3 c hc with h4 | ⟨q, hq, h4⟩
          · exact Or.inl (List.mem_cons_of_mem _ h4)
          · exact Or.inr ⟨q, List.mem_cons_of_mem _ hq, h4⟩
        · simp
        · exact Or.inr ⟨⟨k, w⟩, by simp, Or.inl ⟨h.le, hrk c hc⟩⟩
    · subst h
      rw [compare_eq_iff_eq.2 rfl]
      refine ⟨[⟨t, w⟩], rfl, by simp, by simp [sortedVecKey], ?_⟩
      intro c hc
      simp only [sortedVecKey, List.mem_append, List.mem_cons] at hc
      rcases hc with hc | rfl | hc
      · exact Or.inr ⟨⟨t, w⟩, by simp, Or.inr ⟨hlk c hc, le_refl _⟩⟩
      · simp
      · exact Or.inr ⟨⟨t, w⟩, by simp, Or.inl ⟨le_refl _, hrk c hc⟩⟩
    · obtain ⟨p, h1, -, h2, h3⟩ := closestPath_spec t ht r hr
      rw [compare_gt_iff_gt.2 h]
      refine ⟨⟨k, w⟩ :: p, by simp only [h1]; rfl, by simp, ?_, ?_⟩
      · intro c hc
        rcases List.mem_cons.1 hc with rfl | hc
        · simp [sortedVecKey]
        · simp [sortedVecKey, h2 c hc]
      · intro c hc
        simp only [sortedVecKey, List.mem_append, List.mem_cons] at hc
        rcases hc with hc | rfl | hc
        · exact Or.inr ⟨⟨k, w⟩, by simp, Or.inr ⟨hlk c hc, h.le⟩⟩
        · simp
        · rcases h3 c hc with h4 | ⟨q, hq, h4⟩
          · exact Or.inl (List.mem_cons_of_mem _ h4)
          · exact Or.inr ⟨q, List.mem_cons_of_mem _ hq, h4⟩

end KNode

/-- `min_by` returns a minimal element when no key is NaN. -/
theorem minBy_go_spec {α : Type} (f : α → Fl K) : ∀ (l : List α) (m : α), f m ≠ .nan → (∀ a ∈ l, f a ≠ .nan) →
    ∃ r, minBy.go f m l = .ret (some r) ∧ (r = m ∨ r ∈ l) ∧ f r ≤ f m ∧ ∀ a ∈ l, f r ≤ f a
  | [], m, _, _ => ⟨m, rfl, Or.inl rfl, le_refl _, by simp⟩
  | b :: l, m, hm, hl => by
    have hb : f b ≠ .nan := hl b (by simp)
    have hl' : ∀ a ∈ l, f a ≠ .nan := fun a ha => hl a (by simp [ha])
    unfold minBy.go
    rw [Fl.cmp_eq hm hb]
    by_cases h : f b < f m
    · rw [compare_gt_iff_gt.2 h]
      obtain ⟨r, h1, h2, h3, h4⟩ := minBy_go_spec f l b hb hl'
      refine ⟨r, h1, ?_, h3.trans h.le, ?_⟩
      · rcases h2 with rfl | h2
        · exact Or.inr (by simp)
        · exact Or.inr (by simp [h2])
      · intro a ha
        rcases List.mem_cons.1 ha with rfl | ha
        · exact h3
        · exact h4 a ha
    · obtain ⟨r, h1, h2, h3, h4⟩ := minBy_go_spec f l m hm hl'
      refine ⟨r, ?_, ?_, h3, ?_⟩
      · have : compare (f m) (f b) ≠ .gt := by rw [Ne, compare_gt_iff_gt]; exact h
        cases hc : compare (f m) (f b) with
        | lt => exact h1
        | eq => exact h1
        | gt => exact absurd hc this
      · rcases h2 with rfl | h2
        · exact Or.inl rfl
        · exact Or.inr (by simp [h2])
      · intro a ha
        rcases List.mem_cons.1 ha with rfl | ha
        · exact h3.trans (not_lt.1 h)
        · exact h4 a ha

theorem minBy_spec {α : Type} (f : α → Fl K) (l : List α) (hne : l ≠ []) (hl : ∀ a ∈ l, f a ≠ .nan) :
    ∃ r, minBy f l = .ret (some r) ∧ r ∈ l ∧ ∀ a ∈ l, f r ≤ f a := by
  cases l with
  | nil => exact absurd rfl hne
  | cons a l =>
    obtain ⟨r, h1, h2, h3, h4⟩ := minBy_go_spec f l a (hl a (by simp)) (fun b hb => hl b (by simp [hb]))
    refine ⟨r, h1, ?_, ?_⟩
    · rcases h2 with rfl | h2 <;> simp [*]
    · intro b hb
      rcases List.mem_cons.1 hb with rfl | hb
      · exact h3
      · exact h4 b hb

/-- `max_by` returns a maximal element when no key is NaN. -/
theorem maxBy_go_spec {α : Type} (f : α → Fl K) : ∀ (l : List α) (m : α), f m ≠ .nan → (∀ a ∈ l, f a ≠ .nan) →
    ∃ r, maxBy.go f m l = .ret (some r) ∧ (r = m ∨ r ∈ l) ∧ f m ≤ f r ∧ ∀ a ∈ l, f a ≤ f r
  | [], m, _, _ => ⟨m, rfl, Or.inl rfl, le_refl _, by simp⟩
  | b :: l, m, hm, hl => by
    have hb : f b ≠ .nan := hl b (by simp)
    have hl' : ∀ a ∈ l, f a ≠ .nan := fun a ha => hl a (by simp [ha])
    unfold maxBy.go
    rw [Fl.cmp_eq hm hb]
    by_cases h : f b < f m
    · rw [compare_gt_iff_gt.2 h]
      obtain ⟨r, h1, h2, h3, h4⟩ := maxBy_go_spec f l m hm hl'
      refine ⟨r, h1, ?_, h3, ?_⟩
      · rcases h2 with rfl | h2
        · exact Or.inl rfl
        · exact Or.inr (by simp [h2])
      · intro a ha
        rcases List.mem_cons.1 ha with rfl | ha
        · exact h.le.trans h3
        · exact h4 a ha
    · obtain ⟨r, h1, h2, h3, h4⟩ := maxBy_go_spec f l b hb hl'
      refine ⟨r, ?_, ?_, (not_lt.1 h).trans h3, ?_⟩
      · have : compare (f m) (f b) ≠ .gt := by rw [Ne, compare_gt_iff_gt]; exact h
        cases hc : compare (f m) (f b) with
        | lt => exact h1
        | eq => exact h1
        | gt => exact absurd hc this
      · rcases h2 with rfl | h2
        · exact Or.inr (by simp)
        · exact Or.inr (by simp [h2])
      · intro a ha
        rcases List.mem_cons.1 ha with rfl | ha
        · exact h3
        · exact h4 a ha

theorem maxBy_spec {α : Type} (f : α → Fl K) (l : List α) (hne : l ≠ []) (hl : ∀ a ∈ l, f a ≠ .nan) :
    ∃ r, maxBy f l = .ret (some r) ∧ r ∈ l ∧ ∀ a ∈ l, f a ≤ f r := by
  cases l with
  | nil => exact absurd rfl hne
  | cons a l =>
    obtain ⟨r, h1, h2, h3, h4⟩ := maxBy_go_spec f l a (hl a (by simp)) (fun b hb => hl b (by simp [hb]))
    refine ⟨r, h1, ?_, ?_⟩
    · rcases h2 with rfl | h2 <;> simp [*]
    · intro b hb
      rcases List.mem_cons.1 hb with rfl | hb
      · exact h3
      · exact h4 b hb

namespace KeyedSumTree

/-- The tree holds exactly the table `c`. -/
def Holds (t : KeyedSumTree K) (c : List (Centroid K)) : Prop :=
  t.root.Bst ∧ t.sortedVecKey.Perm c ∧ t.size = c.length

theorem new_holds : (new : KeyedSumTree K).Holds [] := ⟨KNode.bst_nil, by rfl, rfl⟩

theorem insert_holds {t : KeyedSumTree K} {c : List (Centroid K)} (h : t.Holds c) (k w : Fl K) (hk : k ≠ .nan)
    (hf : ∀ p ∈ c, p.mean ≠ k) : Always (t.insert k w) (fun t' => t'.Holds (⟨k, w⟩ :: c)) := by
  obtain ⟨h1, h2, h3⟩ := h
  unfold insert
  rw [always_bind]
  refine (KNode.insert_spec k w hk t.root h1 (fun p hp => hf p (h2.mem_iff.1 hp))).mono ?_
  rintro n' ⟨h4, h5⟩
  exact ⟨h4, h5.trans (h2.cons _), by simp [h3]⟩

theorem key_unique {n : KNode K} (h : n.Bst) {a b : Centroid K} (ha : a ∈ n.sortedVecKey) (hb : b ∈ n.sortedVecKey)
    (hab : a.mean = b.mean) : a = b := by
  by_contra hne
  obtain ⟨i, hi, rfl⟩ := List.getElem_of_mem ha
  obtain ⟨j, hj, rfl⟩ := List.getElem_of_mem hb
  have hp := List.pairwise_iff_getElem.1 h.1
  rcases lt_trichotomy i j with hij | rfl | hij
  · exact absurd hab (hp i j hi hj hij).ne
  · exact hne rfl
  · exact absurd hab.symm (hp j i hj hi hij).ne

theorem delete_holds {t : KeyedSumTree K} {c : List (Centroid K)} (h : t.Holds c) (k : Fl K)
    (hf : ∃ p ∈ c, p.mean = k) : Always (t.delete k) (fun t' => t'.Holds (c.filter (fun p => p.mean ≠ k))) := by
  obtain ⟨h1, h2, h3⟩ := h
  obtain ⟨p, hp, rfl⟩ := hf
  have hpn : p.mean ≠ .nan := h1.2 p (h2.mem_iff.2 hp)
  obtain ⟨n', h4, h5, h6⟩ := KNode.delete_spec p.mean hpn t.root h1
  have hlen : 1 ≤ t.size := by rw [h3]; exact List.length_pos_of_mem hp
  unfold delete
  rw [h4, Prog.bind_ret, usub_eq hlen, Prog.bind_ret]
  refine ⟨h5, ?_, ?_⟩
  · show n'.sortedVecKey.Perm _
    rw [h6]
    exact h2.filter _
  · show t.size - 1 = _
    have hnd : t.root.sortedVecKey.Nodup := h1.1.imp (fun {a b} hab => by rintro rfl; exact lt_irrefl _ hab)
    have hcount : c.length = (c.filter (fun q => q.mean ≠ p.mean)).length + 1 := by
      have hc1 : (c.filter (fun q => q.mean = p.mean)).length = 1 := by
        have hperm : (c.filter (fun q => q.mean = p.mean)).Perm [p] := by
          rw [List.perm_ext_iff_of_nodup ((h2.nodup_iff.1 hnd).filter _) (by simp)]
          intro a
          simp only [List.mem_filter, decide_eq_true_eq, List.mem_singleton]
          constructor
          · rintro ⟨ha, hab⟩
            exact key_unique h1 (h2.mem_iff.2 ha) (h2.mem_iff.2 hp) hab
          · rintro rfl; exact ⟨hp, rfl⟩
        exact hperm.length_eq
      have := List.length_eq_length_filter_add (l := c) (fun q => decide (q.mean = p.mean))
      rw [hc1] at this
      rw [this, add_comm]
      congr 2
      apply List.filter_congr
      intro a _
      simp
    omega

/-- Refinement: the tree follows the table through every valid sequence of updates. -/
theorem execOps_holds : ∀ (ops : List (KOp K)) (t : KeyedSumTree K) (c : List (Centroid K)), t.Holds c → KOp.Valid c ops →
    Always (t.execOps ops) (fun t' => t'.Holds (KOp.contents c ops))
  | [], t, c, h, _ => h
  | .insert k w :: ops, t, c, h, hv => by
    obtain ⟨hk, hf, hv⟩ := hv
    unfold execOps
    rw [always_bind]
    exact (insert_holds h k w hk hf).mono (fun t' h' => execOps_holds ops t' _ h' hv)
  | .delete k :: ops, t, c, h, hv => by
    obtain ⟨hf, hv⟩ := hv
    unfold execOps
    rw [always_bind]
    exact (delete_holds h k hf).mono (fun t' h' => execOps_holds ops t' _ h' hv)

theorem ValidMax.valid : ∀ (ops : List (KOp K)) (c : List (Centroid K)), KOp.ValidMax c ops → KOp.Valid c ops
  | [], _, _ => trivial
  | .insert _ _ :: ops, _, h => ⟨h.1, h.2.1, ValidMax.valid ops _ h.2.2⟩
  | .delete _ :: ops, _, h => ⟨h.1, ValidMax.valid ops _ h.2.2⟩

theorem execOps_spineOK [FloatFmt.Exact K] : ∀ (ops : List (KOp K)) (t : KeyedSumTree K) (c : List (Centroid K)),
    t.Holds c → t.root.SpineOK → KOp.ValidMax c ops → KOp.FinW ops →
    Always (t.execOps ops) (fun t' => t'.root.SpineOK)
  | [], t, c, _, h, _, _ => h
  | .insert k w :: ops, t, c, hh, h, hv, hw => by
    obtain ⟨hk, hf, hv⟩ := hv
    obtain ⟨⟨w, rfl⟩, hw⟩ := hw
    unfold execOps
    rw [always_bind]
    have h2 : Partially (t.insert k (.fin w)) (fun t' => t'.root.SpineOK) := by
      unfold insert
      rw [partially_bind]
      exact (KNode.insert_spineOK k w t.root h).mono (fun n hn => hn)
    exact ((insert_holds hh k _ hk hf).and h2).mono (fun t' h' => execOps_spineOK ops t' _ h'.1 h'.2 hv hw)
  | .delete k :: ops, t, c, hh, h, hv, hw => by
    obtain ⟨hf, hmax, hv⟩ := hv
    unfold execOps
    rw [always_bind]
    have h2 : Partially (t.delete k) (fun t' => t'.root.SpineOK) := by
      obtain ⟨p, hp, rfl⟩ := hf
      have hpn : p.mean ≠ .nan := hh.1.2 p (hh.2.1.mem_iff.2 hp)
      obtain ⟨n', h4, -, -⟩ := KNode.delete_spec p.mean hpn t.root hh.1
      have := KNode.delete_max_spineOK p.mean hpn t.root n' hh.1 h (fun q hq => hmax q (hh.2.1.mem_iff.1 hq)) h4
      unfold delete
      rw [h4, Prog.bind_ret, partially_bind]
      exact (partially_true _).mono (fun _ _ => this)
    exact ((delete_holds hh k hf).and h2).mono (fun t' h' => execOps_spineOK ops t' _ h'.1 h'.2 hv hw)

theorem weightBelow_perm {l l' : List (Centroid K)} (h : l.Perm l') (k : Fl K) : weightBelow l k = weightBelow l' k := by
  unfold weightBelow
  exact ((h.filter _).map _).sum_eq

theorem lessThanSum_spec [FloatFmt.Exact K] {t : KeyedSumTree K} {c : List (Centroid K)} (h : t.Holds c)
    (hs : t.root.SpineOK) (hw : ∀ p ∈ c, p.weight.IsFin) (k : Fl K) (hk : k ≠ .nan) :
    t.lessThanSum k = .ret (if c = [] then none else some (.fin (weightBelow c k))) := by
  obtain ⟨h1, h2, -⟩ := h
  unfold lessThanSum
  cases hr : t.root with
  | nil =>
    have : c = [] := by
      unfold sortedVecKey at h2
      rw [hr] at h2
      exact h2.nil_eq.symm
    simp [this]
  | node k1 w1 s1 l1 r1 =>
    have hne : c ≠ [] := by
      rintro rfl
      unfold sortedVecKey at h2
      rw [hr] at h2
      have := h2.length_eq
      simp [KNode.sortedVecKey] at this
    have h3 := KNode.lessThanSumGo_spec k hk t.root 0 h1 (fun q hq => hw q (h2.mem_iff.1 hq)) hs
    rw [hr] at h3
    simp only [Fl.lit_exact]
    rw [h3, Prog.bind_ret, if_neg hne, zero_add, ← hr]
    show Prog.ret _ = _
    rw [weightBelow_perm (show t.root.sortedVecKey.Perm c from h2)]

theorem contents_finW : ∀ (ops : List (KOp K)) (c : List (Centroid K)), (∀ p ∈ c, p.weight.IsFin) → KOp.FinW ops →
    ∀ p ∈ KOp.contents c ops, p.weight.IsFin
  | [], _, h, _ => h
  | .insert k w :: ops, c, h, hw => contents_finW ops _ (by
      intro p hp
      rcases List.mem_cons.1 hp with rfl | hp
      · exact hw.1
      · exact h p hp) hw.2
  | .delete k :: ops, c, h, hw => contents_finW ops _ (fun p hp => h p (List.mem_of_mem_filter hp)) hw

theorem contents_finK : ∀ (ops : List (KOp K)) (c : List (Centroid K)), (∀ p ∈ c, p.mean.IsFin) → KOp.FinK ops →
    ∀ p ∈ KOp.contents c ops, p.mean.IsFin
  | [], _, h, _ => h
  | .insert k w :: ops, c, h, hw => contents_finK ops _ (by
      intro p hp
      rcases List.mem_cons.1 hp with rfl | hp
      · exact hw.1
      · exact h p hp) hw.2
  | .delete k :: ops, c, h, hw => contents_finK ops _ (fun p hp => h p (List.mem_of_mem_filter hp)) hw

/-- `closest_keys` on a tree holding `c`. -/
theorem closestKeys_spec [FloatFmt.Exact K] {t : KeyedSumTree K} {c : List (Centroid K)} (h : t.Holds c)
    (hf : ∀ p ∈ c, p.mean.IsFin) (hne : c ≠ []) (x : K) :
    Always (t.closestKeys (.fin x)) (fun res => res ≠ [] ∧ (∀ p ∈ res, p ∈ c) ∧
      (∀ p ∈ c, (∀ q ∈ c, |p.mean.toK - x| ≤ |q.mean.toK - x|) → p ∈ res) ∧
      (∀ p ∈ res, ∀ q ∈ c, |p.mean.toK - x| < |q.mean.toK - x| + 1 / 1000)) := by
  obtain ⟨h1, h2, -⟩ := h
  obtain ⟨path, p1, p2, p3, p4⟩ := KNode.closestPath_spec (.fin x) (by simp) t.root h1
  unfold closestKeys
  cases hr : t.root with
  | nil =>
    exfalso
    unfold sortedVecKey at h2
    rw [hr] at h2
    exact hne h2.nil_eq.symm
  | node k1 w1 s1 l1 r1 =>
    simp only []
    rw [← hr, p1, Prog.bind_ret]
    have hpc : ∀ p ∈ path, p ∈ c := fun p hp => h2.mem_iff.1 (p3 p hp)
    have hkey : ∀ p : Centroid K, p.mean.IsFin → Fl.fabs (p.mean - .fin x) = .fin |p.mean.toK - x| := by
      rintro p ⟨y, hy⟩
      rw [hy, Fl.sub_exact, Fl.fabs_fin]; rfl
    obtain ⟨m, m1, m2, m3⟩ := minBy_spec (fun p : Centroid K => Fl.fabs (p.mean - .fin x)) path (p2 (by rw [hr]; simp))
      (fun p hp => by simp [hkey p (hf p (hpc p hp))])
    rw [m1, Prog.bind_ret]
    simp only [Always, pure]
    have hmin : ∀ q ∈ path, |m.mean.toK - x| ≤ |q.mean.toK - x| := by
      intro q hq
      have := m3 q hq
      rw [hkey m (hf m (hpc m m2)), hkey q (hf q (hpc q hq))] at this
      simpa using this
    have hoff : ∀ q ∈ c, q ∈ path ∨ ∃ r ∈ path, |r.mean.toK - x| < |q.mean.toK - x| := by
      intro q hq
      rcases p4 q (h2.mem_iff.2 hq) with h | ⟨r, hr', h⟩
      · exact Or.inl h
      · obtain ⟨a, ha⟩ := hf q hq
        obtain ⟨b, hb⟩ := hf r (hpc r hr')
        refine Or.inr ⟨r, hr', ?_⟩
        rw [ha, hb] at h ⊢
        simp only [Fl.fin_le_fin, Fl.fin_lt_fin] at h
        simp only [Fl.toK]
        rcases h with ⟨h3, h4⟩ | ⟨h3, h4⟩
        · rw [abs_of_nonneg (by linarith), abs_of_nonneg (by linarith)]; linarith
        · rw [abs_of_nonpos (by linarith), abs_of_nonpos (by linarith)]; linarith
    have hminc : ∀ q ∈ c, |m.mean.toK - x| ≤ |q.mean.toK - x| := by
      intro q hq
      rcases hoff q hq with h | ⟨r, hr', h⟩
      · exact hmin q h
      · exact (hmin r hr').trans h.le
    have hfilter : ∀ q ∈ path, (Fl.lt (Fl.fabs (Fl.fabs (q.mean - .fin x) - Fl.fabs (m.mean - .fin x))) (Fl.lit (1 / 1000)) = true
        ↔ |q.mean.toK - x| < |m.mean.toK - x| + 1 / 1000) := by
      intro q hq
      rw [hkey m (hf m (hpc m m2)), hkey q (hf q (hpc q hq)), Fl.sub_exact, Fl.fabs_fin, Fl.lit_exact, Fl.lt_fin,
        abs_of_nonneg (sub_nonneg.2 (hmin q hq)), decide_eq_true_iff]
      constructor <;> intro h <;> linarith
    refine ⟨?_, ?_, ?_, ?_⟩
    · intro hnil
      have : m ∈ path.filter (fun c =>
        Fl.lt (Fl.fabs (Fl.fabs (c.mean - .fin x) - Fl.fabs (m.mean - .fin x))) (Fl.lit (1 / 1000))) :=
        List.mem_filter.2 ⟨m2, (hfilter m m2).2 (by linarith [show (0:K) < 1/1000 by norm_num])⟩
      rw [hnil] at this
      simp at this
    · intro p hp; exact hpc p (List.mem_of_mem_filter hp)
    · intro p hp hpm
      rcases hoff p hp with h | ⟨r, hr', h⟩
      · refine List.mem_filter.2 ⟨h, (hfilter p h).2 ?_⟩
        have := hpm m (hpc m m2)
        linarith [show (0:K) < 1/1000 by norm_num]
      · exact absurd (hpm r (hpc r hr')) (not_le.2 h)
    · intro p hp q hq
      have := (hfilter p (List.mem_of_mem_filter hp)).1 (List.mem_filter.1 hp).2
      have h5 := hminc q hq
      linarith

end KeyedSumTree
end AQ

/-
Weighted sums over a configuration and how the cascade steps change them.
-/
import Mathlib.Algebra.BigOperators.Ring.Finset
import Verif.Proofs.Cascade

set_option linter.unusedSectionVars false

namespace AQ
open Prog Spec

theorem wsum_set : ∀ (l : List Nat) (h a b : Nat), l[h]? = some a → wsum (l.set h b) + 2 ^ h * a = wsum l + 2 ^ h * b := by
  intro l
  induction l with
  | nil => intro h a b hh; simp at hh
  | cons c l ih =>
    intro h a b hh
    cases h with
    | zero => simp at hh; subst hh; simp [wsum]; omega
    | succ h =>
      simp only [List.getElem?_cons_succ] at hh
      have := ih h a b hh
      simp only [List.set_cons_succ, wsum, pow_succ]
      have e : ∀ z, 2 ^ h * 2 * z = 2 * (2 ^ h * z) := by intro z; ring
      rw [e, e]; omega

theorem wsum_append_zero (l : List Nat) : wsum (l ++ [0]) = wsum l := by
  induction l with
  | nil => rfl
  | cons c l ih => simp [wsum, ih]

theorem wsum_append (l l' : List Nat) : wsum (l ++ l') = wsum l + 2 ^ l.length * wsum l' := by
  induction l with
  | nil => simp [wsum]
  | cons c l ih => simp [wsum, ih, pow_succ]; ring

theorem wsum_mono {l l' : List Nat} (h : List.Forall₂ (· ≤ ·) l l') : wsum l ≤ wsum l' := by
  induction h with
  | nil => rfl
  | cons h _ ih => simp only [wsum]; omega

theorem wsum_eq_sum (l : List Nat) : wsum l = ∑ h ∈ Finset.range l.length, 2 ^ h * l.getD h 0 := by
  induction l with
  | nil => simp [wsum]
  | cons a l ih =>
    rw [wsum, List.length_cons, Finset.sum_range_succ', ih, Finset.mul_sum]
    simp only [List.getD_cons_succ, List.getD_cons_zero, pow_zero, one_mul]
    rw [add_comm]
    congr 1
    apply Finset.sum_congr rfl
    intro x _; rw [pow_succ]; ring

variable {K : Type} [Field K] [LinearOrder K] [IsStrictOrderedRing K] [FloatFmt K]

/-- A counting function on multisets of items. -/
structure Additive (g : List (Fl K) → Nat) : Prop where
  nil : g [] = 0
  app : ∀ a b, g (a ++ b) = g a + g b
  perm : ∀ a b, a.Perm b → g a = g b

theorem additive_length : Additive (K := K) List.length :=
  ⟨rfl, fun _ _ => List.length_append, fun _ _ h => h.length_eq⟩

theorem additive_countP (p : Fl K → Bool) : Additive (K := K) (List.countP p) :=
  ⟨rfl, fun _ _ => List.countP_append, fun _ _ h => h.countP_eq p⟩

theorem additive_rank (x : Fl K) : Additive (K := K) (fun l => rank l x) := additive_countP _

/-- Weight of the pending frames. -/
def fsum (g : List (Fl K) → Nat) : List (Frame K) → Nat
  | [] => 0
  | f :: P => 2 ^ f.lvl * g f.items + fsum g P

namespace RCSketch

/-- Total weight of a configuration with respect to `g`. -/
def W (g : List (Fl K) → Nat) (s : RCSketch K) (P : List (Frame K)) : Nat := wsum (s.buffers.map g) + fsum g P

variable {g : List (Fl K) → Nat}

theorem W_ensure (hg : Additive g) (s : RCSketch K) (h : Nat) (P : List (Frame K)) :
    W g (s.ensureLevel h) P = W g s P := by
  unfold W ensureLevel; split
  · simp [hg.nil, wsum_append_zero]
  · rfl

theorem W_pop (hg : Additive g) (s : RCSketch K) (h : Nat) (P : List (Frame K)) : W g s (⟨h, []⟩ :: P) = W g s P := by
  simp [W, fsum, hg.nil]

theorem W_setBuf (s : RCSketch K) {h : Nat} {buf : List (Fl K)} (b : List (Fl K)) (P : List (Frame K))
    (hget : s.buffers[h]? = some buf) :
    W g (s.setBuf h b) P + 2 ^ h * g buf = W g s P + 2 ^ h * g b := by
  have := wsum_set (s.buffers.map g) h (g buf) (g b) (by simp [hget])
  simp only [W, setBuf, List.map_set]; omega

theorem W_cons (s : RCSketch K) (f : Frame K) (P : List (Frame K)) : W g s (f :: P) = W g s P + 2 ^ f.lvl * g f.items := by
  simp [W, fsum]; omega

theorem W_push (hg : Additive g) (s : RCSketch K) {h : Nat} {buf : List (Fl K)} (items : List (Fl K)) (n : Nat)
    (P : List (Frame K)) (hget : s.buffers[h]? = some buf) :
    W g (s.setBuf h (buf ++ items.take n)) (⟨h, items.drop n⟩ :: P) = W g s (⟨h, items⟩ :: P) := by
  have h1 := W_setBuf (g := g) s (buf ++ items.take n) (⟨h, items.drop n⟩ :: P) hget
  rw [hg.app] at h1
  have h2 : g items = g (items.take n) + g (items.drop n) := by rw [← hg.app, List.take_append_drop]
  rw [W_cons] at h1 ⊢
  rw [W_cons] at h1 ⊢
  simp only [h2] at h1 ⊢
  rw [Nat.mul_add] at h1 ⊢
  omega

theorem W_push_all (hg : Additive g) (s : RCSketch K) {h : Nat} {buf : List (Fl K)} (items : List (Fl K))
    (P : List (Frame K)) (hget : s.buffers[h]? = some buf) :
    W g (s.setBuf h (buf ++ items)) (⟨h, []⟩ :: P) = W g s (⟨h, items⟩ :: P) := by
  have := W_push hg s items items.length P hget
  simpa using this

/-- Effect of a compaction on the weight: the upper part leaves level `h`, its output arrives at `h+1`. -/
theorem W_split (hg : Additive g) (s : RCSketch K) {h ci : Nat} {buf out : List (Fl K)} (ctrs : List Nat)
    (P : List (Frame K)) (hget : s.buffers[h]? = some buf) :
    W g (s.afterSplit h ci buf ctrs) (⟨h + 1, out⟩ :: P) + 2 ^ h * g ((sorted id buf).drop ci) =
      W g s P + 2 ^ h * (2 * g out) := by
  have h1 := W_setBuf (g := g) s ((sorted id buf).take ci) P hget
  have h2 : g buf = g ((sorted id buf).take ci) + g ((sorted id buf).drop ci) := by
    rw [← hg.app, List.take_append_drop]; exact (hg.perm _ _ (sorted_perm id buf)).symm
  have h3 : W g (s.afterSplit h ci buf ctrs) P = W g (s.setBuf h ((sorted id buf).take ci)) P := rfl
  rw [W_cons, h3]
  rw [h2, Nat.mul_add] at h1
  simp only [pow_succ]
  have e : 2 ^ h * 2 * g out = 2 ^ h * (2 * g out) := by ring
  rw [e]; omega

theorem W_compact (hg : Additive g) {s : RCSketch K} {h : Nat} {fast : Bool} {m : CompactionMethod}
    {items buf : List (Fl K)} {n : Nat} {rest : List (Frame K)} {r : List (Fl K) × RCSketch K}
    (hget : s.buffers[h]? = some buf)
    (hr : CompactRel (s.setBuf h (buf ++ items.take n)) h fast m (buf ++ items.take n) r) :
    ∃ ci ctrs, (s.setBuf h (buf ++ items.take n)).IsIndex h fast (buf ++ items.take n).length ci ctrs ∧
      ci ≤ (buf ++ items.take n).length ∧
      IsOut m ((sorted id (buf ++ items.take n)).drop ci) r.1 ∧
      W g r.2 (⟨h + 1, r.1⟩ :: ⟨h, items.drop n⟩ :: rest) + 2 ^ h * g ((sorted id (buf ++ items.take n)).drop ci) =
        W g s (⟨h, items⟩ :: rest) + 2 ^ h * (2 * g r.1) := by
  obtain ⟨ci, ctrs, out, hi, hci, -, ho, rfl⟩ := hr
  have hh : h < s.buffers.length := (List.getElem?_eq_some_iff.1 hget).1
  refine ⟨ci, ctrs, hi, hci, ho, ?_⟩
  rw [W_split hg _ ctrs _ (setBuf_get hh), W_push hg s items n rest hget]

/-! ### Counting the chosen half -/

theorem everyOther_append_even {α : Type} (b : Bool) (l l' : List α) :
    everyOther b (l ++ l') = everyOther b l ++ everyOther (if l.length % 2 = 0 then b else !b) l' := by
  induction l generalizing b with
  | nil => simp [everyOther]
  | cons a l ih =>
    have key : (if l.length % 2 = 0 then !b else b) = (if (l.length + 1) % 2 = 0 then b else !b) := by
      rcases Nat.mod_two_eq_zero_or_one l.length with h | h
      · rw [if_pos h, if_neg (by omega)]
      · rw [if_neg (by omega), if_pos (by omega)]
    cases b <;> simp only [List.cons_append, everyOther, ih, List.length_cons, Bool.not_true, Bool.not_false] at *
    · rw [key]
    · rw [key]

theorem everyOther_length_eq {α : Type} (l : List α) :
    (everyOther false l).length = (l.length + 1) / 2 ∧ (everyOther true l).length = l.length / 2 := by
  induction l with
  | nil => simp [everyOther]
  | cons a l ih => simp only [everyOther, List.length_cons]; omega

/-- With an even number of items each choice keeps exactly half. -/
theorem everyOther_two {α : Type} (l : List α) (h : l.length % 2 = 0) (b : Bool) :
    2 * (everyOther b l).length = l.length := by
  have := everyOther_length_eq l
  cases b <;> omega

theorem everyOther_sum {α : Type} (p : α → Bool) (l : List α) :
    (everyOther false l).countP p + (everyOther true l).countP p = l.countP p := by
  induction l with
  | nil => simp [everyOther]
  | cons a l ih => simp only [everyOther, List.countP_cons]; omega

/-- In a sorted list the items `≤ x` form a prefix; each choice keeps half of them up to one. -/
theorem everyOther_rank {l : List (Fl K)} (hs : l.Pairwise (· ≤ ·)) (x : Fl K) :
    (rank l x ≤ 2 * rank (everyOther false l) x ∧ 2 * rank (everyOther false l) x ≤ rank l x + 1) ∧
    (rank l x ≤ 2 * rank (everyOther true l) x + 1 ∧ 2 * rank (everyOther true l) x ≤ rank l x) := by
  induction l with
  | nil => simp [everyOther, rank]
  | cons a l ih =>
    have ih := ih hs.of_cons
    simp only [rank, everyOther, List.countP_cons] at *
    by_cases ha : a ≤ x
    · simp only [ha, decide_true, if_true]; omega
    · have h0 : l.countP (fun y => decide (y ≤ x)) = 0 := by
        rw [List.countP_eq_zero]
        intro y hy
        simp only [decide_eq_true_eq]
        intro hyx; exact ha (((List.pairwise_cons.1 hs).1 y hy).trans hyx)
      simp only [ha, decide_false, Bool.false_eq_true, if_false]
      omega

theorem averagePairs_two (l : List (Fl K)) (h : l.length % 2 = 0) : 2 * (averagePairs l).length = l.length := by
  induction l using averagePairs.induct with
  | case1 a b l ih =>
    simp only [averagePairs, List.length_cons] at *
    have := ih (by omega)
    omega
  | case2 l hl =>
    match l, hl, h with
    | [], _, _ => rfl
    | [a], _, h => simp at h
    | a :: b :: l, hl, _ => exact absurd rfl (hl a b l)

theorem isOut_two {m : CompactionMethod} {u out : List (Fl K)} (ho : IsOut m u out) (h : u.length % 2 = 0) :
    2 * out.length = u.length := by
  cases m with
  | default => obtain ⟨b, rfl⟩ := ho; exact everyOther_two u h b
  | averageNeighbour => have h' : out = averagePairs u := ho; subst h'; exact averagePairs_two u h

theorem avg_mem [hB : FloatFmt.Binary K] {a b : Fl K} (ha : a.CanDouble) (hb : b.CanDouble) (h : a ≤ b) :
    ((a + b) / Fl.ofNat 2).CanDouble ∧ a ≤ (a + b) / Fl.ofNat 2 ∧ (a + b) / Fl.ofNat 2 ≤ b := by
  obtain ⟨a, rfl, ha, ha2⟩ := ha
  obtain ⟨b, rfl, hb, hb2⟩ := hb
  simp only [Fl.fin_le_fin] at h
  have h2 : (Fl.ofNat 2 : Fl K) = .fin 2 := by
    show FloatFmt.rnd ((2 : ℕ) : K) = _
    rw [Nat.cast_ofNat]; exact hB.rnd_two
  have fin_of : ∀ {x l u : K}, Fl.fin l ≤ FloatFmt.rnd x → FloatFmt.rnd x ≤ Fl.fin u →
      ∃ y, FloatFmt.rnd x = .fin y ∧ l ≤ y ∧ y ≤ u := by
    intro x l u h1 h2
    have hn := hB.rnd_ne_nan x
    cases hx : FloatFmt.rnd x with
    | nan => exact absurd hx hn
    | ninf => rw [hx] at h1; exact absurd h1 (by simp)
    | pinf => rw [hx] at h2; exact absurd h2 (by simp)
    | fin y => rw [hx] at h1 h2; exact ⟨y, rfl, by simpa using h1, by simpa using h2⟩
  obtain ⟨s, hs, hs1, hs2⟩ := fin_of (x := a + b) (l := 2 * a) (u := 2 * b)
    (by rw [← ha2]; exact hB.rnd_mono _ _ (by linarith)) (by rw [← hb2]; exact hB.rnd_mono _ _ (by linarith))
  obtain ⟨v, hv, hv1, hv2⟩ := fin_of (x := s / 2) (l := a) (u := b)
    (by rw [← ha]; exact hB.rnd_mono _ _ (by rw [le_div_iff₀ two_pos]; linarith))
    (by rw [← hb]; exact hB.rnd_mono _ _ (by rw [div_le_iff₀ two_pos]; linarith))
  have e : (Fl.fin a + Fl.fin b) / Fl.ofNat 2 = .fin v := by
    rw [Fl.add_fin, hs, h2, Fl.div_fin_of_ne _ two_ne_zero, hv]
  rw [e, Fl.fin_le_fin, Fl.fin_le_fin]
  exact ⟨⟨v, rfl, hB.rnd_idem _ _ hv, hB.rnd_double a v b hv1 hv2 (hB.rnd_idem _ _ hv) ha2 hb2⟩, hv1, hv2⟩

/-- Averages of a sorted list of numbers that can be doubled can be doubled, and each lies between two members. -/
theorem averagePairs_mem [FloatFmt.Binary K] (l : List (Fl K)) (hs : l.Pairwise (· ≤ ·)) (hf : ∀ y ∈ l, y.CanDouble) :
    ∀ y ∈ averagePairs l, y.CanDouble ∧ (∃ a ∈ l, a ≤ y) ∧ ∃ b ∈ l, y ≤ b := by
  induction l using averagePairs.induct with
  | case1 a b l ih =>
    intro y hy
    simp only [averagePairs, List.mem_cons] at hy
    rcases hy with rfl | hy
    · have hab : a ≤ b := (List.pairwise_cons.1 hs).1 b (by simp)
      obtain ⟨h1, h2, h3⟩ := avg_mem (hf a (by simp)) (hf b (by simp)) hab
      exact ⟨h1, ⟨a, by simp, h2⟩, ⟨b, by simp, h3⟩⟩
    · obtain ⟨h1, ⟨c, hc, h2⟩, ⟨d, hd, h3⟩⟩ := ih hs.of_cons.of_cons (fun y hy => hf y (by simp [hy])) y hy
      exact ⟨h1, ⟨c, by simp [hc], h2⟩, ⟨d, by simp [hd], h3⟩⟩
  | case2 l hl =>
    intro y hy
    rw [averagePairs] at hy
    · simp at hy
    · exact hl

theorem averagePairs_rank [FloatFmt.Binary K] (l : List (Fl K)) (hs : l.Pairwise (· ≤ ·)) (hf : ∀ y ∈ l, y.CanDouble)
    (x : Fl K) : rank l x ≤ 2 * rank (averagePairs l) x + 1 ∧ 2 * rank (averagePairs l) x ≤ rank l x + 1 := by
  induction l using averagePairs.induct with
  | case1 a b l ih =>
    have hab : a ≤ b := (List.pairwise_cons.1 hs).1 b (by simp)
    have ih := ih hs.of_cons.of_cons (fun y hy => hf y (by simp [hy]))
    obtain ⟨h1, h2, h3⟩ := avg_mem (hf a (by simp)) (hf b (by simp)) hab
    by_cases hbx : b ≤ x
    · have e1 := hab.trans hbx
      have e2 := h3.trans hbx
      simp only [rank, averagePairs, List.countP_cons, hbx, e1, e2, decide_true, if_true] at *
      omega
    · have hz : ∀ y ∈ l, x < y := fun y hy =>
        lt_of_lt_of_le (not_le.1 hbx) ((List.pairwise_cons.1 hs.of_cons).1 y hy)
      have hz2 : rank (averagePairs l) x = 0 := by
        by_contra hne
        rw [show rank l x = 0 from by unfold rank; rw [List.countP_eq_zero]; intro y hy; simpa using hz y hy] at ih
        omega
      have hz1 : rank l x = 0 := by unfold rank; rw [List.countP_eq_zero]; intro y hy; simpa using hz y hy
      simp only [rank] at hz1 hz2
      simp only [rank, averagePairs, List.countP_cons, hz1, hz2, hbx, decide_false, Bool.false_eq_true, if_false]
      by_cases hax : a ≤ x
      · simp only [hax, decide_true, if_true]; split <;> omega
      · have : ¬ (a + b) / Fl.ofNat 2 ≤ x := fun h => hax (h2.trans h)
        simp only [hax, this, decide_false, Bool.false_eq_true, if_false]; omega
  | case2 l hl =>
    match l, hl with
    | [], _ => simp [averagePairs, rank]
    | [a], _ => simp only [averagePairs, rank, List.countP_cons, List.countP_nil]; split <;> omega
    | a :: b :: l, hl => exact absurd rfl (hl a b l)

theorem rank_zero_of_lt {l : List (Fl K)} (x : Fl K) (h : ∀ y ∈ l, x < y) : rank l x = 0 := by
  unfold rank; rw [List.countP_eq_zero]
  intro y hy; simpa using h y hy

end RCSketch
end AQ

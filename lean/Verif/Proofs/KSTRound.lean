/-
KeyedSumTree in rounding arithmetic.
-/
import Verif.Spec.Symmetric
import Verif.Proofs.KeyedSumTree
import Verif.Proofs.F64
import Verif.Proofs.TDRound

set_option linter.unusedSectionVars false
set_option linter.unusedVariables false

namespace AQ
open Prog Spec
variable {K : Type} [Field K] [LinearOrder K] [IsStrictOrderedRing K] [FloatFmt K]

namespace Spec

theorem ieee_symmetric (f : Ieee) (hp : 1 ≤ f.p) : @SymmetricRounding ℚ _ f.fmt := by
  intro x y h
  have hr : f.round (-x) = -(f.round x) := by
    unfold Ieee.round
    rcases lt_trichotomy x 0 with h | h | h
    · rw [if_pos (by linarith), if_neg (by linarith), if_pos h, neg_neg]
    · subst h; simp
    · rw [if_neg (by linarith), if_pos (by linarith), if_pos h, neg_neg]
  obtain ⟨h1, h2, h3⟩ := f.rnd_fin h
  have hy : f.round x = y := by
    change f.rnd x = _ at h
    unfold Ieee.rnd at h
    simp only at h
    split at h
    · cases h
    · split at h
      · cases h
      · simpa using h
  show f.rnd (-x) = _
  unfold Ieee.rnd
  simp only [hr, hy]
  rw [if_neg (by linarith), if_neg (by linarith)]

theorem f64_symmetric : @SymmetricRounding ℚ _ f64Fmt := ieee_symmetric _ (by decide)
theorem f32_symmetric : @SymmetricRounding ℚ _ f32Fmt := ieee_symmetric _ (by decide)

end Spec

namespace KNode

/-- All weights are counts. -/
def WNat (n : KNode K) : Prop := ∀ c ∈ n.sortedVecKey, ∃ w : Nat, c.weight = .fin (w : K)

theorem wnat_node {k w s : Fl K} {l r : KNode K} :
    WNat (node k w s l r) ↔ (∃ n : Nat, w = .fin (n : K)) ∧ WNat l ∧ WNat r := by
  simp only [WNat, sortedVecKey, List.mem_append, List.mem_cons]
  constructor
  · intro h
    exact ⟨h ⟨k, w⟩ (by simp), fun c hc => h c (Or.inl hc), fun c hc => h c (Or.inr (Or.inr hc))⟩
  · rintro ⟨h1, h2, h3⟩ c (hc | rfl | hc)
    · exact h2 c hc
    · exact h1
    · exact h3 c hc

theorem sum_nat {l : List (Centroid K)} (h : ∀ c ∈ l, ∃ w : Nat, c.weight = .fin (w : K)) :
    ∃ n : Nat, (l.map (fun c => c.weight.toK)).sum = (n : K) := by
  induction l with
  | nil => exact ⟨0, by simp⟩
  | cons a l ih =>
    obtain ⟨n, hn⟩ := ih (fun c hc => h c (by simp [hc]))
    obtain ⟨w, hw⟩ := h a (by simp)
    exact ⟨w + n, by rw [List.map_cons, List.sum_cons, hn, hw]; simp [Fl.toK]⟩

theorem add_nat {N : Nat} (hc : ExactCounts K N) {a b : Nat} (h : a + b ≤ N) :
    (.fin (a : K) + .fin (b : K) : Fl K) = .fin ((a + b : ℕ) : K) := by
  rw [Fl.add_fin, ← Nat.cast_add]
  exact hc.rnd_nat h

/-- The part of the weight in the subtrees. -/
theorem tree_sum {k w s : Fl K} {l r : KNode K} {n : Nat} (hw : WNat (node k w s l r))
    (hn : ((node k w s l r).sortedVecKey.map (fun c => c.weight.toK)).sum = (n : K)) :
    ∃ a b c : Nat, (l.sortedVecKey.map (fun c => c.weight.toK)).sum = (a : K) ∧ w = .fin (b : K) ∧
      (r.sortedVecKey.map (fun c => c.weight.toK)).sum = (c : K) ∧ n = a + b + c := by
  obtain ⟨⟨b, hb⟩, h1, h2⟩ := wnat_node.1 hw
  obtain ⟨a, ha⟩ := sum_nat h1
  obtain ⟨c, hc⟩ := sum_nat h2
  refine ⟨a, b, c, ha, hb, hc, ?_⟩
  simp only [sortedVecKey, List.map_append, List.sum_append, List.map_cons, List.sum_cons, ha, hc, hb] at hn
  have : ((a + (b + c) : ℕ) : K) = (n : K) := by push_cast; exact hn
  have := Nat.cast_injective this
  omega

theorem insert_sumOK_nat {N : Nat} (hc : ExactCounts K N) (key : Fl K) (w : Nat) : ∀ (n : KNode K) (m : Nat), SumOK n → WNat n →
    (n.sortedVecKey.map (fun c => c.weight.toK)).sum = (m : K) → m + w ≤ N → Partially (n.insert key (.fin (w : K))) SumOK
  | nil, _, _, _, _, _ => by simp [insert, SumOK, sortedVecKey, Fl.toK]
  | node k w' s l r, m, h, hw, hm, hN => by
    have hp := insert_perm key (.fin (w : K)) (node k w' s l r)
    obtain ⟨a, b, c, ea, eb, ec, e⟩ := tree_sum hw hm
    obtain ⟨-, wl, wr⟩ := wnat_node.1 hw
    unfold insert at hp ⊢
    obtain ⟨h1, h2, h3⟩ := h
    rw [hm] at h1
    have hadd : s + .fin (w : K) = .fin ((w : K) + m) := by
      rw [h1, add_nat hc hN]; push_cast; rw [add_comm]
    split
    · next hlt =>
      rw [if_pos hlt, partially_bind] at hp
      rw [partially_bind]
      refine ((insert_sumOK_nat hc key w l a h2 wl ea (by omega)).and hp).mono ?_
      rintro l' ⟨h4, h5⟩
      refine ⟨?_, h4, h3⟩
      have h5' : (node k w' (s + .fin (w : K)) l' r).sortedVecKey.Perm
        (⟨key, .fin (w : K)⟩ :: (node k w' s l r).sortedVecKey) := h5
      rw [(h5'.map (fun c => c.weight.toK)).sum_eq, List.map_cons, List.sum_cons, hm, hadd]
      rfl
    · next hlt =>
      rw [if_neg hlt] at hp
      split
      · next hlt' =>
        rw [if_pos hlt', partially_bind] at hp
        rw [partially_bind]
        refine ((insert_sumOK_nat hc key w r c h3 wr ec (by omega)).and hp).mono ?_
        rintro r' ⟨h4, h5⟩
        refine ⟨?_, h2, h4⟩
        have h5' : (node k w' (s + .fin (w : K)) l r').sortedVecKey.Perm
          (⟨key, .fin (w : K)⟩ :: (node k w' s l r).sortedVecKey) := h5
        rw [(h5'.map (fun c => c.weight.toK)).sum_eq, List.map_cons, List.sum_cons, hm, hadd]
        rfl
      · trivial

theorem insert_spineOK_nat {N : Nat} (hc : ExactCounts K N) (key : Fl K) (w : Nat) : ∀ (n : KNode K) (m : Nat), SpineOK n → WNat n →
    (n.sortedVecKey.map (fun c => c.weight.toK)).sum = (m : K) → m + w ≤ N → Partially (n.insert key (.fin (w : K))) SpineOK
  | nil, _, _, _, _, _ => by simp [insert, SpineOK, SumOK]
  | node k w' s l r, m, h, hw, hm, hN => by
    obtain ⟨h2, h3⟩ := h
    obtain ⟨a, b, c, ea, eb, ec, e⟩ := tree_sum hw hm
    obtain ⟨-, wl, wr⟩ := wnat_node.1 hw
    unfold insert
    split
    · rw [partially_bind]
      refine (insert_sumOK_nat hc key w l a h2 wl ea (by omega)).mono ?_
      intro l' h4
      exact ⟨h4, h3⟩
    · split
      · rw [partially_bind]
        refine (insert_spineOK_nat hc key w r c h3 wr ec (by omega)).mono ?_
        intro r' h4
        exact ⟨h2, h4⟩
      · trivial

theorem lessThanSumGo_nat {N : Nat} (hc : ExactCounts K N) (key : Fl K) (hk : key ≠ .nan) : ∀ (n : KNode K) (acc m : Nat), Bst n →
    WNat n → SpineOK n → (n.sortedVecKey.map (fun c => c.weight.toK)).sum = (m : K) → acc + m ≤ N →
    n.lessThanSumGo key (.fin (acc : K)) = .ret (.fin ((acc : K) + weightBelow n.sortedVecKey key))
  | nil, acc, _, _, _, _, _, _ => by simp [lessThanSumGo, weightBelow, sortedVecKey]
  | node k w s l r, acc, m, hb, hw, hs, hm, hN => by
    obtain ⟨a, b, c, ea, rfl, ec, e⟩ := tree_sum hw hm
    obtain ⟨-, hwl, hwr⟩ := wnat_node.1 hw
    obtain ⟨hl, hr, hkn, hlk, hrk⟩ := bst_node.1 hb
    obtain ⟨hsl, hsr⟩ := hs
    have hwb : weightBelow (node k (.fin (b : K)) s l r).sortedVecKey key =
        weightBelow l.sortedVecKey key + ((if k < key then (b : K) else 0) + weightBelow r.sortedVecKey key) := by
      simp only [weightBelow, sortedVecKey, List.filter_append, List.map_append, List.sum_append, List.filter_cons]
      congr 1
      by_cases h : k < key <;> simp [h, Fl.toK]
    have hbelow_r : key ≤ k → weightBelow r.sortedVecKey key = 0 := by
      intro h
      unfold weightBelow
      rw [List.filter_eq_nil_iff.2]
      · rfl
      · intro c hc
        have := h.trans_lt (hrk c hc)
        simp [this.le]
    have hbelow_l : k < key → weightBelow l.sortedVecKey key = (l.sortedVecKey.map (fun c => c.weight.toK)).sum := by
      intro h
      unfold weightBelow
      rw [List.filter_eq_self.2]
      intro c hc
      simpa using (hlk c hc).trans h
    unfold lessThanSumGo
    rw [Fl.cmp_eq hk hkn, hwb]
    rcases lt_trichotomy key k with h | h | h
    · rw [compare_lt_iff_lt.2 h, hbelow_r h.le, if_neg h.not_gt]
      simp only []
      rw [lessThanSumGo_nat hc key hk l acc a hl hwl hsl.spine ea (by omega)]
      simp
    · rw [compare_eq_iff_eq.2 h, hbelow_r h.le, if_neg (by rw [h]; simp)]
      simp only []
      rw [lessThanSumGo_nat hc key hk l acc a hl hwl hsl.spine ea (by omega)]
      simp
    · rw [compare_gt_iff_gt.2 h, hbelow_l h, if_pos h]
      simp only []
      cases l with
      | nil =>
        simp only []
        rw [add_nat hc (by omega), lessThanSumGo_nat hc key hk r _ c hr hwr hsr ec (by omega)]
        push_cast
        simp [sortedVecKey, add_assoc]
      | node k1 w1 s1 l1 r1 =>
        have := hsl.1
        rw [ea] at this ⊢
        simp only [this]
        rw [add_nat hc (by omega), add_nat hc (by omega), lessThanSumGo_nat hc key hk r _ c hr hwr hsr ec (by omega)]
        congr 2
        push_cast
        ring

end KNode

namespace KeyedSumTree

theorem execOps_spineOK_nat {N : Nat} (hc : ExactCounts K N) : ∀ (ops : List (KOp K)) (t : KeyedSumTree K) (c : List (Centroid K))
    (m a : Nat), t.Holds c → t.root.SpineOK → (∀ p ∈ c, ∃ w : Nat, p.weight = .fin (w : K)) → totalW c = (m : K) → m ≤ a →
    KOp.ValidMax c ops → KOp.Counts N a ops →
    Always (t.execOps ops) (fun t' => t'.root.SpineOK) ∧ (∀ p ∈ KOp.contents c ops, ∃ w : Nat, p.weight = .fin (w : K)) ∧
      ∃ m' : Nat, totalW (KOp.contents c ops) = (m' : K) ∧ m' ≤ N
  | [], t, c, m, a, _, h, hw, hm, hma, _, hN => ⟨h, hw, m, hm, hma.trans hN⟩
  | .insert k w :: ops, t, c, m, a, hh, h, hw, hm, hma, hv, hN => by
    obtain ⟨hk, hf, hv⟩ := hv
    obtain ⟨n, rfl, hN⟩ := hN
    have hNa : ∀ (ops : List (KOp K)) (a : Nat), KOp.Counts N a ops → a ≤ N := by
      intro ops
      induction ops with
      | nil => intro a h; exact h
      | cons o ops ih =>
        intro a h
        cases o with
        | insert k w => obtain ⟨n, -, h⟩ := h; have := ih _ h; omega
        | delete k => exact ih a h
    have hle := hNa ops _ hN
    have hw' : ∀ p ∈ (⟨k, .fin (n : K)⟩ :: c : List (Centroid K)), ∃ w : Nat, p.weight = .fin (w : K) := by
      intro p hp
      rcases List.mem_cons.1 hp with rfl | hp
      · exact ⟨n, rfl⟩
      · exact hw p hp
    have hm' : totalW (⟨k, .fin (n : K)⟩ :: c) = ((n + m : ℕ) : K) := by
      rw [totalW_cons, hm]; push_cast; rfl
    have hsum : (t.root.sortedVecKey.map (fun c => c.weight.toK)).sum = (m : K) := by
      rw [← hm]; exact (hh.2.1.map _).sum_eq
    have h2 : Partially (t.insert k (.fin (n : K))) (fun t' => t'.root.SpineOK) := by
      unfold insert
      rw [partially_bind]
      exact (KNode.insert_spineOK_nat hc k n t.root m h (fun p hp => hw p (hh.2.1.mem_iff.1 hp)) hsum (by omega)).mono (fun n hn => hn)
    have hi := insert_holds hh k (.fin (n : K)) hk hf
    obtain ⟨t1, ht1, h1⟩ := Always.ret_of_eq hi
    have h1s := (partially_iff _ _).1 h2 t1 ht1
    refine ⟨?_, (execOps_spineOK_nat hc ops t1 _ (n + m) (a + n) h1 h1s hw' hm' (by omega) hv hN).2⟩
    unfold execOps
    rw [always_bind]
    exact (hi.and h2).mono (fun t' h' => (execOps_spineOK_nat hc ops t' _ (n + m) (a + n) h'.1 h'.2 hw' hm' (by omega) hv hN).1)
  | .delete k :: ops, t, c, m, a, hh, h, hw, hm, hma, hv, hN => by
    obtain ⟨hf, hmax, hv⟩ := hv
    have hw' : ∀ p ∈ c.filter (fun p => p.mean ≠ k), ∃ w : Nat, p.weight = .fin (w : K) :=
      fun p hp => hw p (List.mem_of_mem_filter hp)
    obtain ⟨m', hm'⟩ := KNode.sum_nat hw'
    have hmm : m' ≤ m := by
      have hp := (List.filter_append_perm (fun p : Centroid K => decide (p.mean ≠ k)) c)
      have e := totalW_perm hp
      obtain ⟨m2, hm2⟩ := KNode.sum_nat (l := c.filter (fun p => !decide (p.mean ≠ k))) (fun p hp => hw p (List.mem_of_mem_filter hp))
      rw [totalW_append, hm] at e
      have e' : ((m' + m2 : ℕ) : K) = (m : K) := by
        push_cast
        rw [← hm', ← hm2]; exact e
      have := Nat.cast_injective e'
      omega
    have h2 : Partially (t.delete k) (fun t' => t'.root.SpineOK) := by
      obtain ⟨p, hp, rfl⟩ := hf
      have hpn : p.mean ≠ .nan := hh.1.2 p (hh.2.1.mem_iff.2 hp)
      obtain ⟨n', h4, -, -⟩ := KNode.delete_spec p.mean hpn t.root hh.1
      have := KNode.delete_max_spineOK p.mean hpn t.root n' hh.1 h (fun q hq => hmax q (hh.2.1.mem_iff.1 hq)) h4
      unfold delete
      rw [h4, Prog.bind_ret, partially_bind]
      exact (partially_true _).mono (fun _ _ => this)
    have hi := delete_holds hh k hf
    obtain ⟨t1, ht1, h1⟩ := Always.ret_of_eq hi
    have h1s := (partially_iff _ _).1 h2 t1 ht1
    refine ⟨?_, (execOps_spineOK_nat hc ops t1 _ m' a h1 h1s hw' hm' (by omega) hv hN).2⟩
    unfold execOps
    rw [always_bind]
    exact (hi.and h2).mono (fun t' h' => (execOps_spineOK_nat hc ops t' _ m' a h'.1 h'.2 hw' hm' (by omega) hv hN).1)

theorem lessThanSum_nat [FloatFmt.Mono K] {N : Nat} (hc : ExactCounts K N) {t : KeyedSumTree K} {c : List (Centroid K)} (h : t.Holds c)
    (hs : t.root.SpineOK) (hw : ∀ p ∈ c, ∃ w : Nat, p.weight = .fin (w : K)) {m : Nat} (hm : totalW c = (m : K)) (hN : m ≤ N)
    (k : Fl K) (hk : k ≠ .nan) :
    t.lessThanSum k = .ret (if c = [] then none else some (.fin (weightBelow c k))) := by
  obtain ⟨h1, h2, -⟩ := h
  unfold lessThanSum
  cases hr : t.root with
  | nil =>
    have : c = [] := by
      unfold sortedVecKey at h2
      rw [hr] at h2
      exact h2.nil_eq.symm
    simp [this]
  | node k1 w1 s1 l1 r1 =>
    have hne : c ≠ [] := by
      rintro rfl
      unfold sortedVecKey at h2
      rw [hr] at h2
      have := h2.length_eq
      simp [KNode.sortedVecKey] at this
    have hsum : (t.root.sortedVecKey.map (fun c => c.weight.toK)).sum = (m : K) := by
      rw [← hm]; exact (h2.map _).sum_eq
    have h3 := KNode.lessThanSumGo_nat hc k hk t.root 0 m h1 (fun q hq => hw q (h2.mem_iff.1 hq)) hs hsum (by omega)
    rw [hr, Nat.cast_zero] at h3
    simp only []
    rw [show (Fl.lit 0 : Fl K) = .fin 0 from FloatFmt.Mono.rnd_zero, h3, Prog.bind_ret, if_neg hne, zero_add, ← hr]
    show Prog.ret _ = _
    rw [weightBelow_perm (show t.root.sortedVecKey.Perm c from h2)]

/-- `closest_keys` on a tree holding `c`, in rounding arithmetic. -/
theorem closestKeys_round [FloatFmt.Mono K] (hsym : SymmetricRounding K)
    (hpos : Fl.lt (.fin 0) (Fl.lit (1 / 1000) : Fl K) = true) {t : KeyedSumTree K} {c : List (Centroid K)} (h : t.Holds c)
    (hf : ∀ p ∈ c, p.mean.IsFin) (hne : c ≠ []) (x : K) (hfin : ∀ p ∈ c, (FloatFmt.rnd |p.mean.toK - x|).IsFin) :
    Always (t.closestKeys (.fin x)) (fun res => res ≠ [] ∧ (∀ p ∈ res, p ∈ c) ∧
      (∀ p ∈ c, (∀ q ∈ c, |p.mean.toK - x| ≤ |q.mean.toK - x|) → p ∈ res) ∧
      (∀ p ∈ res, ∀ q ∈ c, (FloatFmt.rnd |p.mean.toK - x|).toK < (FloatFmt.rnd |q.mean.toK - x|).toK + 1 / 1000)) := by
  obtain ⟨h1, h2, -⟩ := h
  obtain ⟨path, p1, p2, p3, p4⟩ := KNode.closestPath_spec (.fin x) (by simp) t.root h1
  unfold closestKeys
  cases hr : t.root with
  | nil =>
    exfalso
    unfold sortedVecKey at h2
    rw [hr] at h2
    exact hne h2.nil_eq.symm
  | node k1 w1 s1 l1 r1 =>
    simp only []
    rw [← hr, p1, Prog.bind_ret]
    have hpc : ∀ p ∈ path, p ∈ c := fun p hp => h2.mem_iff.1 (p3 p hp)
    have hkey : ∀ p ∈ c, Fl.fabs (p.mean - .fin x) = .fin (FloatFmt.rnd |p.mean.toK - x|).toK := by
      intro p hp
      obtain ⟨y, hy⟩ := hf p hp
      obtain ⟨z, hz⟩ := hfin p hp
      rw [hz]
      rw [hy] at hz ⊢
      simp only [Fl.toK] at hz ⊢
      have z0 : 0 ≤ z := by
        have := FloatFmt.Mono.rnd_mono 0 |y - x| (abs_nonneg _)
        rw [FloatFmt.Mono.rnd_zero, hz, Fl.fin_le_fin] at this
        exact this
      rcases abs_choice (y - x) with e | e
      · rw [e] at hz
        rw [Fl.sub_fin, hz, Fl.fabs_fin, abs_of_nonneg z0]
      · rw [e] at hz
        have := hsym _ _ hz
        rw [neg_neg] at this
        rw [Fl.sub_fin, this, Fl.fabs_fin, abs_neg, abs_of_nonneg z0]
    have hmono : ∀ p ∈ c, ∀ q ∈ c, |p.mean.toK - x| ≤ |q.mean.toK - x| →
        (FloatFmt.rnd |p.mean.toK - x|).toK ≤ (FloatFmt.rnd |q.mean.toK - x|).toK := by
      intro p hp q hq hle
      have := FloatFmt.Mono.rnd_mono _ _ hle
      obtain ⟨a, ha⟩ := hfin p hp
      obtain ⟨b, hb⟩ := hfin q hq
      rw [ha, hb] at this ⊢
      exact Fl.fin_le_fin.1 this
    obtain ⟨m, m1, m2, m3⟩ := minBy_spec (fun p : Centroid K => Fl.fabs (p.mean - .fin x)) path (p2 (by rw [hr]; simp))
      (fun p hp => by simp [hkey p (hpc p hp)])
    rw [m1, Prog.bind_ret]
    simp only [Always, pure]
    have hmin : ∀ q ∈ path, (FloatFmt.rnd |m.mean.toK - x|).toK ≤ (FloatFmt.rnd |q.mean.toK - x|).toK := by
      intro q hq
      have := m3 q hq
      rw [hkey m (hpc m m2), hkey q (hpc q hq)] at this
      simpa using this
    have hoff : ∀ q ∈ c, q ∈ path ∨ ∃ r ∈ path, |r.mean.toK - x| < |q.mean.toK - x| := by
      intro q hq
      rcases p4 q (h2.mem_iff.2 hq) with h | ⟨r, hr', h⟩
      · exact Or.inl h
      · obtain ⟨a, ha⟩ := hf q hq
        obtain ⟨b, hb⟩ := hf r (hpc r hr')
        refine Or.inr ⟨r, hr', ?_⟩
        rw [ha, hb] at h ⊢
        simp only [Fl.fin_le_fin, Fl.fin_lt_fin] at h
        simp only [Fl.toK]
        rcases h with ⟨h3, h4⟩ | ⟨h3, h4⟩
        · rw [abs_of_nonneg (by linarith), abs_of_nonneg (by linarith)]; linarith
        · rw [abs_of_nonpos (by linarith), abs_of_nonpos (by linarith)]; linarith
    have hminc : ∀ q ∈ c, (FloatFmt.rnd |m.mean.toK - x|).toK ≤ (FloatFmt.rnd |q.mean.toK - x|).toK := by
      intro q hq
      rcases hoff q hq with h | ⟨r, hr', h⟩
      · exact hmin q h
      · exact (hmin r hr').trans (hmono r (hpc r hr') q hq h.le)
    -- the filter keeps what is at the least computed distance, and nothing farther off by 0.001
    have hin : ∀ q ∈ path, (FloatFmt.rnd |q.mean.toK - x|).toK = (FloatFmt.rnd |m.mean.toK - x|).toK →
        Fl.lt (Fl.fabs (Fl.fabs (q.mean - .fin x) - Fl.fabs (m.mean - .fin x))) (Fl.lit (1 / 1000)) = true := by
      intro q hq e
      rw [hkey m (hpc m m2), hkey q (hpc q hq), e, Fl.sub_fin, sub_self, FloatFmt.Mono.rnd_zero, Fl.fabs_fin, abs_zero]
      exact hpos
    have hout : ∀ q ∈ path, Fl.lt (Fl.fabs (Fl.fabs (q.mean - .fin x) - Fl.fabs (m.mean - .fin x))) (Fl.lit (1 / 1000)) = true →
        (FloatFmt.rnd |q.mean.toK - x|).toK < (FloatFmt.rnd |m.mean.toK - x|).toK + 1 / 1000 := by
      intro q hq hlt
      rw [hkey m (hpc m m2), hkey q (hpc q hq), Fl.sub_fin] at hlt
      by_contra hcon
      rw [not_lt] at hcon
      have hle := FloatFmt.Mono.rnd_mono (1 / 1000) ((FloatFmt.rnd |q.mean.toK - x|).toK - (FloatFmt.rnd |m.mean.toK - x|).toK)
        (by linarith)
      have h0 := FloatFmt.Mono.rnd_mono (K := K) 0 (1 / 1000) (by norm_num)
      rw [FloatFmt.Mono.rnd_zero] at h0
      have hnn := FloatFmt.Mono.rnd_ne_nan (K := K) (1 / 1000)
      have hnn2 := FloatFmt.Mono.rnd_ne_nan ((FloatFmt.rnd |q.mean.toK - x|).toK - (FloatFmt.rnd |m.mean.toK - x|).toK)
      have hab : Fl.fabs (FloatFmt.rnd ((FloatFmt.rnd |q.mean.toK - x|).toK - (FloatFmt.rnd |m.mean.toK - x|).toK)) =
          FloatFmt.rnd ((FloatFmt.rnd |q.mean.toK - x|).toK - (FloatFmt.rnd |m.mean.toK - x|).toK) := by
        have h00 := h0.trans hle
        generalize FloatFmt.rnd ((FloatFmt.rnd |q.mean.toK - x|).toK - (FloatFmt.rnd |m.mean.toK - x|).toK) = r at h00 hnn2 ⊢
        cases r with
        | nan => exact absurd rfl hnn2
        | ninf => exact absurd h00 (Fl.fin_not_le_ninf 0)
        | pinf => rfl
        | fin r => rw [Fl.fabs_fin, abs_of_nonneg (Fl.fin_le_fin.1 h00)]
      unfold Fl.lit at hlt
      rw [hab, Fl.lt_eq hnn2 hnn] at hlt
      exact absurd hle (not_le.2 (by simpa using hlt))
    refine ⟨?_, ?_, ?_, ?_⟩
    · intro hnil
      have : m ∈ path.filter (fun c =>
        Fl.lt (Fl.fabs (Fl.fabs (c.mean - .fin x) - Fl.fabs (m.mean - .fin x))) (Fl.lit (1 / 1000))) :=
        List.mem_filter.2 ⟨m2, hin m m2 rfl⟩
      rw [hnil] at this
      simp at this
    · intro p hp; exact hpc p (List.mem_of_mem_filter hp)
    · intro p hp hpm
      rcases hoff p hp with h | ⟨r, hr', h⟩
      · exact List.mem_filter.2 ⟨h, hin p h (le_antisymm (hmono p hp m (hpc m m2) (hpm m (hpc m m2))) (hmin p h))⟩
      · exact absurd (hpm r (hpc r hr')) (not_le.2 h)
    · intro p hp q hq
      have := hout p (List.mem_of_mem_filter hp) (List.mem_filter.1 hp).2
      have h5 := hminc q hq
      linarith

end KeyedSumTree
end AQ

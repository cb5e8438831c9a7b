/-
Facts about ParallelDigest.
-/
import Verif.Model.ParallelDigest
import Verif.Model.Linear
import Verif.Spec.History
import Verif.Proofs.KeyedSumTree
import Verif.Proofs.MultiDigest
import Verif.Proofs.Nondet
import Verif.Proofs.Sort

set_option linter.unusedSectionVars false
set_option linter.unusedVariables false

namespace AQ
open Prog Spec

theorem chunksAux_length {α : Type} (c : Nat) (hc : c ≠ 0) : ∀ (n : Nat) (l : List α), l.length ≤ n →
    (chunksAux c n l).length = (l.length + c - 1) / c := by
  intro n
  induction n with
  | zero =>
    intro l h
    have : l.length = 0 := by omega
    rw [this]
    show 0 = _
    rw [Nat.zero_add, Nat.div_eq_of_lt (by omega)]
  | succ n ih =>
    intro l h
    cases l with
    | nil =>
      show 0 = (0 + c - 1) / c
      rw [Nat.zero_add, Nat.div_eq_of_lt (by omega)]
    | cons a l =>
      rw [chunksAux, List.length_cons, ih _ (by simp only [List.length_drop, List.length_cons] at *; omega), List.length_drop]
      have hm : 1 ≤ (a :: l).length := by simp
      generalize (a :: l).length = m at *
      rcases le_or_gt c m with h1 | h1
      · rw [show m + c - 1 = (m - c + c - 1) + c by omega, Nat.add_div_right _ (by omega)]
      · rw [show m - c = 0 by omega, Nat.zero_add, Nat.div_eq_of_lt (by omega : c - 1 < c)]
        rw [show m + c - 1 = (m - 1) + c by omega, Nat.add_div_right _ (by omega), Nat.div_eq_of_lt (by omega)]

namespace ParallelDigest
variable {K : Type} [Field K] [LinearOrder K] [IsStrictOrderedRing K] [FloatFmt K]
variable {D : Type} [Digest D (Fl K)]

/-- At most as many chunks as digests. -/
theorem chunks_le_digests {len d : Nat} (hd : d ≠ 0) : (len + chunkLen len d - 1) / chunkLen len d ≤ d := by
  have hc : 1 ≤ chunkLen len d := by unfold chunkLen; split <;> exact Nat.le_max_right _ _
  have hm : len ≤ d * chunkLen len d := by
    have h1 : (len + d - 1) / d ≤ chunkLen len d := by unfold chunkLen; rw [if_neg hd]; exact Nat.le_max_left _ _
    have h2 := Nat.div_add_mod (len + d - 1) d
    have h3 := Nat.mod_lt (len + d - 1) (Nat.pos_of_ne_zero hd)
    have h4 := Nat.mul_le_mul_left d h1
    omega
  rw [Nat.div_le_iff_le_mul_add_pred hc, Nat.mul_comm]
  omega

/-- All digests get a chunk if the number of items is a positive multiple of their number. -/
theorem chunks_eq_digests {m d : Nat} (hd : d ≠ 0) (hm : m ≠ 0) :
    (m * d + chunkLen (m * d) d - 1) / chunkLen (m * d) d = d := by
  have h1 : (m * d + d - 1) / d = m := by
    rw [Nat.div_eq_iff (Nat.pos_of_ne_zero hd)]
    constructor <;> omega
  have hc : chunkLen (m * d) d = m := by
    unfold chunkLen
    rw [if_neg hd, h1]
    omega
  rw [hc, Nat.div_eq_iff (Nat.pos_of_ne_zero hm), Nat.mul_comm d m]
  constructor <;> omega

/-- What feeding chunks to digests means. -/
def Fed (cs : List (List (Fl K))) (ds ds' : List D) : Prop :=
  ds'.length = ds.length ∧ ∀ (i : Nat) (d : D), ds[i]? = some d →
    ∃ d', ds'[i]? = some d' ∧ match cs[i]? with
      | some c => CanReturn (Digest.addBuffer d c) d'
      | none => d' = d

theorem feed_partially : ∀ (cs : List (List (Fl K))) (ds : List D), cs.length ≤ ds.length →
    Partially (feed cs ds) (Fed cs ds)
  | [], ds, _ => ⟨rfl, fun i d h => ⟨d, h, by simp⟩⟩
  | c :: cs, [], h => by simp at h
  | c :: cs, d :: ds, h => by
    unfold feed
    rw [partially_bind, partially_iff]
    intro d' hd'
    rw [partially_bind]
    refine (feed_partially cs ds (by simpa using h)).mono ?_
    rintro ds' ⟨h1, h2⟩
    refine ⟨by simp [h1], ?_⟩
    intro i e he
    cases i with
    | zero =>
      simp only [List.getElem?_cons_zero, Option.some.injEq] at he ⊢
      subst he
      exact ⟨d', rfl, hd'⟩
    | succ i =>
      simp only [List.getElem?_cons_succ] at he ⊢
      exact h2 i e he

theorem feed_always : ∀ (cs : List (List (Fl K))) (ds : List D),
    (∀ c ∈ cs, ∀ d ∈ ds, Always (Digest.addBuffer d c) (fun _ => True)) → Always (feed cs ds) (fun _ => True)
  | [], ds, _ => trivial
  | c :: cs, [], _ => trivial
  | c :: cs, d :: ds, h => by
    unfold feed
    rw [always_bind]
    refine (h c (by simp) d (by simp)).mono ?_
    intro d' _
    rw [always_bind]
    refine (feed_always cs ds (fun c' hc' e he => h c' (by simp [hc']) e (by simp [he]))).mono ?_
    intro _ _
    trivial

theorem chunkLen_ne_zero (len d : Nat) : chunkLen len d ≠ 0 := by
  unfold chunkLen
  split <;> exact (Nat.lt_of_lt_of_le Nat.zero_lt_one (Nat.le_max_right _ _)).ne'

/-- The sum of ranks. -/
theorem rankLoop_partially [FloatFmt.Exact K] (v : Fl K) : ∀ (ds : List D) (acc : Fl K),
    Partially (rankLoop v ds acc) (fun r => ∃ rs : List (Fl K × D),
      List.Forall₂ (fun d s => CanReturn (Digest.estQuantileAtValue d v) s) ds rs ∧ r.2 = rs.map Prod.snd ∧
      ∀ (a : K) (as : List K) (ns : List Nat), acc = .fin a → rs.map Prod.fst = as.map Fl.fin →
        List.Forall₂ (fun s n => Digest.count s.2 = .ret n) rs ns →
        r.1 = .fin (a + (List.zipWith (fun a (n : Nat) => a * (n : K)) as ns).sum))
  | [], acc => by
    refine ⟨[], .nil, rfl, ?_⟩
    intro a as ns ha has hns
    cases hns
    cases as with
    | nil => simpa using ha
    | cons => simp at has
  | d :: ds, acc => by
    unfold rankLoop
    rw [partially_bind, partially_iff]
    intro s hs
    rw [partially_bind, partially_iff]
    intro n hn
    rw [partially_bind]
    refine (rankLoop_partially v ds _).mono ?_
    rintro r ⟨rs, h1, h2, h3⟩
    refine ⟨s :: rs, .cons hs h1, by simp [h2], ?_⟩
    intro a as ns ha has hns
    cases hns with
    | cons hc hns =>
      rename_i m ns
      rw [hc] at hn
      obtain rfl : m = n := hn
      cases as with
      | nil => simp at has
      | cons b as =>
        simp only [List.map_cons, List.cons.injEq] at has
        show r.1 = _
        rw [h3 (a + b * m) as ns (by rw [ha, has.1, Fl.ofNat_exact, Fl.mul_exact, Fl.add_exact]) has.2 hns]
        simp [add_assoc]

theorem rankLoop_always (v : Fl K) {P : Fl K × D → Prop} : ∀ (ds : List D) (acc : Fl K),
    (∀ d ∈ ds, Always (Digest.estQuantileAtValue d v) (fun r => P r ∧ ∃ n, Digest.count r.2 = .ret n)) →
    Always (rankLoop v ds acc) (fun _ => True)
  | [], acc, _ => trivial
  | d :: ds, acc, h => by
    unfold rankLoop
    rw [always_bind]
    refine (h d (by simp)).mono ?_
    rintro r ⟨-, n, hn⟩
    rw [hn, bind_ret, always_bind]
    exact (rankLoop_always v ds _ (fun e he => h e (by simp [he]))).mono (fun _ _ => trivial)

theorem sumCounts_eq : ∀ (ds : List D) (ns : List Nat), List.Forall₂ (fun d n => Digest.count d = .ret n) ds ns →
    sumCounts ds = .ret ns.sum
  | _, _, .nil => rfl
  | _, _, .cons h hs => by
    unfold sumCounts
    rw [h, bind_ret, sumCounts_eq _ _ hs, bind_ret, List.sum_cons]
    rfl

/-- The search: with `A x y` the possible answers `y` at `x`. -/
theorem searchLoop_always [FloatFmt.Exact K] (I : List D → Prop) (A : K → K → Prop) (lo hi t : K)
    (hI : ∀ ds, I ds → ∀ x, lo ≤ x → x ≤ hi →
      Always ((⟨ds, .fin lo, .fin hi⟩ : ParallelDigest D K).estQuantileAtValue (.fin x)) (fun r =>
        (∃ y, r.1 = .fin y ∧ A x y) ∧ I r.2.digests)) :
    ∀ (n fuel : Nat) (ds : List D) (s e m : K), I ds → n + 1 ≤ fuel → lo ≤ s → s ≤ e → e ≤ hi → s ≤ m → m ≤ e →
      e - s ≤ 1 / 1000000 * (|lo| + |hi|) * 2 ^ n →
      (s = lo ∨ ∃ y, A s y ∧ y ≤ t) → (e = hi ∨ ∃ y, A e y ∧ t < y) →
      Always (searchLoop (.fin t) fuel ⟨ds, .fin lo, .fin hi⟩ (.fin s) (.fin e) (.fin m)) (fun r =>
        ∃ (s' e' m' : K) (ds' : List D), r = (.fin s', .fin e', .fin m', ⟨ds', .fin lo, .fin hi⟩) ∧ I ds' ∧
          lo ≤ s' ∧ s' ≤ m' ∧ m' ≤ e' ∧ e' ≤ hi ∧ e' - s' ≤ 1 / 1000000 * (|lo| + |hi|) ∧
          (s' = lo ∨ ∃ y, A s' y ∧ y ≤ t) ∧ (e' = hi ∨ ∃ y, A e' y ∧ t < y)) := by
  intro n
  induction n with
  | zero =>
    intro fuel ds s e m hds hf h1 h2 h3 h4 h5 h6 h7 h8
    obtain ⟨f, rfl⟩ : ∃ f, fuel = f + 1 := ⟨fuel - 1, by omega⟩
    unfold searchLoop
    simp only [Fl.sub_exact, Fl.fabs_fin, Fl.add_exact, Fl.lit_exact]
    rw [pow_zero, mul_one] at h6
    have hno : Fl.lt (.fin (1 / 1000000) : Fl K) (.fin |e - s| / .fin (|lo| + |hi|)) = false := by
      by_cases hw : |lo| + |hi| = 0
      · have h0 : |e - s| = 0 := by rw [hw, mul_zero] at h6; rw [abs_eq_zero]; linarith
        rw [hw, h0, Fl.div_fin, if_pos rfl]
        simp [Fl.signInf, Fl.lt]
      · have hw' : 0 < |lo| + |hi| := lt_of_le_of_ne (by positivity) (Ne.symm hw)
        rw [Fl.div_exact _ hw, Fl.lt_fin, decide_eq_false_iff_not, not_lt, div_le_iff₀ hw', abs_of_nonneg (by linarith)]
        exact h6
    rw [hno]
    exact ⟨s, e, m, ds, rfl, hds, h1, h4, h5, h3, h6, h7, h8⟩
  | succ n ih =>
    intro fuel ds s e m hds hf h1 h2 h3 h4 h5 h6 h7 h8
    obtain ⟨f, rfl⟩ : ∃ f, fuel = f + 1 := ⟨fuel - 1, by omega⟩
    unfold searchLoop
    simp only [Fl.sub_exact, Fl.fabs_fin, Fl.add_exact, Fl.lit_exact, Fl.div_exact _ (two_ne_zero : (2 : K) ≠ 0)]
    split
    · have hm1 : s ≤ (s + e) / 2 := by linarith
      have hm2 : (s + e) / 2 ≤ e := by linarith
      rw [always_bind]
      have hq := (hI ds hds ((s + e) / 2) (by linarith) (by linarith)).and
        (R := fun r => r.2.min = .fin lo ∧ r.2.max = .fin hi) (by
          unfold estQuantileAtValue
          rw [partially_bind]
          refine (partially_true _).mono ?_
          intro r _
          rw [partially_bind]
          refine (partially_true _).mono ?_
          intro c _
          exact ⟨rfl, rfl⟩)
      refine hq.mono ?_
      rintro ⟨r, ⟨ds', mn, mx⟩⟩ ⟨⟨⟨y, hy, hA⟩, hds'⟩, hmn, hmx⟩
      obtain rfl : r = .fin y := hy
      obtain rfl : mn = .fin lo := hmn
      obtain rfl : mx = .fin hi := hmx
      rw [Fl.cmp_fin]
      rw [pow_succ] at h6
      rcases lt_trichotomy y t with h | h | h
      · rw [compare_lt_iff_lt.2 h]
        exact ih f ds' _ _ _ hds' (by omega) (by linarith) hm2 h3 le_rfl hm2 (by linarith) (Or.inr ⟨y, hA, h.le⟩) h8
      · rw [compare_eq_iff_eq.2 h]
        exact ih f ds' _ _ _ hds' (by omega) (by linarith) hm2 h3 le_rfl hm2 (by linarith) (Or.inr ⟨y, hA, h.le⟩) h8
      · rw [compare_gt_iff_gt.2 h]
        exact ih f ds' _ _ _ hds' (by omega) h1 hm1 (by linarith) hm1 le_rfl (by linarith) h7 (Or.inr ⟨y, hA, h⟩)
    · rename_i hno
      refine ⟨s, e, m, ds, rfl, hds, h1, h4, h5, h3, ?_, h7, h8⟩
      by_cases hw : |lo| + |hi| = 0
      · rw [hw] at h6 ⊢; linarith
      · have hw' : 0 < |lo| + |hi| := lt_of_le_of_ne (by positivity) (Ne.symm hw)
        rw [Fl.div_exact _ hw, Fl.lt_fin, decide_eq_true_eq, not_lt, div_le_iff₀ hw', abs_of_nonneg (by linarith)] at hno
        exact hno

end ParallelDigest
end AQ

/-
Property C105: KeyedSumTree in floating point.
-/
import Verif.Proofs.KSTRound
import Verif.Props.KeyedSumTree

set_option linter.unusedSectionVars false
set_option linter.unusedVariables false

namespace AQ
open Prog Spec
variable {K : Type} [Field K] [LinearOrder K] [IsStrictOrderedRing K] [FloatFmt K]

/-- C105. In any rounding arithmetic that represents the integers and half-integers up to `N`: after inserting fresh keys with counts as
weights, at most `N` in total, and deleting only the currently largest key, `less_than_sum(key)` is exactly the sum of the weights of
the stored keys strictly below `key`, `None` on an empty tree. (Deleting other keys makes the sums wrong even in exact arithmetic,
see C27.) -/
theorem C105_prefix_sums [FloatFmt.Mono K] {N : Nat} (hc : ExactCounts K N) (ops : List (KOp K)) (hv : KOp.ValidMax [] ops)
    (hw : KOp.Counts N 0 ops) :
    Always ((KeyedSumTree.new : KeyedSumTree K).execOps ops) (fun t => ∀ key : Fl K, key ≠ .nan →
      t.lessThanSum key = .ret (if KOp.contents [] ops = [] then none
        else some (.fin (weightBelow (KOp.contents [] ops) key)))) := by
  obtain ⟨h1, h2, m, h3, h4⟩ := KeyedSumTree.execOps_spineOK_nat hc ops KeyedSumTree.new [] 0 0 KeyedSumTree.new_holds trivial
    (by simp) (by simp) le_rfl hv hw
  refine ((KeyedSumTree.execOps_holds _ _ [] KeyedSumTree.new_holds (KeyedSumTree.ValidMax.valid _ _ hv)).and h1.partially).mono ?_
  rintro t ⟨h, hs⟩ key hk
  exact KeyedSumTree.lessThanSum_nat hc h hs h2 h3 h4 key hk

/-- C105. The same for the tree built from a list of weighted values with distinct means, as `add_cluster_tree` builds it. -/
theorem C105_from_centroids [FloatFmt.Mono K] {N : Nat} (hc : ExactCounts K N) (cs : List (Centroid K))
    (hn : ∀ p ∈ cs, p.mean ≠ .nan) (hd : (cs.map (·.mean)).Nodup) (hw : ∀ p ∈ cs, ∃ w : Nat, p.weight = .fin (w : K))
    (hN : totalW cs ≤ (N : K)) :
    Always (KeyedSumTree.ofCentroids cs) (fun t => ∀ key : Fl K, key ≠ .nan →
      t.lessThanSum key = .ret (if cs = [] then none else some (.fin (weightBelow cs key)))) := by
  obtain ⟨hv, hp⟩ := KeyedSumTree.inserts_valid cs [] hn hd (by simp)
  rw [List.append_nil] at hp
  have hcount : ∀ (l : List (Centroid K)) (a : Nat), (∀ p ∈ l, ∃ w : Nat, p.weight = .fin (w : K)) → (a : K) + totalW l ≤ (N : K) →
      KOp.Counts N a (l.map (fun c => KOp.insert c.mean c.weight)) := by
    intro l
    induction l with
    | nil => intro a _ h; rw [totalW_nil, add_zero] at h; exact_mod_cast h
    | cons c l ih =>
      intro a h1 h2
      obtain ⟨n, hn⟩ := h1 c (by simp)
      refine ⟨n, hn, ih _ (fun p hp => h1 p (by simp [hp])) ?_⟩
      rw [totalW_cons, hn] at h2
      simp only [Fl.toK] at h2
      push_cast
      linarith
  unfold KeyedSumTree.ofCentroids
  rw [KeyedSumTree.fromAux_eq_execOps]
  refine (C105_prefix_sums hc _ hv (hcount cs 0 hw (by simpa using hN))).mono ?_
  intro t h key hk
  rw [h key hk, KeyedSumTree.weightBelow_perm hp]
  congr 1
  by_cases hcs : cs = []
  · subst hcs; simp [KOp.contents]
  · rw [if_neg hcs, if_neg]
    intro e
    rw [e] at hp
    exact hcs hp.nil_eq.symm

/-- C105. In symmetric monotone rounding that does not round 0.001 to 0, as long as no distance overflows: `closest_keys(x)` on a
reachable non-empty tree does not panic, is non-empty, returns stored pairs only, returns every pair whose key is (exactly) at minimal
distance from `x`, and nothing whose computed distance exceeds a computed distance by 0.001 or more. -/
theorem C105_closest_keys [FloatFmt.Mono K] (hsym : SymmetricRounding K) (hpos : Fl.lt (.fin 0) (Fl.lit (1 / 1000) : Fl K) = true)
    (ops : List (KOp K)) (hv : KOp.Valid [] ops) (hk : KOp.FinK ops) (hne : KOp.contents [] ops ≠ []) (x : K)
    (hfin : ∀ p ∈ KOp.contents [] ops, (FloatFmt.rnd |p.mean.toK - x|).IsFin) :
    Always ((KeyedSumTree.new : KeyedSumTree K).execOps ops) (fun t =>
      Always (t.closestKeys (.fin x)) (fun res => res ≠ [] ∧ (∀ p ∈ res, p ∈ KOp.contents [] ops) ∧
        (∀ p ∈ KOp.contents [] ops, (∀ q ∈ KOp.contents [] ops, |p.mean.toK - x| ≤ |q.mean.toK - x|) → p ∈ res) ∧
        (∀ p ∈ res, ∀ q ∈ KOp.contents [] ops,
          (FloatFmt.rnd |p.mean.toK - x|).toK < (FloatFmt.rnd |q.mean.toK - x|).toK + 1 / 1000))) :=
  (KeyedSumTree.execOps_holds ops _ [] KeyedSumTree.new_holds hv).mono (fun t h =>
    KeyedSumTree.closestKeys_round hsym hpos h (KeyedSumTree.contents_finK ops [] (by simp) hk) hne x hfin)

section doubles
attribute [local instance] f64Fmt f64_mono

/-- C105 for `f64`: sums of counts, at most `2^52` in total. -/
theorem C105_f64 (ops : List (KOp ℚ)) (hv : KOp.ValidMax [] ops) (hw : KOp.Counts (2 ^ 52) 0 ops) :
    Always ((KeyedSumTree.new : KeyedSumTree ℚ).execOps ops) (fun t => ∀ key : Fl ℚ, key ≠ .nan →
      t.lessThanSum key = .ret (if KOp.contents [] ops = [] then none
        else some (.fin (weightBelow (KOp.contents [] ops) key)))) :=
  C105_prefix_sums f64_exactCounts ops hv hw

/-- C105 for `f64`: the closest keys, for keys and targets of magnitude at most `2^1022`. -/
theorem C105_closest_f64 (ops : List (KOp ℚ)) (hv : KOp.Valid [] ops) (hk : KOp.FinK ops) (hne : KOp.contents [] ops ≠ []) (x : ℚ)
    (hx : |x| ≤ 2 ^ 1022) (hkeys : ∀ p ∈ KOp.contents [] ops, |p.mean.toK| ≤ 2 ^ 1022) :
    Always ((KeyedSumTree.new : KeyedSumTree ℚ).execOps ops) (fun t =>
      Always (t.closestKeys (.fin x)) (fun res => res ≠ [] ∧ (∀ p ∈ res, p ∈ KOp.contents [] ops) ∧
        (∀ p ∈ KOp.contents [] ops, (∀ q ∈ KOp.contents [] ops, |p.mean.toK - x| ≤ |q.mean.toK - x|) → p ∈ res))) := by
  refine (C105_closest_keys f64_symmetric (by decide +kernel) ops hv hk hne x ?_).mono ?_
  · intro p hp
    have h1 : |p.mean.toK - x| ≤ 2 ^ 1023 := by
      have h2 := abs_sub p.mean.toK x
      have h3 : (2 : ℚ) ^ 1023 = 2 ^ 1022 + 2 ^ 1022 := by rw [pow_succ (2 : ℚ) 1022, mul_two]
      rw [h3]
      exact h2.trans (add_le_add (hkeys p hp) hx)
    have e : (FloatFmt.rnd (2 ^ 1023 : ℚ) : Fl ℚ) = .fin (2 ^ 1023) := by decide +kernel
    obtain ⟨y, hy, -⟩ := rnd_between (l := (0 : ℚ)) FloatFmt.Mono.rnd_zero e (abs_nonneg _) h1
    exact ⟨y, hy⟩
  · intro t h
    exact h.mono (fun r hr => ⟨hr.1, hr.2.1, hr.2.2.1⟩)

/-- The hypotheses are met: three keys, deletion of the largest, a further key. -/
example : KOp.ValidMax ([] : List (Centroid ℚ)) [.insert (.fin 2) (.fin 1), .insert (.fin 5) (.fin 7), .delete (.fin 5),
      .insert (.fin 3) (.fin 2)] ∧
    KOp.Counts (K := ℚ) (2 ^ 52) 0 [.insert (.fin 2) (.fin 1), .insert (.fin 5) (.fin 7), .delete (.fin 5), .insert (.fin 3) (.fin 2)] := by
  have h : ∀ a b : ℚ, a ≤ b → (Fl.fin a : Fl ℚ) ≤ .fin b := fun a b h => h
  constructor
  · simp [KOp.ValidMax]
    norm_num
  · exact ⟨1, by norm_num, 7, by norm_num, 2, by norm_num, by norm_num [KOp.Counts]⟩

/-- The bound on the weights is needed: beyond `2^53` a count of 1 is absorbed, and the weight below 3 is off by one. -/
theorem C105_absorbed : weightBelow (KOp.contents [] [.insert (.fin 2) (.fin (2 ^ 53)), .insert (.fin 1) (.fin 1)]) (.fin 3 : Fl ℚ)
      = 2 ^ 53 + 1 ∧
    Always ((KeyedSumTree.new : KeyedSumTree ℚ).execOps [.insert (.fin 2) (.fin (2 ^ 53)), .insert (.fin 1) (.fin 1)]) (fun t =>
      Always (t.lessThanSum (.fin 3)) (fun r => r = some (.fin (2 ^ 53)))) := by
  refine ⟨by decide +kernel, by decide +kernel⟩

/-- The bound on the magnitudes is needed: where the distance overflows, `closest_keys` finds nothing in a non-empty tree (and
`add_cluster_tree` inserts a new centroid). -/
theorem C105_overflow_finds_nothing :
    Always ((KeyedSumTree.new : KeyedSumTree ℚ).execOps [.insert (.fin (-2 ^ 1023)) (.fin 1)]) (fun t =>
      Always (t.closestKeys (.fin (2 ^ 1023))) (fun r => r = [])) := by decide +kernel

end doubles
end AQ

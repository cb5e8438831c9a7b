/-
Properties C25–C28 (KeyedSumTree, src/util/keyed_sum_tree.rs).
-/
import Verif.Proofs.KeyedSumTree

set_option linter.unusedSectionVars false
set_option linter.unusedVariables false

namespace AQ
open Prog Spec
variable {K : Type} [Field K] [LinearOrder K] [IsStrictOrderedRing K] [FloatFmt K]

theorem KeyedSumTree.fromAux_eq_execOps : ∀ (cs : List (Centroid K)) (t : KeyedSumTree K),
    t.fromAux cs = t.execOps (cs.map (fun c => KOp.insert c.mean c.weight))
  | [], t => rfl
  | c :: cs, t => by
    simp only [fromAux, List.map_cons, execOps, fromAux_eq_execOps cs]

theorem KeyedSumTree.inserts_valid : ∀ (cs c : List (Centroid K)), (∀ p ∈ cs, p.mean ≠ .nan) →
    (cs.map (·.mean)).Nodup → (∀ p ∈ cs, ∀ q ∈ c, q.mean ≠ p.mean) →
    KOp.ValidMax c (cs.map (fun c => KOp.insert c.mean c.weight)) ∧
      (KOp.contents c (cs.map (fun c => KOp.insert c.mean c.weight))).Perm (cs ++ c)
  | [], c, _, _, _ => ⟨trivial, by simp [KOp.contents]⟩
  | a :: cs, c, hn, hd, hf => by
    simp only [List.map_cons, List.nodup_cons] at hd
    have ih := inserts_valid cs (a :: c) (fun p hp => hn p (by simp [hp])) hd.2 (by
      intro p hp q hq
      rcases List.mem_cons.1 hq with rfl | hq
      · intro h; exact hd.1 (List.mem_map.2 ⟨p, hp, h.symm⟩)
      · exact hf p (by simp [hp]) q hq)
    refine ⟨⟨hn a (by simp), fun q hq => hf a (by simp) q hq, ih.1⟩, ?_⟩
    simp only [List.map_cons, KOp.contents]
    exact ih.2.trans List.perm_middle

/-- C25. The tree built from any list of pairs with distinct keys, in any order: construction does not panic and
`less_than_sum(key)` is the sum of the weights of the keys strictly below `key`, `None` when the list is empty. -/
theorem C25_prefix_sums [FloatFmt.Exact K] (cs : List (Centroid K)) (hn : ∀ p ∈ cs, p.mean ≠ .nan)
    (hd : (cs.map (·.mean)).Nodup) (hw : ∀ p ∈ cs, p.weight.IsFin) :
    Always (KeyedSumTree.ofCentroids cs) (fun t => ∀ key : Fl K, key ≠ .nan →
      t.lessThanSum key = .ret (if cs = [] then none else some (.fin (weightBelow cs key)))) := by
  obtain ⟨hv, hp⟩ := KeyedSumTree.inserts_valid cs [] hn hd (by simp)
  rw [List.append_nil] at hp
  have hfw : ∀ cs : List (Centroid K), (∀ p ∈ cs, p.weight.IsFin) →
      KOp.FinW (cs.map (fun c => KOp.insert c.mean c.weight)) := by
    intro cs
    induction cs with
    | nil => intro _; trivial
    | cons a cs ih => intro h; exact ⟨h a (by simp), ih (fun p hp => h p (by simp [hp]))⟩
  unfold KeyedSumTree.ofCentroids
  rw [KeyedSumTree.fromAux_eq_execOps]
  refine ((KeyedSumTree.execOps_holds _ _ [] KeyedSumTree.new_holds (KeyedSumTree.ValidMax.valid _ _ hv)).and
    (KeyedSumTree.execOps_spineOK _ _ [] KeyedSumTree.new_holds trivial hv (hfw cs hw)).partially).mono ?_
  rintro t ⟨⟨h1, h2, h3⟩, h4⟩ key hk
  have h5 : t.Holds cs := ⟨h1, h2.trans hp, h3.trans hp.length_eq⟩
  exact KeyedSumTree.lessThanSum_spec h5 h4 hw key hk

/-- C25. Inserting a key that is already present panics, on every reachable tree (after any inserts and deletes). -/
theorem C25_duplicate_key_panics (ops : List (KOp K)) (hv : KOp.Valid [] ops) (p : Centroid K)
    (hp : p ∈ KOp.contents [] ops) (w : Fl K) :
    Always ((KeyedSumTree.new : KeyedSumTree K).execOps ops) (fun t => Panics (t.insert p.mean w)) := by
  refine (KeyedSumTree.execOps_holds ops _ [] KeyedSumTree.new_holds hv).mono ?_
  rintro t ⟨h1, h2, -⟩
  unfold KeyedSumTree.insert
  rw [KNode.insert_dup p.mean w t.root h1 ⟨p, h2.mem_iff.2 hp, rfl⟩]
  intro h; cases h

/-- C26. After any sequence of inserts of fresh keys and deletes of present keys – none of which panics –
`sorted_vec_key` lists exactly the remaining pairs in strictly increasing key order and `size()` is their number.
Any rounding, any weights. -/
theorem C26_contents (ops : List (KOp K)) (hv : KOp.Valid [] ops) :
    Always ((KeyedSumTree.new : KeyedSumTree K).execOps ops) (fun t =>
      t.sortedVecKey.Perm (KOp.contents [] ops) ∧ t.sortedVecKey.Pairwise (fun a b => a.mean < b.mean) ∧
        t.size = (KOp.contents [] ops).length) :=
  (KeyedSumTree.execOps_holds ops _ [] KeyedSumTree.new_holds hv).mono (fun t h => ⟨h.2.1, h.1.1, h.2.2⟩)

/-- C26, outside the precondition: deleting a key that is *not* stored leaves the pairs alone but still decrements
`size()`, so `size()` is then off by one. -/
theorem C26_delete_missing_key_miscounts (ops : List (KOp K)) (hv : KOp.Valid [] ops) (k : Fl K) (hk : k ≠ .nan)
    (hne : KOp.contents [] ops ≠ []) (hf : ∀ p ∈ KOp.contents [] ops, p.mean ≠ k) :
    Always ((KeyedSumTree.new : KeyedSumTree K).execOps ops) (fun t => Always (t.delete k) (fun t' =>
      t'.sortedVecKey = t.sortedVecKey ∧ t'.size + 1 = (KOp.contents [] ops).length)) := by
  refine (KeyedSumTree.execOps_holds ops _ [] KeyedSumTree.new_holds hv).mono ?_
  rintro t ⟨h1, h2, h3⟩
  obtain ⟨n', h4, -, h6⟩ := KNode.delete_spec k hk t.root h1
  have hlen : 1 ≤ t.size := by rw [h3]; exact List.length_pos_of_ne_nil hne
  unfold KeyedSumTree.delete
  rw [h4, Prog.bind_ret, usub_eq hlen, Prog.bind_ret]
  refine ⟨?_, ?_⟩
  · show n'.sortedVecKey = t.root.sortedVecKey
    rw [h6]
    exact KNode.filter_ne_of_forall (fun c hc => hf c (h2.mem_iff.1 hc))
  · show t.size - 1 + 1 = _
    omega

/-- C27, restricted to deletions of the currently largest key (with arbitrary fresh insertions in between).
Full statement: for every `ops` with `KOp.Valid [] ops`, the same conclusion. It is false in general, see
`C27_prefix_sums_wrong_after_delete`: `delete` never corrects the `sum` fields of the nodes it passes. -/
theorem C27_prefix_sums_after_deletions_partial [FloatFmt.Exact K] (ops : List (KOp K)) (hv : KOp.ValidMax [] ops)
    (hw : KOp.FinW ops) :
    Always ((KeyedSumTree.new : KeyedSumTree K).execOps ops) (fun t => ∀ key : Fl K, key ≠ .nan →
      t.lessThanSum key = .ret (if KOp.contents [] ops = [] then none
        else some (.fin (weightBelow (KOp.contents [] ops) key)))) := by
  refine ((KeyedSumTree.execOps_holds _ _ [] KeyedSumTree.new_holds (KeyedSumTree.ValidMax.valid _ _ hv)).and
    (KeyedSumTree.execOps_spineOK _ _ [] KeyedSumTree.new_holds trivial hv hw).partially).mono ?_
  rintro t ⟨h, h4⟩ key hk
  exact KeyedSumTree.lessThanSum_spec h h4 (KeyedSumTree.contents_finW ops [] (by simp) hw) key hk

/-- C28. On every reachable non-empty tree with finite keys, `closest_keys(x)` does not panic, is non-empty, returns
stored pairs only, returns every pair whose key is at minimal distance from `x`, and nothing whose distance exceeds
the minimal one by 0.001 or more. -/
theorem C28_closest_keys [FloatFmt.Exact K] (ops : List (KOp K)) (hv : KOp.Valid [] ops) (hk : KOp.FinK ops)
    (hne : KOp.contents [] ops ≠ []) (x : K) :
    Always ((KeyedSumTree.new : KeyedSumTree K).execOps ops) (fun t =>
      Always (t.closestKeys (.fin x)) (fun res => res ≠ [] ∧ (∀ p ∈ res, p ∈ KOp.contents [] ops) ∧
        (∀ p ∈ KOp.contents [] ops, (∀ q ∈ KOp.contents [] ops, |p.mean.toK - x| ≤ |q.mean.toK - x|) → p ∈ res) ∧
        (∀ p ∈ res, ∀ q ∈ KOp.contents [] ops, |p.mean.toK - x| < |q.mean.toK - x| + 1 / 1000))) :=
  (KeyedSumTree.execOps_holds ops _ [] KeyedSumTree.new_holds hv).mono (fun t h =>
    KeyedSumTree.closestKeys_spec h (KeyedSumTree.contents_finK ops [] (by simp) hk) hne x)

section examples
attribute [local instance] ratExact
attribute [local instance] ratExact_exact

/-- Five pairs inserted in an order that makes a tree with both children; deletion of an inner node with two children. -/
def kstOps : List (KOp ℚ) :=
  [.insert (.fin 4) (.fin 1), .insert (.fin 2) (.fin 10), .insert (.fin 6) (.fin 100), .insert (.fin 1) (.fin 1000),
   .insert (.fin 3) (.fin 10000), .delete (.fin 4)]

theorem kstOps_valid : KOp.Valid [] kstOps := by
  simp [kstOps, KOp.Valid]

/-- The hypotheses of C26 and C28 are met by an inhabited, non-trivial history. -/
example : KOp.FinK kstOps ∧ KOp.contents [] kstOps ≠ [] := by
  simp [kstOps, KOp.FinK, KOp.contents, Fl.IsFin]

/-- C25's hypotheses hold for an unordered list of distinct keys and the sum is not degenerate. -/
example : weightBelow ([⟨.fin 4, .fin 1⟩, ⟨.fin 2, .fin 10⟩, ⟨.fin 6, .fin 100⟩] : List (Centroid ℚ)) (.fin 5) = 11 := by
  decide +kernel

example : Always (KeyedSumTree.ofCentroids ([⟨.fin 4, .fin 1⟩, ⟨.fin 2, .fin 10⟩, ⟨.fin 6, .fin 100⟩] : List (Centroid ℚ)))
    (fun t => Always (t.lessThanSum (.fin 5)) (fun r => r = some (.fin 11))) := by decide +kernel

/-- C27's full statement is false: insert 2, 1, 0 (unit weights), delete 0: the weight below 3 is 2, the tree says 3. -/
theorem C27_prefix_sums_wrong_after_delete :
    ∃ ops : List (KOp ℚ), KOp.Valid [] ops ∧ KOp.FinW ops ∧
      weightBelow (KOp.contents [] ops) (.fin 3) = 2 ∧
      Always ((KeyedSumTree.new : KeyedSumTree ℚ).execOps ops) (fun t =>
        Always (t.lessThanSum (.fin 3)) (fun r => r = some (.fin 3))) := by
  refine ⟨[.insert (.fin 2) (.fin 1), .insert (.fin 1) (.fin 1), .insert (.fin 0) (.fin 1), .delete (.fin 0)],
    by simp [KOp.Valid], by simp [KOp.FinW, Fl.IsFin], by decide +kernel, by decide +kernel⟩

/-- … and the error goes both ways: below a node 10, deleting the inner node 4 moves 3 (with the `sum` of its old, smaller
subtree) into its place; the weight below 11 is then reported as 10 instead of 14. -/
theorem C27_prefix_sums_too_small_after_delete :
    ∃ ops : List (KOp ℚ), KOp.Valid [] ops ∧ KOp.FinW ops ∧
      weightBelow (KOp.contents [] ops) (.fin 11) = 14 ∧
      Always ((KeyedSumTree.new : KeyedSumTree ℚ).execOps ops) (fun t =>
        Always (t.lessThanSum (.fin 11)) (fun r => r = some (.fin 10))) := by
  refine ⟨[.insert (.fin 10) (.fin 8), .insert (.fin 4) (.fin 1), .insert (.fin 2) (.fin 1), .insert (.fin 6) (.fin 3),
    .insert (.fin 3) (.fin 2), .delete (.fin 4)],
    by simp [KOp.Valid], by simp [KOp.FinW, Fl.IsFin], by decide +kernel, by decide +kernel⟩

/-- C27's partial is not vacuous: deletions of the maximum between insertions. -/
example : KOp.ValidMax ([] : List (Centroid ℚ)) [.insert (.fin 2) (.fin 1), .insert (.fin 5) (.fin 1), .delete (.fin 5),
    .insert (.fin 3) (.fin 1), .insert (.fin 1) (.fin 4), .delete (.fin 3)] := by
  have h : ∀ a b : ℚ, a ≤ b → (Fl.fin a : Fl ℚ) ≤ .fin b := fun a b h => h
  simp [KOp.ValidMax]
  norm_num

/-- C28 on the example: closest to 9/2 among {1,2,3,6} are 3 and 6 (a tie), both returned. -/
example : Always ((KeyedSumTree.new : KeyedSumTree ℚ).execOps kstOps) (fun t =>
    Always (t.closestKeys (.fin (9 / 2))) (fun r => r = [⟨.fin 3, .fin 10000⟩, ⟨.fin 6, .fin 100⟩])) := by decide +kernel

end examples
end AQ

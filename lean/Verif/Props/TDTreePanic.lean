/-
Property C111: when `add_cluster_tree` returns (src/t_digest/t_digest.rs:443-520, src/util/keyed_sum_tree.rs:230-266).

The full claim — a digest holding finite centroids and given finite clusters takes them without a panic, as `add_cluster` does
(C41) — is false in two further ways besides C43's equal centroids: a supplied cluster may repeat a mean
(`C111_large_values`, `C111_repeat_panics`), and with all means distinct a merge may land on another key
(`C111_distinct_may_panic`).
-/
import Verif.Props.TDCluster
import Verif.Proofs.TDTreePanic

set_option linter.unusedSectionVars false
set_option linter.unusedVariables false

namespace AQ
open Prog Spec
variable {K : Type} [Field K] [LinearOrder K] [IsStrictOrderedRing K] [FloatFmt K] [FloorRing K]

/-- C111, partial: one cluster. After any history, if the means of the digest are pairwise different, the means are at least
1/1000 apart (the tolerance of `closest_keys`), and the mean of the supplied cluster is none of them, then `add_cluster_tree`
returns, for every scale function and every shuffle. Missing: several clusters per call, repeated means and means closer than
the tolerance, for which the claim is false. -/
theorem C111_fresh_cluster_partial [FloatFmt.Exact K] (s i : ScaleFn K) (δ γ : K) (h0 : 0 ≤ γ * δ) (h1 : γ * δ < 2 ^ 64)
    (ops : List (TDigest.AOp K)) (hg : ∀ c ∈ TDigest.suppliedA ops, Good c ∧ InRange c) (d : TDigest K)
    (hd : CanReturn ((TDigest.new s i (.fin δ)).execAOps ops) d) (x : Centroid K) (hx : Good x ∧ InRange x)
    (hne : d.centroids.Pairwise (fun p q => 1 / 1000 ≤ |p.mean.toK - q.mean.toK|)) (hfr : ∀ p ∈ d.centroids, p.mean ≠ x.mean) :
    Always (d.addClusterTree [x] (.fin γ)) (fun d' => totalW d'.centroids = totalW d.centroids + x.weight.toK ∧
      d'.centroids.Pairwise (fun a b => a.mean < b.mean)) := by
  have h := (partially_iff _ _).1 (TDigest.execAOps_partially ops _ [] (TDigest.new_inv s i (.fin δ)).toCInv (by simp) hg) d hd
  obtain ⟨h, p⟩ := h
  rw [List.nil_append] at h
  have hl : Fl.toUsize (.fin γ * d.compressFactor) = some ⌊γ * δ⌋₊ := by
    rw [p.1, show (TDigest.new s i (.fin δ)).compressFactor = .fin δ from rfl, Fl.mul_exact]
    exact TDigest.toUsize_fin h0 h1
  have hnd : (d.centroids.map (·.mean)).Nodup := by
    refine List.pairwise_map.2 (hne.imp ?_)
    intro a b hab he
    rw [he, sub_self, abs_zero] at hab
    exact absurd hab (by norm_num)
  have hap : TDigest.Apart d.centroids := by
    intro a ha b hb hab
    rcases List.mem_iff_getElem.1 ha with ⟨m, hm, rfl⟩
    rcases List.mem_iff_getElem.1 hb with ⟨n, hn, rfl⟩
    have hp := List.pairwise_iff_getElem.1 hne
    rcases lt_trichotomy m n with hmn | rfl | hmn
    · exact hp m n hm hn hmn
    · exact absurd rfl hab
    · rw [abs_sub_comm]; exact hp n m hn hm hmn
  refine ((TDigest.addClusterTree_one h (fun c hc => (hg c hc).1) hx hl hnd hap hfr).and
    (TDigest.addClusterTree_spec h (fun c hc => (hg c hc).1) (cs := [x]) (by simpa using hx))).mono ?_
  rintro d' ⟨-, ⟨h', -⟩, hs, -⟩
  refine ⟨?_, hs⟩
  rw [h'.weight, h.weight, totalW_append, totalW_cons, totalW_nil, add_zero]

/-- C111. Under `k0`, when all means are large — at least `M` with `M·δ` no less than twice the total weight — and the growth
limit leaves room, `add_cluster_tree` never merges: if all means, old and new, are different it returns and keeps each cluster as
it is, and if any two are equal it panics under every shuffle. -/
theorem C111_large_values [FloatFmt.Exact K] (δ γ M : K) (hδ : 0 < δ) (d : TDigest K) (hs : d.scaleFunc = k0)
    (hc : d.compressFactor = .fin δ) (hmin : d.min ≠ .nan) (hmax : d.max ≠ .nan) (cs : List (Centroid K))
    (hg : ∀ c ∈ d.centroids ++ cs, Good c) (hM : ∀ c ∈ d.centroids ++ cs, M ≤ c.mean.toK)
    (hlarge : 2 * totalW (d.centroids ++ cs) ≤ M * δ)
    (hroom : ((d.centroids ++ cs).length : K) ≤ γ * δ) (h1 : γ * δ < 2 ^ 64) :
    (((d.centroids ++ cs).map (·.mean)).Nodup → Always (d.addClusterTree cs (.fin γ)) (fun d' =>
      d'.centroids.Perm (d.centroids ++ cs) ∧ d'.centroids.Pairwise (fun a b => a.mean < b.mean))) ∧
    (¬ ((d.centroids ++ cs).map (·.mean)).Nodup → Panics (d.addClusterTree cs (.fin γ))) := by
  have hgd : ∀ c ∈ d.centroids, Good c := fun c hc => hg c (List.mem_append_left _ hc)
  have hgc : ∀ c ∈ cs, Good c := fun c hc => hg c (List.mem_append_right _ hc)
  by_cases hdd : (d.centroids.map (·.mean)).Nodup
  swap
  · refine ⟨fun h => absurd (h.sublist ((List.sublist_append_left _ _).map _)) hdd, fun _ => ?_⟩
    exact C43_tree_duplicate_panics d cs (.fin γ) hgd hgc hmin hmax hdd
  obtain ⟨lo, hi, e, -⟩ := TDigest.updateLimits_spec d cs hgc hmin hmax
  have h0 : 0 ≤ γ * δ := le_trans (Nat.cast_nonneg _) hroom
  have hl : Fl.toUsize (.fin γ * ({ d with min := lo, max := hi } : TDigest K).compressFactor) = some ⌊γ * δ⌋₊ := by
    show Fl.toUsize (.fin γ * d.compressFactor) = _
    rw [hc, Fl.mul_exact]
    exact TDigest.toUsize_fin h0 h1
  have hlen : d.centroids.length + cs.length ≤ ⌊γ * δ⌋₊ := by
    rw [← List.length_append]; exact Nat.le_floor hroom
  rw [totalW_append] at hlarge
  have hreb := TDigest.rebuildTree_always { d with min := lo, max := hi } hgd hdd
  have htot : ({ d with min := lo, max := hi } : TDigest K).totalWeight = .fin (totalW d.centroids) :=
    TDigest.weightSum_exact hgd
  have loop := fun (t : KeyedSumTree K) (ht : t.Holds d.centroids) (hsp : t.root.SpineOK) =>
    TDigest.loop_large (d := { d with min := lo, max := hi }) (M := M) (g := .fin γ) hs hc hδ hl cs t d.centroids ht hsp hgd hgc
      (fun c hc => hM c (List.mem_append_left _ hc)) (fun c hc => hM c (List.mem_append_right _ hc)) hlarge hlen
  unfold TDigest.addClusterTree
  rw [e, bind_ret, htot]
  constructor
  · intro hnd
    rw [always_bind]
    refine hreb.mono ?_
    rintro t ⟨ht, hsp⟩
    rw [always_bind]
    refine ((loop t ht hsp).1 hnd).mono ?_
    rintro r ⟨r1, r2⟩
    exact ⟨r2.2.1, r2.1.1⟩
  · intro hnd
    refine panics_of_always (hreb.mono ?_)
    rintro t ⟨ht, hsp⟩
    exact panics_bind_left ((loop t ht hsp).2 hnd)

section examples
attribute [local instance] ratExact ratExact_exact

/-- A finite tree of random choices can be searched for a failure. -/
local instance decCanFail {α : Type} (e : Err) : (p : Prog α) → Decidable (CanFail p e)
  | .ret _ => isFalse (fun h => h)
  | .fail e' => inferInstanceAs (Decidable (e' = e))
  | .flip f =>
    match decCanFail e (f true), decCanFail e (f false) with
    | isTrue h, _ => isTrue ⟨true, h⟩
    | _, isTrue h => isTrue ⟨false, h⟩
    | isFalse h1, isFalse h2 => isFalse (by rintro ⟨b, h⟩; cases b <;> contradiction)

/-- C111 is false: adding the value 100 twice to an empty digest panics. `add_cluster` takes the same clusters. -/
theorem C111_repeat_panics :
    Panics ((TDigest.new k0 invK0 (.fin 100) : TDigest ℚ).addClusterTree [⟨.fin 100, .fin 1⟩, ⟨.fin 100, .fin 1⟩] (.fin 10)) ∧
    Always ((TDigest.new k0 invK0 (.fin 100) : TDigest ℚ).addCluster [⟨.fin 100, .fin 1⟩, ⟨.fin 100, .fin 1⟩] (.fin 10)) (fun d =>
      d.totalWeight = .fin 2) := by
  constructor <;> decide +kernel

/-- C111 is false even for distinct means: with centroids -0.0004 and 0.0003 a unit cluster at 0.001 may be merged with -0.0004,
which is within the tolerance of the closest distance; the merged mean is 0.0003, already a key. Whether this happens is up to
the shuffle. -/
theorem C111_distinct_may_panic :
    CanFail ((TDigest.new k0 invK0 (.fin 100) : TDigest ℚ).addBuffer [.fin (-4 / 10000), .fin (3 / 10000)] >>= fun d =>
      d.addClusterTree [⟨.fin (1 / 1000), .fin 1⟩] (.fin 10)) .explicit ∧
    ¬ Panics ((TDigest.new k0 invK0 (.fin 100) : TDigest ℚ).addBuffer [.fin (-4 / 10000), .fin (3 / 10000)] >>= fun d =>
      d.addClusterTree [⟨.fin (1 / 1000), .fin 1⟩] (.fin 10)) := by
  constructor <;> decide +kernel

/-- The hypotheses of `C111_fresh_cluster_partial`: -2, 1 and 3 are apart, 0 is fresh, and a merge happens. -/
example : Always ((TDigest.new k0 invK0 (.fin 100) : TDigest ℚ).addBuffer [.fin (-2), .fin 1, .fin 3] >>= fun d =>
    d.addClusterTree [⟨.fin 0, .fin 99⟩] (.fin 10)) (fun d =>
      d.centroids = [⟨.fin (-2), .fin 1⟩, ⟨.fin (1 / 100), .fin 100⟩, ⟨.fin 3, .fin 1⟩]) := by decide +kernel

/-- The hypotheses of `C111_large_values`: with compression factor 2 four units and means from 4 on. -/
example : (2 : ℚ) * 4 ≤ 4 * 2 ∧
    Always ((TDigest.new k0 invK0 (.fin 2) : TDigest ℚ).addClusterTree
      [⟨.fin 9, .fin 1⟩, ⟨.fin 4, .fin 1⟩, ⟨.fin 5, .fin 1⟩, ⟨.fin 8, .fin 1⟩] (.fin 2)) (fun d =>
        d.centroids = [⟨.fin 4, .fin 1⟩, ⟨.fin 5, .fin 1⟩, ⟨.fin 8, .fin 1⟩, ⟨.fin 9, .fin 1⟩]) ∧
    Panics ((TDigest.new k0 invK0 (.fin 2) : TDigest ℚ).addClusterTree
      [⟨.fin 9, .fin 1⟩, ⟨.fin 4, .fin 1⟩, ⟨.fin 9, .fin 1⟩, ⟨.fin 8, .fin 1⟩] (.fin 2)) := by
  refine ⟨by norm_num, by decide +kernel, by decide +kernel⟩

end examples

end AQ

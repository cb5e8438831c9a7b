/-
Rank error of the value query, and the shape of a digest filled by one batch.
-/
import Verif.Proofs.TDAccuracy
import Verif.Proofs.TDValue2
import Verif.Props.TDigestQuery

set_option linter.unusedSectionVars false
set_option linter.unusedVariables false

namespace AQ
open Prog Spec
variable {K : Type} [Field K] [LinearOrder K] [IsStrictOrderedRing K] [FloatFmt K]

namespace TDigest

theorem mean_mono {r n : List K} (hr : r ≠ []) (hn : n ≠ []) (h : ∀ a ∈ r, ∀ b ∈ n, a ≤ b) : (mw r).1 ≤ (mw n).1 := by
  obtain ⟨z, hz, hxz⟩ := exists_mean_le hr
  obtain ⟨y, hy, hyx⟩ := exists_le_mean hn
  exact hxz.trans ((h z hz y hy).trans hyx)

theorem mw_sorted : ∀ (runs : List (List K)), (∀ r ∈ runs, r ≠ []) → runs.flatten.Pairwise (· ≤ ·) →
    (runs.map mw).Pairwise (fun p q => p.1 ≤ q.1)
  | [], _, _ => List.Pairwise.nil
  | r :: runs, hr, hp => by
    rw [List.flatten_cons, List.pairwise_append] at hp
    rw [List.map_cons, List.pairwise_cons]
    refine ⟨?_, mw_sorted runs (fun s hs => hr s (by simp [hs])) hp.2.1⟩
    intro p hpm
    obtain ⟨n, hn, rfl⟩ := List.mem_map.1 hpm
    exact mean_mono (hr r (by simp)) (hr n (by simp [hn])) (fun a ha b hb => hp.2.2 a ha b (List.mem_flatten.2 ⟨n, hn, hb⟩))

theorem vLoop_close (t : K) : ∀ (runs : List (List K)) (s : K) (hne : runs ≠ []), (∀ r ∈ runs, r ≠ []) →
    runs.flatten.Pairwise (· ≤ ·) → s + len (runs.head hne) / 2 ≤ t →
    t < endW (s + len (runs.head hne) / 2) (runs.map mw) (by simpa using hne) →
    Close (t - s) (vLoop t (s + len (runs.head hne) / 2) (runs.map mw)) runs
  | [], _, hne, _, _, _, _ => absurd rfl hne
  | [r], s, _, hr, hp, h1, h2 => by
    exfalso
    simp only [List.head_cons, List.map_cons, List.map_nil, endW, List.getLast_singleton, wt_cons, wt_nil] at h1 h2
    have : (mw r).2 = len r := rfl
    rw [this] at h2
    linarith
  | r :: n :: rest, s, _, hr, hp, h1, h2 => by
    simp only [List.head_cons] at h1 h2 ⊢
    have hrn := hr r (by simp)
    have hnn := hr n (by simp)
    have hl := one_le_len hrn
    have hln := one_le_len hnn
    have hms := mw_sorted _ hr hp
    rw [List.flatten_cons, List.pairwise_append] at hp
    obtain ⟨hp1, hp2, hp3⟩ := hp
    have hp2' := hp2
    rw [List.flatten_cons, List.pairwise_append] at hp2'
    obtain ⟨hp4, hp5, hp6⟩ := hp2'
    have hnm : ∀ u ∈ n, u ∈ (n :: rest).flatten := fun u hu => by
      rw [List.flatten_cons]; exact List.mem_append_left _ hu
    have hmn := mean_mono hrn hnn (fun a ha b hb => hp3 a ha b (hnm b hb))
    obtain ⟨y, hy, hyx⟩ := exists_le_mean hrn
    obtain ⟨y', hy', hyx'⟩ := exists_le_mean hnn
    obtain ⟨z', hz', hxz'⟩ := exists_mean_le hnn
    have e1 : (mw r).2 = len r := rfl
    have e2 : (mw n).2 = len n := rfl
    simp only [List.map_cons, vLoop, e1, e2]
    split
    · rename_i h3
      have hv := vpick_mem (t := t) (cw := s + len r / 2) hmn
      refine close_two ⟨y, hy, hyx.trans hv.1⟩ ⟨z', hz', hv.2.trans hxz'⟩
        (fun u hu => (hv.2.trans hxz').trans (hp6 z' hz' u hu)) ?_ ?_
      · linarith
      · linarith
    · rename_i h3
      have e3 : s + len r / 2 + (len r + len n) / 2 = (s + len r) + len n / 2 := by ring
      rw [e3] at h3 ⊢
      have h2' := h2
      simp only [List.map_cons] at h2'
      rw [endW_cons, e1, e2, e3] at h2'
      have ih := vLoop_close t (n :: rest) (s + len r) (by simp) (fun u hu => hr u (by simp [hu])) hp2
        (by simpa using h3) (by simpa using h2')
      simp only [List.head_cons, List.map_cons] at ih
      have hvm := vLoop_mem t (mw n :: rest.map mw) (s + len r + len n / 2) (by simp) (List.pairwise_cons.1 hms).2
      simp only [List.head_cons] at hvm
      have := ih.cons (r := r) (fun u hu => (hp3 u hu y' (hnm y' hy')).trans (hyx'.trans hvm.1))
      have e : t - s = len r + (t - (s + len r)) := by ring
      rw [e]
      exact this

/-- Outside the defective part of the last centroid, the value returned has the target weight as its rank, up to the run
sizes. -/
theorem estV_close {runs : List (List K)} (hne : runs.map mw ≠ []) (hr : ∀ r ∈ runs, r ≠ []) (hp : runs.flatten.Pairwise (· ≤ ·))
    {a b : K} (ha : a ∈ runs.flatten) (hb : b ∈ runs.flatten) (ham : ∀ y ∈ runs.flatten, a ≤ y)
    (hbm : ∀ y ∈ runs.flatten, y ≤ b) {t : K} (ht0 : 0 ≤ t) (htn : t ≤ len runs.flatten) (ht : ¬ InTail (runs.map mw) hne t) :
    ∃ v, estV (runs.map mw) hne a b t = .fin v ∧ Close t v runs := by
  have hne' : runs ≠ [] := by rintro rfl; exact hne rfl
  unfold estV
  unfold InTail at ht
  rw [wt_mw] at ht ⊢
  have e1 : (runs.map mw).head hne = mw (runs.head hne') := by rw [List.head_map]
  have e2 : (runs.map mw).getLast hne = mw (runs.getLast hne') := by rw [List.getLast_map]
  rw [e2] at ht
  rw [e1, e2]
  have hl1 := one_le_len (hr _ (List.head_mem hne'))
  have hl2 := one_le_len (hr _ (List.getLast_mem hne'))
  have w1 : (mw (runs.head hne')).2 = len (runs.head hne') := rfl
  have w2 : (mw (runs.getLast hne')).2 = len (runs.getLast hne') := rfl
  rw [w2] at ht
  rw [w1, w2]
  split
  · rename_i h1
    refine ⟨a, rfl, Or.inl ?_⟩
    rw [lts_zero ham]
    exact ⟨ht0, h1.le.trans (one_le_les ⟨a, ha, le_refl _⟩)⟩
  rename_i h1
  split
  · rename_i h2
    refine ⟨_, rfl, ?_⟩
    obtain ⟨r, rest, rfl⟩ : ∃ r rest, runs = r :: rest := by
      cases runs with
      | nil => exact absurd rfl hne'
      | cons r rest => exact ⟨r, rest, rfl⟩
    simp only [List.head_cons] at h2 ⊢
    have hrn := hr r (by simp)
    rw [List.flatten_cons, List.pairwise_append] at hp
    obtain ⟨z, hz, hxz⟩ := exists_mean_le hrn
    obtain ⟨y, hy, hyx⟩ := exists_le_mean hrn
    have ham' : a ≤ (mw r).1 := (ham y (by rw [List.flatten_cons]; exact List.mem_append_left _ hy)).trans hyx
    have lv := left_value ham' (not_lt.1 h1) h2.2
    have har : ∃ y ∈ r, y ≤ a := by
      rw [List.flatten_cons] at ha
      rcases List.mem_append.1 ha with ha | ha
      · exact ⟨a, ha, le_refl _⟩
      · exact ⟨y, hy, hp.2.2 y hy a ha⟩
    obtain ⟨u, hu, hua⟩ := har
    exact close_one ⟨u, hu, hua.trans lv.1⟩ ⟨z, hz, lv.2.trans hxz⟩
      (fun w hw => (lv.2.trans hxz).trans (hp.2.2 z hz w hw)) ht0 (by linarith [h2.2])
  split
  · rename_i h2 h3
    refine ⟨b, rfl, Or.inl ?_⟩
    rw [les_all hbm]
    have := lts_lt_len (x := b) ⟨b, hb, le_refl _⟩
    exact ⟨by linarith, htn⟩
  rename_i h2 h3
  split
  · rename_i h4
    exact absurd ⟨by linarith [h4.2], not_lt.1 h3⟩ ht
  · rename_i h4
    refine ⟨_, rfl, ?_⟩
    have hc1 : len (runs.head hne') / 2 ≤ t := by
      by_contra hc
      rw [not_le] at hc
      apply h2
      refine ⟨?_, hc⟩
      have := not_lt.1 h1
      linarith
    have hc2 : t < len runs.flatten - len (runs.getLast hne') / 2 := by
      by_contra hc
      rw [not_lt] at hc
      apply h4
      have := not_lt.1 h3
      exact ⟨by linarith, by linarith⟩
    have := vLoop_close t runs 0 hne' hr hp (by rw [zero_add]; exact hc1) (by
      unfold endW
      rw [e1, e2, wt_mw, w1, w2]
      linarith)
    rw [zero_add, sub_zero] at this
    exact this

/-! ### one batch -/

theorem totalW_unit : ∀ (r : List (Centroid K)), (∀ c ∈ r, c.weight = .fin 1) → totalW r = len (r.map (fun c => c.mean.toK))
  | [], _ => by simp [len]
  | c :: r, h => by
    rw [totalW_cons, totalW_unit r (fun e he => h e (by simp [he])), h c (by simp)]
    simp [len, Fl.toK, add_comm]

theorem totalMass_unit : ∀ (r : List (Centroid K)), (∀ c ∈ r, c.weight = .fin 1) →
    totalMass r = (r.map (fun c => c.mean.toK)).sum
  | [], _ => by simp
  | c :: r, h => by
    rw [totalMass_cons, totalMass_unit r (fun e he => h e (by simp [he])), h c (by simp)]
    simp [Fl.toK]

theorem toC_inj : Function.Injective (toC (K := K)) := by
  rintro ⟨a, b⟩ ⟨c, d⟩ h
  simp only [toC, Centroid.mk.injEq, Fl.fin.injEq] at h
  rw [h.1, h.2]

/-- The digest after one batch: its centroids are the means of consecutive runs of the sorted data. -/
theorem batch_runs [FloatFmt.Exact K] (s i : ScaleFn K) (cf : Fl K) (xs : List (Fl K)) (hne : xs ≠ [])
    (hg : ∀ x ∈ xs, Item x) :
    Always ((TDigest.new s i cf).addBuffer xs) (fun d => ∃ (runs : List (List K)) (a b : K),
      View d (runs.map mw) a b ∧ (∀ r ∈ runs, r ≠ []) ∧ runs.flatten.Pairwise (· ≤ ·) ∧
      runs.flatten.Perm (xs.map Fl.toK) ∧ a ∈ runs.flatten ∧ b ∈ runs.flatten ∧
      (∀ y ∈ runs.flatten, a ≤ y) ∧ (∀ y ∈ runs.flatten, y ≤ b) ∧
      ∀ pre r post, runs = pre ++ r :: post → 2 ≤ r.length →
        Fl.le (.fin (len r)) (sizeLimit s i cf (len runs.flatten) (len pre.flatten)) = true) := by
  have hsup : supplied [TOp.addBuffer xs] = xs.map (fun x => (⟨x, .fin 1⟩ : Centroid K)) := by
    simp [supplied, TOp.supplied]
  have h1 := reach_view s i cf [.addBuffer xs] (by rw [hsup]; simpa using hne) (by
    intro c hc
    rw [hsup] at hc
    obtain ⟨x, hx, rfl⟩ := List.mem_map.1 hc
    exact ⟨⟨(hg x hx).1, 1, zero_lt_one, rfl⟩, (hg x hx).2⟩)
  have e : (TDigest.new s i cf).execOps [.addBuffer xs] = (TDigest.new s i cf).addBuffer xs := by
    simp only [TDigest.execOps, TDigest.TOp.exec]
    exact bind_ret_right _
  rw [e] at h1
  have hb : ∀ c ∈ xs.map TDigest.unit, Good c := by
    intro c hc
    obtain ⟨x, hx, rfl⟩ := List.mem_map.1 hc
    exact ⟨(hg x hx).1, 1, zero_lt_one, by simp [TDigest.unit]⟩
  have h2 := C33_merge_joins_neighbours (TDigest.new s i cf) (xs.map TDigest.unit) (by simp [TDigest.new]) hb (by simp [hne])
  refine (h1.and h2.partially).mono ?_
  rintro d ⟨⟨hi, l, a, b, hv, hwt, -⟩, l', runs, p1, p2, p3, p4, p5⟩
  have hnil : (TDigest.new s i cf).centroids = [] := rfl
  rw [hnil, List.append_nil] at p1 p5
  have hmem : ∀ c ∈ l', ∃ x ∈ xs, c = ⟨x, .fin 1⟩ := by
    intro c hc
    obtain ⟨x, hx, rfl⟩ := List.mem_map.1 (p1.mem_iff.1 hc)
    exact ⟨x, hx, by simp [TDigest.unit]⟩
  have hun : ∀ r ∈ runs, ∀ c ∈ r, c.weight = .fin 1 := by
    intro r hr c hc
    obtain ⟨x, -, rfl⟩ := hmem c (p3.mem hr hc)
    rfl
  have hmw : ∀ r ∈ runs, weightedMean r = toC (mw (r.map (fun c => c.mean.toK))) := by
    intro r hr
    unfold weightedMean toC mw
    rw [totalW_unit r (hun r hr), totalMass_unit r (hun r hr)]
  have hcs : d.centroids = ((runs.map (fun r => r.map (fun c => c.mean.toK))).map mw).map toC := by
    rw [p4, List.map_map, List.map_map]
    exact List.map_congr_left hmw
  have hl : l = (runs.map (fun r => r.map (fun c => c.mean.toK))).map mw := by
    have := hv.cs
    rw [hcs] at this
    exact ((List.map_injective_iff.2 toC_inj) this).symm
  have hfl : (runs.map (fun r => r.map (fun c => c.mean.toK))).flatten = l'.map (fun c => c.mean.toK) := by
    rw [← p3.1, List.map_flatten]
  have hperm : (l'.map (fun c => c.mean.toK)).Perm (xs.map Fl.toK) := by
    have := p1.map (fun c : Centroid K => c.mean.toK)
    rw [List.map_map] at this
    exact this
  have hsupn : supplied [TOp.addBuffer xs] ≠ [] := by rw [hsup]; simpa using hne
  obtain ⟨⟨cmin, hcm, hcm2⟩, hcm3⟩ := hi.min_eq hsupn
  obtain ⟨⟨cmax, hcx, hcx2⟩, hcx3⟩ := hi.max_eq hsupn
  rw [hsup] at hcm hcm3 hcx hcx3
  have hmn := hv.mn
  have hmx := hv.mx
  have toKmem : ∀ y, y ∈ l'.map (fun c => c.mean.toK) ↔ ∃ x ∈ xs, x.toK = y := by
    intro y
    rw [hperm.mem_iff, List.mem_map]
  have hfin : ∀ x ∈ xs, x = .fin x.toK := by
    intro x hx
    obtain ⟨y, rfl⟩ := (hg x hx).1
    rfl
  refine ⟨runs.map (fun r => r.map (fun c => c.mean.toK)), a, b, hl ▸ hv, ?_, ?_, ?_, ?_, ?_, ?_, ?_, ?_⟩
  · intro r hr
    obtain ⟨r', hr', rfl⟩ := List.mem_map.1 hr
    simpa using p3.2 r' hr'
  · rw [hfl, List.pairwise_map]
    refine p2.imp_of_mem ?_
    intro c e hc he hce
    obtain ⟨x, hx, rfl⟩ := hmem c hc
    obtain ⟨y, hy, rfl⟩ := hmem e he
    dsimp only at hce ⊢
    rw [hfin x hx, hfin y hy] at hce
    simpa using hce
  · rw [hfl]; exact hperm
  · rw [hfl, toKmem]
    obtain ⟨x, hx, rfl⟩ := List.mem_map.1 hcm
    dsimp only at hcm2
    exact ⟨x, hx, by rw [hcm2, hmn]; rfl⟩
  · rw [hfl, toKmem]
    obtain ⟨x, hx, rfl⟩ := List.mem_map.1 hcx
    dsimp only at hcx2
    exact ⟨x, hx, by rw [hcx2, hmx]; rfl⟩
  · intro y hy
    rw [hfl, toKmem] at hy
    obtain ⟨x, hx, rfl⟩ := hy
    have := hcm3 ⟨x, .fin 1⟩ (List.mem_map.2 ⟨x, hx, rfl⟩)
    dsimp only at this
    rw [hmn, hfin x hx] at this
    simpa using this
  · intro y hy
    rw [hfl, toKmem] at hy
    obtain ⟨x, hx, rfl⟩ := hy
    have := hcx3 ⟨x, .fin 1⟩ (List.mem_map.2 ⟨x, hx, rfl⟩)
    dsimp only at this
    rw [hmx, hfin x hx] at this
    simpa using this
  · intro pre r post he hlen
    obtain ⟨pre', rest', hq1, hq2, hq3⟩ := List.map_eq_append_iff.1 he
    obtain ⟨r', post', hq4, hq5, hq6⟩ := List.map_eq_cons_iff.1 hq3
    subst hq2 hq5 hq6 hq4
    have h5 := (p5 pre' r' post' hq1).1 (by simpa using hlen)
    rw [totalW_unit r' (hun r' (by rw [hq1]; simp)), totalW_unit pre'.flatten (fun c hc => by
      obtain ⟨q, hq, hc⟩ := List.mem_flatten.1 hc
      exact hun q (by rw [hq1]; simp [hq]) c hc)] at h5
    rw [hfl]
    have e5 : totalW (xs.map TDigest.unit) = len (l'.map (fun c => c.mean.toK)) := by
      rw [← totalW_perm p1]
      exact totalW_unit l' (fun c hc => by obtain ⟨x, -, rfl⟩ := hmem c hc; rfl)
    rw [e5, List.map_flatten] at h5
    exact h5

end TDigest
end AQ

/-
TDigest: what one merge pass does.
-/
import Mathlib.Tactic.Linarith
import Mathlib.Tactic.Ring
import Mathlib.Tactic.FieldSimp
import Verif.Spec.Centroid
import Verif.Model.TDigest
import Verif.Proofs.Nondet

set_option linter.unusedSectionVars false
set_option linter.unusedVariables false

namespace AQ
open Prog Spec
variable {K : Type} [Field K] [LinearOrder K] [IsStrictOrderedRing K] [FloatFmt K]

namespace Spec

@[simp] theorem totalW_nil : totalW ([] : List (Centroid K)) = 0 := rfl
@[simp] theorem totalW_cons (c : Centroid K) (cs : List (Centroid K)) : totalW (c :: cs) = c.weight.toK + totalW cs := rfl
@[simp] theorem totalW_append (a b : List (Centroid K)) : totalW (a ++ b) = totalW a + totalW b := by
  simp [totalW]
@[simp] theorem totalMass_nil : totalMass ([] : List (Centroid K)) = 0 := rfl
@[simp] theorem totalMass_cons (c : Centroid K) (cs : List (Centroid K)) :
    totalMass (c :: cs) = c.mean.toK * c.weight.toK + totalMass cs := rfl
@[simp] theorem totalMass_append (a b : List (Centroid K)) : totalMass (a ++ b) = totalMass a + totalMass b := by
  simp [totalMass]
theorem totalW_perm {a b : List (Centroid K)} (h : a.Perm b) : totalW a = totalW b := (h.map _).sum_eq
theorem totalMass_perm {a b : List (Centroid K)} (h : a.Perm b) : totalMass a = totalMass b := (h.map _).sum_eq

theorem Good.weight {c : Centroid K} (h : Good c) : c.weight = .fin c.weight.toK := by
  obtain ⟨-, w, -, h⟩ := h; rw [h]; rfl
theorem Good.weight_pos {c : Centroid K} (h : Good c) : 0 < c.weight.toK := by
  obtain ⟨-, w, h0, h⟩ := h; rw [h]; exact h0
theorem Good.mean {c : Centroid K} (h : Good c) : c.mean = .fin c.mean.toK := by
  obtain ⟨⟨m, h⟩, -⟩ := h; rw [h]; rfl
theorem Good.mean_ne_nan {c : Centroid K} (h : Good c) : c.mean ≠ .nan := by rw [h.mean]; simp

theorem totalW_nonneg {l : List (Centroid K)} (h : ∀ c ∈ l, Good c) : 0 ≤ totalW l := by
  induction l with
  | nil => simp
  | cons c l ih =>
    rw [totalW_cons]
    have := (h c (by simp)).weight_pos
    have := ih (fun d hd => h d (by simp [hd]))
    linarith

theorem totalW_pos {l : List (Centroid K)} (h : ∀ c ∈ l, Good c) (hne : l ≠ []) : 0 < totalW l := by
  cases l with
  | nil => exact absurd rfl hne
  | cons c l =>
    rw [totalW_cons]
    have := (h c (by simp)).weight_pos
    have := totalW_nonneg (l := l) (fun d hd => h d (by simp [hd]))
    linarith

theorem totalMass_le {l : List (Centroid K)} (h : ∀ c ∈ l, Good c) {b : K} (hb : ∀ c ∈ l, c.mean.toK ≤ b) :
    totalMass l ≤ b * totalW l := by
  induction l with
  | nil => simp
  | cons c l ih =>
    rw [totalMass_cons, totalW_cons, mul_add]
    have h1 := (h c (by simp)).weight_pos
    have h2 := ih (fun d hd => h d (by simp [hd])) (fun d hd => hb d (by simp [hd]))
    have h3 := mul_le_mul_of_nonneg_right (hb c (by simp)) h1.le
    linarith

theorem le_totalMass {l : List (Centroid K)} (h : ∀ c ∈ l, Good c) {b : K} (hb : ∀ c ∈ l, b ≤ c.mean.toK) :
    b * totalW l ≤ totalMass l := by
  induction l with
  | nil => simp
  | cons c l ih =>
    rw [totalMass_cons, totalW_cons, mul_add]
    have h1 := (h c (by simp)).weight_pos
    have h2 := ih (fun d hd => h d (by simp [hd])) (fun d hd => hb d (by simp [hd]))
    have h3 := mul_le_mul_of_nonneg_right (hb c (by simp)) h1.le
    linarith

/-- A weighted mean lies between any bounds of its members. -/
theorem weightedMean_le {l : List (Centroid K)} (h : ∀ c ∈ l, Good c) (hne : l ≠ []) {b : K}
    (hb : ∀ c ∈ l, c.mean.toK ≤ b) : (weightedMean l).mean.toK ≤ b := by
  show totalMass l / totalW l ≤ b
  rw [div_le_iff₀ (totalW_pos h hne)]
  exact totalMass_le h hb

theorem le_weightedMean {l : List (Centroid K)} (h : ∀ c ∈ l, Good c) (hne : l ≠ []) {b : K}
    (hb : ∀ c ∈ l, b ≤ c.mean.toK) : b ≤ (weightedMean l).mean.toK := by
  show b ≤ totalMass l / totalW l
  rw [le_div_iff₀ (totalW_pos h hne)]
  exact le_totalMass h hb

theorem weightedMean_good {l : List (Centroid K)} (h : ∀ c ∈ l, Good c) (hne : l ≠ []) : Good (weightedMean l) :=
  ⟨⟨_, rfl⟩, _, totalW_pos h hne, rfl⟩

theorem weightedMean_mass {l : List (Centroid K)} (h : ∀ c ∈ l, Good c) (hne : l ≠ []) :
    (weightedMean l).mean.toK * (weightedMean l).weight.toK = totalMass l :=
  div_mul_cancel₀ _ (totalW_pos h hne).ne'

theorem IsPartition.nil {α : Type} : IsPartition ([] : List (List α)) [] := ⟨rfl, by simp⟩

theorem IsPartition.mem {α : Type} {runs : List (List α)} {l : List α} (h : IsPartition runs l) {r : List α}
    (hr : r ∈ runs) {a : α} (ha : a ∈ r) : a ∈ l := by
  rw [← h.1]; exact List.mem_flatten.2 ⟨r, hr, ha⟩

theorem partition_totalW : ∀ (runs : List (List (Centroid K))),
    totalW (runs.map weightedMean) = totalW runs.flatten
  | [] => rfl
  | r :: rs => by
    rw [List.map_cons, totalW_cons, partition_totalW rs, List.flatten_cons, totalW_append]; rfl

theorem partition_totalMass : ∀ (runs : List (List (Centroid K))), (∀ r ∈ runs, r ≠ []) →
    (∀ r ∈ runs, ∀ c ∈ r, Good c) → totalMass (runs.map weightedMean) = totalMass runs.flatten
  | [], _, _ => rfl
  | r :: rs, hne, hg => by
    rw [List.map_cons, totalMass_cons, partition_totalMass rs (fun s hs => hne s (by simp [hs]))
      (fun s hs => hg s (by simp [hs])), List.flatten_cons, totalMass_append,
      weightedMean_mass (hg r (by simp)) (hne r (by simp))]

theorem partition_sorted : ∀ (runs : List (List (Centroid K))), (∀ r ∈ runs, r ≠ []) →
    (∀ r ∈ runs, ∀ c ∈ r, Good c) → runs.flatten.Pairwise (fun a b => a.mean.toK ≤ b.mean.toK) →
    (runs.map weightedMean).Pairwise (fun a b => a.mean.toK ≤ b.mean.toK)
  | [], _, _, _ => List.Pairwise.nil
  | r :: rs, hne, hg, hs => by
    rw [List.flatten_cons, List.pairwise_append] at hs
    obtain ⟨h1, h2, h3⟩ := hs
    rw [List.map_cons, List.pairwise_cons]
    refine ⟨?_, partition_sorted rs (fun s hs => hne s (by simp [hs])) (fun s hs => hg s (by simp [hs])) h2⟩
    intro c hc
    obtain ⟨s, hs, rfl⟩ := List.mem_map.1 hc
    refine weightedMean_le (hg r (by simp)) (hne r (by simp)) ?_
    intro a ha
    refine le_weightedMean (hg s (by simp [hs])) (hne s (by simp [hs])) ?_
    intro b hb
    exact h3 a ha b (List.mem_flatten.2 ⟨s, hs, hb⟩)

/-- Additively closed predicates on weights are inherited by weighted means. -/
theorem totalW_closed {P : K → Prop} (hP : ∀ a b, P a → P b → P (a + b)) : ∀ (l : List (Centroid K)), l ≠ [] →
    (∀ c ∈ l, P c.weight.toK) → P (totalW l)
  | [], h, _ => absurd rfl h
  | [c], _, h => by simpa using h c (by simp)
  | c :: d :: l, _, h => by
    rw [totalW_cons]
    exact hP _ _ (h c (by simp)) (totalW_closed hP (d :: l) (by simp) (fun e he => h e (by simp [he])))

end Spec

namespace TDigest

theorem sum64_exact [FloatFmt.Exact K] : ∀ (cs : List (Centroid K)) (a : K), (∀ c ∈ cs, Good c) →
    (cs.map (·.weight)).foldl Fl.add64 (.fin a) = .fin (a + totalW cs)
  | [], a, _ => by simp
  | c :: cs, a, h => by
    rw [List.map_cons, List.foldl_cons, (h c (by simp)).weight, Fl.add64_exact,
      sum64_exact cs _ (fun d hd => h d (by simp [hd])), totalW_cons, add_assoc]

theorem weightSum_exact [FloatFmt.Exact K] {cs : List (Centroid K)} (h : ∀ c ∈ cs, Good c) :
    weightSum cs = .fin (totalW cs) := by
  unfold weightSum Fl.sum64
  rw [sum64_exact cs 0 h, zero_add, Fl.ofF64_exact]

/-- The size limit in force after the runs `done` (`limit` is the code's `get_w_limit`). -/
def runLimit (limit : Fl K → Fl K) (done : List (List (Centroid K))) : Fl K :=
  if done = [] then limit (.fin 0) else limit (.fin (totalW done.flatten)) - .fin (totalW done.flatten)

/-- Runs respect the size limit: a run of several members is within its limit, and a run was only closed because the
next member would have exceeded the limit. -/
def RunsOK (limit : Fl K → Fl K) (done runs : List (List (Centroid K))) : Prop :=
  ∀ pre r post, runs = pre ++ r :: post →
    (2 ≤ r.length → Fl.le (.fin (totalW r)) (runLimit limit (done ++ pre)) = true) ∧
    (∀ s post' c, post = s :: post' → s.head? = some c →
      Fl.le (.fin (totalW r + c.weight.toK)) (runLimit limit (done ++ pre)) = false)

theorem mergeLoop_spec [FloatFmt.Exact K] (limit : Fl K → Fl K) : ∀ (cs : List (Centroid K))
    (done : List (List (Centroid K))) (acc : List (Centroid K)), (∀ c ∈ cs, Good c) → (∀ c ∈ acc, Good c) → acc ≠ [] →
    (2 ≤ acc.length → Fl.le (.fin (totalW acc)) (runLimit limit done) = true) →
    (∀ r ∈ done, r ≠ []) →
    ∃ first rest, IsPartition (first :: rest) (acc ++ cs) ∧
      first.head? = acc.head? ∧
      mergeLoop limit (.fin (totalW done.flatten)) (runLimit limit done) (.fin (totalW acc)) (.fin (totalMass acc)) cs
        = (first :: rest).map weightedMean ∧ RunsOK limit done (first :: rest)
  | [], done, acc, _, hga, hne, hl, hd => by
    refine ⟨acc, [], ⟨by simp, by simpa using hne⟩, rfl, ?_, ?_⟩
    · simp only [mergeLoop, List.map_cons, List.map_nil]
      rw [Fl.div_exact _ (totalW_pos hga hne).ne']; rfl
    · rintro pre r post h
      have h1 : pre = [] ∧ r = acc ∧ post = [] := by
        cases pre with
        | nil => simp at h; exact ⟨rfl, h.1.symm, h.2⟩
        | cons a p => simp at h
      obtain ⟨rfl, rfl, rfl⟩ := h1
      rw [List.append_nil]
      exact ⟨hl, by simp⟩
  | c :: cs, done, acc, hgc, hga, hne, hl, hd => by
    have hc : Good c := hgc c (by simp)
    have hgcs : ∀ d ∈ cs, Good d := fun d hd => hgc d (by simp [hd])
    unfold mergeLoop
    simp only []
    by_cases hle : Fl.le (.fin (totalW acc) + c.weight) (runLimit limit done) = true
    · rw [if_pos hle]
      have e1 : (Fl.fin (totalW acc) : Fl K) + c.weight = .fin (totalW (acc ++ [c])) := by
        rw [hc.weight, Fl.add_exact]; simp [Fl.toK]
      have e2 : (Fl.fin (totalMass acc) : Fl K) + c.mean * c.weight = .fin (totalMass (acc ++ [c])) := by
        rw [hc.weight, hc.mean, Fl.mul_exact, Fl.add_exact]; simp [Fl.toK]
      rw [e1] at hle ⊢
      rw [e2]
      obtain ⟨first, rest, h1, h2, h3, h4⟩ := mergeLoop_spec limit cs done (acc ++ [c]) hgcs (by
          intro d hd
          rcases List.mem_append.1 hd with hd | hd
          · exact hga d hd
          · rw [List.mem_singleton] at hd; subst hd; exact hc) (by simp) (fun _ => hle) hd
      refine ⟨first, rest, ?_, ?_, h3, h4⟩
      · simpa using h1
      · rw [h2]
        cases acc with
        | nil => exact absurd rfl hne
        | cons a l => rfl
    · rw [if_neg hle]
      have hle' : Fl.le (.fin (totalW acc + c.weight.toK)) (runLimit limit done) = false := by
        rw [hc.weight, Fl.add_exact] at hle
        simpa [Fl.toK] using hle
      have e0 : (Fl.fin (totalW done.flatten) : Fl K) + .fin (totalW acc) = .fin (totalW (done ++ [acc]).flatten) := by
        rw [Fl.add_exact]; simp
      have e1 : c.weight = .fin (totalW [c]) := by rw [hc.weight]; simp [Fl.toK]
      have e2 : c.mean * c.weight = .fin (totalMass [c]) := by
        rw [hc.weight, hc.mean, Fl.mul_exact]; simp [Fl.toK]
      have e3 : limit (.fin (totalW (done ++ [acc]).flatten)) - .fin (totalW (done ++ [acc]).flatten)
          = runLimit limit (done ++ [acc]) := by
        unfold runLimit; rw [if_neg (by simp)]
      rw [e0, e2, e3]
      conv => 
        enter [1, first, 1, rest, 2, 2, 1, 1]
        rw [e1]
      obtain ⟨first, rest, h1, h2, h3, h4⟩ := mergeLoop_spec limit cs (done ++ [acc]) [c] hgcs (by simpa using hc)
        (by simp) (by simp) (by
          intro r hr
          rcases List.mem_append.1 hr with hr | hr
          · exact hd r hr
          · rw [List.mem_singleton] at hr; subst hr; exact hne)
      refine ⟨acc, first :: rest, ?_, rfl, ?_, ?_⟩
      · refine ⟨?_, ?_⟩
        · rw [List.flatten_cons, h1.1]; simp
        · intro r hr
          rcases List.mem_cons.1 hr with rfl | hr
          · exact hne
          · exact h1.2 r hr
      · rw [h3, Fl.div_exact _ (totalW_pos hga hne).ne']
        rfl
      · rintro pre r post h
        cases pre with
        | nil =>
          simp only [List.nil_append, List.cons.injEq] at h
          obtain ⟨rfl, rfl⟩ := h
          rw [List.append_nil]
          refine ⟨hl, ?_⟩
          rintro s post' d h5 h6
          simp only [List.cons.injEq] at h5
          obtain ⟨rfl, rfl⟩ := h5
          rw [h2] at h6
          simp only [List.head?_cons, Option.some.injEq] at h6
          subst h6
          exact hle'
        | cons a pre' =>
          simp only [List.cons_append, List.cons.injEq] at h
          obtain ⟨rfl, h⟩ := h
          have := h4 pre' r post h
          simpa using this

/-- The result of merging a sorted buffer. -/
theorem mergeSorted_spec [FloatFmt.Exact K] (d : TDigest K) (l : List (Centroid K)) (hne : l ≠ []) (hg : ∀ c ∈ l, Good c) :
    ∃ runs, IsPartition runs l ∧ (d.mergeSorted l).centroids = runs.map weightedMean ∧
      RunsOK (d.wLimit (.fin (totalW l))) [] runs ∧
      (d.mergeSorted l).min = Fl.fmin d.min (l.head hne).mean ∧
      (d.mergeSorted l).max = Fl.fmax d.max (l.getLast hne).mean := by
  cases l with
  | nil => exact absurd rfl hne
  | cons c cs =>
    have hc : Good c := hg c (by simp)
    obtain ⟨first, rest, h1, -, h3, h4⟩ := mergeLoop_spec (d.wLimit (.fin (totalW (c :: cs)))) cs [] [c]
      (fun e he => hg e (by simp [he])) (by simpa using hc) (by simp) (by simp) (by simp)
    refine ⟨first :: rest, h1, ?_, h4, rfl, rfl⟩
    rw [← h3]
    simp only [mergeSorted]
    rw [weightSum_exact hg]
    have e1 : (Fl.fin (totalW [c]) : Fl K) = c.weight := by rw [hc.weight]; simp [Fl.toK]
    have e2 : (Fl.fin (totalMass [c]) : Fl K) = c.mean * c.weight := by
      rw [hc.weight, hc.mean, Fl.mul_exact]; simp [Fl.toK]
    rw [e1, e2]
    simp [runLimit]

/-- One merge pass of the code. -/
theorem addCentroidBuffer_spec [FloatFmt.Exact K] (d : TDigest K) (buffer : List (Centroid K))
    (hd : ∀ c ∈ d.centroids, Good c) (hb : ∀ c ∈ buffer, Good c) (hne : buffer ++ d.centroids ≠ []) :
    Always (d.addCentroidBuffer buffer) (fun d' =>
      ∃ (l : List (Centroid K)) (runs : List (List (Centroid K))) (hl : l ≠ []), l.Perm (buffer ++ d.centroids) ∧
        l.Pairwise (fun a b => a.mean ≤ b.mean) ∧
        IsPartition runs l ∧ d'.centroids = runs.map weightedMean ∧
        RunsOK (d.wLimit (.fin (totalW (buffer ++ d.centroids)))) [] runs ∧
        d'.min = Fl.fmin d.min (l.head hl).mean ∧ d'.max = Fl.fmax d.max (l.getLast hl).mean ∧
        d'.compressFactor = d.compressFactor ∧ d'.scaleFunc = d.scaleFunc ∧ d'.inverseScaleFunc = d.inverseScaleFunc) := by
  have hg : ∀ c ∈ buffer ++ d.centroids, Good c := by
    intro c hc
    rcases List.mem_append.1 hc with hc | hc
    · exact hb c hc
    · exact hd c hc
  unfold addCentroidBuffer
  rw [always_bind]
  refine (sortUnstable_spec Centroid.mean _ (fun c hc => (hg c hc).mean_ne_nan)).mono ?_
  rintro l ⟨h1, h2⟩
  have hl : l ≠ [] := by rintro rfl; exact hne h1.nil_eq.symm
  obtain ⟨runs, r1, r2, r3, r4, r5⟩ := d.mergeSorted_spec l hl (fun c hc => hg c (h1.mem_iff.1 hc))
  rw [totalW_perm h1] at r3
  refine ⟨l, runs, hl, h1, h2, r1, r2, r3, r4, r5, ?_⟩
  cases l with
  | nil => exact absurd rfl hl
  | cons c cs => exact ⟨rfl, rfl, rfl⟩

theorem addCentroidBuffer_nil (d : TDigest K) (hd : d.centroids = []) : d.addCentroidBuffer [] = .ret d := by
  unfold addCentroidBuffer
  rw [hd]; rfl

end TDigest
end AQ

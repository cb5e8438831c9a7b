/-
Range and monotonicity of `est_value_at_quantile`; uncompressed digests; single batches; the size bound for `k0`.
-/
import Verif.Model.ScaleK0
import Verif.Proofs.TDValue
import Verif.Proofs.Linear

set_option linter.unusedSectionVars false
set_option linter.unusedVariables false

namespace AQ
open Prog Spec
variable {K : Type} [Field K] [LinearOrder K] [IsStrictOrderedRing K] [FloatFmt K]

namespace TDigest

/-- In the tail handled by the formula for the last centroid. -/
def InTail (l : List (K × K)) (hne : l ≠ []) (t : K) : Prop :=
  wt l - (l.getLast hne).2 / 2 ≤ t ∧ t ≤ wt l - 1

theorem getLast_mono {l : List (K × K)} (hs : l.Pairwise (fun p q => p.1 ≤ q.1)) (hne : l ≠ []) :
    ∀ p ∈ l, p.1 ≤ (l.getLast hne).1 := by
  intro p hp
  rw [← List.dropLast_append_getLast hne] at hs hp
  rcases List.mem_append.1 hp with h | h
  · exact (List.pairwise_append.1 hs).2.2 p h _ (by simp)
  · rw [List.mem_singleton] at h; rw [← h]

theorem half_ends_le {l : List (K × K)} (hp : ∀ p ∈ l, 0 < p.2) (hne : l ≠ []) :
    (l.head hne).2 / 2 + (l.getLast hne).2 / 2 ≤ wt l := by
  match l, hne, hp with
  | [c], _, _ => simp
  | c :: n :: rest, _, hp =>
    have h3 := getLast_wt_le (l := n :: rest) (fun p h => hp p (List.mem_cons_of_mem _ h)) (by simp)
    have h4 := hp c (by simp)
    have h5 := hp ((n :: rest).getLast (by simp)) (List.mem_cons_of_mem _ (List.getLast_mem _))
    rw [List.getLast_cons (by simp), List.head_cons, wt_cons]
    linarith

/-- Value left of the first mean. -/
theorem left_value {a f w t : K} (haf : a ≤ f) (h1 : 1 ≤ t) (h2 : t < w / 2) :
    a ≤ a + (t - 1) / (w / 2 - 1) * (f - a) ∧ a + (t - 1) / (w / 2 - 1) * (f - a) ≤ f := by
  have hd : 0 < w / 2 - 1 := by linarith
  have ht0 : 0 ≤ (t - 1) / (w / 2 - 1) := div_nonneg (by linarith) hd.le
  have ht1 : (t - 1) / (w / 2 - 1) ≤ 1 := (div_le_one hd).2 (by linarith)
  have h3 := mul_nonneg ht0 (by linarith : 0 ≤ f - a)
  have h4 := mul_le_of_le_one_left (by linarith : 0 ≤ f - a) ht1
  constructor <;> linarith

theorem estV_not_tail {l : List (K × K)} (hne : l ≠ []) {a b : K} (hs : l.Pairwise (fun p q => p.1 ≤ q.1))
    (hlo : ∀ p ∈ l, a ≤ p.1) (hhi : ∀ p ∈ l, p.1 ≤ b) {t : K} (ht : ¬ InTail l hne t) :
    ∃ v, estV l hne a b t = .fin v ∧ a ≤ v ∧ v ≤ b := by
  have hf := hlo _ (List.head_mem hne)
  have hf2 := hhi _ (List.head_mem hne)
  have hab := hf.trans hf2
  have hl2 := hhi _ (List.getLast_mem hne)
  unfold estV
  split
  · exact ⟨a, rfl, le_refl _, hab⟩
  rename_i h1
  split
  · rename_i h2
    have := left_value hf (not_lt.1 h1) h2.2
    exact ⟨_, rfl, this.1, this.2.trans hf2⟩
  split
  · exact ⟨b, rfl, hab, le_refl _⟩
  rename_i h2 h3
  split
  · rename_i h4
    exact absurd ⟨by linarith [h4.2], not_lt.1 h3⟩ ht
  · have := vLoop_mem t l ((l.head hne).2 / 2) hne hs
    exact ⟨_, rfl, hf.trans this.1, this.2.trans hl2⟩

/-- In the tail the answer is within 1 below the maximum (whatever the scale of the data), unless the last weight is 2. -/
theorem estV_tail [FloatFmt.Exact K] {l : List (K × K)} (hne : l ≠ []) {a b : K} (hs : l.Pairwise (fun p q => p.1 ≤ q.1))
    (hlo : ∀ p ∈ l, a ≤ p.1) (hhi : ∀ p ∈ l, p.1 ≤ b) {t : K} (h2 : (l.getLast hne).2 ≠ 2) (ht : InTail l hne t) :
    ∃ v, estV l hne a b t = .fin v ∧ Min.min a (b - 1) ≤ v ∧ v ≤ b := by
  have hf := hlo _ (List.head_mem hne)
  have hf2 := hhi _ (List.head_mem hne)
  have hab := hf.trans hf2
  unfold estV
  split
  · exact ⟨a, rfl, min_le_left _ _, hab⟩
  rename_i h1
  split
  · rename_i h3
    have := left_value hf (not_lt.1 h1) h3.2
    exact ⟨_, rfl, (min_le_left _ _).trans this.1, this.2.trans hf2⟩
  split
  · exact ⟨b, rfl, (min_le_left _ _).trans hab, le_refl _⟩
  rename_i h3 h4
  obtain ⟨h5, h6⟩ := ht
  have hw : 2 ≤ (l.getLast hne).2 := by linarith
  have hw2 : 2 < (l.getLast hne).2 := lt_of_le_of_ne hw (Ne.symm h2)
  rw [if_pos ⟨by linarith, by linarith⟩]
  have hd : 0 < (l.getLast hne).2 / 2 - 1 := by linarith
  rw [Fl.div_exact _ hd.ne', Fl.sub_exact]
  have h0 : 0 ≤ (wt l - t - 1) / ((l.getLast hne).2 / 2 - 1) := div_nonneg (by linarith) hd.le
  have h7 : (wt l - t - 1) / ((l.getLast hne).2 / 2 - 1) ≤ 1 := (div_le_one hd).2 (by linarith)
  exact ⟨_, rfl, (min_le_right _ _).trans (by linarith), by linarith⟩

/-- Whatever happens, the answer is at most the maximum or not a number. -/
theorem estV_le [FloatFmt.Exact K] {l : List (K × K)} (hne : l ≠ []) {a b : K} (hs : l.Pairwise (fun p q => p.1 ≤ q.1))
    (hlo : ∀ p ∈ l, a ≤ p.1) (hhi : ∀ p ∈ l, p.1 ≤ b) (t : K) :
    estV l hne a b t = .nan ∨ ∃ v, estV l hne a b t = .fin v ∧ v ≤ b := by
  by_cases ht : InTail l hne t
  · by_cases h2 : (l.getLast hne).2 = 2
    · have hab := (hlo _ (List.head_mem hne)).trans (hhi _ (List.head_mem hne))
      have hf := hlo _ (List.head_mem hne)
      have hf2 := hhi _ (List.head_mem hne)
      unfold estV
      split
      · exact Or.inr ⟨a, rfl, hab⟩
      rename_i h1
      split
      · rename_i h3
        have := left_value hf (not_lt.1 h1) h3.2
        exact Or.inr ⟨_, rfl, this.2.trans hf2⟩
      split
      · exact Or.inr ⟨b, rfl, le_refl _⟩
      obtain ⟨h5, h6⟩ := ht
      rw [h2] at h5
      rw [if_pos ⟨by rw [h2]; norm_num, by rw [h2]; linarith⟩]
      left
      have e1 : wt l - t - 1 = 0 := by linarith
      have e2 : (l.getLast hne).2 / 2 - 1 = 0 := by rw [h2]; norm_num
      rw [e1, e2]
      have : (.fin 0 / .fin 0 : Fl K) = .nan := by rw [Fl.div_fin, if_pos rfl]; simp [Fl.signInf]
      rw [this]; rfl
    · obtain ⟨v, h3, -, h4⟩ := estV_tail hne hs hlo hhi h2 ht
      exact Or.inr ⟨v, h3, h4⟩
  · obtain ⟨v, h3, -, h4⟩ := estV_not_tail hne hs hlo hhi ht
    exact Or.inr ⟨v, h3, h4⟩

/-- Monotonicity away from the defect of the tail formula. -/
theorem estV_mono [FloatFmt.Exact K] {l : List (K × K)} (hne : l ≠ []) {a b : K} (hs : l.Pairwise (fun p q => p.1 ≤ q.1))
    (hw : ∀ p ∈ l, 1 ≤ p.2) (hlo : ∀ p ∈ l, a ≤ p.1) (hhi : ∀ p ∈ l, p.1 ≤ b) {t u : K} (htu : t ≤ u)
    (h2 : ¬ InTail l hne u ∨ (l.getLast hne).2 ≠ 2 ∧ (InTail l hne t ∨ (l.getLast hne).1 ≤ b - 1))
    (h3 : ¬ InTail l hne t ∨ (l.getLast hne).2 ≠ 2) :
    ∃ v w, estV l hne a b t = .fin v ∧ estV l hne a b u = .fin w ∧ v ≤ w := by
  have hf := hlo _ (List.head_mem hne)
  have hf2 := hhi _ (List.head_mem hne)
  have hlw := hw _ (List.getLast_mem hne)
  have hab := hf.trans hf2
  have hl2 := hhi _ (List.getLast_mem hne)
  have hfl := getLast_mono hs hne _ (List.head_mem hne)
  have hmemt := vLoop_mem t l ((l.head hne).2 / 2) hne hs
  have hmemu := vLoop_mem u l ((l.head hne).2 / 2) hne hs
  -- value of `u` is finite and ≤ b
  have hut : ∃ v, estV l hne a b u = .fin v ∧ v ≤ b := by
    rcases h2 with h | ⟨h, -⟩
    · obtain ⟨v, h4, -, h5⟩ := estV_not_tail hne hs hlo hhi h; exact ⟨v, h4, h5⟩
    · by_cases hu : InTail l hne u
      · obtain ⟨v, h4, -, h5⟩ := estV_tail hne hs hlo hhi h hu; exact ⟨v, h4, h5⟩
      · obtain ⟨v, h4, -, h5⟩ := estV_not_tail hne hs hlo hhi hu; exact ⟨v, h4, h5⟩
  -- the branches for `t`
  by_cases t1 : t < 1
  · have et : estV l hne a b t = .fin a := by unfold estV; rw [if_pos t1]
    rw [et]
    by_cases hu : InTail l hne u
    · by_cases u1 : u < 1
      · exact ⟨a, a, rfl, by unfold estV; rw [if_pos u1], le_refl _⟩
      obtain ⟨hn2, h2⟩ := h2.resolve_left (fun h => h hu)
      rcases h2 with h2 | h2
      · exfalso
        obtain ⟨h5, h6⟩ := h2
        have := getLast_wt_le (fun p hp => zero_lt_one.trans_le (hw p hp)) hne
        linarith
      · obtain ⟨v, h4, h5, h6⟩ := estV_tail hne hs hlo hhi hn2 hu
        refine ⟨a, v, rfl, h4, ?_⟩
        rw [min_eq_left (by linarith)] at h5
        exact h5
    · obtain ⟨v, h4, h5, h6⟩ := estV_not_tail hne hs hlo hhi hu
      exact ⟨a, v, rfl, h4, h5⟩
  have u1 : ¬ u < 1 := not_lt.2 ((not_lt.1 t1).trans htu)
  by_cases t2 : 1 < (l.head hne).2 ∧ t < (l.head hne).2 / 2
  · have et : estV l hne a b t = .fin (a + (t - 1) / ((l.head hne).2 / 2 - 1) * ((l.head hne).1 - a)) := by
      unfold estV; rw [if_neg t1, if_pos t2]
    have hlv := left_value hf (not_lt.1 t1) t2.2
    by_cases u2 : u < (l.head hne).2 / 2
    · have eu : estV l hne a b u = .fin (a + (u - 1) / ((l.head hne).2 / 2 - 1) * ((l.head hne).1 - a)) := by
        unfold estV; rw [if_neg u1, if_pos ⟨t2.1, u2⟩]
      refine ⟨_, _, et, eu, ?_⟩
      have hd : 0 < (l.head hne).2 / 2 - 1 := by linarith [not_lt.1 u1]
      have : (t - 1) / ((l.head hne).2 / 2 - 1) ≤ (u - 1) / ((l.head hne).2 / 2 - 1) := by gcongr
      have := mul_le_mul_of_nonneg_right this (by linarith : 0 ≤ (l.head hne).1 - a)
      linarith
    · have eu : estV l hne a b u = if wt l - 1 < u then .fin b
          else if 1 < (l.getLast hne).2 ∧ wt l - u ≤ (l.getLast hne).2 / 2 then
            .fin b - .fin (wt l - u - 1) / .fin ((l.getLast hne).2 / 2 - 1)
          else .fin (vLoop u ((l.head hne).2 / 2) l) := by
        unfold estV; rw [if_neg u1, if_neg (fun h => u2 h.2)]
      rw [et, eu]
      split
      · exact ⟨_, _, rfl, rfl, hlv.2.trans hf2⟩
      rename_i u3
      split
      · rename_i u4
        have hu : InTail l hne u := ⟨by linarith [u4.2], not_lt.1 u3⟩
        obtain ⟨hn2, h2⟩ := h2.resolve_left (fun h => h hu)
        have hw2 : 2 < (l.getLast hne).2 := lt_of_le_of_ne (by linarith [hu.1, hu.2]) (Ne.symm hn2)
        have hd : 0 < (l.getLast hne).2 / 2 - 1 := by linarith
        have h7 : (wt l - u - 1) / ((l.getLast hne).2 / 2 - 1) ≤ 1 := (div_le_one hd).2 (by linarith [u4.2])
        rw [Fl.div_exact _ hd.ne', Fl.sub_exact]
        refine ⟨_, _, rfl, rfl, ?_⟩
        rcases h2 with h2 | h2
        · exfalso
          -- `t` would be both left of the first and right of the last mean
          have hge := half_ends_le (fun p hp => zero_lt_one.trans_le (hw p hp)) hne
          linarith [h2.1, t2.2]
        · linarith [hlv.2]
      · exact ⟨_, _, rfl, rfl, hlv.2.trans hmemu.1⟩
  have u2 : ¬ (1 < (l.head hne).2 ∧ u < (l.head hne).2 / 2) := fun h => t2 ⟨h.1, htu.trans_lt h.2⟩
  have ee : ∀ z, ¬ z < 1 → ¬ (1 < (l.head hne).2 ∧ z < (l.head hne).2 / 2) → estV l hne a b z = if wt l - 1 < z then .fin b
      else if 1 < (l.getLast hne).2 ∧ wt l - z ≤ (l.getLast hne).2 / 2 then
        .fin b - .fin (wt l - z - 1) / .fin ((l.getLast hne).2 / 2 - 1)
      else .fin (vLoop z ((l.head hne).2 / 2) l) := by
    intro z z1 z2; unfold estV; rw [if_neg z1, if_neg z2]
  obtain ⟨w, hwu, hwb⟩ := hut
  rw [ee t t1 t2]
  by_cases t3 : wt l - 1 < t
  · rw [if_pos t3]
    refine ⟨b, b, rfl, ?_, le_refl _⟩
    rw [ee u u1 u2, if_pos (t3.trans_le htu)]
  rw [if_neg t3]
  by_cases t4 : 1 < (l.getLast hne).2 ∧ wt l - t ≤ (l.getLast hne).2 / 2
  · rw [if_pos t4]
    have ht : InTail l hne t := ⟨by linarith [t4.2], not_lt.1 t3⟩
    have hn2 := h3.resolve_left (fun h => h ht)
    have hw2 : 2 < (l.getLast hne).2 := lt_of_le_of_ne (by linarith [ht.1, ht.2]) (Ne.symm hn2)
    have hd : 0 < (l.getLast hne).2 / 2 - 1 := by linarith
    rw [Fl.div_exact _ hd.ne', Fl.sub_exact]
    have h0 : 0 ≤ (wt l - t - 1) / ((l.getLast hne).2 / 2 - 1) := div_nonneg (by linarith [not_lt.1 t3]) hd.le
    rw [ee u u1 u2]
    split
    · exact ⟨_, _, rfl, rfl, by linarith⟩
    · rw [if_pos ⟨t4.1, by linarith [t4.2]⟩, Fl.div_exact _ hd.ne', Fl.sub_exact]
      refine ⟨_, _, rfl, rfl, ?_⟩
      have : (wt l - u - 1) / ((l.getLast hne).2 / 2 - 1) ≤ (wt l - t - 1) / ((l.getLast hne).2 / 2 - 1) := by gcongr
      linarith
  · rw [if_neg t4, ee u u1 u2]
    split
    · exact ⟨_, _, rfl, rfl, hmemt.2.trans hl2⟩
    rename_i u3
    split
    · rename_i u4
      have hu : InTail l hne u := ⟨by linarith [u4.2], not_lt.1 u3⟩
      obtain ⟨hn2, h2⟩ := h2.resolve_left (fun h => h hu)
      have hw2 : 2 < (l.getLast hne).2 := lt_of_le_of_ne (by linarith [hu.1, hu.2]) (Ne.symm hn2)
      have hd : 0 < (l.getLast hne).2 / 2 - 1 := by linarith
      have h7 : (wt l - u - 1) / ((l.getLast hne).2 / 2 - 1) ≤ 1 := (div_le_one hd).2 (by linarith [u4.2])
      rw [Fl.div_exact _ hd.ne', Fl.sub_exact]
      refine ⟨_, _, rfl, rfl, ?_⟩
      rcases h2 with h2 | h2
      · exact absurd ⟨u4.1, by linarith [h2.1]⟩ t4
      · linarith [hmemt.2]
    · exact ⟨_, _, rfl, rfl, vLoop_mono htu l _ hs hw⟩

end TDigest
end AQ

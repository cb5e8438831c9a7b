/-
Property C115: the random data generators (util/mod.rs) and centroids of weight zero (t_digest.rs).
-/
import Verif.Model.Gen
import Verif.Proofs.TDInfinite
import Verif.Proofs.ParTDigest
import Verif.Proofs.F64
import Verif.Model.ScaleK0

set_option linter.unusedSectionVars false
set_option linter.unusedVariables false

namespace AQ
open Prog Spec
variable {K : Type} [Field K] [LinearOrder K] [IsStrictOrderedRing K] [FloatFmt K]

/-- A number between two numbers of the format is rounded to a finite number between them. -/
theorem rnd_between [FloatFmt.Mono K] {a b x : K} (ha : FloatFmt.rnd a = .fin a) (hb : FloatFmt.rnd b = .fin b) (h1 : a ≤ x) (h2 : x ≤ b) :
    ∃ y : K, (FloatFmt.rnd x : Fl K) = .fin y ∧ a ≤ y ∧ y ≤ b := by
  have h3 := FloatFmt.Mono.rnd_mono _ _ h1
  have h4 := FloatFmt.Mono.rnd_mono _ _ h2
  rw [ha] at h3
  rw [hb] at h4
  cases h : (FloatFmt.rnd x : Fl K) with
  | fin y => rw [h] at h3 h4; exact ⟨y, rfl, by simpa using h3, by simpa using h4⟩
  | nan => exact absurd h (FloatFmt.Mono.rnd_ne_nan x)
  | pinf => rw [h] at h4; simp at h4
  | ninf => rw [h] at h3; simp at h3

/-- C115. Every generator returns `size` values (none for a negative size). -/
theorem C115_lengths (tan : K → Fl K) (u : Nat → K) (size : Int) (lambda : K) (hl : 0 < lambda) :
    (genUniformVec u size).length = size.toNat ∧ (genUniformTanVec tan u size).length = size.toNat ∧
    (genUniformCentroidVec u size).length = size.toNat ∧ (genUniformCentroidRandomWeightVec u size).length = size.toNat ∧
    Always (genUniformExpVec u size (.fin lambda)) (fun xs => xs.length = size.toNat) := by
  refine ⟨by simp [genUniformVec], by simp [genUniformTanVec], by simp [genUniformCentroidVec, genUniformVec],
    by simp [genUniformCentroidRandomWeightVec], ?_⟩
  unfold genUniformExpVec
  rw [if_pos (by simpa using hl)]
  show List.length _ = _
  simp

/-- C115. Whatever is drawn from `0.0..1001.0`, the values are numbers from 0 to 1001, in every format that has the number 1001. -/
theorem C115_uniform_range [FloatFmt.Mono K] (h1001 : FloatFmt.rnd (1001 : K) = .fin 1001) (u : Nat → K) (hu : ∀ i, 0 ≤ u i ∧ u i < 1001)
    (size : Int) : ∀ x ∈ genUniformVec u size, ∃ y : K, x = .fin y ∧ 0 ≤ y ∧ y ≤ 1001 := by
  intro x hx
  obtain ⟨i, -, rfl⟩ := List.mem_map.1 hx
  exact rnd_between FloatFmt.Mono.rnd_zero h1001 (hu i).1 (hu i).2.le

/-- C115. `gen_uniform_tan_vec` returns the tangents of the samples in order: a bound on the tangents that actually occur, by numbers
of the format, is a bound on the values. -/
theorem C115_tan_range [FloatFmt.Mono K] (tan : K → Fl K) (a b : K) (ha : FloatFmt.rnd a = .fin a) (hb : FloatFmt.rnd b = .fin b) (u : Nat → K)
    (size : Int) (ht : ∀ i : Nat, (i : Int) < size → ∃ t : K, tan (u i) = .fin t ∧ a ≤ t ∧ t ≤ b) :
    ∀ x ∈ genUniformTanVec tan u size, ∃ y : K, x = .fin y ∧ a ≤ y ∧ y ≤ b := by
  intro x hx
  obtain ⟨i, hi, rfl⟩ := List.mem_map.1 hx
  obtain ⟨t, h1, h2, h3⟩ := ht i (by have := List.mem_range.1 hi; omega)
  rw [h1]
  exact rnd_between ha hb h2 h3

/-- C115. A poisoned tangent (NaN) shows up in the vector exactly when one of the samples has it. -/
theorem C115_tan_nan [FloatFmt.Mono K] (tan : K → Fl K) (u : Nat → K) (size : Int) :
    Fl.nan ∈ genUniformTanVec tan u size ↔ ∃ i : Nat, (i : Int) < size ∧ tan (u i) = .nan := by
  constructor
  · intro h
    obtain ⟨i, hi, hx⟩ := List.mem_map.1 h
    refine ⟨i, by have := List.mem_range.1 hi; omega, ?_⟩
    cases ht : tan (u i) with
    | nan => rfl
    | fin t => rw [ht] at hx; exact absurd hx (FloatFmt.Mono.rnd_ne_nan t)
    | _ => rw [ht] at hx; simp [Fl.ofF64] at hx
  · rintro ⟨i, hi, hn⟩
    exact List.mem_map.2 ⟨i, List.mem_range.2 (by omega), by rw [hn]; rfl⟩

/-- C115. When the samples are numbers of the format (`F = f64`) they are returned as they are, so 1001 is not reached. -/
theorem C115_uniform_f64 (u : Nat → K) (hu : ∀ i, 0 ≤ u i ∧ u i < 1001) (hr : ∀ i, FloatFmt.rnd (u i) = .fin (u i)) (size : Int) :
    ∀ x ∈ genUniformVec u size, ∃ y : K, x = .fin y ∧ 0 ≤ y ∧ y < 1001 := by
  intro x hx
  obtain ⟨i, -, rfl⟩ := List.mem_map.1 hx
  exact ⟨u i, hr i, hu i⟩

/-- C115. The values of `gen_uniform_exp_vec` are at most -1: away from zero, as its comment promises. (The largest sample is assumed
to be within the range of the format.) -/
theorem C115_exp_range [FloatFmt.Mono K] (hm1 : FloatFmt.rnd (-1 : K) = .fin (-1)) (e : Nat → K) (he : ∀ i, 0 ≤ e i)
    (h64 : ∀ i, ∃ y : K, (FloatFmt.rnd64 (-(e i) - 1) : Fl K) = .fin y ∧ y ≤ -1) (size : Int) (lambda : Fl K) :
    Partially (genUniformExpVec e size lambda) (fun xs => ∀ x ∈ xs, x ≠ .nan ∧ x ≤ .fin (-1)) := by
  unfold genUniformExpVec
  split
  · show ∀ x ∈ _, _
    intro x hx
    obtain ⟨i, -, rfl⟩ := List.mem_map.1 hx
    obtain ⟨y, hy, hy'⟩ := h64 i
    rw [hy]
    refine ⟨FloatFmt.Mono.rnd_ne_nan y, ?_⟩
    have := FloatFmt.Mono.rnd_mono _ _ hy'
    rw [hm1] at this
    exact this
  · trivial

/-- C115. A parameter that is not positive panics. -/
theorem C115_exp_panics (e : Nat → K) (size : Int) (lambda : K) (h : lambda ≤ 0) : Panics (genUniformExpVec e size (.fin lambda)) := by
  unfold genUniformExpVec
  rw [if_neg (by simpa using h)]
  simp [Panics]

theorem genCentroid_up [FloatFmt.Exact K] (u : Nat → K) (size : Int) : ∀ c ∈ genUniformCentroidVec u size, Up c := by
  intro c hc
  obtain ⟨x, hx, rfl⟩ := List.mem_map.1 hc
  obtain ⟨i, -, rfl⟩ := List.mem_map.1 hx
  exact ⟨Or.inl ⟨u i, Fl.ofF64_exact (.fin (u i))⟩, 1, one_pos, Fl.lit_exact 1⟩

/-- C115. A TDigest takes the unit-weight centroids, after any history of its own; its total weight grows by the number of centroids. -/
theorem C115_unit_centroids_taken [FloatFmt.Exact K] (s i : ScaleFn K) (cf : Fl K) (ops : List (TDigest.TOp K))
    (hg : ∀ c ∈ TDigest.supplied ops, Good c) (u : Nat → K) (size : Int) :
    Always ((TDigest.new s i cf).execOps (ops ++ [.addCentroids (genUniformCentroidVec u size)]))
      (fun d => totalW d.centroids = totalW (TDigest.supplied ops) + (size.toNat : K)) := by
  have e : TDigest.supplied (ops ++ [.addCentroids (genUniformCentroidVec u size)]) =
      TDigest.supplied ops ++ genUniformCentroidVec u size := by
    simp [TDigest.supplied, TDigest.TOp.supplied]
  refine (TDigest.execOps_up _ _ [] (TDigest.new_upInv s i cf) ?_).mono ?_
  · intro c hc
    rw [e] at hc
    rcases List.mem_append.1 hc with hc | hc
    · exact ⟨Or.inl (hg c hc).1, (hg c hc).2⟩
    · exact genCentroid_up u size c hc
  · intro d h
    rw [h.weight, List.nil_append, e, Spec.totalW_append]
    congr 1
    have : genUniformCentroidVec u size = (genUniformVec u size).map TDigest.unit := rfl
    rw [this, TDigest.totalW_units]
    simp [genUniformVec]

/-- C115. Random weights that are drawn positive are taken too, and add up. -/
theorem C115_random_weights_taken [FloatFmt.Exact K] (s i : ScaleFn K) (cf : Fl K) (u : Nat → K) (hu : ∀ i, 0 < u (2 * i + 1)) (size : Int) :
    Always ((TDigest.new s i cf).addCentroidBuffer (genUniformCentroidRandomWeightVec u size))
      (fun d => totalW d.centroids = ((List.range size.toNat).map (fun i => u (2 * i + 1))).sum) := by
  refine (TDigest.addCentroidBuffer_up (TDigest.new_upInv s i cf) ?_).mono ?_
  · intro c hc
    obtain ⟨j, -, rfl⟩ := List.mem_map.1 hc
    exact ⟨Or.inl ⟨u (2 * j), Fl.ofF64_exact (.fin _)⟩, u (2 * j + 1), hu j, Fl.ofF64_exact (.fin _)⟩
  · intro d h
    rw [h.weight, List.nil_append]
    simp [genUniformCentroidRandomWeightVec, totalW, Function.comp_def]
    rfl

/-! ### Weight zero -/

theorem TDigest.mergeLoop_zero [FloatFmt.Mono K] (limit : Fl K → Fl K) : ∀ (cs : List (Centroid K)) (w0 wl : Fl K),
    (∀ c ∈ cs, (∃ m : K, c.mean = .fin m) ∧ c.weight = .fin 0) →
    mergeLoop limit w0 wl (.fin 0) (.fin 0) cs ≠ [] ∧ ∀ c ∈ mergeLoop limit w0 wl (.fin 0) (.fin 0) cs, c.mean = .nan := by
  have hz : (.fin 0 / .fin 0 : Fl K) = .nan := by
    show (if (0 : K) = 0 then Fl.signInf 0 else _) = _
    rw [if_pos rfl, Fl.signInf, if_neg (lt_irrefl _), if_neg (lt_irrefl _)]
  have ha : (.fin 0 + .fin 0 : Fl K) = .fin 0 := by
    show FloatFmt.rnd (0 + 0 : K) = _
    rw [add_zero, FloatFmt.Mono.rnd_zero]
  have hm : ∀ m : K, (.fin m * .fin 0 : Fl K) = .fin 0 := by
    intro m
    show FloatFmt.rnd (m * 0 : K) = _
    rw [mul_zero, FloatFmt.Mono.rnd_zero]
  intro cs
  induction cs with
  | nil =>
    intro w0 wl _
    simp [mergeLoop, hz]
  | cons c cs ih =>
    intro w0 wl h
    obtain ⟨⟨m, hm'⟩, hw⟩ := h c (by simp)
    have h' : ∀ c ∈ cs, (∃ m : K, c.mean = .fin m) ∧ c.weight = .fin 0 := fun x hx => h x (by simp [hx])
    unfold mergeLoop
    simp only [hm', hw, hm, ha]
    split
    · exact ih _ _ h'
    · refine ⟨by simp, ?_⟩
      intro x hx
      rcases List.mem_cons.1 hx with rfl | hx
      · exact hz
      · exact (ih _ _ h').2 x hx

/-- C115. Weights drawn as 0 are accepted but poison the digest: if all centroids of the first batch have weight zero, every mean is NaN
afterwards, and every further insertion of anything panics. In any arithmetic. -/
theorem C115_zero_weights_poison [FloatFmt.Mono K] (s i : ScaleFn K) (cf : Fl K) (cs : List (Centroid K)) (hne : cs ≠ [])
    (hcs : ∀ c ∈ cs, (∃ m : K, c.mean = .fin m) ∧ c.weight = .fin 0) (ys : List (Centroid K)) (hy : ys ≠ []) :
    Always ((TDigest.new s i cf).addCentroidBuffer cs) (fun d => d.centroids ≠ [] ∧ ∀ c ∈ d.centroids, c.mean = .nan) ∧
    Panics ((TDigest.new s i cf).addCentroidBuffer cs >>= fun d => d.addCentroidBuffer ys) := by
  have h1 : Always ((TDigest.new s i cf).addCentroidBuffer cs) (fun d => d.centroids ≠ [] ∧ ∀ c ∈ d.centroids, c.mean = .nan) := by
    unfold TDigest.addCentroidBuffer
    have e : cs ++ (TDigest.new s i cf).centroids = cs := List.append_nil cs
    rw [e]
    refine always_bind.2 ((sortUnstable_spec _ _ (fun c hc => by obtain ⟨⟨m, hm⟩, -⟩ := hcs c hc; rw [hm]; simp)).mono ?_)
    rintro l ⟨hp, hs⟩
    cases l with
    | nil => exact absurd hp.symm.eq_nil hne
    | cons c l =>
      have hl : ∀ x ∈ c :: l, (∃ m : K, x.mean = .fin m) ∧ x.weight = .fin 0 := fun x hx => hcs x (hp.mem_iff.1 hx)
      obtain ⟨⟨m, hm⟩, hw⟩ := hl c (by simp)
      have hm0 : (.fin m * .fin 0 : Fl K) = .fin 0 := by
        show FloatFmt.rnd (m * 0 : K) = _
        rw [mul_zero, FloatFmt.Mono.rnd_zero]
      have := TDigest.mergeLoop_zero ((TDigest.new s i cf).wLimit (TDigest.weightSum (c :: l))) l (Fl.lit 0)
        ((TDigest.new s i cf).wLimit (TDigest.weightSum (c :: l)) (Fl.lit 0)) (fun x hx => hl x (by simp [hx]))
      show (TDigest.mergeSorted _ (c :: l)).centroids ≠ [] ∧ _
      simp only [TDigest.mergeSorted, hm, hw, hm0]
      exact this
  refine ⟨h1, ?_⟩
  refine panics_of_always (h1.mono ?_)
  rintro d ⟨hd, hd'⟩
  obtain ⟨c, hc⟩ := List.exists_mem_of_ne_nil _ hd
  unfold TDigest.addCentroidBuffer
  rw [sortUnstable_nan]
  · exact panics_bind_left (by simp [Panics])
  · rw [List.length_append]
    have := List.length_pos_of_mem hc
    have := List.length_pos_iff.2 hy
    omega
  · exact ⟨c, List.mem_append_right _ hc, hd' c hc⟩

section Examples

/-- C115. The range in single precision: from 0 to 1001, and 1001 itself can occur although it is excluded from the distribution. -/
theorem C115_uniform_f32 (u : Nat → ℚ) (hu : ∀ i, 0 ≤ u i ∧ u i < 1001) (size : Int) :
    (∀ x ∈ @genUniformVec ℚ f32Fmt u size, ∃ y : ℚ, x = .fin y ∧ 0 ≤ y ∧ y ≤ 1001) ∧
    @genUniformVec ℚ f32Fmt (fun _ => 1001 - 1 / 2 ^ 40) 1 = [.fin 1001] := by
  refine ⟨?_, by decide +kernel⟩
  let _ := f32Fmt
  let _ := f32_mono
  exact C115_uniform_range (by decide +kernel) u hu size

/-- C115. The exponential generator in single precision: samples up to `2^60` give numbers of at most -1. -/
theorem C115_exp_f32 (e : Nat → ℚ) (he : ∀ i, 0 ≤ e i ∧ e i ≤ 2 ^ 60) (size : Int) (lambda : Fl ℚ) :
    Partially (@genUniformExpVec ℚ _ _ f32Fmt e size lambda) (fun xs => ∀ x ∈ xs, x ≠ .nan ∧ x ≤ .fin (-1)) := by
  let _ := f32Fmt
  let _ := f32_mono
  refine C115_exp_range (by decide +kernel) e (fun i => (he i).1) (fun i => ?_) size lambda
  obtain ⟨y, h1, -, h3⟩ := @rnd_between ℚ _ _ _ f64Fmt f64_mono (-2 ^ 61) (-1) (-(e i) - 1) (by decide +kernel) (by decide +kernel)
    (by have := (he i).2; norm_num at this ⊢; linarith) (by have := (he i).1; linarith)
  exact ⟨y, h1, h3⟩

attribute [local instance] ratExact ratExact_exact

/-- Samples of the uniform distribution. -/
def someDraws : Nat → ℚ := fun i => ((i * 137 % 1001 : Nat) : ℚ)

example : (∀ i, 0 ≤ someDraws i ∧ someDraws i < 1001) ∧ genUniformVec someDraws 3 = [.fin 0, .fin 137, .fin 274] ∧
    genUniformVec someDraws (-3) = [] := by
  refine ⟨fun i => ⟨Nat.cast_nonneg _, ?_⟩, by decide +kernel, by decide +kernel⟩
  have : i * 137 % 1001 < 1001 := Nat.mod_lt _ (by norm_num)
  show ((i * 137 % 1001 : Nat) : ℚ) < 1001
  exact_mod_cast this

example : Always ((TDigest.new k0 invK0 (.fin 4) : TDigest ℚ).addCentroidBuffer (genUniformCentroidRandomWeightVec (fun i => someDraws i + 1) 3))
    (fun d => totalW d.centroids = 138 + 412 + 686) := by decide +kernel

/-- C115. One weight drawn as 0 among others is enough: the centroid below is not merged with the heavy one, its mean becomes NaN, a
quantile query between the two panics and so does the next insertion. -/
theorem C115_one_zero_weight :
    Always ((TDigest.new k0 invK0 (.fin 4) : TDigest ℚ).addCentroidBuffer [⟨.fin 1, .fin 0⟩, ⟨.fin 5, .fin 10⟩])
      (fun d => d.centroids = [⟨.nan, .fin 0⟩, ⟨.fin 5, .fin 10⟩]) ∧
    Panics ((TDigest.new k0 invK0 (.fin 4) : TDigest ℚ).addCentroidBuffer [⟨.fin 1, .fin 0⟩, ⟨.fin 5, .fin 10⟩] >>= fun d =>
      d.estQuantileAtValue (.fin 3)) ∧
    Panics ((TDigest.new k0 invK0 (.fin 4) : TDigest ℚ).addCentroidBuffer [⟨.fin 1, .fin 0⟩, ⟨.fin 5, .fin 10⟩] >>= fun d =>
      d.add (.fin 3)) := by
  decide +kernel

end Examples
end AQ

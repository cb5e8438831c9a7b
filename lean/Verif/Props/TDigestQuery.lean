/-
Properties C34–C40 and C44 (TDigest queries and size, src/t_digest/t_digest.rs).
-/
import Verif.Props.TDigest
import Verif.Proofs.TDExact

set_option linter.unusedSectionVars false
set_option linter.unusedVariables false

namespace AQ
open Prog Spec
variable {K : Type} [Field K] [LinearOrder K] [IsStrictOrderedRing K] [FloatFmt K]

namespace TDigest

/-- Every history leaves a digest with a view. -/
theorem reach_view [FloatFmt.Exact K] (s i : ScaleFn K) (cf : Fl K) (ops : List (TOp K))
    (hne : supplied ops ≠ []) (hg : ∀ c ∈ supplied ops, Good c ∧ InRange c) :
    Always ((TDigest.new s i cf).execOps ops) (fun d => d.Inv (supplied ops) ∧ ∃ l a b, View d l a b ∧
      wt l = totalW (supplied ops) ∧
      (∀ P : K → Prop, (∀ a b, P a → P b → P (a + b)) → (∀ c ∈ supplied ops, P c.weight.toK) → ∀ p ∈ l, P p.2)) := by
  refine (execOps_inv ops _ [] (new_inv s i cf) (by simp) hg).mono ?_
  intro d h
  simp only [List.nil_append] at h
  exact ⟨h, h.view (fun c hc => (hg c hc).1) hne⟩

theorem one_le_closed : ∀ a b : K, 1 ≤ a → 1 ≤ b → 1 ≤ a + b := fun a b ha hb => by linarith

theorem estQuantile_single [FloatFmt.Exact K] {d : TDigest K} {c : K × K} {a b : K} (h : View d [c] a b) (x : K) :
    d.estQuantileAtValue (.fin x) = .ret (.fin (if x < a then 0 else if b < x then 1 else 1 / 2)) := by
  unfold estQuantileAtValue
  have hcs := h.cs
  simp only [List.map_cons, List.map_nil] at hcs
  rw [hcs]
  simp only [h.mn, h.mx, Fl.sub_exact, Fl.lt_fin, Fl.le_fin, Fl.lit_exact]
  by_cases h1 : x < a
  · simp [h1]
  by_cases h2 : b < x
  · simp [h1, h2]
  have h3 : x - a ≤ b - a := by linarith [not_lt.1 h2]
  simp only [h1, h2, h3, decide_false, decide_true, Bool.false_eq_true, if_false, if_true]

theorem View.length_cases {d : TDigest K} {l : List (K × K)} {a b : K} (h : View d l a b) :
    2 ≤ l.length ∨ ∃ c, l = [c] := by
  match l, h.ne with
  | [c], _ => exact Or.inr ⟨c, rfl⟩
  | c :: n :: rest, _ => exact Or.inl (by simp)

theorem estQuantile_total [FloatFmt.Exact K] {d : TDigest K} {l : List (K × K)} {a b : K} (h : View d l a b)
    (hw : ∀ p ∈ l, 1 ≤ p.2) (x : K) :
    ∃ p : K, d.estQuantileAtValue (.fin x) = .ret (.fin p) ∧ 0 ≤ p ∧ p ≤ 1 ∧ (x < a → p = 0) ∧ (b < x → p = 1) := by
  have hab : a ≤ b := (h.lo _ (List.head_mem h.ne)).trans (h.hi _ (List.head_mem h.ne))
  rcases h.length_cases with h2 | ⟨c, rfl⟩
  · have hm := estQ_mem (a := a) (b := b) h.ne h.sorted hw h2 x
    refine ⟨_, estQuantile_eq h h2 x, hm.1, hm.2, ?_, ?_⟩
    · intro hx; unfold estQ; rw [if_pos hx]
    · intro hx; unfold estQ; rw [if_neg (by intro h'; linarith), if_pos hx]
  · refine ⟨_, estQuantile_single h x, ?_, ?_, ?_, ?_⟩
    · split_ifs <;> norm_num
    · split_ifs <;> norm_num
    · intro hx; rw [if_pos hx]
    · intro hx; rw [if_neg (by intro h'; linarith), if_pos hx]

end TDigest

/-- C34. On every non-empty reachable digest (weights at least 1) the quantile query of any finite value does not panic, is
a number in `[0, 1]`, is 0 below all data and 1 above all data. -/
theorem C34_quantile_is_probability [FloatFmt.Exact K] (s i : ScaleFn K) (cf : Fl K) (ops : List (TDigest.TOp K))
    (hne : TDigest.supplied ops ≠ []) (hg : ∀ c ∈ TDigest.supplied ops, Good c ∧ InRange c)
    (hw : ∀ c ∈ TDigest.supplied ops, 1 ≤ c.weight.toK) :
    Always ((TDigest.new s i cf).execOps ops) (fun d => ∀ x : K,
      ∃ p : K, d.estQuantileAtValue (.fin x) = .ret (.fin p) ∧ 0 ≤ p ∧ p ≤ 1 ∧
        ((∀ c ∈ TDigest.supplied ops, .fin x < c.mean) → p = 0) ∧
        ((∀ c ∈ TDigest.supplied ops, c.mean < .fin x) → p = 1)) := by
  refine (TDigest.reach_view s i cf ops hne hg).mono ?_
  rintro d ⟨hi, l, a, b, hv, -, hcl⟩ x
  obtain ⟨p, h1, h2, h3, h4, h5⟩ := TDigest.estQuantile_total hv (hcl _ TDigest.one_le_closed hw) x
  refine ⟨p, h1, h2, h3, ?_, ?_⟩
  · intro h
    obtain ⟨c, hc, h6⟩ := (hi.min_eq hne).1
    have := h c hc
    rw [h6, hv.mn] at this
    exact h4 (by simpa using this)
  · intro h
    obtain ⟨c, hc, h6⟩ := (hi.max_eq hne).1
    have := h c hc
    rw [h6, hv.mx] at this
    exact h5 (by simpa using this)

/-- C34. On the empty digest the quantile query is NaN, for every argument. -/
theorem C34_empty_is_nan (s i : ScaleFn K) (cf : Fl K) (v : Fl K) :
    (TDigest.new s i cf).estQuantileAtValue v = .ret .nan := rfl

/-- C35, partial: monotonicity holds on every reachable digest whose unit-weight end centroids are at the extremes, except
between the mean of the last centroid and the values strictly between it and the maximum. The full statement (no such
exceptions) is false: `C35_not_monotone_at_last_mean`, `C35_not_monotone_below_first_mean`. -/
theorem C35_quantile_monotone_partial [FloatFmt.Exact K] (s i : ScaleFn K) (cf : Fl K) (ops : List (TDigest.TOp K))
    (hne : TDigest.supplied ops ≠ []) (hg : ∀ c ∈ TDigest.supplied ops, Good c ∧ InRange c)
    (hw : ∀ c ∈ TDigest.supplied ops, c.weight.toK = 1 ∨ 2 ≤ c.weight.toK) :
    Always ((TDigest.new s i cf).execOps ops) (fun d => EndsExact d → ∀ x y : K, x ≤ y →
      (∀ c, d.centroids.getLast? = some c → c.mean = .fin x → y ≤ x ∨ d.max ≤ .fin y) →
      ∃ p r : K, d.estQuantileAtValue (.fin x) = .ret (.fin p) ∧ d.estQuantileAtValue (.fin y) = .ret (.fin r) ∧ p ≤ r) := by
  refine (TDigest.reach_view s i cf ops hne hg).mono ?_
  rintro d ⟨hi, l, a, b, hv, -, hcl⟩ ⟨he1, he2⟩ x y hxy hlast
  have hw1 : ∀ p ∈ l, p.2 = 1 ∨ 2 ≤ p.2 := hcl (fun w => w = 1 ∨ 2 ≤ w) (by
    rintro a b (ha | ha) (hb | hb) <;> right <;> linarith) hw
  have hw2 : ∀ p ∈ l, 1 ≤ p.2 := by
    intro p hp
    rcases hw1 p hp with h | h <;> linarith
  rcases hv.length_cases with h2 | ⟨c, rfl⟩
  · have hhead : d.centroids.head? = some (TDigest.toC (l.head hv.ne)) := by
      rw [hv.cs, List.head?_map, List.head?_eq_some_head hv.ne]; rfl
    have hlst : d.centroids.getLast? = some (TDigest.toC (l.getLast hv.ne)) := by
      rw [hv.cs, List.getLast?_map, List.getLast?_eq_some_getLast hv.ne]; rfl
    refine ⟨_, _, TDigest.estQuantile_eq hv h2 x, TDigest.estQuantile_eq hv h2 y, ?_⟩
    refine TDigest.estQ_mono hv.ne hv.sorted hw2 h2 (hv.lo _ (List.head_mem _)) (hv.hi _ (List.getLast_mem _)) ?_ ?_ hxy ?_
    · rcases hw1 _ (List.head_mem hv.ne) with h | h
      · right
        have := he1 _ hhead (by simp [TDigest.toC, h])
        rw [hv.mn] at this
        simpa [TDigest.toC] using this
      · exact Or.inl h
    · rcases hw1 _ (List.getLast_mem hv.ne) with h | h
      · right
        have := he2 _ hlst (by simp [TDigest.toC, h])
        rw [hv.mx] at this
        simpa [TDigest.toC] using this
      · exact Or.inl h
    · by_cases hx : x = (l.getLast hv.ne).1
      · right
        rcases hlast _ hlst (by simp [TDigest.toC, hx]) with h | h
        · left; rw [← hx]; exact h
        · right
          rw [hv.mx] at h
          simpa using h
      · exact Or.inl hx
  · refine ⟨_, _, TDigest.estQuantile_single hv x, TDigest.estQuantile_single hv y, ?_⟩
    have hab : a ≤ b := (hv.lo c (by simp)).trans (hv.hi c (by simp))
    split_ifs <;> first | (norm_num; done) | (exfalso; linarith)

/-- After a single batch of items the end centroids of weight 1 are at the extremes. -/
theorem TDigest.single_batch_ends [FloatFmt.Exact K] (s i : ScaleFn K) (cf : Fl K) (xs : List (Fl K)) (hne : xs ≠ [])
    (hg : ∀ x ∈ xs, x.IsFin ∧ Fl.minValue ≤ x ∧ x ≤ Fl.maxValue) :
    Always ((TDigest.new s i cf).addBuffer xs) (fun d => EndsExact d) := by
  have hb : ∀ c ∈ xs.map TDigest.unit, Good c := by
    intro c hc
    obtain ⟨x, hx, rfl⟩ := List.mem_map.1 hc
    exact ⟨(hg x hx).1, 1, zero_lt_one, by simp [TDigest.unit]⟩
  refine ((TDigest.addCentroidBuffer_spec _ _ (by simp [TDigest.new]) hb (by simp [hne])).mono ?_)
  rintro d ⟨l, runs, hl, h1, h2, h3, h4, -, h5, h6, -⟩
  have hmem : ∀ c ∈ l, ∃ x ∈ xs, c = TDigest.unit x := by
    intro c hc
    have := h1.mem_iff.1 hc
    simp only [TDigest.new, List.append_nil] at this
    obtain ⟨x, hx, rfl⟩ := List.mem_map.1 this
    exact ⟨x, hx, rfl⟩
  have hgood : ∀ c ∈ l, Good c := by
    intro c hc
    obtain ⟨x, hx, rfl⟩ := hmem c hc
    exact ⟨(hg x hx).1, 1, zero_lt_one, by simp [TDigest.unit]⟩
  have hlen : ∀ r : List (Centroid K), (∀ c ∈ r, c ∈ l) → totalW r = (r.length : K) := by
    intro r
    induction r with
    | nil => intro _; simp
    | cons c r ih =>
      intro h
      obtain ⟨x, hx, rfl⟩ := hmem c (h c (by simp))
      rw [totalW_cons, ih (fun e he => h e (by simp [he]))]
      simp [TDigest.unit, Fl.toK, add_comm]
  have hsingle : ∀ r ∈ runs, (weightedMean r).weight = .fin 1 → ∃ c, r = [c] ∧ c ∈ l := by
    intro r hr hwt
    have h7 := hlen r (fun c hc => h3.mem hr hc)
    have h8 : totalW r = 1 := by simpa [weightedMean] using hwt
    rw [h7] at h8
    obtain ⟨c, rfl⟩ := List.length_eq_one_iff.1 (by exact_mod_cast h8 : r.length = 1)
    exact ⟨c, rfl, h3.mem hr (by simp)⟩
  have hmin : d.min = (l.head hl).mean := by
    obtain ⟨x, hx, hxe⟩ := hmem _ (List.head_mem hl)
    rw [h5, hxe]
    have hfin := (hg x hx).1
    have : x ≠ .nan := by obtain ⟨y, rfl⟩ := hfin; simp
    show Fl.fmin Fl.maxValue x = x
    rw [Fl.fmin_eq (by simp [Fl.maxValue]) this]
    exact min_eq_right (hg x hx).2.2
  have hmax : d.max = (l.getLast hl).mean := by
    obtain ⟨x, hx, hxe⟩ := hmem _ (List.getLast_mem hl)
    rw [h6, hxe]
    have hfin := (hg x hx).1
    have : x ≠ .nan := by obtain ⟨y, rfl⟩ := hfin; simp
    show Fl.fmax Fl.minValue x = x
    rw [Fl.fmax_eq (by simp [Fl.minValue]) this]
    exact max_eq_right (hg x hx).2.1
  constructor
  · intro c hc hcw
    rw [h4, List.head?_map, Option.map_eq_some_iff] at hc
    obtain ⟨r, hr, rfl⟩ := hc
    obtain ⟨e, rfl, he⟩ := hsingle r (List.mem_of_mem_head? hr) hcw
    rw [TDigest.weightedMean_singleton (hgood e he), hmin]
    cases runs with
    | nil => simp at hr
    | cons q rs =>
      simp only [List.head?_cons, Option.some.injEq] at hr
      subst hr
      have := h3.1
      simp only [List.flatten_cons, List.singleton_append] at this
      subst this
      rfl
  · intro c hc hcw
    rw [h4, List.getLast?_map, Option.map_eq_some_iff] at hc
    obtain ⟨r, hr, rfl⟩ := hc
    obtain ⟨e, rfl, he⟩ := hsingle r (List.mem_of_mem_getLast? hr) hcw
    rw [TDigest.weightedMean_singleton (hgood e he), hmax]
    obtain ⟨rs, rfl⟩ : ∃ rs, runs = rs ++ [[e]] := by
      have hne' : runs ≠ [] := by rintro rfl; simp at hr
      refine ⟨runs.dropLast, ?_⟩
      rw [List.getLast?_eq_some_getLast hne', Option.some.injEq] at hr
      rw [← hr, List.dropLast_append_getLast]
    have := h3.1
    simp only [List.flatten_append, List.flatten_cons, List.flatten_nil, List.append_nil] at this
    subst this
    simp

/-- C35, partial: for data inserted as one batch no condition on the end centroids is needed. -/
theorem C35_single_batch_monotone_partial [FloatFmt.Exact K] (s i : ScaleFn K) (cf : Fl K) (xs : List (Fl K)) (hne : xs ≠ [])
    (hg : ∀ x ∈ xs, x.IsFin ∧ Fl.minValue ≤ x ∧ x ≤ Fl.maxValue) :
    Always ((TDigest.new s i cf).addBuffer xs) (fun d => ∀ x y : K, x ≤ y →
      (∀ c, d.centroids.getLast? = some c → c.mean = .fin x → y ≤ x ∨ d.max ≤ .fin y) →
      ∃ p r : K, d.estQuantileAtValue (.fin x) = .ret (.fin p) ∧ d.estQuantileAtValue (.fin y) = .ret (.fin r) ∧ p ≤ r) := by
  have hs : TDigest.supplied [TDigest.TOp.addBuffer xs] = xs.map (fun x => ⟨x, .fin 1⟩) := by
    simp [TDigest.supplied, TDigest.TOp.supplied]
  have h := C35_quantile_monotone_partial s i cf [.addBuffer xs] (by rw [hs]; simpa using hne) (by
    intro c hc
    rw [hs] at hc
    obtain ⟨x, hx, rfl⟩ := List.mem_map.1 hc
    exact ⟨⟨(hg x hx).1, 1, zero_lt_one, rfl⟩, (hg x hx).2⟩) (by
    intro c hc
    rw [hs] at hc
    obtain ⟨x, hx, rfl⟩ := List.mem_map.1 hc
    left; rfl)
  have e : (TDigest.new s i cf).execOps [.addBuffer xs] = (TDigest.new s i cf).addBuffer xs := by
    simp only [TDigest.execOps, TDigest.TOp.exec]
    exact bind_ret_right _
  rw [e] at h
  exact (h.and (TDigest.single_batch_ends s i cf xs hne hg).partially).mono (fun d hd => hd.1 hd.2)

section
variable [FloorRing K]

/-- C36, partial: a value estimate outside the part of the last centroid right of its middle is a number in `[min, max]`;
inside it, it is so whenever the last weight is not 2 and the data spread over at least 1. In every case it is at most the
maximum or NaN. The full statement is false: `C36_value_below_min`, `C36_value_nan`. -/
theorem C36_value_in_range_partial [FloatFmt.Exact K] (s i : ScaleFn K) (cf : Fl K) (ops : List (TDigest.TOp K))
    (hne : TDigest.supplied ops ≠ []) (hg : ∀ c ∈ TDigest.supplied ops, Good c ∧ InRange c)
    (hw : ∀ c ∈ TDigest.supplied ops, 1 ≤ c.weight.toK) (h64 : totalW (TDigest.supplied ops) < 2 ^ 64) :
    Always ((TDigest.new s i cf).execOps ops) (fun d => ∀ (last : Centroid K) (q : K), d.centroids.getLast? = some last →
      ∃ v, d.estValueAtQuantile (.fin q) = .ret v ∧ (v = .nan ∨ v ≤ d.max) ∧
        (¬ InLastTail (totalW (TDigest.supplied ops)) last.weight.toK q ∨
          last.weight ≠ .fin 2 ∧ 1 ≤ d.max.toK - d.min.toK → v.IsFin ∧ d.min ≤ v ∧ v ≤ d.max)) := by
  refine (TDigest.reach_view s i cf ops hne hg).mono ?_
  rintro d ⟨hi, l, a, b, hv, hwt, hcl⟩ last q hlast
  have hw1 := hcl _ TDigest.one_le_closed hw
  rw [← hwt] at h64 ⊢
  have hlst : d.centroids.getLast? = some (TDigest.toC (l.getLast hv.ne)) := by
    rw [hv.cs, List.getLast?_map, List.getLast?_eq_some_getLast hv.ne]; rfl
  rw [hlst, Option.some.injEq] at hlast
  subst hlast
  refine ⟨_, TDigest.estValue_eq hv hw1 h64 q, ?_, ?_⟩
  · rcases TDigest.estV_le hv.ne hv.sorted hv.lo hv.hi (TDigest.wt l * q) with h | ⟨v, h, h'⟩
    · exact Or.inl h
    · right; rw [h, hv.mx]; simpa using h'
  · rintro h
    by_cases ht : TDigest.InTail l hv.ne (TDigest.wt l * q)
    · rcases h with h | ⟨h, h'⟩
      · exact absurd ht h
      · obtain ⟨v, h1, h2, h3⟩ := TDigest.estV_tail hv.ne hv.sorted hv.lo hv.hi (by
          intro h4; apply h; simp [TDigest.toC, h4]) ht
        rw [hv.mx, hv.mn] at h'
        simp only [Fl.toK] at h'
        rw [min_eq_left (by linarith)] at h2
        rw [h1, hv.mn, hv.mx]
        exact ⟨⟨v, rfl⟩, by simpa using h2, by simpa using h3⟩
    · obtain ⟨v, h1, h2, h3⟩ := TDigest.estV_not_tail hv.ne hv.sorted hv.lo hv.hi ht
      rw [h1, hv.mn, hv.mx]
      exact ⟨⟨v, rfl⟩, by simpa using h2, by simpa using h3⟩

/-- C37. The 0-quantile is the smallest and the 1-quantile the largest value supplied. -/
theorem C37_extreme_quantiles [FloatFmt.Exact K] (s i : ScaleFn K) (cf : Fl K) (ops : List (TDigest.TOp K))
    (hne : TDigest.supplied ops ≠ []) (hg : ∀ c ∈ TDigest.supplied ops, Good c ∧ InRange c)
    (hw : ∀ c ∈ TDigest.supplied ops, 1 ≤ c.weight.toK) (h64 : totalW (TDigest.supplied ops) < 2 ^ 64) :
    Always ((TDigest.new s i cf).execOps ops) (fun d => ∃ lo hi,
      d.estValueAtQuantile (.fin 0) = .ret lo ∧ IsMinMean (TDigest.supplied ops) lo ∧
      d.estValueAtQuantile (.fin 1) = .ret hi ∧ IsMaxMean (TDigest.supplied ops) hi) := by
  refine (TDigest.reach_view s i cf ops hne hg).mono ?_
  rintro d ⟨hi, l, a, b, hv, hwt, hcl⟩
  have hw1 := hcl _ TDigest.one_le_closed hw
  rw [← hwt] at h64
  refine ⟨d.min, d.max, ?_, hi.min_eq hne, ?_, hi.max_eq hne⟩
  · rw [TDigest.estValue_eq hv hw1 h64, mul_zero, hv.mn]
    unfold TDigest.estV
    rw [if_pos zero_lt_one]
  · have h1 := hw1 _ (List.head_mem hv.ne)
    have h2 := TDigest.half_ends_le (fun p hp => zero_lt_one.trans_le (hw1 p hp)) hv.ne
    have h3 := hw1 _ (List.getLast_mem hv.ne)
    have h4 : 1 ≤ TDigest.wt l := by linarith
    rw [TDigest.estValue_eq hv hw1 h64, mul_one, hv.mx]
    unfold TDigest.estV
    rw [if_neg (by linarith), if_neg (by rintro ⟨h5, h6⟩; linarith), if_pos (by linarith)]

/-- C38. On every non-empty reachable digest with weights at least 1 the value query returns for every finite `q` (also
outside `[0, 1]`): no index is out of bounds and no conversion fails. -/
theorem C38_value_never_panics [FloatFmt.Exact K] (s i : ScaleFn K) (cf : Fl K) (ops : List (TDigest.TOp K))
    (hne : TDigest.supplied ops ≠ []) (hg : ∀ c ∈ TDigest.supplied ops, Good c ∧ InRange c)
    (hw : ∀ c ∈ TDigest.supplied ops, 1 ≤ c.weight.toK) (h64 : totalW (TDigest.supplied ops) < 2 ^ 64) :
    Always ((TDigest.new s i cf).execOps ops) (fun d => ∀ q : K, ∃ v, d.estValueAtQuantile (.fin q) = .ret v) := by
  refine (TDigest.reach_view s i cf ops hne hg).mono ?_
  rintro d ⟨hi, l, a, b, hv, hwt, hcl⟩ q
  rw [← hwt] at h64
  exact ⟨_, TDigest.estValue_eq hv (hcl _ TDigest.one_le_closed hw) h64 q⟩

/-- C44, partial: the value estimate is monotone in the quantile when the larger quantile is left of the middle of the last
centroid (or in the last unit of weight), or both are right of it, or the last mean is at least 1 below the maximum; the
last weight must not be 2 where the tail is touched. The full statement is false: `C44_value_not_monotone`. -/
theorem C44_value_monotone_partial [FloatFmt.Exact K] (s i : ScaleFn K) (cf : Fl K) (ops : List (TDigest.TOp K))
    (hne : TDigest.supplied ops ≠ []) (hg : ∀ c ∈ TDigest.supplied ops, Good c ∧ InRange c)
    (hw : ∀ c ∈ TDigest.supplied ops, 1 ≤ c.weight.toK) (h64 : totalW (TDigest.supplied ops) < 2 ^ 64) :
    Always ((TDigest.new s i cf).execOps ops) (fun d => ∀ (last : Centroid K) (q r : K), d.centroids.getLast? = some last →
      q ≤ r →
      (¬ InLastTail (totalW (TDigest.supplied ops)) last.weight.toK r ∨ last.weight ≠ .fin 2 ∧
        (InLastTail (totalW (TDigest.supplied ops)) last.weight.toK q ∨ last.mean.toK ≤ d.max.toK - 1)) →
      (¬ InLastTail (totalW (TDigest.supplied ops)) last.weight.toK q ∨ last.weight ≠ .fin 2) →
      ∃ v w : K, d.estValueAtQuantile (.fin q) = .ret (.fin v) ∧ d.estValueAtQuantile (.fin r) = .ret (.fin w) ∧ v ≤ w) := by
  refine (TDigest.reach_view s i cf ops hne hg).mono ?_
  rintro d ⟨hi, l, a, b, hv, hwt, hcl⟩ last q r hlast hqr h1 h2
  have hw1 := hcl _ TDigest.one_le_closed hw
  rw [← hwt] at h64 h1 h2
  have hlst : d.centroids.getLast? = some (TDigest.toC (l.getLast hv.ne)) := by
    rw [hv.cs, List.getLast?_map, List.getLast?_eq_some_getLast hv.ne]; rfl
  rw [hlst, Option.some.injEq] at hlast
  subst hlast
  have hn2 : (TDigest.toC (l.getLast hv.ne)).weight ≠ .fin 2 → (l.getLast hv.ne).2 ≠ 2 := by
    intro h h4; apply h; simp [TDigest.toC, h4]
  have hpos : 0 < TDigest.wt l := TDigest.wt_pos hv.pos hv.ne
  obtain ⟨v, w, e1, e2, h3⟩ := TDigest.estV_mono (a := a) (b := b) hv.ne hv.sorted hw1 hv.lo hv.hi
    (mul_le_mul_of_nonneg_left hqr hpos.le) (by
      rcases h1 with h1 | ⟨h1, h3⟩
      · exact Or.inl h1
      · refine Or.inr ⟨hn2 h1, ?_⟩
        rcases h3 with h3 | h3
        · exact Or.inl h3
        · right
          rw [hv.mx] at h3
          exact h3) (by
      rcases h2 with h2 | h2
      · exact Or.inl h2
      · exact Or.inr (hn2 h2))
  refine ⟨v, w, ?_, ?_, h3⟩
  · rw [TDigest.estValue_eq hv hw1 h64, e1]
  · rw [TDigest.estValue_eq hv hw1 h64, e2]

end

/-- C39. As long as no two items have been merged (as many centroids as items), a digest of at least two plain items gives
the same quantile estimate as a LinearDigest holding the same items, for every value. -/
theorem C39_uncompressed_is_exact [FloorRing K] [FloatFmt.Exact K] (s i : ScaleFn K) (cf : Fl K) (ops : List (TDigest.TOp K))
    (hg : ∀ c ∈ TDigest.supplied ops, Good c ∧ InRange c) (hu : ∀ c ∈ TDigest.supplied ops, c.weight = .fin 1)
    (h2 : 2 ≤ (TDigest.supplied ops).length) :
    Always ((TDigest.new s i cf).execOps ops) (fun d => d.centroids.length = (TDigest.supplied ops).length →
      ∀ x : K, d.estQuantileAtValue (.fin x) =
        .ret ((⟨(TDigest.supplied ops).map (·.mean)⟩ : LinearDigest K).estQuantileAtValue (.fin x))) := by
  have hne : TDigest.supplied ops ≠ [] := by intro h; rw [h] at h2; simp at h2
  refine ((TDigest.reach_view s i cf ops hne hg).and (TDigest.execOps_unmerged ops _ [] (TDigest.new_inv s i cf)
    ⟨by simp [TDigest.new], by simp [TDigest.new]⟩ (by simp) hg).partially).mono ?_
  rintro d ⟨⟨hi, l, a, b, hv, hwt, hcl⟩, hun⟩ hlen x
  simp only [List.nil_append] at hun
  have hperm := hun.2 hlen
  have hlen' : l.length = (TDigest.supplied ops).length := by rw [← hlen, hv.cs, List.length_map]
  have hw1 : ∀ p ∈ l, p.2 = 1 := by
    intro p hp
    have hm : TDigest.toC p ∈ TDigest.supplied ops := hperm.mem_iff.1 (by rw [hv.cs]; exact List.mem_map.2 ⟨p, hp, rfl⟩)
    simpa [TDigest.toC] using hu _ hm
  -- first and last mean are the extremes
  have hmin : (l.head hv.ne).1 = a := by
    obtain ⟨⟨c, hc, h3⟩, -⟩ := hi.min_eq hne
    rw [hv.mn] at h3
    have hc' := hperm.mem_iff.2 hc
    rw [hv.cs] at hc'
    obtain ⟨p, hp, rfl⟩ := List.mem_map.1 hc'
    have hpa : p.1 = a := by simpa [TDigest.toC] using h3
    refine le_antisymm (le_trans ?_ hpa.le) (hv.lo _ (List.head_mem _))
    have hs := hv.sorted
    obtain ⟨c0, r0, rfl⟩ : ∃ c0 r0, l = c0 :: r0 := by
      match l, hv.ne with
      | c0 :: r0, _ => exact ⟨c0, r0, rfl⟩
    rcases List.mem_cons.1 hp with rfl | hp
    · exact le_refl _
    · exact (List.pairwise_cons.1 hs).1 p hp
  have hmax : (l.getLast hv.ne).1 = b := by
    obtain ⟨⟨c, hc, h3⟩, -⟩ := hi.max_eq hne
    rw [hv.mx] at h3
    have hc' := hperm.mem_iff.2 hc
    rw [hv.cs] at hc'
    obtain ⟨p, hp, rfl⟩ := List.mem_map.1 hc'
    have hpa : p.1 = b := by simpa [TDigest.toC] using h3
    refine le_antisymm (hv.hi _ (List.getLast_mem _)) (le_trans hpa.ge ?_)
    exact TDigest.getLast_mono hv.sorted hv.ne p hp
  rw [TDigest.estQuantile_eq hv (by omega), TDigest.estQ_unit hv.ne hv.sorted hw1 hmin hmax]
  rw [LinearDigest.estQuantile_eq _ _ (by simpa using hne) (by intro m _; simp) (by simp) (by simp)]
  have hp2 : (l.map (fun p => (Fl.fin p.1 : Fl K))).Perm ((TDigest.supplied ops).map (·.mean)) := by
    have := hperm.map (·.mean)
    rw [hv.cs, List.map_map] at this
    exact this
  have e1 : midRank ((TDigest.supplied ops).map (·.mean)) (.fin x) = TDigest.midK (l.map (·.1)) x := by
    unfold midRank TDigest.midK
    have c1 : ((TDigest.supplied ops).map (·.mean)).countP (fun y => Fl.lt y (.fin x)) = (l.map (·.1)).countP (fun y => y < x) := by
      rw [← hp2.countP_eq, List.countP_map, List.countP_map]
      apply List.countP_congr
      intro p hp
      simp [Function.comp]
    have c2 : ((TDigest.supplied ops).map (·.mean)).countP (fun y => Fl.feq y (.fin x)) = (l.map (·.1)).countP (fun y => y = x) := by
      rw [← hp2.countP_eq, List.countP_map, List.countP_map]
      apply List.countP_congr
      intro p hp
      simp [Function.comp]
    rw [c1, c2]
  simp only [Fl.rnd_exact, List.length_map]
  rw [e1, hlen']

/-- One pass with the uniform scale function leaves fewer than `compress_factor + 1` centroids. -/
theorem TDigest.k0_size [FloatFmt.Exact K] (d : TDigest K) (δ : K) (hδ : 0 < δ) (hs : d.scaleFunc = k0)
    (hi : d.inverseScaleFunc = invK0) (hc : d.compressFactor = .fin δ) (batch : List (Centroid K))
    (hd : ∀ c ∈ d.centroids, Good c) (hb : ∀ c ∈ batch, Good c) :
    Always (d.addCentroidBuffer batch) (fun d' => (d'.centroids.length : K) < δ + 1) := by
  by_cases hne : batch ++ d.centroids = []
  · rw [List.append_eq_nil_iff] at hne
    obtain ⟨rfl, h2⟩ := hne
    rw [TDigest.addCentroidBuffer_nil d h2]
    show ((d.centroids.length : ℕ) : K) < δ + 1
    rw [h2]
    simp only [List.length_nil, Nat.cast_zero]
    linarith
  have hg : ∀ c ∈ batch ++ d.centroids, Good c := by
    intro c hc
    rcases List.mem_append.1 hc with hc | hc
    · exact hb c hc
    · exact hd c hc
  refine (C33_merge_joins_neighbours d batch hd hb hne).mono ?_
  rintro d' ⟨l, runs, h1, -, h3, h4, h5⟩
  rw [hs, hi, hc] at h5
  set n := totalW (batch ++ d.centroids) with hn
  have hnpos : 0 < n := totalW_pos hg hne
  have hlg : ∀ c ∈ l, Good c := fun c hc => hg c (h1.mem_iff.1 hc)
  have hpairs := TDigest.pairs_bound (2 * n / δ) (runs.map totalW) (by
    intro w hw
    obtain ⟨r, hr, rfl⟩ := List.mem_map.1 hw
    exact totalW_nonneg (fun c hc => hlg c (h3.mem hr hc))) (by
    intro pre a b post he
    obtain ⟨pre', rest', rfl, rfl, he'⟩ := List.map_eq_append_iff.1 he
    obtain ⟨ra, rest2, rfl, rfl, he2⟩ := List.map_eq_cons_iff.1 he'
    obtain ⟨rb, rest3, rfl, rfl, rfl⟩ := List.map_eq_cons_iff.1 he2
    have hrb : rb ≠ [] := h3.2 rb (by simp)
    obtain ⟨e, rb', rfl⟩ := List.exists_cons_of_ne_nil hrb
    have h6 := (h5 pre' ra ((e :: rb') :: rest3) rfl).2 e (by simp)
    rw [TDigest.sizeLimit_k0 hδ.ne' hnpos.ne', Fl.le_fin] at h6
    have h7 : 2 * n / δ < totalW (ra ++ [e]) := by simpa using h6
    have h8 : 0 ≤ totalW rb' := totalW_nonneg (fun c hc => hlg c (h3.mem (r := e :: rb') (by simp) (by simp [hc])))
    simp only [totalW_append, totalW_cons, totalW_nil, add_zero] at h7 ⊢
    linarith)
  have hsum : (runs.map totalW).sum = n := by
    have hf : ∀ rs : List (List (Centroid K)), (rs.map totalW).sum = totalW rs.flatten := by
      intro rs
      induction rs with
      | nil => simp
      | cons r rs ih => rw [List.map_cons, List.sum_cons, ih, List.flatten_cons, totalW_append]
    rw [hf, h3.1, totalW_perm h1]
  rw [hsum] at hpairs
  show ((d'.centroids.length : ℕ) : K) < δ + 1
  rw [h4, List.length_map]
  simp only [List.length_map] at hpairs
  by_cases h2 : 2 ≤ runs.length
  · have h9 := hpairs.2 h2
    have h10 : ((runs.length / 2 : ℕ) : K) < δ / 2 := by
      rw [mul_div_assoc', div_lt_iff₀ hδ] at h9
      by_contra hcon
      have := not_lt.1 hcon
      nlinarith
    have h11 : (runs.length : K) ≤ 2 * ((runs.length / 2 : ℕ) : K) + 1 := by
      have : runs.length ≤ 2 * (runs.length / 2) + 1 := by omega
      exact_mod_cast this
    linarith
  · have : (runs.length : K) ≤ 1 := by exact_mod_cast (by omega : runs.length ≤ 1)
    linarith

/-- C40. With the uniform scale function `k0`, after any history the digest has fewer than `compress_factor + 1` centroids,
however many items were supplied. -/
theorem C40_size_bounded [FloatFmt.Exact K] (δ : K) (hδ : 0 < δ) (ops : List (TDigest.TOp K))
    (hg : ∀ c ∈ TDigest.supplied ops, Good c ∧ InRange c) :
    Always ((TDigest.new k0 invK0 (.fin δ)).execOps ops) (fun d => (d.centroids.length : K) < δ + 1) := by
  have key : ∀ (ops : List (TDigest.TOp K)) (d : TDigest K), (∀ c ∈ TDigest.supplied ops, Good c) →
      (∀ c ∈ d.centroids, Good c) → d.scaleFunc = k0 → d.inverseScaleFunc = invK0 → d.compressFactor = .fin δ →
      (d.centroids.length : K) < δ + 1 → Always (d.execOps ops) (fun d' => (d'.centroids.length : K) < δ + 1) := by
    intro ops
    induction ops with
    | nil => intro d _ _ _ _ _ h; exact h
    | cons o os ih =>
      intro d hgs hd h1 h2 h3 h4
      have hg1 : ∀ c ∈ o.supplied, Good c := fun c hc => hgs c (by simp [TDigest.supplied]; exact Or.inl hc)
      have hg2 : ∀ c ∈ TDigest.supplied os, Good c := fun c hc => hgs c (by
        simp only [TDigest.supplied, List.flatMap_cons, List.mem_append] at hc ⊢; exact Or.inr hc)
      unfold TDigest.execOps
      rw [always_bind, TDigest.exec_eq]
      by_cases hne : o.supplied ++ d.centroids = []
      · rw [List.append_eq_nil_iff] at hne
        rw [hne.1, TDigest.addCentroidBuffer_nil d hne.2]
        exact ih d hg2 hd h1 h2 h3 h4
      refine ((TDigest.k0_size d δ hδ h1 h2 h3 o.supplied hd hg1).and
        (d.addCentroidBuffer_spec o.supplied hd hg1 hne).partially).mono ?_
      rintro d' ⟨h5, l, runs, hl, p1, p2, p3, p4, -, -, -, p5, p6, p7⟩
      refine ih d' hg2 ?_ (p6.trans h1) (p7.trans h2) (p5.trans h3) h5
      intro c hc
      rw [p4] at hc
      obtain ⟨r, hr, rfl⟩ := List.mem_map.1 hc
      refine weightedMean_good (fun e he => ?_) (p3.2 r hr)
      rcases List.mem_append.1 (p1.mem_iff.1 (p3.mem hr he)) with h | h
      · exact hg1 e h
      · exact hd e h
  refine key ops _ (fun c hc => (hg c hc).1) (by simp [TDigest.new]) rfl rfl rfl ?_
  simp only [TDigest.new, List.length_nil, Nat.cast_zero]
  linarith

section examples
attribute [local instance] ratExact
attribute [local instance] ratExact_exact

/-- C35 is false: data 0, 1, 2, 3 in one batch with `k0` and compression factor 3 (centroids 1/2 and 5/2, both of weight 2).
The value at the last mean is ranked above larger values. -/
theorem C35_not_monotone_at_last_mean :
    Always ((TDigest.new k0 invK0 (.fin 3) : TDigest ℚ).addBuffer [.fin 0, .fin 1, .fin 2, .fin 3]) (fun d =>
      Always (d.estQuantileAtValue (.fin (5 / 2))) (fun r => r = .fin (7 / 8)) ∧
      Always (d.estQuantileAtValue (.fin (11 / 4))) (fun r => r = .fin (3 / 4))) := by decide +kernel

/-- The digest of `C35_not_monotone_at_last_mean` meets every hypothesis of the partial theorem except the one on the last
mean. -/
example : Always ((TDigest.new k0 invK0 (.fin 3) : TDigest ℚ).addBuffer [.fin 0, .fin 1, .fin 2, .fin 3]) (fun d =>
    d.centroids.map (·.mean) = [.fin (1 / 2), .fin (5 / 2)] ∧ d.centroids.map (·.weight) = [.fin 2, .fin 2]) := by
  decide +kernel

/-- C35 is false: batch 1, 5, 10, then 29/10, with `k0` and compression factor 3. The first centroid is 29/10 with weight 1,
the minimum is 1, and between them the estimate decreases. -/
theorem C35_not_monotone_below_first_mean :
    Always ((TDigest.new k0 invK0 (.fin 3) : TDigest ℚ).execOps [.addBuffer [.fin 1, .fin 5, .fin 10], .add (.fin (29 / 10))])
      (fun d => Always (d.estQuantileAtValue (.fin (11 / 10))) (fun r => r = .fin (37 / 152)) ∧
        Always (d.estQuantileAtValue (.fin (28 / 10))) (fun r => r = .fin (20 / 152))) := by decide +kernel

/-- C36 is false: with the data 0, 1/10, 2/10, 3/10 merged into one centroid the estimated median is -7/10, below every
item. -/
theorem C36_value_below_min :
    Always ((TDigest.new k0 invK0 (.fin 2) : TDigest ℚ).addBuffer [.fin 0, .fin (1 / 10), .fin (2 / 10), .fin (3 / 10)])
      (fun d => Always (d.estValueAtQuantile (.fin (1 / 2))) (fun v => v = .fin (-7 / 10))) := by decide +kernel

/-- C36 is false: with the data 0, 1 merged into one centroid the estimated median is NaN. -/
theorem C36_value_nan :
    Always ((TDigest.new k0 invK0 (.fin 1) : TDigest ℚ).addBuffer [.fin 0, .fin 1])
      (fun d => Always (d.estValueAtQuantile (.fin (1 / 2))) (fun v => v = .nan)) := by decide +kernel

/-- C44 is false: the 0.475-quantile is estimated as 0.135, the 0.5-quantile as -0.7. -/
theorem C44_value_not_monotone :
    Always ((TDigest.new k0 invK0 (.fin 2) : TDigest ℚ).addBuffer [.fin 0, .fin (1 / 10), .fin (2 / 10), .fin (3 / 10)])
      (fun d => Always (d.estValueAtQuantile (.fin (19 / 40))) (fun v => v = .fin (27 / 200)) ∧
        Always (d.estValueAtQuantile (.fin (1 / 2))) (fun v => v = .fin (-7 / 10))) := by decide +kernel

/-- C38: the empty digest answers `T::max_value()`
for every finite quantile. -/
theorem C38_empty_returns_max_value (s i : ScaleFn ℚ) (cf : Fl ℚ) (q : ℚ) :
    (TDigest.new s i cf).estValueAtQuantile (.fin q) = .ret Fl.maxValue := by
  have h : (TDigest.new s i cf).totalWeight = .fin 0 := by
    simp [TDigest.new, TDigest.totalWeight, TDigest.weightSum, Fl.sum64]
  unfold TDigest.estValueAtQuantile
  rw [h]
  simp [TDigest.new]

/-- The history `tdOps` meets the hypotheses of C34–C38 (weights at least 1, or 1 and at least 2; total below 2^64). -/
example : (∀ c ∈ TDigest.supplied tdOps, 1 ≤ c.weight.toK) ∧
    (∀ c ∈ TDigest.supplied tdOps, c.weight.toK = 1 ∨ 2 ≤ c.weight.toK) ∧ totalW (TDigest.supplied tdOps) < 2 ^ 64 := by
  decide +kernel

/-- Some of the numbers C34–C37 speak about, on that history. -/
example : Always ((TDigest.new k0 invK0 (.fin 4) : TDigest ℚ).execOps tdOps) (fun d =>
    Always (d.estQuantileAtValue (.fin (1 / 4))) (fun r => r = .fin 0) ∧
    Always (d.estValueAtQuantile (.fin 0)) (fun r => r = .fin (1 / 2)) ∧
    Always (d.estValueAtQuantile (.fin 1)) (fun r => r = .fin 5)) := by decide +kernel

/-- C39: four items with a tie that are not merged. -/
example : Always ((TDigest.new k0 invK0 (.fin 100) : TDigest ℚ).execOps [.addBuffer [.fin 4, .fin 1, .fin 2], .add (.fin 2)])
    (fun d => d.centroids.length = 4 ∧ Always (d.estQuantileAtValue (.fin 2)) (fun r => r = .fin (1 / 2)) ∧
      Always (d.estQuantileAtValue (.fin 3)) (fun r => r = .fin (3 / 4))) := by decide +kernel

/-- C40: twelve items, compression factor 3: at most three centroids. -/
example : Always ((TDigest.new k0 invK0 (.fin 3) : TDigest ℚ).addBuffer
    [.fin 0, .fin 1, .fin 2, .fin 3, .fin 4, .fin 5, .fin 6, .fin 7, .fin 8, .fin 9, .fin 10, .fin 11]) (fun d =>
    d.centroids.length = 2) := by decide +kernel

end examples

end AQ

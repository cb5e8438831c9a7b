/-
TDigest fed with items that may be `+inf`.
-/
import Verif.Proofs.TDHist

set_option linter.unusedSectionVars false
set_option linter.unusedVariables false

namespace AQ
open Prog Spec
variable {K : Type} [Field K] [LinearOrder K] [IsStrictOrderedRing K] [FloatFmt K]

/-- Finite or `+inf`. -/
def UpV (x : Fl K) : Prop := (∃ m : K, x = .fin m) ∨ x = .pinf

namespace UpV
theorem ne_nan {x : Fl K} (h : UpV x) : x ≠ .nan := by rcases h with ⟨m, rfl⟩ | rfl <;> simp

theorem add [FloatFmt.Exact K] {x y : Fl K} (hx : UpV x) (hy : UpV y) : UpV (x + y) ∧ (x = .pinf ∨ y = .pinf → x + y = .pinf) := by
  rcases hx with ⟨m, rfl⟩ | rfl <;> rcases hy with ⟨n, rfl⟩ | rfl
  · exact ⟨Or.inl ⟨_, Fl.add_exact m n⟩, by simp⟩
  · exact ⟨Or.inr rfl, fun _ => rfl⟩
  · exact ⟨Or.inr rfl, fun _ => rfl⟩
  · exact ⟨Or.inr rfl, fun _ => rfl⟩

theorem mul [FloatFmt.Exact K] {x : Fl K} (hx : UpV x) {w : K} (hw : 0 < w) :
    UpV (x * .fin w) ∧ (x = .pinf → x * .fin w = .pinf) := by
  have e : (.pinf * .fin w : Fl K) = .pinf := by show Fl.signInf w = _; rw [Fl.signInf, if_pos hw]
  rcases hx with ⟨m, rfl⟩ | rfl
  · exact ⟨Or.inl ⟨_, Fl.mul_exact m w⟩, by simp⟩
  · exact ⟨Or.inr e, fun _ => e⟩

theorem div [FloatFmt.Exact K] {x : Fl K} (hx : UpV x) {w : K} (hw : 0 < w) :
    UpV (x / .fin w) ∧ (x = .pinf → x / .fin w = .pinf) := by
  have e : (.pinf / .fin w : Fl K) = .pinf := by
    show (if w < 0 then Fl.ninf else Fl.pinf) = Fl.pinf
    rw [if_neg hw.le.not_gt]
  rcases hx with ⟨m, rfl⟩ | rfl
  · exact ⟨Or.inl ⟨_, Fl.div_exact m hw.ne'⟩, by simp⟩
  · exact ⟨Or.inr e, fun _ => e⟩
end UpV

/-- A weighted value with positive finite weight, the value finite or `+inf`. -/
def Up (c : Centroid K) : Prop := UpV c.mean ∧ ∃ w : K, 0 < w ∧ c.weight = .fin w

namespace TDigest

theorem sum64_up [FloatFmt.Exact K] : ∀ (cs : List (Centroid K)) (a : K), (∀ c ∈ cs, Up c) →
    (cs.map (·.weight)).foldl Fl.add64 (.fin a) = .fin (a + totalW cs)
  | [], a, _ => by simp
  | c :: cs, a, h => by
    obtain ⟨-, w, hw, e⟩ := h c (by simp)
    rw [List.map_cons, List.foldl_cons, e, Fl.add64_exact, sum64_up cs _ (fun d hd => h d (by simp [hd])), totalW_cons, e, add_assoc]
    rfl

theorem weightSum_up [FloatFmt.Exact K] {cs : List (Centroid K)} (h : ∀ c ∈ cs, Up c) : weightSum cs = .fin (totalW cs) := by
  unfold weightSum Fl.sum64
  rw [sum64_up cs 0 h, zero_add, Fl.ofF64_exact]

theorem totalW_up_nonneg {l : List (Centroid K)} (h : ∀ c ∈ l, Up c) : 0 ≤ totalW l := by
  induction l with
  | nil => simp
  | cons c l ih =>
    rw [totalW_cons]
    obtain ⟨-, w, hw, e⟩ := h c (by simp)
    have := ih (fun d hd => h d (by simp [hd]))
    rw [e]
    show 0 ≤ w + _
    linarith

theorem totalW_up_pos {l : List (Centroid K)} (h : ∀ c ∈ l, Up c) (hne : l ≠ []) : 0 < totalW l := by
  cases l with
  | nil => exact absurd rfl hne
  | cons c l =>
    rw [totalW_cons]
    obtain ⟨-, w, hw, e⟩ := h c (by simp)
    have := totalW_up_nonneg (l := l) (fun d hd => h d (by simp [hd]))
    rw [e]
    show 0 < w + _
    linarith

/-- The last value taken into a run: of the list, or of the run itself. -/
def lastMean (ms : Fl K) : List (Centroid K) → Fl K
  | [] => ms
  | c :: cs => lastMean c.mean cs

theorem lastMean_eq (ms : Fl K) : ∀ (cs : List (Centroid K)) (h : cs ≠ []), lastMean ms cs = (cs.getLast h).mean
  | [c], _ => rfl
  | c :: e :: cs, _ => by
    rw [List.getLast_cons (List.cons_ne_nil e cs), ← lastMean_eq c.mean (e :: cs) (List.cons_ne_nil e cs)]
    rfl

theorem mergeLoop_up [FloatFmt.Exact K] (limit : Fl K → Fl K) : ∀ (cs : List (Centroid K)) (w0 wl : Fl K) (w : K) (ms : Fl K), 0 < w →
    UpV ms → (∀ c ∈ cs, Up c) →
    (∀ c ∈ mergeLoop limit w0 wl (.fin w) ms cs, Up c) ∧ totalW (mergeLoop limit w0 wl (.fin w) ms cs) = w + totalW cs ∧
      mergeLoop limit w0 wl (.fin w) ms cs ≠ [] ∧
      (lastMean ms cs = .pinf → ∃ z, (mergeLoop limit w0 wl (.fin w) ms cs).getLast? = some z ∧ z.mean = .pinf)
  | [], w0, wl, w, ms, hw, hms, _ => by
    refine ⟨?_, ?_, by simp [mergeLoop], ?_⟩
    · intro c hc
      rw [mergeLoop, List.mem_singleton] at hc
      subst hc
      exact ⟨(hms.div hw).1, w, hw, rfl⟩
    · simp only [mergeLoop, totalW_cons, totalW_nil]
      rfl
    · intro h
      exact ⟨_, rfl, (hms.div hw).2 h⟩
  | c :: cs, w0, wl, w, ms, hw, hms, hcs => by
    obtain ⟨hm, v, hv, e⟩ := hcs c (by simp)
    have hcs' : ∀ c ∈ cs, Up c := fun x hx => hcs x (by simp [hx])
    unfold mergeLoop
    dsimp only
    rw [e, Fl.add_exact, totalW_cons, e]
    have hmul := hm.mul hv
    split
    · obtain ⟨h1, h2, h3, h4⟩ := mergeLoop_up limit cs w0 wl (w + v) (ms + c.mean * .fin v) (add_pos hw hv) (hms.add hmul.1).1 hcs'
      refine ⟨h1, ?_, h3, ?_⟩
      · rw [h2]
        show w + v + totalW cs = w + (v + totalW cs)
        ring
      · intro h
        refine h4 ?_
        cases cs with
        | nil => exact (hms.add hmul.1).2 (Or.inr (hmul.2 h))
        | cons d ds => exact h
    · obtain ⟨h1, h2, h3, h4⟩ := mergeLoop_up limit cs (w0 + .fin w) (limit (w0 + .fin w) - (w0 + .fin w)) v (c.mean * .fin v) hv hmul.1 hcs'
      refine ⟨?_, ?_, by simp, ?_⟩
      · intro x hx
        rcases List.mem_cons.1 hx with rfl | hx
        · exact ⟨(hms.div hw).1, w, hw, rfl⟩
        · exact h1 x hx
      · rw [totalW_cons, h2]
        show w + (v + totalW cs) = w + (v + totalW cs)
        rfl
      · intro h
        obtain ⟨z, hz, hz'⟩ := h4 (by
          cases cs with
          | nil => exact hmul.2 h
          | cons d ds => exact h)
        refine ⟨z, ?_, hz'⟩
        rw [List.getLast?_cons, hz]
        rfl

/-- Invariant of a digest fed with finite items and `+inf`. -/
structure UpInv (d : TDigest K) (sup : List (Centroid K)) : Prop where
  up : ∀ c ∈ d.centroids, Up c
  weight : totalW d.centroids = totalW sup
  empty : d.centroids = [] ↔ sup = []
  min_fin : ∃ m : K, d.min = .fin m
  max_up : UpV d.max
  last : d.max = .pinf → ∃ z, d.centroids.getLast? = some z ∧ z.mean = .pinf
  max_inf : (∃ c ∈ sup, c.mean = .pinf) → d.max = .pinf

theorem new_upInv (s i : ScaleFn K) (cf : Fl K) : (TDigest.new s i cf).UpInv [] :=
  ⟨by simp [TDigest.new], rfl, by simp [TDigest.new], ⟨_, rfl⟩, Or.inl ⟨_, rfl⟩, by simp [TDigest.new, Fl.minValue], by simp⟩

theorem pinf_le {x : Fl K} (h : x ≠ .nan) (h' : .pinf ≤ x) : x = .pinf := by
  cases x <;> simp at h h' ⊢

theorem addCentroidBuffer_up [FloatFmt.Exact K] {d : TDigest K} {sup batch : List (Centroid K)} (h : d.UpInv sup)
    (hb : ∀ c ∈ batch, Up c) : Always (d.addCentroidBuffer batch) (fun d' => d'.UpInv (sup ++ batch)) := by
  by_cases hne : batch ++ d.centroids = []
  · rw [List.append_eq_nil_iff] at hne
    obtain ⟨rfl, h2⟩ := hne
    rw [addCentroidBuffer_nil d h2, List.append_nil]
    exact h
  have hall : ∀ c ∈ batch ++ d.centroids, Up c := by
    intro c hc
    rcases List.mem_append.1 hc with hc | hc
    · exact hb c hc
    · exact h.up c hc
  unfold addCentroidBuffer
  refine always_bind.2 ((sortUnstable_spec _ _ (fun c hc => (hall c hc).1.ne_nan)).mono ?_)
  rintro l ⟨hp, hs⟩
  show (d.mergeSorted l).UpInv (sup ++ batch)
  have hsne : sup ++ batch ≠ [] := by
    intro h'
    rw [List.append_eq_nil_iff] at h'
    exact hne (by rw [h'.2, h.empty.2 h'.1]; rfl)
  have hl : l ≠ [] := fun h' => hne (by rw [h'] at hp; exact hp.symm.eq_nil)
  have hlup : ∀ c ∈ l, Up c := fun c hc => hall c (hp.mem_iff.1 hc)
  cases l with
  | nil => exact absurd rfl hl
  | cons c cs =>
    obtain ⟨hm, v, hv, e⟩ := hlup c (by simp)
    have hcs : ∀ x ∈ cs, Up x := fun x hx => hlup x (by simp [hx])
    obtain ⟨h1, h2, h3, h4⟩ := mergeLoop_up (d.wLimit (weightSum (c :: cs))) cs (Fl.lit 0) (d.wLimit (weightSum (c :: cs)) (Fl.lit 0)) v
      (c.mean * .fin v) hv (hm.mul hv).1 hcs
    have hcent : (d.mergeSorted (c :: cs)).centroids = mergeLoop (d.wLimit (weightSum (c :: cs))) (Fl.lit 0)
        (d.wLimit (weightSum (c :: cs)) (Fl.lit 0)) (.fin v) (c.mean * .fin v) cs := by
      simp only [mergeSorted, e]
    have hlastup := hlup _ (List.getLast_mem hl)
    refine ⟨by rw [hcent]; exact h1, ?_, ?_, ?_, ?_, ?_, ?_⟩
    · rw [hcent, h2]
      have := totalW_perm hp
      rw [totalW_cons, e, totalW_append, h.weight] at this
      rw [totalW_append]
      have h9 : v + totalW cs = totalW batch + totalW sup := this
      linarith
    · rw [hcent]
      exact ⟨fun h' => absurd h' h3, fun h' => absurd h' hsne⟩
    · obtain ⟨m, hm'⟩ := h.min_fin
      show ∃ m, Fl.fmin d.min c.mean = .fin m
      rw [hm']
      rcases hm with ⟨n, hn⟩ | hn
      · rw [hn, Fl.fmin_fin]; exact ⟨_, rfl⟩
      · rw [hn, Fl.fmin_eq (by simp) (by simp), min_eq_left (by simp)]; exact ⟨_, rfl⟩
    · show UpV (Fl.fmax d.max _)
      rcases h.max_up with ⟨m, hm'⟩ | hm' <;> rcases hlastup.1 with ⟨n, hn⟩ | hn <;> rw [hm', hn]
      · rw [Fl.fmax_fin]; exact Or.inl ⟨_, rfl⟩
      · rw [Fl.fmax_eq (by simp) (by simp), max_eq_right (by simp)]; exact Or.inr rfl
      · rw [Fl.fmax_eq (by simp) (by simp), max_eq_left (by simp)]; exact Or.inr rfl
      · rw [Fl.fmax_eq (by simp) (by simp), max_self]; exact Or.inr rfl
    · intro hmax
      rw [hcent]
      refine h4 ?_
      have hlast : ((c :: cs).getLast hl).mean = .pinf := by
        have hmax' : Fl.fmax d.max ((c :: cs).getLast hl).mean = .pinf := hmax
        rw [Fl.fmax_eq h.max_up.ne_nan hlastup.1.ne_nan] at hmax'
        rcases max_choice d.max ((c :: cs).getLast hl).mean with h9 | h9 <;> rw [h9] at hmax'
        · obtain ⟨z, hz, hz'⟩ := h.last hmax'
          have hmem : z ∈ c :: cs := hp.mem_iff.2 (List.mem_append_right _ (List.mem_of_getLast? hz))
          have := le_getLast hl hs z hmem
          rw [hz'] at this
          exact pinf_le hlastup.1.ne_nan this
        · exact hmax'
      rw [← lastMean_eq .nan (c :: cs) hl] at hlast
      cases cs with
      | nil => exact (hm.mul hv).2 hlast
      | cons x xs => exact hlast
    · rintro ⟨x, hx, hx'⟩
      show Fl.fmax d.max ((c :: cs).getLast hl).mean = .pinf
      rw [Fl.fmax_eq h.max_up.ne_nan hlastup.1.ne_nan]
      rcases List.mem_append.1 hx with hx | hx
      · rw [h.max_inf ⟨x, hx, hx'⟩]
        refine max_eq_left ?_
        rcases hlastup.1 with ⟨n, hn⟩ | hn <;> rw [hn]
        exact Fl.fin_le_pinf n
      · have := le_getLast hl hs x (hp.mem_iff.2 (List.mem_append_left _ hx))
        rw [hx'] at this
        rw [pinf_le hlastup.1.ne_nan this]
        refine max_eq_right ?_
        rcases h.max_up with ⟨n, hn⟩ | hn <;> rw [hn]
        exact Fl.fin_le_pinf n

theorem execOps_up [FloatFmt.Exact K] : ∀ (ops : List (TOp K)) (d : TDigest K) (sup : List (Centroid K)), d.UpInv sup →
    (∀ c ∈ supplied ops, Up c) → Always (d.execOps ops) (fun d' => d'.UpInv (sup ++ supplied ops))
  | [], d, sup, h, _ => by simpa [execOps, supplied] using h
  | o :: os, d, sup, h, hg => by
    have hg1 : ∀ c ∈ o.supplied, Up c := fun c hc => hg c (by simp [supplied]; exact Or.inl hc)
    have hg2 : ∀ c ∈ supplied os, Up c := fun c hc => hg c (by
      rw [supplied, List.flatMap_cons]; exact List.mem_append_right _ hc)
    show Always (o.exec d >>= fun d' => execOps d' os) _
    rw [exec_eq, always_bind]
    refine (addCentroidBuffer_up h hg1).mono ?_
    intro d' hd'
    have := execOps_up os d' (sup ++ o.supplied) hd' hg2
    rw [List.append_assoc] at this
    rwa [supplied, List.flatMap_cons]

/-! ### Quantile queries at finite values -/

theorem equalWeight_fin [FloatFmt.Exact K] (item : Fl K) : ∀ (cs : List (Centroid K)) (dw : K), (∀ c ∈ cs, Up c) →
    ∃ r : K, equalWeight item (.fin dw) cs = .fin r
  | [], dw, _ => ⟨dw, rfl⟩
  | c :: cs, dw, h => by
    obtain ⟨-, w, hw, e⟩ := h c (by simp)
    unfold equalWeight
    split
    · rw [e, Fl.add_exact]
      exact equalWeight_fin item cs _ (fun d hd => h d (by simp [hd]))
    · exact ⟨dw, rfl⟩

theorem between_fin [FloatFmt.Exact K] (x wsf total : K) (ht : 0 < total) {c n : Centroid K} (hc : Up c) (hn : Up n)
    (h1 : Fl.le c.mean (.fin x) = true) (h2 : Fl.lt (.fin x) n.mean = true) :
    ∃ r : K, between (.fin x) (.fin wsf) (.fin total) c n = .fin r := by
  obtain ⟨hc, w, hw, e⟩ := hc
  obtain ⟨hn, v, hv, e'⟩ := hn
  obtain ⟨cm, cw⟩ := c
  obtain ⟨nm, nw⟩ := n
  simp only at hc e hn e' h1 h2
  subst e e'
  have two : (2 : K) ≠ 0 := two_ne_zero
  rcases hc with ⟨m, rfl⟩ | rfl
  swap
  · simp [Fl.le] at h1
  simp only [Fl.le_fin, decide_eq_true_eq] at h1
  rcases hn with ⟨n, rfl⟩ | rfl
  · simp only [Fl.lt_fin, decide_eq_true_eq] at h2
    have h3 : n - m ≠ 0 := by have : 0 < n - m := by linarith
                              exact this.ne'
    unfold between
    simp only [Fl.sub_exact, Fl.lit_exact]
    repeat' split
    all_goals simp only [Fl.add_exact, Fl.div_exact _ two, Fl.sub_exact, Fl.mul_exact, Fl.div_exact _ h3, Fl.div_exact _ ht.ne']
    all_goals exact ⟨_, rfl⟩
  · have e1 : (.pinf - .fin m : Fl K) = .pinf := rfl
    have e2 : ∀ y : K, (.fin y / .pinf : Fl K) = .fin 0 := fun y => rfl
    unfold between
    simp only [e1, Fl.sub_exact, Fl.lit_exact]
    repeat' split
    all_goals simp only [Fl.add_exact, Fl.div_exact _ two, Fl.sub_exact, Fl.mul_exact, e2, Fl.div_exact _ ht.ne']
    all_goals exact ⟨_, rfl⟩

theorem quantileLoop_fin [FloatFmt.Exact K] (x total : K) (ht : 0 < total) : ∀ (cs : List (Centroid K)) (wsf : K) (c : Centroid K),
    (∀ c ∈ cs, Up c) → cs.head? = some c → Fl.le c.mean (.fin x) = true →
    (∃ r : K, quantileLoop (.fin x) (.fin total) (.fin wsf) cs = .inl (.fin r)) ∨
    (∃ r : K, quantileLoop (.fin x) (.fin total) (.fin wsf) cs = .inr (.fin r)) ∧
      ∀ z, cs.getLast? = some z → Fl.le z.mean (.fin x) = true
  | [], wsf, c, _, h, _ => by simp at h
  | [d], wsf, c, _, h, h' => by
    right
    simp only [List.head?_cons, Option.some.injEq] at h
    subst h
    exact ⟨⟨wsf, rfl⟩, by simpa using h'⟩
  | d :: n :: cs, wsf, c, hu, h, h' => by
    simp only [List.head?_cons, Option.some.injEq] at h
    subst h
    have hd := hu d (by simp)
    have hn := hu n (by simp)
    unfold quantileLoop
    rw [Fl.lit_exact]
    have two : (2 : K) ≠ 0 := two_ne_zero
    split
    · left
      obtain ⟨r, hr⟩ := equalWeight_fin (.fin x) (d :: n :: cs) 0 hu
      simp only [hr, Fl.lit_exact, Fl.div_exact _ two, Fl.add_exact, Fl.div_exact _ ht.ne']
      split
      · exact ⟨_, rfl⟩
      · exact ⟨_, rfl⟩
    · split
      · rename_i h1
        rw [Bool.and_eq_true] at h1
        obtain ⟨r, hr⟩ := between_fin x wsf total ht hd hn h1.1 h1.2
        exact Or.inl ⟨r, by rw [hr]⟩
      · rename_i h1
        rw [h', Bool.true_and] at h1
        obtain ⟨-, w, hw, e⟩ := hd
        rw [e, Fl.add_exact]
        have hnx : Fl.le n.mean (.fin x) = true := by
          rcases hn.1 with ⟨m, hm⟩ | hm <;> rw [hm] at h1 ⊢
          · simpa using h1
          · exact absurd rfl h1
        rcases quantileLoop_fin x total ht (n :: cs) (wsf + w) n (fun c hc => hu c (List.mem_cons_of_mem _ hc)) rfl hnx with h2 | ⟨h2, h3⟩
        · exact Or.inl h2
        · refine Or.inr ⟨h2, ?_⟩
          intro z hz
          rw [List.getLast?_cons_cons] at hz
          exact h3 z hz

theorem estQuantile_up [FloatFmt.Exact K] {d : TDigest K} {sup : List (Centroid K)} (h : d.UpInv sup) (hne : sup ≠ []) (x : K) :
    ∃ r : K, d.estQuantileAtValue (.fin x) = .ret (.fin r) := by
  obtain ⟨mn, hmn⟩ := h.min_fin
  have hcne : d.centroids ≠ [] := fun h' => hne (h.empty.1 h')
  have htot : d.totalWeight = .fin (totalW d.centroids) := weightSum_up h.up
  have hpos := totalW_up_pos h.up hcne
  have hup := h.up
  have hlast := h.last
  have hmax := h.max_up
  unfold TDigest.estQuantileAtValue
  rw [htot, hmn]
  generalize totalW d.centroids = total at hpos
  generalize d.centroids = cs at hup hlast hcne
  have two : (2 : K) ≠ 0 := two_ne_zero
  match cs, hcne with
  | [c], _ =>
    dsimp only
    simp only [Fl.lit_exact]
    split
    · exact ⟨_, rfl⟩
    split
    · exact ⟨_, rfl⟩
    rename_i h1 h2
    rw [if_pos]
    · exact ⟨_, rfl⟩
    rcases hmax with ⟨m, hm⟩ | hm <;> rw [hm] at h2 ⊢
    · simp only [Fl.lt_fin, decide_eq_true_eq, not_lt, Fl.sub_exact, Fl.le_fin] at h2 ⊢
      linarith
    · have e1 : (.pinf - .fin mn : Fl K) = .pinf := rfl
      rw [e1, Fl.sub_exact, Fl.le_eq (by simp) (by simp)]
      simp
  | first :: second :: rest, _ =>
    dsimp only
    have hlm := hup _ (List.getLast_mem (List.cons_ne_nil first (second :: rest)))
    have hl? : (first :: second :: rest).getLast? = some ((first :: second :: rest).getLast (List.cons_ne_nil _ _)) :=
      List.getLast?_eq_some_getLast _
    rw [hl?] at hlast
    have hq := quantileLoop_fin x total hpos (first :: second :: rest) 0 first hup rfl
    rw [hl?] at hq
    generalize (first :: second :: rest).getLast (List.cons_ne_nil _ _) = z at hlm hlast hq ⊢
    obtain ⟨hfm, fw, hfw, ef⟩ := hup first (by simp)
    obtain ⟨hzm, zw, hzw, ez⟩ := hlm
    simp only [Fl.lit_exact, ef, ez, Fl.div_exact _ two, Fl.sub_exact]
    split
    · exact ⟨_, rfl⟩
    split
    · exact ⟨_, rfl⟩
    rename_i h1 h2
    split
    · rename_i h3
      rcases hfm with ⟨fm, hfm⟩ | hfm <;> rw [hfm] at h3 ⊢
      · simp only [Fl.sub_exact, Fl.lt_fin, decide_eq_true_eq]
        split
        · rename_i h4
          split
          · rw [Fl.div_exact _ hpos.ne']; exact ⟨_, rfl⟩
          · simp only [Fl.div_exact _ h4.ne', Fl.mul_exact, Fl.add_exact, Fl.div_exact _ hpos.ne']
            exact ⟨_, rfl⟩
        · exact ⟨_, rfl⟩
      · have e1 : (.pinf - .fin mn : Fl K) = .pinf := rfl
        have e2 : ∀ y : K, (.fin y / .pinf : Fl K) = .fin 0 := fun y => rfl
        simp only [e1, e2, Fl.mul_exact, Fl.add_exact, Fl.div_exact _ hpos.ne']
        repeat' split
        all_goals exact ⟨_, rfl⟩
    · rename_i h3
      split
      · rename_i h4
        rcases hzm with ⟨zm, hzm⟩ | hzm
        swap
        · rw [hzm] at h4
          have h5 : decide ((Fl.pinf : Fl K) < .fin x) = true := h4
          exact absurd (of_decide_eq_true h5).le (Fl.pinf_not_le_fin x)
        rcases hmax with ⟨m, hm⟩ | hm
        swap
        · obtain ⟨y, hy, hy'⟩ := hlast hm
          simp only [Option.some.injEq] at hy
          rw [hy, hy'] at hzm
          simp at hzm
        rw [hm, hzm]
        simp only [Fl.sub_exact, Fl.lt_fin, decide_eq_true_eq]
        split
        · rename_i h5
          split
          · rw [Fl.div_exact _ hpos.ne', Fl.sub_exact]; exact ⟨_, rfl⟩
          · simp only [Fl.div_exact _ h5.ne', Fl.mul_exact, Fl.add_exact, Fl.div_exact _ hpos.ne', Fl.sub_exact]
            exact ⟨_, rfl⟩
        · exact ⟨_, rfl⟩
      · rename_i h4
        have hfx : Fl.le first.mean (.fin x) = true := by
          rcases hfm with ⟨fm, hfm⟩ | hfm <;> rw [hfm] at h3 ⊢
          · simpa using h3
          · exact absurd rfl h3
        rcases hq hfx with ⟨r, hr⟩ | ⟨⟨r, hr⟩, hz⟩
        · rw [hr]; exact ⟨r, rfl⟩
        · rw [hr]
          have hz' := hz z rfl
          rcases hzm with ⟨zm, hzm⟩ | hzm
          swap
          · rw [hzm] at hz'; simp [Fl.le] at hz'
          rw [hzm] at hz' h4 ⊢
          simp only [Fl.le_fin, Fl.lt_fin, decide_eq_true_eq, not_lt] at hz' h4
          have e : x = zm := le_antisymm h4 hz'
          subst e
          simp only [Fl.feq_fin, decide_true, if_true, Fl.div_exact _ hpos.ne', Fl.sub_exact]
          split
          · exact ⟨_, rfl⟩
          · exact ⟨_, rfl⟩

/-- At `+inf` the loop ends with an answer or at the last centroid. -/
theorem quantileLoop_pinf [FloatFmt.Exact K] (total : K) (ht : 0 < total) : ∀ (cs : List (Centroid K)) (wsf : K),
    (∀ c ∈ cs, Up c) →
    (∃ r : K, quantileLoop .pinf (.fin total) (.fin wsf) cs = .inl (.fin r)) ∨
    (∃ r : K, quantileLoop .pinf (.fin total) (.fin wsf) cs = .inr (.fin r))
  | [], wsf, _ => Or.inr ⟨wsf, rfl⟩
  | [d], wsf, _ => Or.inr ⟨wsf, rfl⟩
  | d :: n :: cs, wsf, hu => by
    have hd := hu d (by simp)
    have hn := hu n (by simp)
    unfold quantileLoop
    rw [Fl.lit_exact]
    have two : (2 : K) ≠ 0 := two_ne_zero
    split
    · left
      obtain ⟨r, hr⟩ := equalWeight_fin .pinf (d :: n :: cs) 0 hu
      simp only [hr, Fl.lit_exact, Fl.div_exact _ two, Fl.add_exact, Fl.div_exact _ ht.ne']
      split
      · exact ⟨_, rfl⟩
      · exact ⟨_, rfl⟩
    · have e9 : Fl.lt .pinf n.mean = false := by
        rcases hn.1 with ⟨m, hm⟩ | hm <;> rw [hm]
        · show decide ((Fl.pinf : Fl K) < .fin m) = false
          exact decide_eq_false (fun h => Fl.pinf_not_le_fin m h.le)
        · show decide ((Fl.pinf : Fl K) < .pinf) = false
          exact decide_eq_false (lt_irrefl _)
      rw [e9, Bool.and_false, if_neg (by simp)]
      obtain ⟨-, w, hw, e⟩ := hd
      rw [e, Fl.add_exact]
      exact quantileLoop_pinf total ht (n :: cs) (wsf + w) (fun c hc => hu c (List.mem_cons_of_mem _ hc))

theorem estQuantile_up_pinf [FloatFmt.Exact K] {d : TDigest K} {sup : List (Centroid K)} (h : d.UpInv sup) (hne : sup ≠ []) :
    ∃ r : K, d.estQuantileAtValue .pinf = .ret (.fin r) := by
  obtain ⟨mn, hmn⟩ := h.min_fin
  have hcne : d.centroids ≠ [] := fun h' => hne (h.empty.1 h')
  have htot : d.totalWeight = .fin (totalW d.centroids) := weightSum_up h.up
  have hpos := totalW_up_pos h.up hcne
  have hup := h.up
  have hlast := h.last
  have hmax := h.max_up
  have h1 : Fl.lt .pinf (.fin mn : Fl K) = false := by
    show decide ((Fl.pinf : Fl K) < .fin mn) = false
    exact decide_eq_false (fun h => Fl.pinf_not_le_fin mn h.le)
  unfold TDigest.estQuantileAtValue
  rw [htot, hmn]
  generalize totalW d.centroids = total at hpos
  generalize d.centroids = cs at hup hlast hcne
  have two : (2 : K) ≠ 0 := two_ne_zero
  match cs, hcne with
  | [c], _ =>
    dsimp only
    simp only [Fl.lit_exact, h1]
    rcases hmax with ⟨m, hm⟩ | hm <;> rw [hm]
    · exact ⟨1, rfl⟩
    · rw [if_neg (by simp), if_neg (by
        show ¬ decide ((Fl.pinf : Fl K) < .pinf) = true
        simp)]
      exact ⟨1 / 2, rfl⟩
  | first :: second :: rest, _ =>
    dsimp only
    simp only [Fl.lit_exact, h1]
    rw [if_neg (by simp)]
    rcases hmax with ⟨m, hm⟩ | hm
    · rw [hm]; exact ⟨1, rfl⟩
    have hl? : (first :: second :: rest).getLast? = some ((first :: second :: rest).getLast (List.cons_ne_nil _ _)) :=
      List.getLast?_eq_some_getLast _
    obtain ⟨y, hy, hy'⟩ := hlast hm
    rw [hl?, Option.some.injEq] at hy
    have hf : Fl.lt .pinf first.mean = false := by
      rcases (hup first (by simp)).1 with ⟨m, hm⟩ | hm <;> rw [hm]
      · show decide ((Fl.pinf : Fl K) < .fin m) = false
        exact decide_eq_false (fun h => Fl.pinf_not_le_fin m h.le)
      · show decide ((Fl.pinf : Fl K) < .pinf) = false
        exact decide_eq_false (lt_irrefl _)
    have hl : Fl.lt (.pinf : Fl K) .pinf = false := by
      show decide ((Fl.pinf : Fl K) < .pinf) = false
      exact decide_eq_false (lt_irrefl _)
    have he : Fl.feq (.pinf : Fl K) .pinf = true := by
      show decide ((Fl.pinf : Fl K) = .pinf) = true
      exact decide_eq_true rfl
    rw [hm, hy]
    simp only [hf, hl, hy', he, if_true, Bool.false_eq_true, if_false]
    rcases quantileLoop_pinf total hpos (first :: second :: rest) 0 hup with ⟨r, hr⟩ | ⟨r, hr⟩
    · rw [hr]; exact ⟨r, rfl⟩
    · rw [hr]
      simp only [Fl.div_exact _ hpos.ne', Fl.sub_exact]
      split
      · exact ⟨_, rfl⟩
      · exact ⟨_, rfl⟩

/-! ### Finite items and `-inf` -/

/-- Finite or `-inf`. -/
def _root_.AQ.DownV (x : Fl K) : Prop := (∃ m : K, x = .fin m) ∨ x = .ninf

theorem _root_.AQ.DownV.ne_nan {x : Fl K} (h : DownV x) : x ≠ .nan := by rcases h with ⟨m, rfl⟩ | rfl <;> simp

theorem _root_.AQ.DownV.add [FloatFmt.Exact K] {x y : Fl K} (hx : DownV x) (hy : DownV y) : DownV (x + y) := by
  rcases hx with ⟨m, rfl⟩ | rfl <;> rcases hy with ⟨n, rfl⟩ | rfl
  · exact Or.inl ⟨_, Fl.add_exact m n⟩
  · exact Or.inr rfl
  · exact Or.inr rfl
  · exact Or.inr rfl

theorem _root_.AQ.DownV.mul [FloatFmt.Exact K] {x : Fl K} (hx : DownV x) {w : K} (hw : 0 < w) : DownV (x * .fin w) := by
  rcases hx with ⟨m, rfl⟩ | rfl
  · exact Or.inl ⟨_, Fl.mul_exact m w⟩
  · refine Or.inr ?_
    show Fl.signInf (-w) = _
    rw [Fl.signInf, if_neg (by linarith), if_pos (by linarith)]

theorem _root_.AQ.DownV.div [FloatFmt.Exact K] {x : Fl K} (hx : DownV x) {w : K} (hw : 0 < w) : DownV (x / .fin w) := by
  rcases hx with ⟨m, rfl⟩ | rfl
  · exact Or.inl ⟨_, Fl.div_exact m hw.ne'⟩
  · refine Or.inr ?_
    show (if w < 0 then Fl.pinf else Fl.ninf) = Fl.ninf
    rw [if_neg hw.le.not_gt]

/-- A weighted value with positive finite weight, the value finite or `-inf`. -/
def _root_.AQ.Down (c : Centroid K) : Prop := DownV c.mean ∧ ∃ w : K, 0 < w ∧ c.weight = .fin w

theorem mergeLoop_down [FloatFmt.Exact K] (limit : Fl K → Fl K) : ∀ (cs : List (Centroid K)) (w0 wl : Fl K) (w : K) (ms : Fl K), 0 < w →
    DownV ms → (∀ c ∈ cs, Down c) →
    (∀ c ∈ mergeLoop limit w0 wl (.fin w) ms cs, Down c) ∧ totalW (mergeLoop limit w0 wl (.fin w) ms cs) = w + totalW cs
  | [], w0, wl, w, ms, hw, hms, _ => by
    refine ⟨?_, ?_⟩
    · intro c hc
      rw [mergeLoop, List.mem_singleton] at hc
      subst hc
      exact ⟨hms.div hw, w, hw, rfl⟩
    · simp only [mergeLoop, totalW_cons, totalW_nil]
      rfl
  | c :: cs, w0, wl, w, ms, hw, hms, hcs => by
    obtain ⟨hm, v, hv, e⟩ := hcs c (by simp)
    have hcs' : ∀ c ∈ cs, Down c := fun x hx => hcs x (by simp [hx])
    unfold mergeLoop
    dsimp only
    rw [e, Fl.add_exact, totalW_cons, e]
    have hmul := hm.mul hv
    split
    · obtain ⟨h1, h2⟩ := mergeLoop_down limit cs w0 wl (w + v) (ms + c.mean * .fin v) (add_pos hw hv) (hms.add hmul) hcs'
      refine ⟨h1, ?_⟩
      rw [h2]
      show w + v + totalW cs = w + (v + totalW cs)
      ring
    · obtain ⟨h1, h2⟩ := mergeLoop_down limit cs (w0 + .fin w) (limit (w0 + .fin w) - (w0 + .fin w)) v (c.mean * .fin v) hv hmul hcs'
      refine ⟨?_, ?_⟩
      · intro x hx
        rcases List.mem_cons.1 hx with rfl | hx
        · exact ⟨hms.div hw, w, hw, rfl⟩
        · exact h1 x hx
      · rw [totalW_cons, h2]
        rfl

/-- Invariant of a digest fed with finite items and `-inf`. -/
structure DownInv (d : TDigest K) (sup : List (Centroid K)) : Prop where
  down : ∀ c ∈ d.centroids, Down c
  weight : totalW d.centroids = totalW sup

theorem new_downInv (s i : ScaleFn K) (cf : Fl K) : (TDigest.new s i cf).DownInv [] := ⟨by simp [TDigest.new], rfl⟩

theorem addCentroidBuffer_down [FloatFmt.Exact K] {d : TDigest K} {sup batch : List (Centroid K)} (h : d.DownInv sup)
    (hb : ∀ c ∈ batch, Down c) : Always (d.addCentroidBuffer batch) (fun d' => d'.DownInv (sup ++ batch)) := by
  by_cases hne : batch ++ d.centroids = []
  · rw [List.append_eq_nil_iff] at hne
    obtain ⟨rfl, h2⟩ := hne
    rw [addCentroidBuffer_nil d h2, List.append_nil]
    exact h
  have hall : ∀ c ∈ batch ++ d.centroids, Down c := by
    intro c hc
    rcases List.mem_append.1 hc with hc | hc
    · exact hb c hc
    · exact h.down c hc
  unfold addCentroidBuffer
  refine always_bind.2 ((sortUnstable_spec _ _ (fun c hc => (hall c hc).1.ne_nan)).mono ?_)
  rintro l ⟨hp, hs⟩
  show (d.mergeSorted l).DownInv (sup ++ batch)
  have hl : l ≠ [] := fun h' => hne (by rw [h'] at hp; exact hp.symm.eq_nil)
  have hlup : ∀ c ∈ l, Down c := fun c hc => hall c (hp.mem_iff.1 hc)
  cases l with
  | nil => exact absurd rfl hl
  | cons c cs =>
    obtain ⟨hm, v, hv, e⟩ := hlup c (by simp)
    obtain ⟨h1, h2⟩ := mergeLoop_down (d.wLimit (weightSum (c :: cs))) cs (Fl.lit 0) (d.wLimit (weightSum (c :: cs)) (Fl.lit 0)) v
      (c.mean * .fin v) hv (hm.mul hv) (fun x hx => hlup x (by simp [hx]))
    have hcent : (d.mergeSorted (c :: cs)).centroids = mergeLoop (d.wLimit (weightSum (c :: cs))) (Fl.lit 0)
        (d.wLimit (weightSum (c :: cs)) (Fl.lit 0)) (.fin v) (c.mean * .fin v) cs := by
      simp only [mergeSorted, e]
    refine ⟨by rw [hcent]; exact h1, ?_⟩
    rw [hcent, h2]
    have := totalW_perm hp
    rw [totalW_cons, e, totalW_append, h.weight] at this
    rw [totalW_append]
    have h9 : v + totalW cs = totalW batch + totalW sup := this
    linarith

theorem execOps_down [FloatFmt.Exact K] : ∀ (ops : List (TOp K)) (d : TDigest K) (sup : List (Centroid K)), d.DownInv sup →
    (∀ c ∈ supplied ops, Down c) → Always (d.execOps ops) (fun d' => d'.DownInv (sup ++ supplied ops))
  | [], d, sup, h, _ => by simpa [execOps, supplied] using h
  | o :: os, d, sup, h, hg => by
    have hg1 : ∀ c ∈ o.supplied, Down c := fun c hc => hg c (by simp [supplied]; exact Or.inl hc)
    have hg2 : ∀ c ∈ supplied os, Down c := fun c hc => hg c (by
      rw [supplied, List.flatMap_cons]; exact List.mem_append_right _ hc)
    show Always (o.exec d >>= fun d' => execOps d' os) _
    rw [exec_eq, always_bind]
    refine (addCentroidBuffer_down h hg1).mono ?_
    intro d' hd'
    have := execOps_down os d' (sup ++ o.supplied) hd' hg2
    rw [List.append_assoc] at this
    rwa [supplied, List.flatMap_cons]

end TDigest
end AQ

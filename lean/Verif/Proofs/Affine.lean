/-
TDigest on data and on its image under x ↦ a·x + b, in exact arithmetic: same coins, same weights, transformed means.
-/
import Verif.Proofs.Rescale
import Verif.Proofs.TDHist
import Verif.Spec.Affine

set_option linter.unusedSectionVars false
set_option linter.unusedVariables false

namespace AQ
open Prog Spec
variable {K : Type} [Field K] [LinearOrder K] [IsStrictOrderedRing K] [FloatFmt K]

theorem Prog.rel_and_left {α β : Type} {R : α → β → Prop} {Q : α → Prop} : ∀ {p : Prog α} {q : Prog β}, Rel R p q → Partially p Q →
    Rel (fun a b => R a b ∧ Q a) p q
  | .ret a, .ret b, h, hq => ⟨h, hq⟩
  | .fail e, .fail e', h, _ => h
  | .flip u, .flip v, h, hq => fun c => rel_and_left (h c) (hq c)
  | .ret _, .fail _, h, _ => h.elim
  | .ret _, .flip _, h, _ => h.elim
  | .fail _, .ret _, h, _ => h.elim
  | .fail _, .flip _, h, _ => h.elim
  | .flip _, .ret _, h, _ => h.elim
  | .flip _, .fail _, h, _ => h.elim

theorem Prog.rel_partially_left {α β : Type} {R : α → β → Prop} : ∀ {p : Prog α} {q : Prog β}, Rel R p q →
    Partially p (fun a => ∃ b, R a b)
  | .ret a, .ret b, h => ⟨b, h⟩
  | .fail e, .fail e', h => trivial
  | .flip u, .flip v, h => fun c => rel_partially_left (h c)
  | .ret _, .fail _, h => h.elim
  | .ret _, .flip _, h => h.elim
  | .fail _, .ret _, h => h.elim
  | .fail _, .flip _, h => h.elim
  | .flip _, .ret _, h => h.elim
  | .flip _, .fail _, h => h.elim

/-! ### Sorting with ties -/

theorem rel_insertTie {α β : Type} {R : α → β → Prop} {f : α → Fl K} {g : β → Fl K}
    (h : ∀ a a' b b', R a a' → R b b' → (f a < f b ↔ g a' < g b')) {a : α} {a' : β} (ha : R a a') :
    ∀ {l : List α} {l' : List β}, List.Forall₂ R l l' → Rel (List.Forall₂ R) (insertTie f a l) (insertTie g a' l')
  | [], [], _ => .cons ha .nil
  | b :: l, b' :: l', .cons hb hl => by
    have ih := rel_insertTie h ha hl
    have step : Rel (List.Forall₂ R) (insertTie f a l >>= fun r => .ret (b :: r)) (insertTie g a' l' >>= fun r => .ret (b' :: r)) :=
      rel_bind ih (fun r r' hr => .cons hb hr)
    unfold insertTie
    by_cases h1 : f a < f b
    · rw [if_pos h1, if_pos ((h _ _ _ _ ha hb).1 h1)]
      exact .cons ha (.cons hb hl)
    rw [if_neg h1, if_neg (fun h' => h1 ((h _ _ _ _ ha hb).2 h'))]
    by_cases h2 : f b < f a
    · rw [if_pos h2, if_pos ((h _ _ _ _ hb ha).1 h2)]
      exact step
    rw [if_neg h2, if_neg (fun h' => h2 ((h _ _ _ _ hb ha).2 h'))]
    intro c
    cases c
    · exact step
    · exact .cons ha (.cons hb hl)

theorem rel_sortTie {α β : Type} {R : α → β → Prop} {f : α → Fl K} {g : β → Fl K}
    (h : ∀ a a' b b', R a a' → R b b' → (f a < f b ↔ g a' < g b')) :
    ∀ {l : List α} {l' : List β}, List.Forall₂ R l l' → Rel (List.Forall₂ R) (sortTie f l) (sortTie g l')
  | [], [], _ => .nil
  | b :: l, b' :: l', .cons hb hl => rel_bind (rel_sortTie h hl) (fun r r' hr => rel_insertTie h hb hr)

theorem rel_sortUnstable {α β : Type} {R : α → β → Prop} {f : α → Fl K} {g : β → Fl K}
    (h : ∀ a a' b b', R a a' → R b b' → (f a < f b ↔ g a' < g b')) (hn : ∀ a a', R a a' → (f a).isNan = (g a').isNan)
    {l : List α} {l' : List β} (hl : List.Forall₂ R l l') : Rel (List.Forall₂ R) (sortUnstable f l) (sortUnstable g l') := by
  unfold sortUnstable
  rw [hl.length_eq, forall₂_any hn hl]
  split
  · rfl
  · exact rel_sortTie h hl

/-! ### Related centroids -/

/-- A finite centroid with a weight in `P`, and its image. -/
def CAff (a b : K) (P : K → Prop) (c c' : Centroid K) : Prop :=
  ∃ m w : K, P w ∧ c = ⟨.fin m, .fin w⟩ ∧ c' = ⟨.fin (a * m + b), .fin w⟩

/-- Positive, closed under addition. -/
structure WPred (P : K → Prop) : Prop where
  pos : ∀ w, P w → 0 < w
  add : ∀ v w, P v → P w → P (v + w)

section
variable {a b : K} {P : K → Prop}

theorem affine_lt (ha : 0 < a) {x y : K} : a * x + b < a * y + b ↔ x < y := by
  rw [add_lt_add_iff_right, mul_lt_mul_iff_right₀ ha]

theorem affine_le (ha : 0 < a) {x y : K} : a * x + b ≤ a * y + b ↔ x ≤ y := by
  rw [add_le_add_iff_right, mul_le_mul_iff_right₀ ha]

theorem affine_inj (ha : 0 < a) {x y : K} : a * x + b = a * y + b ↔ x = y := by
  rw [add_left_inj, mul_right_inj' ha.ne']

theorem affine_min (ha : 0 < a) (x y : K) : min (a * x + b) (a * y + b) = a * min x y + b := by
  rcases le_total x y with h | h
  · rw [min_eq_left h, min_eq_left ((affine_le ha).2 h)]
  · rw [min_eq_right h, min_eq_right ((affine_le ha).2 h)]

theorem affine_max (ha : 0 < a) (x y : K) : max (a * x + b) (a * y + b) = a * max x y + b := by
  rcases le_total x y with h | h
  · rw [max_eq_right h, max_eq_right ((affine_le ha).2 h)]
  · rw [max_eq_left h, max_eq_left ((affine_le ha).2 h)]

theorem div_scale [FloatFmt.Exact K] (ha : 0 < a) (p q : K) : (Fl.fin (a * p) / Fl.fin (a * q) : Fl K) = Fl.fin p / Fl.fin q := by
  by_cases hq : q = 0
  · subst hq
    simp only [Fl.div_fin, mul_zero, if_true, Fl.signInf, mul_pos_iff_of_pos_left ha, mul_neg_iff, ha, true_and, ha.not_gt, false_and,
      or_false]
  · rw [Fl.div_exact _ (mul_ne_zero ha.ne' hq), Fl.div_exact _ hq, mul_div_mul_left _ _ ha.ne']

theorem CAff.weights {cs cs' : List (Centroid K)} (h : List.Forall₂ (CAff a b P) cs cs') : cs'.map (·.weight) = cs.map (·.weight) := by
  induction h with
  | nil => rfl
  | cons hc _ ih =>
    obtain ⟨m, w, -, rfl, rfl⟩ := hc
    simp [ih]

theorem CAff.weightSum {cs cs' : List (Centroid K)} (h : List.Forall₂ (CAff a b P) cs cs') :
    TDigest.weightSum cs' = TDigest.weightSum cs := by
  rw [TDigest.weightSum, TDigest.weightSum, CAff.weights h]

theorem CAff.eq_map {cs cs' : List (Centroid K)} (h : List.Forall₂ (CAff a b P) cs cs') : cs' = cs.map (Centroid.affine a b) := by
  induction h with
  | nil => rfl
  | cons hc _ ih =>
    obtain ⟨m, w, -, rfl, rfl⟩ := hc
    simp [ih, Centroid.affine, Fl.affine]

theorem CAff.of_good {cs : List (Centroid K)} (h : ∀ c ∈ cs, Good c) (hP : ∀ c ∈ cs, P c.weight.toK) :
    List.Forall₂ (CAff a b P) cs (cs.map (Centroid.affine a b)) := by
  induction cs with
  | nil => exact .nil
  | cons c cs ih =>
    refine .cons ?_ (ih (fun d hd => h d (by simp [hd])) (fun d hd => hP d (by simp [hd])))
    obtain ⟨hm, w, hw, hw'⟩ := h c (by simp)
    have hp := hP c (by simp)
    obtain ⟨mean, weight⟩ := c
    cases mean <;> simp [Fl.IsFin] at hm
    rename_i m
    simp only at hw'
    subst hw'
    exact ⟨m, w, hp, rfl, rfl⟩

theorem Fl_lt_affine (ha : 0 < a) (c c' d d' : Centroid K) (hc : CAff a b P c c') (hd : CAff a b P d d') :
    c.mean < d.mean ↔ c'.mean < d'.mean := by
  obtain ⟨m, w, -, rfl, rfl⟩ := hc
  obtain ⟨m', w', -, rfl, rfl⟩ := hd
  simp only [Fl.fin_lt_fin]
  exact (affine_lt ha).symm

namespace TDigest

theorem mergeLoop_ne (limit : Fl K → Fl K) : ∀ (cs : List (Centroid K)) (w0 wl mw ms : Fl K), mergeLoop limit w0 wl mw ms cs ≠ []
  | [], _, _, _, _ => by simp [mergeLoop]
  | c :: cs, w0, wl, mw, ms => by
    unfold mergeLoop
    dsimp only
    split
    · exact mergeLoop_ne limit cs _ _ _ _
    · simp

theorem mergeLoop_aff [FloatFmt.Exact K] (hP : WPred P) (limit : Fl K → Fl K) : ∀ {cs cs' : List (Centroid K)} (w0 wl : Fl K) (mw s : K),
    P mw → List.Forall₂ (CAff a b P) cs cs' →
    List.Forall₂ (CAff a b P) (mergeLoop limit w0 wl (.fin mw) (.fin s) cs) (mergeLoop limit w0 wl (.fin mw) (.fin (a * s + b * mw)) cs')
  | [], [], w0, wl, mw, s, hmw, _ => by
    have h0 : mw ≠ 0 := (hP.pos _ hmw).ne'
    refine .cons ⟨s / mw, mw, hmw, ?_, ?_⟩ .nil
    · rw [Fl.div_exact _ h0]
    · rw [Fl.div_exact _ h0]
      congr 2
      field_simp
  | _ :: cs, _ :: cs', w0, wl, mw, s, hmw, .cons ⟨m, w, hw, rfl, rfl⟩ hcs => by
    have h0 : mw ≠ 0 := (hP.pos _ hmw).ne'
    unfold mergeLoop
    simp only [Fl.add_exact, Fl.mul_exact]
    split
    · have := mergeLoop_aff hP limit w0 wl (mw + w) (s + m * w) (hP.add _ _ hmw hw) hcs
      convert this using 3
      ring
    · refine .cons ⟨s / mw, mw, hmw, ?_, ?_⟩ ?_
      · rw [Fl.div_exact _ h0]
      · rw [Fl.div_exact _ h0]
        congr 2
        field_simp
      · have := mergeLoop_aff hP limit (w0 + .fin mw) (limit (w0 + .fin mw) - (w0 + .fin mw)) w (m * w) hw hcs
        convert this using 3
        ring

/-- Digests of data and of their images. -/
structure Aff (a b : K) (P : K → Prop) (d d' : TDigest K) : Prop where
  centroids : List.Forall₂ (CAff a b P) d.centroids d'.centroids
  compressFactor : d'.compressFactor = d.compressFactor
  scaleFunc : d'.scaleFunc = d.scaleFunc
  inverseScaleFunc : d'.inverseScaleFunc = d.inverseScaleFunc
  limits : (d.centroids = [] ∧ d.min = Fl.maxValue ∧ d.max = Fl.minValue ∧ d'.min = Fl.maxValue ∧ d'.max = Fl.minValue) ∨
    ∃ l u : K, d.min = .fin l ∧ d.max = .fin u ∧ d'.min = .fin (a * l + b) ∧ d'.max = .fin (a * u + b)

theorem Aff.eq_affine {d d' : TDigest K} (h : Aff a b P d d') (hne : d.centroids ≠ []) : d' = d.affine a b := by
  obtain ⟨h1, h2, h3, h4, h5 | ⟨l, u, h5, h6, h7, h8⟩⟩ := h
  · exact absurd h5.1 hne
  have e := CAff.eq_map h1
  obtain ⟨c', f', s', i', m', M'⟩ := d'
  simp only at e h2 h3 h4 h7 h8
  subst e h2 h3 h4 h7 h8
  simp [TDigest.affine, h5, h6, Fl.affine]

theorem Aff.wLimit {d d' : TDigest K} (h : Aff a b P d d') (n : Fl K) : d'.wLimit n = d.wLimit n := by
  funext w
  simp only [TDigest.wLimit, h.compressFactor, h.scaleFunc, h.inverseScaleFunc]

theorem forall₂_getLast {α β : Type} {R : α → β → Prop} : ∀ {l : List α} {l' : List β} (h : List.Forall₂ R l l') (h1 : l ≠ []) (h2 : l' ≠ []),
    R (l.getLast h1) (l'.getLast h2)
  | [a], [b], .cons h .nil, _, _ => h
  | a :: c :: l, b :: d :: l', .cons h (.cons h' hs), _, _ => by
    have := forall₂_getLast (List.Forall₂.cons h' hs) (List.cons_ne_nil _ _) (List.cons_ne_nil _ _)
    rwa [List.getLast_cons (List.cons_ne_nil c l), List.getLast_cons (List.cons_ne_nil d l')]

/-- Within the range of the format before and after. -/
def BothIn (a b : K) (c : Centroid K) : Prop := InRange c ∧ InRange (Centroid.affine a b c)

theorem Aff.mergeSorted [FloatFmt.Exact K] (ha : 0 < a) (hP : WPred P) {d d' : TDigest K} (h : Aff a b P d d') {cs cs' : List (Centroid K)}
    (hcs : List.Forall₂ (CAff a b P) cs cs') (hr : d.centroids = [] → ∀ c ∈ cs, BothIn a b c) :
    Aff a b P (d.mergeSorted cs) (d'.mergeSorted cs') := by
  cases hcs with
  | nil => exact h
  | @cons c c' cs cs' hc hcs =>
    have hl := forall₂_getLast (List.Forall₂.cons hc hcs) (by simp) (by simp)
    have hlm : (c :: cs).getLast (by simp) ∈ c :: cs := List.getLast_mem _
    obtain ⟨m, w, hw, rfl, rfl⟩ := hc
    have hn : TDigest.weightSum (⟨.fin (a * m + b), .fin w⟩ :: cs') = TDigest.weightSum (⟨.fin m, .fin w⟩ :: cs) :=
      CAff.weightSum (.cons ⟨m, w, hw, rfl, rfl⟩ hcs)
    have key : List.Forall₂ (CAff a b P) (d.mergeSorted (⟨.fin m, .fin w⟩ :: cs)).centroids
        (d'.mergeSorted (⟨.fin (a * m + b), .fin w⟩ :: cs')).centroids := by
      simp only [TDigest.mergeSorted, hn, h.wLimit, Fl.mul_exact]
      have := mergeLoop_aff (a := a) (b := b) hP (d.wLimit (TDigest.weightSum (⟨.fin m, .fin w⟩ :: cs))) (Fl.lit 0)
        (d.wLimit (TDigest.weightSum (⟨.fin m, .fin w⟩ :: cs)) (Fl.lit 0)) w (m * w) hw hcs
      convert this using 3
      ring
    refine ⟨key, h.compressFactor, h.scaleFunc, h.inverseScaleFunc, Or.inr ?_⟩
    simp only [TDigest.mergeSorted]
    generalize hz : (⟨.fin m, .fin w⟩ :: cs : List (Centroid K)).getLast (by simp) = z at hl hlm ⊢
    generalize hz' : (⟨.fin (a * m + b), .fin w⟩ :: cs' : List (Centroid K)).getLast (by simp) = z' at hl ⊢
    obtain ⟨mz, wz, -, rfl, rfl⟩ := hl
    rcases h.limits with ⟨he, h1, h2, h3, h4⟩ | ⟨l, u, h1, h2, h3, h4⟩
    · have r1 := hr he ⟨.fin m, .fin w⟩ (by simp)
      have r2 := hr he _ hlm
      simp only [BothIn, InRange, Centroid.affine, Fl.affine, Fl.maxValue, Fl.minValue, Fl.fin_le_fin] at r1 r2
      refine ⟨m, mz, ?_, ?_, ?_, ?_⟩
      · rw [h1, Fl.maxValue, Fl.fmin_fin, min_eq_right r1.1.2]
      · rw [h2, Fl.minValue, Fl.fmax_fin, max_eq_right r2.1.1]
      · rw [h3, Fl.maxValue, Fl.fmin_fin, min_eq_right r1.2.2]
      · rw [h4, Fl.minValue, Fl.fmax_fin, max_eq_right r2.2.1]
    · refine ⟨Min.min l m, Max.max u mz, ?_, ?_, ?_, ?_⟩
      · rw [h1, Fl.fmin_fin]
      · rw [h2, Fl.fmax_fin]
      · rw [h3, Fl.fmin_fin, affine_min ha]
      · rw [h4, Fl.fmax_fin, affine_max ha]

theorem Aff.addCentroidBuffer [FloatFmt.Exact K] (ha : 0 < a) (hP : WPred P) {d d' : TDigest K} (h : Aff a b P d d')
    {cs cs' : List (Centroid K)} (hcs : List.Forall₂ (CAff a b P) cs cs') (hr : ∀ c ∈ cs, BothIn a b c) :
    Rel (Aff a b P) (d.addCentroidBuffer cs) (d'.addCentroidBuffer cs') := by
  unfold TDigest.addCentroidBuffer
  have hs := rel_sortUnstable (f := Centroid.mean) (g := Centroid.mean) (Fl_lt_affine ha) (by
    rintro _ _ ⟨m, w, -, rfl, rfl⟩; rfl) (List.rel_append hcs h.centroids)
  have hm : Partially (sortUnstable Centroid.mean (cs ++ d.centroids)) (fun l => ∀ c ∈ l, c ∈ cs ++ d.centroids) :=
    (sortUnstable_partially _ _).mono (fun l hl c hc => hl.1.mem_iff.1 hc)
  refine rel_bind (rel_and_left hs hm) ?_
  rintro l l' ⟨hl, hl2⟩
  refine h.mergeSorted ha hP hl ?_
  intro he c hc
  have := hl2 c hc
  rw [he, List.append_nil] at this
  exact hr c this

theorem Aff.execOps [FloatFmt.Exact K] (ha : 0 < a) (hP : WPred P) : ∀ (ops : List (TOp K)) {d d' : TDigest K}, Aff a b P d d' →
    (∀ c ∈ supplied ops, Good c) → (∀ c ∈ supplied ops, P c.weight.toK) → (∀ c ∈ supplied ops, BothIn a b c) →
    Rel (Aff a b P) (d.execOps ops) (d'.execOps (ops.map (TOp.affine a b)))
  | [], d, d', h, _, _, _ => h
  | o :: os, d, d', h, hg, hp, hr => by
    have hm : ∀ c ∈ o.supplied, c ∈ supplied (o :: os) := fun c hc => by simp [supplied, hc]
    have hm' : ∀ c ∈ supplied os, c ∈ supplied (o :: os) := fun c hc => by
      rw [supplied, List.flatMap_cons]; exact List.mem_append_right _ hc
    refine rel_bind (R := Aff a b P) ?_ (fun e e' he => Aff.execOps ha hP os he (fun c hc => hg c (hm' c hc)) (fun c hc => hp c (hm' c hc))
      (fun c hc => hr c (hm' c hc)))
    have key := CAff.of_good (a := a) (b := b) (fun c hc => hg c (hm c hc)) (fun c hc => hp c (hm c hc))
    have := h.addCentroidBuffer ha hP key (fun c hc => hr c (hm c hc))
    cases o with
    | add x => simpa [TOp.exec, TOp.supplied, TOp.affine, TDigest.add, TDigest.unit, Centroid.affine] using this
    | addBuffer xs =>
      have e : (unit : Fl K → Centroid K) = fun x => ⟨x, .fin 1⟩ := by funext x; simp [unit]
      simpa [TOp.exec, TOp.supplied, TOp.affine, TDigest.addBuffer, e, Centroid.affine, Function.comp_def] using this
    | addCentroids cs => exact this

/-! ### Quantile queries -/

theorem between_aff [FloatFmt.Exact K] (ha : 0 < a) (x : K) (wsf total : Fl K) {c c' n n' : Centroid K} (hc : CAff a b P c c')
    (hn : CAff a b P n n') : between (.fin (a * x + b)) wsf total c' n' = between (.fin x) wsf total c n := by
  obtain ⟨m, w, -, rfl, rfl⟩ := hc
  obtain ⟨m', w', -, rfl, rfl⟩ := hn
  have e1 : a * m' + b - (a * m + b) = a * (m' - m) := by ring
  have e2 : a * x + b - (a * m + b) = a * (x - m) := by ring
  have e3 : ∀ D : K, D * (a * (x - m)) = a * (D * (x - m)) := fun D => by ring
  unfold between
  simp only [Fl.sub_exact, e1, e2, Fl.lit_exact, Fl.lt_fin, mul_pos_iff_of_pos_left ha]
  have two : (2 : K) ≠ 0 := two_ne_zero
  split
  · split
    · rfl
    · repeat' split
      all_goals simp only [Fl.add_exact, Fl.div_exact _ two, Fl.sub_exact, Fl.mul_exact, e3, div_scale ha]
  · rfl

theorem equalWeight_aff (ha : 0 < a) (x : K) : ∀ {cs cs' : List (Centroid K)} (dw : Fl K), List.Forall₂ (CAff a b P) cs cs' →
    equalWeight (.fin (a * x + b)) dw cs' = equalWeight (.fin x) dw cs
  | [], [], dw, _ => rfl
  | _ :: cs, _ :: cs', dw, .cons ⟨m, w, hw, rfl, rfl⟩ hcs => by
    unfold equalWeight
    simp only [Fl.feq_fin, affine_inj ha]
    split
    · exact equalWeight_aff ha x _ hcs
    · rfl

theorem quantileLoop_aff [FloatFmt.Exact K] (ha : 0 < a) (x : K) (total : Fl K) : ∀ {cs cs' : List (Centroid K)} (wsf : Fl K),
    List.Forall₂ (CAff a b P) cs cs' → quantileLoop (.fin (a * x + b)) total wsf cs' = quantileLoop (.fin x) total wsf cs
  | [], [], _, _ => rfl
  | [_], [_], _, .cons _ .nil => rfl
  | c :: n :: cs, c' :: n' :: cs', wsf, .cons hc (.cons hn hcs) => by
    have ih := quantileLoop_aff ha x total (wsf + c.weight) (List.Forall₂.cons hn hcs)
    have e1 := equalWeight_aff ha x (Fl.lit 0) (List.Forall₂.cons hc (List.Forall₂.cons hn hcs))
    have e2 := between_aff ha x wsf total hc hn
    have ew : c'.weight = c.weight := by obtain ⟨m, w, -, rfl, rfl⟩ := hc; rfl
    have em : Fl.feq c'.mean (.fin (a * x + b)) = Fl.feq c.mean (.fin x) := by
      obtain ⟨m, w, -, rfl, rfl⟩ := hc; simp only [Fl.feq_fin, affine_inj ha]
    have el : Fl.le c'.mean (.fin (a * x + b)) = Fl.le c.mean (.fin x) := by
      obtain ⟨m, w, -, rfl, rfl⟩ := hc; simp only [Fl.le_fin, affine_le ha]
    have en : Fl.lt (.fin (a * x + b)) n'.mean = Fl.lt (.fin x) n.mean := by
      obtain ⟨m, w, -, rfl, rfl⟩ := hn; simp only [Fl.lt_fin, affine_lt ha]
    unfold quantileLoop
    simp only [e1, e2, ew, em, el, en, ih]

theorem Aff.estQuantileAtValue [FloatFmt.Exact K] (ha : 0 < a) {d d' : TDigest K} (h : Aff a b P d d') (x : K) :
    d'.estQuantileAtValue (.fin (a * x + b)) = d.estQuantileAtValue (.fin x) := by
  obtain ⟨h1, -, -, -, h5⟩ := h
  have ht : d'.totalWeight = d.totalWeight := CAff.weightSum h1
  unfold TDigest.estQuantileAtValue
  generalize d.centroids = cs at h1 h5
  generalize d'.centroids = cs' at h1
  rcases h5 with ⟨rfl, -⟩ | ⟨l, u, e1, e2, e3, e4⟩
  · cases h1; rfl
  simp only [e1, e2, e3, e4, ht]
  have s1 : ∀ y z : K, a * y + b - (a * z + b) = a * (y - z) := fun y z => by ring
  match cs, cs', h1 with
  | [], [], _ => rfl
  | [_], [_], .cons ⟨m, w, hw, rfl, rfl⟩ .nil =>
    simp only [Fl.sub_exact, s1, Fl.lt_fin, Fl.le_fin, affine_lt ha, mul_le_mul_iff_right₀ ha, div_scale ha]
  | c :: n :: cs, c' :: n' :: cs', hcs =>
    have eq := quantileLoop_aff ha x d.totalWeight (Fl.lit 0) hcs
    have hl := forall₂_getLast hcs (List.cons_ne_nil _ _) (List.cons_ne_nil _ _)
    have hc : CAff a b P c c' := by cases hcs; assumption
    dsimp only
    rw [eq]
    generalize (c :: n :: cs).getLast (List.cons_ne_nil _ _) = z at hl ⊢
    generalize (c' :: n' :: cs').getLast (List.cons_ne_nil _ _) = z' at hl ⊢
    obtain ⟨mz, wz, -, rfl, rfl⟩ := hl
    generalize quantileLoop (Fl.fin x) d.totalWeight (Fl.lit 0) (c :: n :: cs) = r
    obtain ⟨m, w, hw, rfl, rfl⟩ := hc
    simp only [Fl.sub_exact, s1, Fl.lt_fin, Fl.le_fin, affine_lt ha, mul_pos_iff_of_pos_left ha, div_scale ha, Fl.feq_fin,
      affine_inj ha, Fl.lit_exact]

/-! ### Value queries -/

theorem weightedAverage_aff [FloorRing K] [FloatFmt.Exact K] (ha : 0 < a) {x1 x2 w1 w2 : K} (h : w1 + w2 ≠ 0) :
    ∃ v : K, weightedAverage (.fin x1 : Fl K) (.fin w1) (.fin x2) (.fin w2) = .fin v ∧
      weightedAverage (.fin (a * x1 + b) : Fl K) (.fin w1) (.fin (a * x2 + b)) (.fin w2) = .fin (a * v + b) := by
  have e : ((a * x1 + b) * w1 + (a * x2 + b) * w2) / (w1 + w2) = a * ((x1 * w1 + x2 * w2) / (w1 + w2)) + b := by
    field_simp
    ring
  simp only [weightedAverage, Fl.mul_exact, Fl.add_exact, Fl.div_exact _ h, Fl.fmax_fin, Fl.fmin_fin, e, affine_min ha, affine_max ha]
  exact ⟨_, rfl, rfl⟩

/-- A finite number and its image. -/
def VAff (a b : K) (v v' : Fl K) : Prop := v' = v.affine a b

/-- Optional numbers. -/
def OAff (a b : K) (o o' : Option (Fl K)) : Prop := o' = o.map (Fl.affine a b)

theorem valueLoop_aff [FloorRing K] [FloatFmt.Exact K] (ha : 0 < a) (h1 : ∀ w, P w → 1 ≤ w) {cs cs' : List (Centroid K)}
    (hcs : List.Forall₂ (CAff a b P) cs cs') (t : K) : ∀ (steps i : Nat) (cw : K),
    Rel (OAff a b) (valueLoop cs (.fin t) steps i (.fin cw)) (valueLoop cs' (.fin t) steps i (.fin cw))
  | 0, _, _ => rfl
  | steps + 1, i, cw => by
    unfold valueLoop
    refine rel_bind (rel_idx hcs i) ?_
    rintro c c' ⟨m, w, hw, rfl, rfl⟩
    refine rel_bind (rel_idx hcs (i + 1)) ?_
    rintro n n' ⟨m', w', hw', rfl, rfl⟩
    have two : (2 : K) ≠ 0 := two_ne_zero
    simp only [Fl.add_exact, Fl.lit_exact, Fl.div_exact _ two, Fl.sub_exact]
    split
    · split
      · rfl
      split
      · rfl
      rename_i c1 c2 c3
      have hz : cw + (w + w') / 2 - t - 1 / 2 + (t - cw - 1 / 2) ≠ 0 := by
        intro h0
        have b1 := h1 w hw
        have b2 := h1 w' hw'
        have e1 : w = 1 := by linarith
        have e2 : w' = 1 := by linarith
        subst e1 e2
        simp only [Fl.feq_fin, Fl.lt_fin, Fl.le_fin, decide_true, Bool.true_and, decide_eq_true_eq, not_lt, not_le] at c2 c3
        norm_num at c3
        linarith
      obtain ⟨v, hv, hv'⟩ := weightedAverage_aff (a := a) (b := b) (x1 := m) (x2 := m') ha hz
      rw [hv, hv']
      rfl
    · exact valueLoop_aff ha h1 hcs t steps (i + 1) _

theorem Aff.estValueAtQuantile [FloorRing K] [FloatFmt.Exact K] (ha : 0 < a) (hP : WPred P) (h1 : ∀ w, P w → 1 ≤ w) {d d' : TDigest K}
    (h : Aff a b P d d') (hne : d.centroids ≠ []) {n : K} (hn : d.totalWeight = .fin n) (q : K)
    (htail : a = 1 ∨ ∀ last ∈ d.centroids.getLast?, ¬ InLastTail n last.weight.toK q) :
    Rel (VAff a b) (d.estValueAtQuantile (.fin q)) (d'.estValueAtQuantile (.fin q)) := by
  obtain ⟨hcs, -, -, -, h5⟩ := h
  have ht : d'.totalWeight = .fin n := (CAff.weightSum hcs).trans hn
  obtain ⟨h5, -⟩ | ⟨l, u, e1, e2, e3, e4⟩ := h5
  · exact absurd h5 hne
  have two : (2 : K) ≠ 0 := two_ne_zero
  unfold TDigest.estValueAtQuantile
  simp only [ht, hn, e1, e2, e3, e4, Fl.mul_exact, Fl.lit_exact, Fl.sub_exact, Fl.lt_fin]
  split
  · rfl
  rename_i c1
  simp only [decide_eq_true_eq, not_lt] at c1
  refine rel_bind (rel_idx hcs 0) ?_
  rintro c c' ⟨m, w, hw, rfl, rfl⟩
  simp only [Fl.div_exact _ two, Fl.lt_fin, Fl.sub_exact]
  split
  · rename_i c2
    simp only [Bool.and_eq_true, decide_eq_true_eq] at c2
    have hz : w / 2 - 1 ≠ 0 := by have := c2.2; intro h0; linarith
    simp only [Fl.div_exact _ hz, Fl.mul_exact, Fl.add_exact]
    show Fl.fin _ = Fl.fin _
    congr 1
    ring
  split
  · rfl
  rename_i c2 c3
  simp only [decide_eq_true_eq, not_lt] at c3
  have hlast : Rel (fun x y => CAff a b P x y ∧ x ∈ d.centroids.getLast?) (unwrap d.centroids.getLast?) (unwrap d'.centroids.getLast?) := by
    refine rel_and_left (rel_getLast hcs) ?_
    cases d.centroids.getLast? with
    | none => exact trivial
    | some z => exact rfl
  refine rel_bind hlast ?_
  rintro z z' ⟨⟨mz, wz, hwz, rfl, rfl⟩, hmem⟩
  simp only [Fl.div_exact _ two, Fl.lt_fin, Fl.sub_exact, Fl.le_fin]
  split
  · rename_i c4
    simp only [Bool.and_eq_true, decide_eq_true_eq] at c4
    rcases htail with rfl | htail
    · show (_ : Fl K) = Fl.affine _ _ _
      generalize (Fl.fin (n - n * q - 1) / Fl.fin (wz / 2 - 1) : Fl K) = X
      cases X with
      | fin y =>
        simp only [Fl.sub_exact, Fl.affine]
        congr 1
        ring
      | _ => rfl
    · exact absurd ⟨by show n - wz / 2 ≤ n * q; linarith [c4.2], c3⟩ (htail _ hmem)
  · refine rel_bind (R := (· = ·)) (rel_refl (fun _ => rfl) _) ?_
    rintro steps _ rfl
    refine rel_bind (valueLoop_aff ha h1 hcs (n * q) steps 0 (w / 2)) ?_
    rintro o o' rfl
    cases o with
    | some v => rfl
    | none =>
      have hz : n * q - n - wz / 2 + (wz / 2 - (n * q - n - wz / 2)) ≠ 0 := by
        have := hP.pos _ hwz
        intro h0
        linarith
      obtain ⟨v, hv, hv'⟩ := weightedAverage_aff (a := a) (b := b) (x1 := mz) (x2 := u) ha hz
      show Rel _ (Prog.ret _) (Prog.ret _)
      rw [hv, hv']
      rfl

end TDigest
end
end AQ

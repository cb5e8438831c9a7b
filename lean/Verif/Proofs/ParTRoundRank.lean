/-
What a ParTDigest with `k0` keeps about ranks in rounding arithmetic.
-/
import Verif.Proofs.ParTRound
import Verif.Proofs.TDRoundValue
import Verif.Proofs.TDRoundSize
import Verif.Props.ParTDrift

set_option linter.unusedSectionVars false
set_option linter.unusedVariables false

namespace AQ
open Prog Spec
variable {K : Type} [Field K] [LinearOrder K] [IsStrictOrderedRing K] [FloatFmt K]

namespace TDigest

/-- `O` stands for the data `all` up to values moved by `s` and ranks moved by `E`. -/
def CloseTo (s E : K) (O all : List (Centroid K)) : Prop :=
  ∀ x : K, uw x O ≤ uw (x + s) all + E ∧ lw (x - s) all ≤ lw x O + E

theorem CloseTo.nil (s : K) : CloseTo s 0 [] ([] : List (Centroid K)) := fun x => by simp

theorem CloseTo.mono {s s' E E' : K} {O all : List (Centroid K)} (h : CloseTo s E O all) (hs : s ≤ s') (hE : E ≤ E') (hg : ∀ c ∈ all, Good c) :
    CloseTo s' E' O all := by
  intro x
  obtain ⟨h1, h2⟩ := h x
  have h3 := uw_mono (show x + s ≤ x + s' by linarith) hg
  have h4 := lw_mono (show x - s' ≤ x - s by linarith) hg
  constructor <;> linarith

theorem CloseTo.append {s E F : K} {a b sa sb : List (Centroid K)} (h1 : CloseTo s E a sa) (h2 : CloseTo s F b sb) : CloseTo s (E + F) (a ++ b) (sa ++ sb) := by
  intro x
  rw [uw_append, uw_append, lw_append, lw_append]
  obtain ⟨h3, h4⟩ := h1 x
  obtain ⟨h5, h6⟩ := h2 x
  constructor <;> linarith

theorem CloseTo.perm_left {s E : K} {a a' sa : List (Centroid K)} (h : CloseTo s E a sa) (hp : a'.Perm a) : CloseTo s E a' sa := by
  intro x
  rw [uw_perm x hp, lw_perm x hp]
  exact h x

theorem CloseTo.perm_right {s E : K} {a sa sa' : List (Centroid K)} (h : CloseTo s E a sa) (hp : sa'.Perm sa) : CloseTo s E a sa' := by
  intro x
  rw [uw_perm _ hp, lw_perm _ hp]
  exact h x

theorem CloseTo.trans {s t E F : K} {O S all : List (Centroid K)} (h1 : CloseTo s E O S) (h2 : CloseTo t F S all) : CloseTo (s + t) (E + F) O all := by
  intro x
  have h3 := (h1 x).1
  have h4 := (h1 x).2
  have h5 := (h2 (x + s)).1
  have h6 := (h2 (x - s)).2
  rw [show x + (s + t) = x + s + t by ring, show x - (s + t) = x - s - t by ring]
  constructor <;> linarith

/-- A run of weight one is a single centroid. -/
theorem single_of_weight : ∀ {r : List (Centroid K)}, (∀ c ∈ r, 1 ≤ c.weight.toK) → r ≠ [] → totalW r = 1 → ∃ c, r = [c]
  | [], _, h, _ => absurd rfl h
  | [c], _, _, _ => ⟨c, rfl⟩
  | c :: d :: r, h1, _, hw => by
    exfalso
    have h0 : ∀ l : List (Centroid K), (∀ c ∈ l, 1 ≤ c.weight.toK) → 0 ≤ totalW l := by
      intro l
      induction l with
      | nil => intro _; simp
      | cons a l ih =>
        intro h
        rw [totalW_cons]
        have := ih (fun c hc => h c (by simp [hc]))
        have := h a (by simp)
        linarith
    rw [totalW_cons, totalW_cons] at hw
    have h2 := h1 c (by simp)
    have h3 := h1 d (by simp)
    have h4 := h0 r (fun c hc => h1 c (by simp [hc]))
    linarith

/-- A merging pass moves ranks by at most the weight of a centroid that was merged. -/
theorem Runs.closeTo {κ M D : K} (hκ : 0 ≤ κ) (hD0 : 0 ≤ D) : ∀ {O S : List (Centroid K)}, Runs κ S O → (∀ c ∈ S, Good c) → (∀ c ∈ S, 1 ≤ c.weight.toK) →
    (∀ o ∈ O, o.weight.toK ≤ M) → (∀ o ∈ O, o.weight.toK = 1 ∨ o.weight.toK ≤ D) → CloseTo (κ * (M + 1)) D O S
  | [], S, h, hg, h1, _, _ => by
    obtain ⟨-, rs, rfl, hf⟩ := h
    cases hf
    intro x
    simpa using hD0
  | o :: O, S, h, hg, h1, hM, hD => by
    obtain ⟨r, S', rfl, hc, ht, hle⟩ := h.tail
    have hg' : ∀ c ∈ S', Good c := fun c hc => hg c (by simp [hc])
    have hgr : ∀ c ∈ r, Good c := fun c hc => hg c (by simp [hc])
    have hM' : ∀ o ∈ O, o.weight.toK ≤ M := fun o ho => hM o (by simp [ho])
    have ih := ht.closeTo hκ hD0 hg' (fun c hc => h1 c (by simp [hc])) hM' (fun o ho => hD o (by simp [ho]))
    have hMo := hM o (by simp)
    have hκM : κ * (o.weight.toK + 1) ≤ κ * (M + 1) := mul_le_mul_of_nonneg_left (by linarith) hκ
    have hw0 : 0 ≤ o.weight.toK := by
      rw [← hc.weight]
      have := lw_range (x := 0) hgr
      linarith [this.1, this.2]
    intro x
    obtain ⟨ih1, ih2⟩ := ih x
    rw [uw_cons, uw_append, lw_cons, lw_append]
    have ru := uw_range (x := x + κ * (M + 1)) hgr
    have rl := lw_range (x := x - κ * (M + 1)) hgr
    rw [hc.weight] at rl ru
    constructor
    · by_cases hex : ∃ o' ∈ O, o'.mean.toK ≤ x
      · obtain ⟨o', ho', hx⟩ := hex
        obtain ⟨⟨c, hcS, hcx⟩, -⟩ := ht.near_item hκ hM' o' ho'
        have hfull : uw (x + κ * (M + 1)) r = totalW r := uw_full (fun a ha => by have := hle a ha c hcS; linarith)
        rw [hfull, hc.weight]
        split <;> linarith
      · push Not at hex
        rw [uw_zero hex]
        have h0 := (uw_range (x := x + κ * (M + 1)) hg').1
        by_cases hx : o.mean.toK ≤ x
        · rw [if_pos hx]
          rcases hD o (by simp) with h | h
          · obtain ⟨c, rfl⟩ := single_of_weight (fun c hc => h1 c (by simp [List.mem_append, hc])) hc.ne (by rw [hc.weight, h])
            obtain ⟨c', hc', hcx⟩ := hc.lo
            rw [List.mem_singleton] at hc'
            subst hc'
            have hfull : uw (x + κ * (M + 1)) [c'] = totalW [c'] := uw_full (fun a ha => by
              rw [List.mem_singleton] at ha; subst ha; linarith)
            rw [hfull, hc.weight]
            linarith
          · linarith
        · rw [if_neg hx]; linarith
    · by_cases hx : o.mean.toK < x
      · rw [if_pos hx]; linarith
      · rw [if_neg hx]
        obtain ⟨c, hcr, hcx⟩ := hc.hi
        rw [not_lt] at hx
        have hz : lw (x - κ * (M + 1)) S' = 0 := lw_zero (fun a ha => by have := hle c hcr a ha; linarith)
        rcases hD o (by simp) with h | h
        · obtain ⟨d, rfl⟩ := single_of_weight (fun c hc => h1 c (by simp [List.mem_append, hc])) hc.ne (by rw [hc.weight, h])
          rw [List.mem_singleton] at hcr
          subst hcr
          have hz' : lw (x - κ * (M + 1)) [c] = 0 := lw_zero (fun a ha => by
            rw [List.mem_singleton] at ha; subst ha; linarith)
          linarith
        · have h0 : 0 ≤ lw x O := by
            have := ih2
            have : ∀ l : List (Centroid K), (∀ o ∈ l, 0 ≤ o.weight.toK) → 0 ≤ lw x l := by
              intro l
              induction l with
              | nil => intro _; simp
              | cons a l ih =>
                intro h
                rw [lw_cons]
                have := ih (fun o ho => h o (by simp [ho]))
                have := h a (by simp)
                split <;> linarith
            exact this O (fun o' ho' => Runs.lw_le.weight_nonneg ht hg' o' ho')
          linarith

/-- What the merging pass of `add_centroid_buffer` does to the data, whatever the limits of the digest. -/
theorem addCentroidBuffer_runs [FloatFmt.Mono K] {A B : K} {N : Nat} (R : Roomy N A B) {u η Rm X : K} (E : RelErr u η Rm) (hA : -X ≤ A) (hB : B ≤ X)
    (hXR : X * N ≤ Rm) (d : TDigest K) (b : List (Centroid K)) (hd : ∀ c ∈ d.centroids, Within A B c) (hb : ∀ c ∈ b, Within A B c)
    (hN : totalW (b ++ d.centroids) ≤ N) (hne : b ++ d.centroids ≠ []) :
    Always (d.addCentroidBuffer b) (fun d' => ∃ S, S.Perm (b ++ d.centroids) ∧ Runs (u * X + η) S d'.centroids ∧
      ∀ mn mx : K, d.min = .fin mn → d.max = .fin mx → ∀ c ∈ S, d'.min ≤ c.mean ∧ c.mean ≤ d'.max) := by
  have hX0 : 0 ≤ X := by have := R.range.2.1; linarith
  have hg : ∀ c ∈ b ++ d.centroids, Within A B c := by
    intro c hc
    rcases List.mem_append.1 hc with hc | hc
    · exact hb c hc
    · exact hd c hc
  unfold addCentroidBuffer
  rw [always_bind]
  refine (sortUnstable_spec Centroid.mean _ (fun c hc => (hg c hc).mean_ne_nan)).mono ?_
  rintro l ⟨h1, h2⟩
  cases l with
  | nil => exact absurd h1.nil_eq.symm hne
  | cons c cs =>
    have hl : ∀ a ∈ c :: cs, Within A B a := fun a ha => hg a (h1.mem_iff.1 ha)
    obtain ⟨m, w, hm, m1, m2, hw, w1⟩ := hl c (by simp)
    have hcs : ∀ a ∈ cs, Within A B a := fun a ha => hl a (by simp [ha])
    obtain ⟨n, hn, -⟩ := totalW_nat hcs
    have hcw : c.weight.toK = (w : K) := by rw [hw]; rfl
    have hcm : c.mean.toK = m := by rw [hm]; rfl
    have hN2 : (w : K) + totalW cs ≤ N := by
      rw [← hcw, ← totalW_cons, totalW_perm h1]; exact hN
    have hN' : w + n ≤ N := by rw [hn] at hN2; exact_mod_cast hN2
    have hwpos : (0 : K) ≤ w := by positivity
    obtain ⟨p, hp, p1, p2⟩ := rnd_between (x := m * w) (R.lo w (by omega)) (R.hi w (by omega))
      (mul_le_mul_of_nonneg_right m1 hwpos) (mul_le_mul_of_nonneg_right m2 hwpos)
    have eP : c.mean * c.weight = .fin p := by rw [hm, hw, Fl.mul_fin, hp]
    obtain ⟨q1, q2⟩ := abs_le.1 (prodErr E hA hB hXR hX0 w1 (by omega) m1 m2 hp)
    have hbase : u * X * w + η ≤ (u * X + η) * (w * w) := by
      have hw1 : (1 : K) ≤ w := by exact_mod_cast w1
      have e1 : (w : K) ≤ w * w := by nlinarith
      have e2 : (1 : K) ≤ w * w := by nlinarith
      have h3 := mul_le_mul_of_nonneg_left e1 (mul_nonneg E.u_nonneg hX0)
      have h4 := mul_le_mul_of_nonneg_left e2 E.eta_nonneg
      linarith
    obtain ⟨rs, hr, hf⟩ := mergeLoop_clusters R E hA hB hXR (d.wLimit (weightSum (c :: cs))) cs (Fl.lit 0) (d.wLimit (weightSum (c :: cs)) (Fl.lit 0))
      w p [c] (by simp) (by rw [totalW_cons, hcw, totalW_nil, add_zero]) w1 p1 p2 ⟨c, by simp, by rw [hcm]; linarith⟩
      ⟨c, by simp, by rw [hcm]; linarith⟩ hcs hN2
    have ecs : (d.mergeSorted (c :: cs)).centroids = mergeLoop (d.wLimit (weightSum (c :: cs))) (Fl.lit 0)
        (d.wLimit (weightSum (c :: cs)) (Fl.lit 0)) (.fin (w : K)) (.fin p) cs := by
      show mergeLoop _ _ _ c.weight (c.mean * c.weight) cs = _
      rw [eP, hw]
    rw [← ecs] at hf
    have hhead := head_le (l := c :: cs) (by simp) h2
    have hlast := le_getLast (l := c :: cs) (by simp) h2
    have hgl := hl _ (List.getLast_mem (l := c :: cs) (by simp))
    refine ⟨c :: cs, h1, ⟨?_, rs, hr, hf⟩, ?_⟩
    · refine h2.imp_of_mem ?_
      intro a a' ha ha' hle
      obtain ⟨ma, -, ea, -⟩ := hl a ha
      obtain ⟨ma', -, ea', -⟩ := hl a' ha'
      rw [ea, ea'] at hle ⊢
      exact Fl.fin_le_fin.1 hle
    · intro mn mx hmn hmx a ha
      show Fl.fmin d.min c.mean ≤ a.mean ∧ a.mean ≤ Fl.fmax d.max ((c :: cs).getLast (by simp)).mean
      rw [Fl.fmin_eq (by rw [hmn]; simp) (by rw [hm]; simp), Fl.fmax_eq (by rw [hmx]; simp) hgl.mean_ne_nan]
      exact ⟨(min_le_right _ _).trans (hhead a ha), (hlast a ha).trans (le_max_right _ _)⟩

/-- The limits of a digest do not influence what a merging pass does to the centroids. -/
theorem addCentroidBuffer_limits (d : TDigest K) (mn mx : Fl K) (b : List (Centroid K)) {P : TDigest K → Prop}
    (hP : ∀ d' a c, P d' → P { d' with min := a, max := c }) (h : Always (d.addCentroidBuffer b) P) :
    Always (({ d with min := mn, max := mx } : TDigest K).addCentroidBuffer b) P := by
  unfold addCentroidBuffer at *
  rw [always_bind] at *
  refine h.mono ?_
  intro l hl
  cases l with
  | nil => exact hP _ _ _ hl
  | cons c cs => exact hP (d.mergeSorted (c :: cs)) (Fl.fmin mn c.mean) (Fl.fmax mx ((c :: cs).getLast (by simp)).mean) hl

/-- The size and resolution of a digest after a merging pass, whatever its limits. -/
theorem addCentroidBuffer_k0Size' [FloatFmt.Mono K] {A B : K} {N : Nat} (R : Roomy N A B) {u η Rm δ M0 : K} (E : RelErr u η Rm) (hηu : η ≤ u)
    (hu : u ≤ 1 / 2 ^ 10) (hδ : 1 ≤ δ) (hR1 : 12 * δ ≤ Rm) (hR2 : 12 * (N : K) ≤ Rm) {d : TDigest K}
    (hd : ∀ c ∈ d.centroids, Within A B c) (hz : K0Size u δ M0 d (totalW d.centroids)) (b : List (Centroid K)) (hb : ∀ c ∈ b, Within A B c)
    (hbM : ∀ c ∈ b, c.weight ≤ .fin M0) (hN : totalW (d.centroids ++ b) ≤ N) :
    Always (d.addCentroidBuffer b) (fun d' => K0Size u δ M0 d' (totalW (d.centroids ++ b))) := by
  have hAB : A ≤ B := R.range.2.1
  obtain ⟨a, c, hr⟩ : ∃ a c : Fl K, RInv A B { d with min := a, max := c } d.centroids := by
    by_cases hne : d.centroids = []
    · exact ⟨.fin FloatFmt.maxVal, .fin (-FloatFmt.maxVal), hd, rfl, Iff.rfl, by rw [hne]; simp,
        ⟨⟨_, rfl, fun h => absurd hne h, fun _ => rfl⟩, ⟨_, rfl, fun h => absurd hne h, fun _ => rfl⟩⟩⟩
    · exact ⟨.fin A, .fin B, hd, rfl, Iff.rfl, fun c hc => by
        obtain ⟨m, w, hm, m1, m2, -⟩ := hd c hc
        rw [hm]
        exact ⟨Fl.fin_le_fin.2 m1, Fl.fin_le_fin.2 m2⟩, ⟨⟨A, rfl, fun _ => ⟨le_rfl, hAB⟩, fun h => absurd h hne⟩,
        ⟨B, rfl, fun _ => ⟨hAB, le_rfl⟩, fun h => absurd h hne⟩⟩⟩
  have h0 := addCentroidBuffer_k0Size R E hηu hu hδ hR1 hR2 hr ⟨hz.scale, hz.inv, hz.factor, hz.size, hz.weights⟩ hd b hb hbM hN
  exact addCentroidBuffer_limits { d with min := a, max := c } d.min d.max b
    (P := fun d' => K0Size u δ M0 d' (totalW (d.centroids ++ b))) (fun d' a c h => ⟨h.scale, h.inv, h.factor, h.size, h.weights⟩) h0

/-- An arithmetic in which a digest with `k0` and factor `δ` and data of magnitude up to `X` between `A` and `B` works. -/
structure K0Room (N : Nat) (A B u η Rm X δ : K) : Prop where
  roomy : Roomy N A B
  err : RelErr u η Rm
  eta : η ≤ u
  small : u ≤ 1 / 2 ^ 10
  factor : 1 ≤ δ
  R1 : 12 * δ ≤ Rm
  R2 : 12 * (N : K) ≤ Rm
  lo : -X ≤ A
  hi : B ≤ X
  XR : X * N ≤ Rm

theorem K0Room.X_nonneg {N : Nat} {A B u η Rm X δ : K} (H : K0Room N A B u η Rm X δ) : 0 ≤ X := by
  have := H.roomy.range.2.1
  have := H.lo
  have := H.hi
  linarith

theorem K0Room.shift_nonneg {N : Nat} {A B u η Rm X δ : K} (H : K0Room N A B u η Rm X δ) : 0 ≤ u * X + η :=
  add_nonneg (mul_nonneg H.err.u_nonneg H.X_nonneg) H.err.eta_nonneg

theorem K0Room.rate_nonneg {N : Nat} {A B u η Rm X δ : K} (H : K0Room N A B u η Rm X δ) : 0 ≤ 2 / δ + 40 * u := by
  have h1 := H.err.u_nonneg
  have h2 : 0 < δ := lt_of_lt_of_le one_pos H.factor
  positivity

theorem within_ge_one {A B : K} {c : Centroid K} (h : Within A B c) : 1 ≤ c.weight.toK := by
  obtain ⟨w, hw, w1⟩ := h.nat
  rw [hw]
  show (1 : K) ≤ w
  exact_mod_cast w1

/-- Weights that are one or at most `D`. -/
theorem K0Size.one_or {A B u δ : K} {d : TDigest K} {n : K} (h : K0Size u δ 1 d n) (hw : ∀ c ∈ d.centroids, Within A B c) :
    ∀ c ∈ d.centroids, c.weight.toK = 1 ∨ c.weight.toK ≤ n * (2 / δ + 40 * u) := by
  intro c hc
  obtain ⟨w, e, hle⟩ := h.weights c hc
  have h1 := within_ge_one (hw c hc)
  rw [e] at h1 ⊢
  rcases le_max_iff.1 hle with h | h
  · exact .inl (le_antisymm h h1)
  · exact .inr h

theorem K0Size.le {u δ : K} {d : TDigest K} {n M : K} (h : K0Size u δ 1 d n) (h1 : 1 ≤ M) (h2 : n * (2 / δ + 40 * u) ≤ M) :
    ∀ c ∈ d.centroids, c.weight.toK ≤ M := by
  intro c hc
  obtain ⟨w, e, hle⟩ := h.weights c hc
  rw [e]
  exact hle.trans (max_le h1 h2)

/-- A quantile query of a digest whose centroids stand for runs of `S`, which stands for the data `all`. -/
theorem closeTo_query [FloatFmt.Mono K] {A B : K} {N : Nat} (R : Roomy N A B) {u η Rm κ : K} (E : RelErr u η Rm) (hR1 : 1 ≤ Rm) (hκ : 0 ≤ κ)
    {d : TDigest K} (hcs : ∀ c ∈ d.centroids, Within A B c) (hne : d.centroids ≠ []) {all S : List (Centroid K)} (hall : ∀ c ∈ all, Good c)
    (hW : totalW d.centroids = totalW all) (hN : totalW all ≤ N) (hmin : ItemIn A B d.min) (hmax : ItemIn A B d.max) (hruns : Runs κ S d.centroids)
    (hgS : ∀ c ∈ S, Good c) (hlim : ∀ c ∈ S, d.min ≤ c.mean ∧ c.mean ≤ d.max) {s F M : K} (hF : 0 ≤ F) (hS : CloseTo s F S all)
    (hM : ∀ c ∈ d.centroids, c.weight.toK ≤ M) (x : K) :
    ∃ y : K, d.estQuantileAtValue (.fin x) = .ret (.fin y) ∧
      lw (x - (s + κ * (M + 1))) all ≤ y * totalW all + (F + 2 * M + 2 * (u + η) * totalW all) ∧
      y * totalW all ≤ uw (x + (s + κ * (M + 1))) all + (F + 2 * M + 2 * (u + η) * totalW all) := by
  have hM0 : 0 ≤ M := by
    obtain ⟨c, hc⟩ := List.exists_mem_of_ne_nil _ hne
    exact ((hcs c hc).good).weight_pos.le.trans (hM c hc)
  obtain ⟨a, ha, ha'⟩ := hmin
  obtain ⟨b, hb, hb'⟩ := hmax
  obtain ⟨y, hy, hloc⟩ := quantile_span R E hR1 hcs hne (by rw [hW]; exact hN) ha hb ha' hb' hM x
  rw [hW] at hloc
  have hW0 : 0 ≤ totalW all := by
    have := lw_range (x := 0) hall
    linarith [this.1, this.2]
  have hρ : 0 ≤ (u + η) * totalW all := mul_nonneg (add_nonneg E.u_nonneg E.eta_nonneg) hW0
  have he : 0 ≤ κ * (M + 1) := by positivity
  have hup := (hS (x + κ * (M + 1))).1
  have hdn := (hS (x - κ * (M + 1))).2
  rw [show x + κ * (M + 1) + s = x + (s + κ * (M + 1)) by ring] at hup
  rw [show x - κ * (M + 1) - s = x - (s + κ * (M + 1)) by ring] at hdn
  have htS : totalW S = totalW all := by rw [hruns.total, hW]
  have hlwT := lw_range (x := x - (s + κ * (M + 1))) hall
  have huwT := uw_range (x := x + (s + κ * (M + 1))) hall
  refine ⟨y, hy, ?_⟩
  rcases hloc with ⟨hxa, rfl⟩ | ⟨hbx, rfl⟩ | ⟨h1, h2⟩
  · have hz : lw (x - κ * (M + 1)) S = 0 := by
      refine lw_zero (fun c hc => ?_)
      have := (hlim c hc).1
      obtain ⟨⟨mc, emc⟩, -⟩ := hgS c hc
      rw [ha, emc, Fl.fin_le_fin] at this
      rw [emc]
      show x - κ * (M + 1) ≤ mc
      linarith
    constructor <;> linarith
  · have hf : uw (x + κ * (M + 1)) S = totalW S := by
      refine uw_full (fun c hc => ?_)
      have := (hlim c hc).2
      obtain ⟨⟨mc, emc⟩, -⟩ := hgS c hc
      rw [hb, emc, Fl.fin_le_fin] at this
      rw [emc]
      show mc ≤ x + κ * (M + 1)
      linarith
    constructor <;> linarith
  · rw [hW] at h1 h2
    constructor
    · rcases h2 with h2 | ⟨p, o, t, e1, e2, e3⟩
      · linarith
      · rw [e1] at hruns hM
        have := hruns.suffix_ge hκ hgS hM e2
        linarith
    · rcases h1 with h1 | ⟨p, o, t, e1, e2, e3⟩
      · linarith
      · rw [e1] at hruns hM
        have := hruns.prefix_le hκ hgS hM e2
        linarith

/-- A value query of such a digest, away from the outer half of the last centroid. -/
theorem closeTo_value [FloorRing K] [FloatFmt.Mono K] {A B : K} {N : Nat} (R : Roomy N A B) {u η Rm X : K} (E : RelErr u η Rm) (hu : u ≤ 1 / 2) (hA : -X ≤ A)
    (hB : B ≤ X) (hX : 8 * (X + η) ≤ Rm) (hNR : (N : K) ≤ Rm) (h64 : N < 2 ^ 64)
    {d : TDigest K} (hcs : ∀ c ∈ d.centroids, Within A B c) (hne : d.centroids ≠ []) {all S : List (Centroid K)} (hall : ∀ c ∈ all, Good c)
    (hW : totalW d.centroids = totalW all) (hN : totalW all ≤ N) (hmin : ItemIn A B d.min) (hmax : ItemIn A B d.max) (hruns : Runs (u * X + η) S d.centroids)
    (hgS : ∀ c ∈ S, Good c) (hlim : ∀ c ∈ S, d.min ≤ c.mean ∧ c.mean ≤ d.max) {s F M : K} (hF : 0 ≤ F) (hS : CloseTo s F S all)
    (hM : ∀ c ∈ d.centroids, c.weight.toK ≤ M) {q : K} (hq0 : 0 ≤ q) (hq1 : q ≤ 1)
    (htail : totalW all * q < totalW all - M / 2 - 2 * (u + η) * totalW all) :
    ∃ v : K, d.estValueAtQuantile (.fin q) = .ret (.fin v) ∧
      lw (v - (s + (u * X + η) * (M + 1) + 12 * (u * X + η))) all ≤ totalW all * q + (F + 2 * M + 2 * (u + η) * totalW all) ∧
      totalW all * q ≤ uw (v + (s + (u * X + η) * (M + 1) + 12 * (u * X + η))) all + (F + 2 * M + 2 * (u + η) * totalW all) := by
  have hM0 : 0 ≤ M := by
    obtain ⟨c, hc⟩ := List.exists_mem_of_ne_nil _ hne
    exact ((hcs c hc).good).weight_pos.le.trans (hM c hc)
  obtain ⟨a, ha, ha'⟩ := hmin
  obtain ⟨b, hb, hb'⟩ := hmax
  have hX0 : 0 ≤ X := by linarith [ha'.1, ha'.2]
  have hκ : 0 ≤ u * X + η := add_nonneg (mul_nonneg E.u_nonneg hX0) E.eta_nonneg
  obtain ⟨last, hlast⟩ : ∃ last, d.centroids.getLast? = some last := ⟨_, List.getLast?_eq_some_getLast hne⟩
  have hlm : last ∈ d.centroids := List.mem_of_getLast? hlast
  have hlM := hM last hlm
  obtain ⟨v, hv, hcase⟩ := value_span R E hu hA hB hX hNR h64 hcs hne (by rw [hW]; exact hN) ha hb ha' hM hq0 hq1 hlast rfl
    (by rw [hW]; rintro ⟨h1, -⟩; linarith)
  rw [hW] at hcase
  have hW0 : 0 ≤ totalW all := by
    have := lw_range (x := 0) hall
    linarith [this.1, this.2]
  have hρ : 0 ≤ (u + η) * totalW all := mul_nonneg (add_nonneg E.u_nonneg E.eta_nonneg) hW0
  have hT0 : 0 ≤ totalW all * q := mul_nonneg hW0 hq0
  have hT1 : totalW all * q ≤ totalW all := by
    calc totalW all * q ≤ totalW all * 1 := mul_le_mul_of_nonneg_left hq1 hW0
      _ = totalW all := mul_one _
  have he : 0 ≤ (u * X + η) * (M + 1) := by positivity
  have htS : totalW S = totalW all := by rw [hruns.total, hW]
  have hlwT := lw_range (x := v - (s + (u * X + η) * (M + 1) + 12 * (u * X + η))) hall
  have huwT := uw_range (x := v + (s + (u * X + η) * (M + 1) + 12 * (u * X + η))) hall
  have hup : ∀ v' : K, v' ≤ v + 12 * (u * X + η) → uw (v' + (u * X + η) * (M + 1)) S ≤ uw (v + (s + (u * X + η) * (M + 1) + 12 * (u * X + η))) all + F := by
    intro v' hv'
    refine (hS _).1.trans ?_
    have := uw_mono (show v' + (u * X + η) * (M + 1) + s ≤ v + (s + (u * X + η) * (M + 1) + 12 * (u * X + η)) by linarith) hall
    linarith
  have hdn : ∀ v' : K, v - 12 * (u * X + η) ≤ v' → lw (v - (s + (u * X + η) * (M + 1) + 12 * (u * X + η))) all ≤ lw (v' - (u * X + η) * (M + 1)) S + F := by
    intro v' hv'
    refine le_trans ?_ (hS _).2
    exact lw_mono (show v - (s + (u * X + η) * (M + 1) + 12 * (u * X + η)) ≤ v' - (u * X + η) * (M + 1) - s by linarith) hall
  refine ⟨v, hv, ?_⟩
  rcases hcase with ⟨h1, h2⟩ | ⟨rfl, h2⟩ | ⟨v', hv', h1, h2⟩
  · have hz : lw (v - 12 * (u * X + η) - (u * X + η) * (M + 1)) S = 0 := by
      refine lw_zero (fun c hc => ?_)
      have := (hlim c hc).1
      obtain ⟨⟨mc, emc⟩, -⟩ := hgS c hc
      rw [ha, emc, Fl.fin_le_fin] at this
      rw [emc]
      show _ ≤ mc
      linarith
    have := hdn (v - 12 * (u * X + η)) le_rfl
    constructor <;> linarith
  · have hf : uw (v + 12 * (u * X + η) + (u * X + η) * (M + 1)) S = totalW S := by
      refine uw_full (fun c hc => ?_)
      have := (hlim c hc).2
      obtain ⟨⟨mc, emc⟩, -⟩ := hgS c hc
      rw [hb, emc, Fl.fin_le_fin] at this
      rw [emc]
      show mc ≤ _
      linarith
    have := hup (v + 12 * (u * X + η)) le_rfl
    constructor <;> linarith
  · obtain ⟨v1, v2⟩ := abs_le.1 hv'
    have := hup v' (by linarith)
    have := hdn v' (by linarith)
    constructor
    · rcases h2 with h2 | ⟨p, o, t, e1, e2, e3⟩
      · linarith
      · rw [e1] at hruns hM
        have := hruns.suffix_ge hκ hgS hM e2
        linarith
    · rcases h1 with h1 | ⟨p, o, t, e1, e2, e3⟩
      · linarith
      · rw [e1] at hruns hM
        have := hruns.prefix_le hκ hgS hM e2
        linarith

end TDigest

namespace ParTDigest
open TDigest

/-- The chunk stage. -/
theorem chunkDigests_closeTo [FloatFmt.Mono K] {N : Nat} {A B u η Rm X δ M : K} (H : K0Room N A B u η Rm X δ) (hM1 : 1 ≤ M) :
    ∀ cs : List (List (Fl K)), (∀ c ∈ cs, ∀ x ∈ c, ItemIn A B x) → (∀ c ∈ cs, c ≠ []) → cs.flatten.length ≤ N →
    cs.flatten.length * (2 / δ + 40 * u) ≤ M →
    Always (chunkDigests (.ret (TDigest.new k0 invK0 (.fin δ))) cs) (fun ds =>
      (∀ c ∈ ds.flatMap TDigest.centroids, c.weight.toK ≤ Max.max 1 (cs.flatten.length * (2 / δ + 40 * u))) ∧
      CloseTo ((u * X + η) * (M + 1)) (cs.flatten.length * (2 / δ + 40 * u)) (ds.flatMap TDigest.centroids) (cs.flatten.map unit))
  | [], _, _, _, _ => ⟨by simp, by simpa using CloseTo.nil _⟩
  | c :: cs, h, hne, hN, hM => by
    have hρ := H.rate_nonneg
    unfold chunkDigests
    rw [bind_ret, always_bind]
    rw [List.flatten_cons, List.length_append] at hN
    have hlen : ((c :: cs).flatten.length : K) = c.length + cs.flatten.length := by
      rw [List.flatten_cons, List.length_append]; push_cast; rfl
    rw [hlen, add_mul] at hM
    have m1 : 0 ≤ (c.length : K) * (2 / δ + 40 * u) := by positivity
    have m2 : 0 ≤ (cs.flatten.length : K) * (2 / δ + 40 * u) := by positivity
    have hw : ∀ x ∈ c.map unit, Within A B x := by
      intro x hx
      obtain ⟨y, hy, rfl⟩ := List.mem_map.1 hx
      exact unit_within (h c (by simp) y hy)
    have ht : totalW (c.map unit) = (c.length : K) := totalW_units' c
    have hcN : (c.length : K) ≤ N := by exact_mod_cast (by omega : c.length ≤ N)
    have h2 := addCentroidBuffer_rinv H.roomy (new_rinv A B k0 invK0 (.fin δ)) (by simp) (c.map unit) hw (by
      rw [List.nil_append, ht]; exact hcN)
    have h3 := addCentroidBuffer_k0Size (M0 := 1) H.roomy H.err H.eta H.small H.factor H.R1 H.R2 (new_rinv A B k0 invK0 (.fin δ))
      (new_k0Size H.err.u_nonneg H.small H.factor) (by simp) (c.map unit) hw (by
        intro x hx
        obtain ⟨y, hy, rfl⟩ := List.mem_map.1 hx
        simp [unit, lit_one]) (by rw [List.nil_append, ht]; exact hcN)
    have e0 : c.map unit ++ (TDigest.new (k0 : ScaleFn K) invK0 (.fin δ)).centroids = c.map unit := by simp [TDigest.new]
    have h4 := addCentroidBuffer_runs H.roomy H.err H.lo H.hi H.XR (TDigest.new (k0 : ScaleFn K) invK0 (.fin δ)) (c.map unit) (by simp [TDigest.new]) hw
      (by rw [e0, ht]; exact hcN) (by rw [e0]; simpa using hne c (by simp))
    rw [List.nil_append] at h2 h3
    refine ((h2.and h3.partially).and h4.partially).mono ?_
    rintro d' ⟨⟨g2, g3⟩, S, hS, g4, -⟩
    rw [e0] at hS
    rw [ht] at g3
    have hSw : ∀ x ∈ S, Within A B x := fun x hx => hw x (hS.mem_iff.1 hx)
    have hdw := g3.le hM1 (M := M) (by linarith)
    have hc1 : CloseTo ((u * X + η) * (M + 1)) (c.length * (2 / δ + 40 * u)) d'.centroids (c.map unit) :=
      (g4.closeTo H.shift_nonneg m1 (fun x hx => (hSw x hx).good) (fun x hx => within_ge_one (hSw x hx)) hdw (g3.one_or g2.within)).perm_right hS.symm
    rw [always_bind]
    refine (chunkDigests_closeTo H hM1 cs (fun c' hc' => h c' (by simp [hc'])) (fun c' hc' => hne c' (by simp [hc'])) (by omega) (by linarith)).mono ?_
    rintro ds ⟨i1, i2⟩
    show _ ∧ _
    refine ⟨?_, ?_⟩
    · intro x hx
      rw [List.flatMap_cons] at hx
      rw [hlen, add_mul]
      rcases List.mem_append.1 hx with hx | hx
      · exact g3.le (le_max_left _ _) (le_max_of_le_right (by linarith)) x hx
      · exact (i1 x hx).trans (max_le_max le_rfl (by linarith))
    · rw [List.flatMap_cons, List.flatten_cons, List.map_append, ← List.flatten_cons, hlen, add_mul (c.length : K)]
      exact hc1.append i2

/-- What the inner digest knows about the items `fl` flushed into it. -/
structure RD (u η X δ M : K) (d : TDigest K) (fl : List (Fl K)) (s E : K) : Prop where
  size : K0Size u δ 1 d (fl.length : K)
  near : CloseTo s E d.centroids (fl.map unit)
  last : d.centroids ≠ [] → ∃ S s' E', Runs (u * X + η) S d.centroids ∧ (∀ c ∈ S, Good c) ∧ (∀ c ∈ S, d.min ≤ c.mean ∧ c.mean ≤ d.max) ∧
    CloseTo s' E' S (fl.map unit) ∧ s' + (u * X + η) * (M + 1) ≤ s ∧ E' ≤ E ∧ 0 ≤ E'

theorem new_rd {u η X δ M : K} (hu0 : 0 ≤ u) (hu : u ≤ 1 / 2 ^ 10) (hδ : 1 ≤ δ) : RD u η X δ M (TDigest.new k0 invK0 (.fin δ)) [] 0 0 :=
  ⟨by simpa using new_k0Size hu0 hu hδ, by simpa [TDigest.new] using CloseTo.nil 0, by simp [TDigest.new]⟩

theorem flush_rd [FloatFmt.Mono K] {N : Nat} {A B u η Rm X δ M : K} (H : K0Room N A B u η Rm X δ) (hM1 : 1 ≤ M) {p : ParTDigest K} {fl : List (Fl K)} {s E : K}
    (hc : p.creator = .ret (TDigest.new k0 invK0 (.fin δ))) (ht : p.threads ≠ 0) (h : PRInv A B p.digest fl.length) (hr : RD u η X δ M p.digest fl s E)
    (hs0 : 0 ≤ s) (hE0 : 0 ≤ E) (hfl : ∀ x ∈ fl, ItemIn A B x) (hb : ∀ x ∈ p.buffer, ItemIn A B x) (hbn : p.buffer ≠ []) (hN : (fl ++ p.buffer).length ≤ N)
    (hM : ((fl ++ p.buffer).length : K) * (2 / δ + 40 * u) ≤ M) :
    Always p.flush (fun p' => RD u η X δ M p'.digest (fl ++ p.buffer) (s + 2 * ((u * X + η) * (M + 1)))
      (E + p.buffer.length * (2 / δ + 40 * u) + (fl ++ p.buffer).length * (2 / δ + 40 * u))) := by
  have hρ := H.rate_nonneg
  have hκ := H.shift_nonneg
  have hκM : 0 ≤ (u * X + η) * (M + 1) := mul_nonneg hκ (by linarith)
  unfold flush
  rw [if_neg hbn]
  unfold chunks
  rw [if_neg ht, bind_ret, hc, always_bind]
  have hfl' := chunksAux_flatten p.threads ht p.buffer.length p.buffer (le_refl _)
  have hcne := chunksAux_ne_nil p.threads ht p.buffer.length p.buffer
  generalize chunksAux p.threads p.buffer.length p.buffer = cs at hfl' hcne
  have hcs : ∀ c ∈ cs, ∀ x ∈ c, ItemIn A B x := fun c hc x hx => hb x (by rw [← hfl']; exact List.mem_flatten.2 ⟨c, hc, hx⟩)
  have hlen : ((fl ++ p.buffer).length : K) = fl.length + p.buffer.length := by rw [List.length_append]; push_cast; rfl
  have hbufN : p.buffer.length ≤ N := by rw [List.length_append] at hN; omega
  have m0 : 0 ≤ (fl.length : K) * (2 / δ + 40 * u) := by positivity
  have m1 : 0 ≤ (p.buffer.length : K) * (2 / δ + 40 * u) := by positivity
  have m2 : 0 ≤ ((fl ++ p.buffer).length : K) * (2 / δ + 40 * u) := by positivity
  have hM' := hM
  rw [hlen, add_mul] at hM'
  refine ((chunkDigests_round H.roomy k0 invK0 (.fin δ) cs hcs (by rw [hfl']; exact hbufN)).and
    (chunkDigests_closeTo H hM1 cs hcs hcne (by rw [hfl']; exact hbufN) (by rw [hfl']; linarith)).partially).mono ?_
  rintro ds ⟨hds, hdM, hdC⟩
  have hW := chunk_totals_round ds cs hds
  rw [hfl'] at hW hdC hdM
  have hL := forall₂_left hds
  have hR := forall₂_right hds
  have hne1 : ∀ c ∈ cs, c.map unit ≠ [] := fun c hc => by simpa using hcne c hc
  have hdsne : ds ≠ [] := by
    obtain ⟨x, hx⟩ := List.exists_mem_of_ne_nil _ hbn
    rw [← hfl'] at hx
    obtain ⟨c, hc, hxc⟩ := List.mem_flatten.1 hx
    obtain ⟨d, hd, -⟩ := hR c hc
    exact List.ne_nil_of_mem hd
  have hin : ∀ d ∈ ds, ItemIn A B d.min ∧ ItemIn A B d.max := by
    intro d hd
    obtain ⟨c, hc, hi⟩ := hL d hd
    obtain ⟨⟨x, e1, a1, -⟩, ⟨y, e2, a2, -⟩⟩ := hi.range
    exact ⟨⟨x, e1, a1 (hne1 c hc)⟩, ⟨y, e2, a2 (hne1 c hc)⟩⟩
  have hnn : ∀ {x : Fl K}, ItemIn A B x → x ≠ .nan := by rintro x ⟨a, rfl, -⟩; simp
  obtain ⟨dmn, e1, p1, l1⟩ := minBy_spec TDigest.min ds hdsne (fun d hd => hnn (hin d hd).1)
  obtain ⟨dmx, e2, p2, l2⟩ := maxBy_spec TDigest.max ds hdsne (fun d hd => hnn (hin d hd).2)
  rw [e1, bind_ret, unwrap_some, bind_ret, e2, bind_ret, unwrap_some, bind_ret, always_bind]
  obtain ⟨mn, hmn, -⟩ := (hin _ p1).1
  obtain ⟨mx, hmx, -⟩ := (hin _ p2).2
  have hbw : ∀ c ∈ ds.flatMap TDigest.centroids, Within A B c := by
    intro c hc
    obtain ⟨d, hd, hcd⟩ := List.mem_flatMap.1 hc
    obtain ⟨ch, hch, hi⟩ := hL d hd
    exact hi.within c hcd
  have hbp : ds.flatMap TDigest.centroids ≠ [] := by
    intro h0
    rw [h0, totalW_nil] at hW
    have := List.length_pos_of_ne_nil hbn
    have : (0 : K) < (p.buffer.length : K) := by exact_mod_cast this
    linarith
  generalize hD : ds.flatMap TDigest.centroids = b at hW hdM hdC hbw hbp
  have htot : totalW (b ++ p.digest.centroids) = ((fl ++ p.buffer).length : K) := by
    rw [totalW_append, hW, h.weight, hlen]; ring
  have htot' : totalW (p.digest.centroids ++ b) = ((fl ++ p.buffer).length : K) := by
    rw [totalW_append, hW, h.weight, hlen]
  have hNK : ((fl ++ p.buffer).length : K) ≤ N := by exact_mod_cast hN
  have g1 := addCentroidBuffer_runs H.roomy H.err H.lo H.hi H.XR ({ p.digest with min := dmn.min, max := dmx.max } : TDigest K) b h.within hbw
    (by rw [htot]; exact hNK) (by simp [hbp])
  have hz : K0Size u δ (Max.max 1 (((fl ++ p.buffer).length : K) * (2 / δ + 40 * u))) ({ p.digest with min := dmn.min, max := dmx.max } : TDigest K)
      (totalW p.digest.centroids) := by
    refine ⟨hr.size.scale, hr.size.inv, hr.size.factor, hr.size.size, fun c hc => ?_⟩
    obtain ⟨w, hw, hle⟩ := hr.size.weights c hc
    refine ⟨w, hw, hle.trans (max_le ((le_max_left _ _).trans (le_max_left _ _)) (le_max_of_le_left (le_max_of_le_right ?_)))⟩
    rw [hlen, add_mul]
    linarith
  have hbM : ∀ c ∈ b, c.weight ≤ .fin (Max.max 1 (((fl ++ p.buffer).length : K) * (2 / δ + 40 * u))) := by
    intro c hc
    obtain ⟨w, hw, -⟩ := (hbw c hc).nat
    have := hdM c hc
    rw [hw] at this ⊢
    rw [hlen, add_mul]
    exact Fl.fin_le_fin.2 (this.trans (max_le_max le_rfl (by linarith)))
  have g2 := addCentroidBuffer_k0Size' H.roomy H.err H.eta H.small H.factor H.R1 H.R2 (d := { p.digest with min := dmn.min, max := dmx.max })
    h.within hz b hbw hbM (by rw [htot']; exact hNK)
  have g3 := addCentroidBuffer_round H.roomy ({ p.digest with min := dmn.min, max := dmx.max } : TDigest K) b h.within hbw (by simp [hbp])
    (by rw [htot]; exact hNK) hmn hmx
  refine ((g1.and g2.partially).and g3.partially).mono ?_
  rintro d' ⟨⟨⟨S, hS, k1, k2⟩, k3⟩, k4, -⟩
  simp only [htot'] at k3
  have hsz : K0Size u δ 1 d' ((fl ++ p.buffer).length : K) := by
    refine ⟨k3.scale, k3.inv, k3.factor, k3.size, fun c hc => ?_⟩
    obtain ⟨w, hw, hle⟩ := k3.weights c hc
    exact ⟨w, hw, hle.trans (max_le le_rfl (le_max_right _ _))⟩
  have hSw : ∀ x ∈ S, Within A B x := by
    intro x hx
    rcases List.mem_append.1 (hS.mem_iff.1 hx) with hx | hx
    · exact hbw x hx
    · exact h.within x hx
  have hgfl : ∀ c ∈ fl.map unit, Good c := by
    intro c hc
    obtain ⟨y, hy, rfl⟩ := List.mem_map.1 hc
    exact (unit_within (hfl y hy)).good
  have hgb : ∀ c ∈ p.buffer.map unit, Good c := by
    intro c hc
    obtain ⟨y, hy, rfl⟩ := List.mem_map.1 hc
    exact (unit_within (hb y hy)).good
  have hSC : CloseTo (s + (u * X + η) * (M + 1)) (E + p.buffer.length * (2 / δ + 40 * u)) S ((fl ++ p.buffer).map unit) := by
    have q1 := hr.near.mono (s' := s + (u * X + η) * (M + 1)) (by linarith) le_rfl hgfl
    have q2 := hdC.mono (s' := s + (u * X + η) * (M + 1)) (by linarith) le_rfl hgb
    rw [List.map_append]
    exact (q1.append q2).perm_left (hS.trans List.perm_append_comm)
  have hpass := k1.closeTo hκ m2 (fun x hx => (hSw x hx).good) (fun x hx => within_ge_one (hSw x hx)) (hsz.le hM1 hM) (hsz.one_or k4)
  show RD u η X δ M d' (fl ++ p.buffer) _ _
  refine ⟨hsz, ?_, fun _ => ⟨S, _, _, k1, fun x hx => (hSw x hx).good, k2 mn mx hmn hmx, hSC, ?_, ?_, ?_⟩⟩
  · have := hpass.trans hSC
    refine this.mono (by linarith) (by linarith) ?_
    intro c hc
    rw [List.map_append] at hc
    rcases List.mem_append.1 hc with hc | hc
    · exact hgfl c hc
    · exact hgb c hc
  · linarith
  · linarith
  · linarith

section
variable [FloorRing K]

/-- The state after a history that supplied `sup` and made `q` flushing calls. -/
def RDHist (u η X δ M : K) (c : Nat) (p : ParTDigest K) (sup : List (Fl K)) (q : Nat) : Prop :=
  ∃ (fl : List (Fl K)) (F : Nat), sup = fl ++ p.buffer ∧
    RD u η X δ M p.digest fl (F * (2 * ((u * X + η) * (M + 1)))) (fl.length * (2 / δ + 40 * u) * (1 + F)) ∧ F * (c + 1) ≤ q * (c + 1) + fl.length

theorem flush_rdhist [FloatFmt.Mono K] {N : Nat} {A B u η Rm X δ M : K} (H : K0Room N A B u η Rm X δ) (hM1 : 1 ≤ M) {t c : Nat} (ht : t ≠ 0) {p : ParTDigest K}
    {fl : List (Fl K)} {F q : Nat} (h : PRInv A B p.digest fl.length) (hfl : ∀ x ∈ fl, ItemIn A B x) (hb : ∀ x ∈ p.buffer, ItemIn A B x) (e1 : p.threads = t)
    (e3 : p.creator = .ret (TDigest.new k0 invK0 (.fin δ)))
    (hd : RD u η X δ M p.digest fl (F * (2 * ((u * X + η) * (M + 1)))) (fl.length * (2 / δ + 40 * u) * (1 + F)))
    (hF : (F + 1) * (c + 1) ≤ q * (c + 1) + (fl ++ p.buffer).length) (hN : (fl ++ p.buffer).length ≤ N)
    (hM : ((fl ++ p.buffer).length : K) * (2 / δ + 40 * u) ≤ M) :
    Partially p.flush (fun p' => RDHist u η X δ M c p' (fl ++ p.buffer) q) := by
  have hρ := H.rate_nonneg
  have hκM : 0 ≤ (u * X + η) * (M + 1) := mul_nonneg H.shift_nonneg (by linarith)
  by_cases hbn : p.buffer = []
  · unfold flush
    rw [if_pos hbn]
    refine ⟨fl, F, rfl, hd, ?_⟩
    rw [hbn, List.append_nil] at hF
    exact le_trans (Nat.mul_le_mul_right _ (Nat.le_succ F)) hF
  · have h1 := flush_rd H hM1 e3 (by rw [e1]; exact ht) h hd (by positivity) (by positivity) hfl hb hbn hN hM
    refine (h1.partially.and (flush_buffer p)).mono ?_
    rintro p' ⟨h2, h3⟩
    refine ⟨fl ++ p.buffer, F + 1, by rw [h3, List.append_nil], ?_, hF⟩
    have hlen : ((fl ++ p.buffer).length : K) = fl.length + p.buffer.length := by rw [List.length_append]; push_cast; rfl
    have es : (F : K) * (2 * ((u * X + η) * (M + 1))) + 2 * ((u * X + η) * (M + 1)) = ((F + 1 : ℕ) : K) * (2 * ((u * X + η) * (M + 1))) := by
      push_cast; ring
    have hE : (fl.length : K) * (2 / δ + 40 * u) * (1 + F) + p.buffer.length * (2 / δ + 40 * u) + (fl ++ p.buffer).length * (2 / δ + 40 * u) ≤
        (fl ++ p.buffer).length * (2 / δ + 40 * u) * (1 + ((F + 1 : ℕ) : K)) := by
      rw [hlen]
      push_cast
      have : 0 ≤ (p.buffer.length : K) * (2 / δ + 40 * u) * F := by positivity
      nlinarith
    rw [es] at h2
    refine ⟨h2.size, h2.near.mono le_rfl hE ?_, fun hne => ?_⟩
    · intro c hc
      rw [List.map_append] at hc
      rcases List.mem_append.1 hc with hc | hc
      · obtain ⟨y, hy, rfl⟩ := List.mem_map.1 hc
        exact (unit_within (hfl y hy)).good
      · obtain ⟨y, hy, rfl⟩ := List.mem_map.1 hc
        exact (unit_within (hb y hy)).good
    · obtain ⟨S, s', E', k1, k2, k3, k4, k5, k6, k7⟩ := h2.last hne
      exact ⟨S, s', E', k1, k2, k3, k4, k5, k6.trans hE, k7⟩

theorem exec_rdhist [FloatFmt.Mono K] {N : Nat} {A B u η Rm X δ M : K} (H : K0Room N A B u η Rm X δ) (hM1 : 1 ≤ M) {t c : Nat} (ht : t ≠ 0) {p : ParTDigest K}
    {sup : List (Fl K)} {q : Nat} (h : RHInv A B k0 invK0 (.fin δ) t c p sup.length) (hd : RDHist u η X δ M c p sup q) (hsup : ∀ x ∈ sup, ItemIn A B x)
    (o : Op (Fl K)) (ho : OpIn A B o) (hN : (sup ++ o.items).length ≤ N) (hM : ((sup ++ o.items).length : K) * (2 / δ + 40 * u) ≤ M) :
    Partially (o.exec p) (fun p' => RDHist u η X δ M c p' (sup ++ o.items) (q + queriesIn [o])) := by
  obtain ⟨n, e0, h1, h2, h3, e1, e2, e3⟩ := h
  obtain ⟨fl, F, e0', d1, d2⟩ := hd
  obtain rfl : n = fl.length := by
    rw [e0', List.length_append] at e0
    omega
  have hfl : ∀ x ∈ fl, ItemIn A B x := fun x hx => hsup x (by rw [e0']; simp [hx])
  have hins : ∀ xs : List (Fl K), (∀ x ∈ xs, ItemIn A B x) → (sup ++ xs).length ≤ N → ((sup ++ xs).length : K) * (2 / δ + 40 * u) ≤ M →
      Partially (flushIfFull { p with buffer := p.buffer ++ xs }) (fun p' => RDHist u η X δ M c p' (sup ++ xs) q) := by
    intro xs hxs hN hM
    have hb : ∀ x ∈ p.buffer ++ xs, ItemIn A B x := by
      intro x hx
      rcases List.mem_append.1 hx with hx | hx
      · exact h2 x hx
      · exact hxs x hx
    unfold flushIfFull
    split
    · next hlt =>
      simp only [e2] at hlt
      rw [e0', List.append_assoc] at hN hM ⊢
      refine flush_rdhist (p := { p with buffer := p.buffer ++ xs }) H hM1 ht h1 hfl hb e1 e3 d1 ?_ hN hM
      rw [List.length_append]
      nlinarith
    · exact ⟨fl, F, by rw [e0', List.append_assoc], d1, d2⟩
  cases o with
  | add x => exact hins [x] (by intro y hy; rw [List.mem_singleton] at hy; subst hy; exact ho) hN hM
  | addBuffer xs => exact hins xs ho hN hM
  | quantile v =>
    simp only [Op.exec, Op.items, List.append_nil] at hN hM ⊢
    rw [partially_bind]
    show Partially (estQuantileAtValue p v) _
    unfold estQuantileAtValue
    rw [partially_bind]
    have := flush_rdhist (q := q + 1) (c := c) H hM1 ht h1 hfl h2 e1 e3 d1 (by rw [List.length_append]; nlinarith) (by rw [← e0']; exact hN)
      (by rw [← e0']; exact hM)
    rw [← e0'] at this
    refine this.mono (fun p' h' => ?_)
    rw [partially_bind]
    exact (partially_true _).mono (fun _ _ => h')
  | value v =>
    simp only [Op.exec, Op.items, List.append_nil] at hN hM ⊢
    rw [partially_bind]
    show Partially (estValueAtQuantile p v) _
    unfold estValueAtQuantile
    rw [partially_bind]
    have := flush_rdhist (q := q + 1) (c := c) H hM1 ht h1 hfl h2 e1 e3 d1 (by rw [List.length_append]; nlinarith) (by rw [← e0']; exact hN)
      (by rw [← e0']; exact hM)
    rw [← e0'] at this
    refine this.mono (fun p' h' => ?_)
    rw [partially_bind]
    exact (partially_true _).mono (fun _ _ => h')

theorem items_in {A B : K} : ∀ {o : Op (Fl K)}, OpIn A B o → ∀ x ∈ o.items, ItemIn A B x := by
  intro o ho x hx
  cases o with
  | add z => simp only [Op.items, List.mem_singleton] at hx; subst hx; exact ho
  | addBuffer zs => exact ho x hx
  | quantile v => simp [Op.items] at hx
  | value v => simp [Op.items] at hx

theorem execAll_rdhist [FloatFmt.Mono K] {N : Nat} {A B u η Rm X δ M : K} (H : K0Room N A B u η Rm X δ) (hM1 : 1 ≤ M) (h64 : N < 2 ^ 64) {t c : Nat} (ht : t ≠ 0) :
    ∀ (ops : List (Op (Fl K))) (p : ParTDigest K) (sup : List (Fl K)) (q : Nat), RHInv A B k0 invK0 (.fin δ) t c p sup.length →
    RDHist u η X δ M c p sup q → (∀ x ∈ sup, ItemIn A B x) → (∀ o ∈ ops, OpIn A B o) → (sup ++ itemsOf ops).length ≤ N →
    ((sup ++ itemsOf ops).length : K) * (2 / δ + 40 * u) ≤ M →
    Always (execAll p ops) (fun p' => RHInv A B k0 invK0 (.fin δ) t c p' (sup ++ itemsOf ops).length ∧
      RDHist u η X δ M c p' (sup ++ itemsOf ops) (q + queriesIn ops))
  | [], p, sup, q, h, hd, _, _, _, _ => by
    show _ ∧ _
    simpa [itemsOf, queriesIn] using And.intro h hd
  | o :: os, p, sup, q, h, hd, hsup, ho, hN, hM => by
    have hρ := H.rate_nonneg
    have e : sup ++ itemsOf (o :: os) = (sup ++ o.items) ++ itemsOf os := by
      simp [itemsOf, List.flatMap_cons, List.append_assoc]
    have e' : q + queriesIn (o :: os) = (q + queriesIn [o]) + queriesIn os := by
      unfold queriesIn
      rw [List.countP_cons, List.countP_singleton]
      omega
    rw [e] at hN hM ⊢
    rw [e']
    have hle : (sup ++ o.items).length ≤ (sup ++ o.items ++ itemsOf os).length := by simp only [List.length_append]; omega
    have hle' : ((sup ++ o.items).length : K) * (2 / δ + 40 * u) ≤ ((sup ++ o.items ++ itemsOf os).length : K) * (2 / δ + 40 * u) :=
      mul_le_mul_of_nonneg_right (by exact_mod_cast hle) hρ
    have hi := items_in (ho o (by simp))
    unfold execAll
    rw [always_bind]
    refine ((exec_rhinv H.roomy h64 ht h o (ho o (by simp)) (by rw [← List.length_append]; omega)).and
      (exec_rdhist H hM1 ht h hd hsup o (ho o (by simp)) (by omega) (hle'.trans hM))).mono ?_
    rintro p' ⟨h1, h2⟩
    rw [← List.length_append] at h1
    exact execAll_rdhist H hM1 h64 ht os p' _ _ h1 h2 (by
      intro x hx
      rcases List.mem_append.1 hx with hx | hx
      · exact hsup x hx
      · exact hi x hx) (fun o' ho' => ho o' (by simp [ho'])) hN hM

end
end ParTDigest
end AQ

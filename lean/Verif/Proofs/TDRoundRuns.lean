/-
What one merge pass does to the data in rounding arithmetic: every new centroid stands for a run of the sorted buffer, and its mean lies
within the run up to the rounding error of the sum.
-/
import Verif.Proofs.TDRound
import Verif.Proofs.TDDrift
import Verif.Proofs.F64Error

set_option linter.unusedSectionVars false
set_option linter.unusedVariables false

namespace AQ
open Prog Spec
variable {K : Type} [Field K] [LinearOrder K] [IsStrictOrderedRing K] [FloatFmt K]

namespace TDigest

/-- Centroid `o` stands for the run `r`: it has its weight, and its mean is neither above nor below all of the run by more than `κ` times its
weight plus one. -/
structure ClusterOf (κ : K) (r : List (Centroid K)) (o : Centroid K) : Prop where
  ne : r ≠ []
  weight : totalW r = o.weight.toK
  lo : ∃ c ∈ r, c.mean.toK ≤ o.mean.toK + κ * (o.weight.toK + 1)
  hi : ∃ c ∈ r, o.mean.toK ≤ c.mean.toK + κ * (o.weight.toK + 1)

/-- Division of the sum by the weight. -/
theorem closeRun {u η Rm X : K} (E : RelErr u η Rm) {A B : K} {N : Nat} (hA : -X ≤ A) (hB : B ≤ X) (hXR : X * N ≤ Rm) {pre : List (Centroid K)} {mw : Nat} {ms : K}
    (hmwN : mw ≤ N) (hX0 : 0 ≤ X) (hne : pre ≠ []) (hw : totalW pre = mw) (h1 : 1 ≤ mw) (hA2 : A * mw ≤ ms) (hB2 : ms ≤ B * mw)
    (hlo : ∃ c ∈ pre, c.mean.toK * mw - (u * X + η) * (mw * mw) ≤ ms) (hhi : ∃ c ∈ pre, ms ≤ c.mean.toK * mw + (u * X + η) * (mw * mw)) :
    ClusterOf (u * X + η) pre ⟨.fin ms / .fin (mw : K), .fin (mw : K)⟩ := by
  have hpos : (0 : K) < mw := by exact_mod_cast h1
  have hm1 : (1 : K) ≤ mw := by exact_mod_cast h1
  have hNK : (mw : K) ≤ N := by exact_mod_cast hmwN
  have a1 : A ≤ ms / mw := (le_div_iff₀ hpos).2 hA2
  have a2 : ms / mw ≤ B := (div_le_iff₀ hpos).2 hB2
  have ha : |ms / mw| ≤ X := abs_le.2 ⟨by linarith, by linarith⟩
  have hXN : X ≤ X * N := le_mul_of_one_le_right hX0 (hm1.trans hNK)
  obtain ⟨y, hy, ey⟩ := E.near (ms / mw) (ha.trans (hXN.trans hXR))
  have ey' : |y - ms / mw| ≤ u * X + η := ey.trans (by have := mul_le_mul_of_nonneg_left ha E.u_nonneg; linarith)
  obtain ⟨e1, e2⟩ := abs_le.1 ey'
  have hq : .fin ms / .fin (mw : K) = (.fin y : Fl K) := by rw [Fl.div_fin_of_ne _ hpos.ne', hy]
  rw [hq]
  refine ⟨hne, hw, ?_, ?_⟩
  · obtain ⟨c, hc, h⟩ := hlo
    refine ⟨c, hc, ?_⟩
    show c.mean.toK ≤ y + (u * X + η) * ((mw : K) + 1)
    have : c.mean.toK - (u * X + η) * mw ≤ ms / mw := by
      rw [le_div_iff₀ hpos]
      calc (c.mean.toK - (u * X + η) * mw) * mw = c.mean.toK * mw - (u * X + η) * (mw * mw) := by ring
        _ ≤ ms := h
    linarith
  · obtain ⟨c, hc, h⟩ := hhi
    refine ⟨c, hc, ?_⟩
    show y ≤ c.mean.toK + (u * X + η) * ((mw : K) + 1)
    have : ms / mw ≤ c.mean.toK + (u * X + η) * mw := by
      rw [div_le_iff₀ hpos]
      calc ms ≤ c.mean.toK * mw + (u * X + η) * (mw * mw) := h
        _ = (c.mean.toK + (u * X + η) * mw) * mw := by ring
    linarith

/-- The product of mean and weight. -/
theorem prodErr {u η Rm X : K} (E : RelErr u η Rm) {A B : K} {N : Nat} (hA : -X ≤ A) (hB : B ≤ X) (hXR : X * N ≤ Rm) {m p : K} {w : Nat} (hX0 : 0 ≤ X)
    (w1 : 1 ≤ w) (hwN : w ≤ N) (m1 : A ≤ m) (m2 : m ≤ B) (hp : FloatFmt.rnd (m * w) = .fin p) : |p - m * w| ≤ u * X * w + η := by
  have hw0 : (0 : K) ≤ w := by positivity
  have hm : |m| ≤ X := abs_le.2 ⟨by linarith, by linarith⟩
  have ha : |m * w| ≤ X * w := by
    rw [abs_mul, abs_of_nonneg hw0]
    exact mul_le_mul_of_nonneg_right hm hw0
  have hNK : (w : K) ≤ N := by exact_mod_cast hwN
  obtain ⟨y, hy, ey⟩ := E.near (m * w) (ha.trans ((mul_le_mul_of_nonneg_left hNK hX0).trans hXR))
  rw [hp] at hy
  have : p = y := by injection hy
  rw [this]
  refine ey.trans ?_
  have := mul_le_mul_of_nonneg_left ha E.u_nonneg
  linarith

theorem sq_step {κ u X η t w : K} (hκ : κ = u * X + η) (huX : 0 ≤ u * X) (hη : 0 ≤ η) (ht : 1 ≤ t) (hw : 1 ≤ w) :
    κ * (t * t) + (u * X * w + η) + (u * X * (t + w) + η) ≤ κ * ((t + w) * (t + w)) := by
  have h1 : t + 2 * w ≤ 2 * t * w + w * w := by nlinarith [mul_nonneg (sub_nonneg.2 ht) (sub_nonneg.2 hw)]
  have h2 : 2 ≤ 2 * t * w + w * w := by linarith
  have h3 := mul_le_mul_of_nonneg_left h1 huX
  have h4 := mul_le_mul_of_nonneg_left h2 hη
  have e : κ * ((t + w) * (t + w)) = κ * (t * t) + (u * X * (2 * t * w + w * w) + η * (2 * t * w + w * w)) := by rw [hκ]; ring
  rw [e]
  linarith

/-- The merge loop cuts the buffer into runs. -/
theorem mergeLoop_clusters [FloatFmt.Mono K] {A B : K} {N : Nat} (R : Roomy N A B) {u η Rm X : K} (E : RelErr u η Rm) (hA : -X ≤ A) (hB : B ≤ X)
    (hXR : X * N ≤ Rm) (limit : Fl K → Fl K) :
    ∀ (cs : List (Centroid K)) (w0 wl : Fl K) (mw : Nat) (ms : K) (pre : List (Centroid K)), pre ≠ [] → totalW pre = mw → 1 ≤ mw → A * mw ≤ ms → ms ≤ B * mw →
      (∃ c ∈ pre, c.mean.toK * mw - (u * X + η) * (mw * mw) ≤ ms) → (∃ c ∈ pre, ms ≤ c.mean.toK * mw + (u * X + η) * (mw * mw)) →
      (∀ c ∈ cs, Within A B c) → (mw : K) + totalW cs ≤ N →
      ∃ runs : List (List (Centroid K)), runs.flatten = pre ++ cs ∧
        List.Forall₂ (ClusterOf (u * X + η)) runs (mergeLoop limit w0 wl (.fin (mw : K)) (.fin ms) cs)
  | [], w0, wl, mw, ms, pre, hne, hw, h1, hA2, hB2, hlo, hhi, _, hN => by
    rw [totalW_nil, add_zero] at hN
    have hX0 : 0 ≤ X := by have := R.range.2.1; linarith
    refine ⟨[pre], by simp, ?_⟩
    unfold mergeLoop
    exact .cons (closeRun E hA hB hXR (by exact_mod_cast hN) hX0 hne hw h1 hA2 hB2 hlo hhi) .nil
  | c :: cs, w0, wl, mw, ms, pre, hne, hw, h1, hA2, hB2, hlo, hhi, hcs, hN => by
    have hX0 : 0 ≤ X := by have := R.range.2.1; linarith
    have hcs' : ∀ d ∈ cs, Within A B d := fun d hd => hcs d (by simp [hd])
    obtain ⟨m, w, hm, m1, m2, hcw0, w1⟩ := hcs c (by simp)
    obtain ⟨n, hn, -⟩ := totalW_nat hcs'
    have hcw : c.weight.toK = (w : K) := by rw [hcw0]; rfl
    have hcm : c.mean.toK = m := by rw [hm]; rfl
    rw [totalW_cons, hcw, hn] at hN
    have hN' : mw + (w + n) ≤ N := by exact_mod_cast hN
    have hpos : (0 : K) < mw := by exact_mod_cast h1
    have hm1 : (1 : K) ≤ mw := by exact_mod_cast h1
    have hw1 : (1 : K) ≤ w := by exact_mod_cast w1
    have hwpos : (0 : K) ≤ w := by positivity
    have huX : 0 ≤ u * X := mul_nonneg E.u_nonneg hX0
    have hη := E.eta_nonneg
    have eW : (.fin (mw : K) : Fl K) + .fin (w : K) = .fin ((mw + w : ℕ) : K) := by
      rw [Fl.add_fin, ← Nat.cast_add]
      exact R.counts.rnd_nat (by omega)
    obtain ⟨p, hp, p1, p2⟩ := rnd_between (x := m * w) (R.lo w (by omega)) (R.hi w (by omega))
      (mul_le_mul_of_nonneg_right m1 hwpos) (mul_le_mul_of_nonneg_right m2 hwpos)
    have eP : c.mean * c.weight = .fin p := by rw [hm, hcw0, Fl.mul_fin, hp]
    have hpe := prodErr E hA hB hXR hX0 w1 (by omega) m1 m2 hp
    obtain ⟨q1, q2⟩ := abs_le.1 hpe
    unfold mergeLoop
    simp only []
    rw [eP, hcw0, eW]
    split
    · obtain ⟨s, hs, s1, s2⟩ := rnd_between (x := ms + p) (R.lo (mw + w) (by omega)) (R.hi (mw + w) (by omega))
        (by push_cast; linarith) (by push_cast; linarith)
      rw [Fl.add_fin, hs]
      have habs : |ms + p| ≤ X * (mw + w) := by
        have e1 : -X * ((mw : K) + w) ≤ A * (mw + w) := mul_le_mul_of_nonneg_right hA (by positivity)
        have e2 : B * ((mw : K) + w) ≤ X * (mw + w) := mul_le_mul_of_nonneg_right hB (by positivity)
        exact abs_le.2 ⟨by linarith, by linarith⟩
      have hNK : (mw : K) + w ≤ N := by exact_mod_cast (by omega : mw + w ≤ N)
      obtain ⟨y, hy, ey⟩ := E.near (ms + p) (habs.trans ((mul_le_mul_of_nonneg_left hNK hX0).trans hXR))
      have hys : s = y := by rw [hs] at hy; injection hy
      rw [← hys] at ey
      have ey' : |s - (ms + p)| ≤ u * X * (mw + w) + η := ey.trans (by
        have := mul_le_mul_of_nonneg_left habs E.u_nonneg
        linarith)
      obtain ⟨y1, y2⟩ := abs_le.1 ey'
      have hstep := sq_step (κ := u * X + η) rfl huX hη hm1 hw1
      obtain ⟨runs, hr, hf⟩ := mergeLoop_clusters R E hA hB hXR limit cs w0 wl (mw + w) s (pre ++ [c]) (by simp)
        (by rw [totalW_append, hw, totalW_cons, hcw, totalW_nil]; push_cast; ring) (by omega) s1 s2
        (by
          obtain ⟨b, hb, hbl⟩ := hlo
          push_cast
          rcases le_total b.mean.toK m with h | h
          · refine ⟨b, by simp [hb], ?_⟩
            have := mul_le_mul_of_nonneg_right h hwpos
            linarith
          · refine ⟨c, by simp, ?_⟩
            have := mul_le_mul_of_nonneg_right h hpos.le
            rw [hcm]
            linarith)
        (by
          obtain ⟨b, hb, hbl⟩ := hhi
          push_cast
          rcases le_total b.mean.toK m with h | h
          · refine ⟨c, by simp, ?_⟩
            have := mul_le_mul_of_nonneg_right h hpos.le
            rw [hcm]
            linarith
          · refine ⟨b, by simp [hb], ?_⟩
            have := mul_le_mul_of_nonneg_right h hwpos
            linarith)
        hcs' (by rw [hn]; exact_mod_cast (by omega : mw + w + n ≤ N))
      exact ⟨runs, by rw [hr]; simp, hf⟩
    · have hbase : u * X * w + η ≤ (u * X + η) * (w * w) := by
        have e1 : (w : K) ≤ w * w := by nlinarith
        have e2 : (1 : K) ≤ w * w := by nlinarith
        have h3 := mul_le_mul_of_nonneg_left e1 huX
        have h4 := mul_le_mul_of_nonneg_left e2 hη
        linarith
      obtain ⟨runs, hr, hf⟩ := mergeLoop_clusters R E hA hB hXR limit cs (w0 + .fin (mw : K)) (limit (w0 + .fin (mw : K)) - (w0 + .fin (mw : K))) w p [c] (by simp)
        (by rw [totalW_cons, hcw, totalW_nil, add_zero]) w1 p1 p2 ⟨c, by simp, by rw [hcm]; linarith⟩ ⟨c, by simp, by rw [hcm]; linarith⟩
        hcs' (by rw [hn]; exact_mod_cast (by omega : w + n ≤ N))
      exact ⟨pre :: runs, by simp [hr], .cons (closeRun E hA hB hXR (by omega) hX0 hne hw h1 hA2 hB2 hlo hhi) hf⟩

/-- A digest that stands, run by run, for the sorted list `S`. -/
structure Runs (κ : K) (S O : List (Centroid K)) : Prop where
  sorted : S.Pairwise (fun a b => a.mean.toK ≤ b.mean.toK)
  runs : ∃ rs : List (List (Centroid K)), rs.flatten = S ∧ List.Forall₂ (ClusterOf κ) rs O

/-- The same after cutting off the first cluster. -/
theorem Runs.tail {κ : K} {S : List (Centroid K)} {o : Centroid K} {O : List (Centroid K)} (h : Runs κ S (o :: O)) :
    ∃ r S', S = r ++ S' ∧ ClusterOf κ r o ∧ Runs κ S' O ∧ ∀ a ∈ r, ∀ b ∈ S', a.mean.toK ≤ b.mean.toK := by
  obtain ⟨hs, rs, rfl, hf⟩ := h
  cases hf with
  | cons hc hf =>
    rename_i r rs
    rw [List.flatten_cons] at hs ⊢
    obtain ⟨h1, h2, h3⟩ := List.pairwise_append.1 hs
    exact ⟨r, rs.flatten, rfl, hc, ⟨h2, rs, rfl, hf⟩, h3⟩

/-- A centroid's mean has an item of the list near it. -/
theorem Runs.near_item {κ M : K} (hκ : 0 ≤ κ) : ∀ {O S : List (Centroid K)}, Runs κ S O → (∀ o ∈ O, o.weight.toK ≤ M) → ∀ o ∈ O,
    (∃ c ∈ S, c.mean.toK ≤ o.mean.toK + κ * (M + 1)) ∧ (∃ c ∈ S, o.mean.toK ≤ c.mean.toK + κ * (M + 1))
  | [], _, _, _, o, ho => by simp at ho
  | o :: O, S, h, hM, o', ho' => by
    obtain ⟨r, S', rfl, hc, ht, -⟩ := h.tail
    rcases List.mem_cons.1 ho' with rfl | ho'
    · have hle : κ * (o'.weight.toK + 1) ≤ κ * (M + 1) := mul_le_mul_of_nonneg_left (by linarith [hM o' (by simp)]) hκ
      obtain ⟨c, hc1, hc2⟩ := hc.lo
      obtain ⟨d, hd1, hd2⟩ := hc.hi
      exact ⟨⟨c, by simp [hc1], by linarith⟩, ⟨d, by simp [hd1], by linarith⟩⟩
    · obtain ⟨⟨c, hc1, hc2⟩, ⟨d, hd1, hd2⟩⟩ := ht.near_item hκ (fun o ho => hM o (by simp [ho])) o' ho'
      exact ⟨⟨c, by simp [hc1], hc2⟩, ⟨d, by simp [hd1], hd2⟩⟩

theorem Runs.total {κ : K} : ∀ {O S : List (Centroid K)}, Runs κ S O → totalW S = totalW O
  | [], S, h => by
    obtain ⟨-, rs, rfl, hf⟩ := h
    cases hf
    simp
  | o :: O, S, h => by
    obtain ⟨r, S', rfl, hc, ht, -⟩ := h.tail
    rw [totalW_append, totalW_cons, hc.weight, ht.total]

/-- Members of a run are no heavier than its centroid. -/
theorem Runs.grow {κ M : K} : ∀ {O S : List (Centroid K)}, Runs κ S O → (∀ c ∈ S, Good c) → (∀ o ∈ O, o.weight.toK ≤ M) → ∀ c ∈ S, c.weight.toK ≤ M
  | [], S, h, _, _, c, hcS => by
    obtain ⟨-, rs, rfl, hf⟩ := h
    cases hf
    simp at hcS
  | o :: O, S, h, hg, hM, c, hcS => by
    obtain ⟨r, S', rfl, hc, ht, -⟩ := h.tail
    rcases List.mem_append.1 hcS with hcr | hcr
    · obtain ⟨s, t, rfl⟩ := List.append_of_mem hcr
      have hw := hc.weight
      rw [totalW_append, totalW_cons] at hw
      have h1 := (lw_range (x := 0) (l := s) (fun c hc => hg c (by simp [hc])))
      have h2 := (lw_range (x := 0) (l := t) (fun c hc => hg c (by simp [hc])))
      have h3 := hM o (by simp)
      linarith
    · exact ht.grow (fun c hc => hg c (by simp [hc])) (fun o ho => hM o (by simp [ho])) c hcr

/-- Weight up to `x` after the pass against the weight up to a little more before it. -/
theorem Runs.uw_le {κ M x : K} (hκ : 0 ≤ κ) (hM0 : 0 ≤ M) : ∀ {O S : List (Centroid K)}, Runs κ S O → (∀ c ∈ S, Good c) → (∀ o ∈ O, o.weight.toK ≤ M) →
    uw x O ≤ uw (x + κ * (M + 1)) S + M
  | [], S, h, hg, _ => by
    rw [uw_nil]
    linarith [(uw_range (x := x + κ * (M + 1)) hg).1]
  | o :: O, S, h, hg, hM => by
    obtain ⟨r, S', rfl, hc, ht, hle⟩ := h.tail
    have hg' : ∀ c ∈ S', Good c := fun c hc => hg c (by simp [hc])
    have hgr : ∀ c ∈ r, Good c := fun c hc => hg c (by simp [hc])
    have hM' : ∀ o ∈ O, o.weight.toK ≤ M := fun o ho => hM o (by simp [ho])
    have ih := ht.uw_le hκ hM0 hg' hM' (x := x)
    rw [uw_cons, uw_append]
    have hr0 := uw_range (x := x + κ * (M + 1)) hgr
    have hw0 : 0 ≤ o.weight.toK := by rw [← hc.weight]; linarith [hr0.1, hr0.2]
    by_cases hex : ∃ o' ∈ O, o'.mean.toK ≤ x
    · obtain ⟨o', ho', hx⟩ := hex
      obtain ⟨⟨c, hcS, hcx⟩, -⟩ := ht.near_item hκ hM' o' ho'
      have hfull : uw (x + κ * (M + 1)) r = totalW r := uw_full (fun a ha => by have := hle a ha c hcS; linarith)
      rw [hfull, hc.weight]
      split <;> linarith
    · push Not at hex
      rw [uw_zero hex]
      have := hM o (by simp)
      have h0 := (uw_range (x := x + κ * (M + 1)) hg').1
      split <;> linarith

/-- Weight below a little less than `x` before the pass against the weight below `x` after it. -/
theorem Runs.lw_le {κ M x : K} (hκ : 0 ≤ κ) (hM0 : 0 ≤ M) : ∀ {O S : List (Centroid K)}, Runs κ S O → (∀ c ∈ S, Good c) → (∀ o ∈ O, o.weight.toK ≤ M) →
    lw (x - κ * (M + 1)) S ≤ lw x O + M
  | [], S, h, hg, _ => by
    obtain ⟨-, rs, rfl, hf⟩ := h
    cases hf
    simpa using hM0
  | o :: O, S, h, hg, hM => by
    obtain ⟨r, S', rfl, hc, ht, hle⟩ := h.tail
    have hg' : ∀ c ∈ S', Good c := fun c hc => hg c (by simp [hc])
    have hgr : ∀ c ∈ r, Good c := fun c hc => hg c (by simp [hc])
    have hM' : ∀ o ∈ O, o.weight.toK ≤ M := fun o ho => hM o (by simp [ho])
    have ih := ht.lw_le hκ hM0 hg' hM' (x := x)
    rw [lw_cons, lw_append]
    have hr0 := lw_range (x := x - κ * (M + 1)) hgr
    rw [hc.weight] at hr0
    have hMo := hM o (by simp)
    by_cases hx : o.mean.toK < x
    · rw [if_pos hx]; linarith
    · rw [if_neg hx]
      obtain ⟨c, hcr, hcx⟩ := hc.hi
      have hκM : κ * (o.weight.toK + 1) ≤ κ * (M + 1) := mul_le_mul_of_nonneg_left (by linarith) hκ
      have hz : lw (x - κ * (M + 1)) S' = 0 := lw_zero (fun a ha => by have := hle c hcr a ha; linarith [not_lt.1 hx])
      have h0 : 0 ≤ lw x O := by
        have : ∀ l : List (Centroid K), (∀ o ∈ l, 0 ≤ o.weight.toK) → 0 ≤ lw x l := by
          intro l
          induction l with
          | nil => intro _; simp
          | cons a l ih =>
            intro h
            rw [lw_cons]
            have := ih (fun o ho => h o (by simp [ho]))
            have := h a (by simp)
            split <;> linarith
        refine this O ?_
        intro o' ho'
        obtain ⟨p, q, rfl⟩ := List.append_of_mem ho'
        exact weight_nonneg ht hg' o' ho'
      linarith
where
  weight_nonneg {κ : K} {O S : List (Centroid K)} (h : Runs κ S O) (hg : ∀ c ∈ S, Good c) (o : Centroid K) (ho : o ∈ O) : 0 ≤ o.weight.toK := by
    obtain ⟨-, rs, rfl, hf⟩ := h
    induction hf with
    | nil => simp at ho
    | cons hc hf ih =>
      rename_i r o' rs O'
      rcases List.mem_cons.1 ho with rfl | ho
      · rw [← hc.weight]
        have := lw_range (x := 0) (l := r) (fun c hcr => hg c (by simp [hcr]))
        linarith [this.1, this.2]
      · exact ih ho (fun c hc => hg c (by
          rw [List.flatten_cons]; exact List.mem_append_right _ hc))

/-- All clusters before one whose mean is at most `x` lie below a little more than `x`. -/
theorem Runs.prefix_le {κ M x : K} (hκ : 0 ≤ κ) : ∀ {p : List (Centroid K)} {o : Centroid K} {s S : List (Centroid K)}, Runs κ S (p ++ o :: s) → (∀ c ∈ S, Good c) →
    (∀ a ∈ p ++ o :: s, a.weight.toK ≤ M) → o.mean.toK ≤ x → totalW p ≤ uw (x + κ * (M + 1)) S
  | [], o, s, S, h, hg, _, _ => by
    rw [totalW_nil]
    exact (uw_range hg).1
  | a :: p, o, s, S, h, hg, hM, hx => by
    rw [List.cons_append] at h
    obtain ⟨r, S', rfl, hc, ht, hle⟩ := h.tail
    have hM' : ∀ b ∈ p ++ o :: s, b.weight.toK ≤ M := fun b hb => hM b (by rw [List.cons_append]; exact List.mem_cons_of_mem _ hb)
    have ih := ht.prefix_le hκ (fun c hc => hg c (by simp [hc])) hM' hx
    obtain ⟨⟨c, hcS, hcx⟩, -⟩ := ht.near_item hκ hM' o (by simp)
    have hfull : uw (x + κ * (M + 1)) r = totalW r := uw_full (fun b hb => by have := hle b hb c hcS; linarith)
    rw [totalW_cons, uw_append, hfull, hc.weight]
    linarith

/-- All clusters after one whose mean is at least `x` lie above a little less than `x`. -/
theorem Runs.suffix_ge {κ M x : K} (hκ : 0 ≤ κ) : ∀ {p : List (Centroid K)} {o : Centroid K} {s S : List (Centroid K)}, Runs κ S (p ++ o :: s) → (∀ c ∈ S, Good c) →
    (∀ a ∈ p ++ o :: s, a.weight.toK ≤ M) → x ≤ o.mean.toK → lw (x - κ * (M + 1)) S ≤ totalW p + o.weight.toK
  | [], o, s, S, h, hg, hM, hx => by
    rw [List.nil_append] at h
    obtain ⟨r, S', rfl, hc, ht, hle⟩ := h.tail
    obtain ⟨c, hcr, hcx⟩ := hc.hi
    have hκM : κ * (o.weight.toK + 1) ≤ κ * (M + 1) := mul_le_mul_of_nonneg_left (by linarith [hM o (by simp)]) hκ
    have hz : lw (x - κ * (M + 1)) S' = 0 := lw_zero (fun a ha => by have := hle c hcr a ha; linarith)
    have := (lw_range (x := x - κ * (M + 1)) (l := r) (fun c hc => hg c (by simp [hc]))).2
    rw [lw_append, hz, totalW_nil, ← hc.weight]
    linarith
  | a :: p, o, s, S, h, hg, hM, hx => by
    rw [List.cons_append] at h
    obtain ⟨r, S', rfl, hc, ht, hle⟩ := h.tail
    have hM' : ∀ b ∈ p ++ o :: s, b.weight.toK ≤ M := fun b hb => hM b (by rw [List.cons_append]; exact List.mem_cons_of_mem _ hb)
    have ih := ht.suffix_ge hκ (fun c hc => hg c (by simp [hc])) hM' hx
    have := (lw_range (x := x - κ * (M + 1)) (l := r) (fun c hc => hg c (by simp [hc]))).2
    rw [lw_append, totalW_cons, ← hc.weight]
    linarith

end TDigest
end AQ

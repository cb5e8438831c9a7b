/-
Exponential moments of the answers of `MultiDigest`s and `ParallelDigest`s whose members are independent.
-/
import Verif.Spec.Concentrates
import Verif.Proofs.ParallelExp
import Verif.Props.ParallelRC
import Verif.Proofs.Tail

set_option linter.unusedSectionVars false
set_option linter.unusedVariables false

namespace AQ
open Prog Spec
variable {D : Type} [FloatFmt ℚ] [FloatFmt.Exact ℚ] [Digest D (Fl ℚ)]

theorem whole_mul (z : ℤ) {n : Nat} (hn : n ≠ 0) : ⌊((z : ℚ) / n) * n⌋ = z := by
  have : (n : ℚ) ≠ 0 := by exact_mod_cast hn
  rw [div_mul_cancel₀ _ this, Int.floor_intCast]

theorem split_pow {a : ℚ} (ha : 1 ≤ a) (σ s t : ℤ) : a ^ (σ * (s + t)) = a ^ (σ * t) * a ^ (σ * s) := by
  rw [mul_add, zpow_add₀ (by linarith), mul_comm]

theorem rcosh_pow_nonneg {a : ℚ} (ha : 1 ≤ a) (V : Nat) : 0 ≤ rcosh a ^ V :=
  pow_nonneg (le_trans zero_le_one (one_le_rcosh (by linarith))) V

/-! ### Sums -/

theorem MultiDigest.sum_mgf (x : Fl ℚ) (ops : List (Op (Fl ℚ))) {n R V : Nat} (hn : n ≠ 0) {a : ℚ} (ha : 1 ≤ a) {σ : ℤ} (hσ : |σ| = 1) :
    ∀ (ds : List D), (∀ d ∈ ds, Concentrates x ops n R V d) → ∀ A : ℤ,
    exp (execAll (⟨ds⟩ : MultiDigest D) ops) (fun m => exp (sumLoop (fun d => Digest.estQuantileAtValue d x) m.digests (.fin ((A : ℚ) / n)))
      (fun s => a ^ (σ * (⌊s.1.toK * n⌋ - A - ds.length * R)))) ≤ rcosh a ^ (ds.length * V)
  | [], _, A => by
    have := execAll_nil_exp (D := D) ops (fun l => exp (sumLoop (fun d => Digest.estQuantileAtValue d x) l (.fin ((A : ℚ) / n)))
      (fun s => a ^ (σ * (⌊s.1.toK * n⌋ - A - (([] : List D).length : ℤ) * R))))
    rw [this]
    simp [sumLoop, Fl.toK, whole_mul A hn]
  | d :: ds, h, A => by
    obtain ⟨hfin, hmgf⟩ := h d (by simp)
    have key : ∀ g : ℚ → ℚ,
        exp (execAll (⟨d :: ds⟩ : MultiDigest D) ops)
          (fun m => exp (sumLoop (fun d => Digest.estQuantileAtValue d x) m.digests (.fin ((A : ℚ) / n))) (fun s => g s.1.toK)) =
        exp (execAll d ops >>= fun d' => Digest.estQuantileAtValue d' x) (fun r => exp (execAll (⟨ds⟩ : MultiDigest D) ops)
          (fun m => exp (sumLoop (fun d => Digest.estQuantileAtValue d x) m.digests (.fin ((A : ℚ) / n + r.1.toK))) (fun s => g s.1.toK))) := by
      intro g
      have h1 := execAll_exp ops d ds (fun l => exp (sumLoop (fun d => Digest.estQuantileAtValue d x) l (.fin ((A : ℚ) / n))) (fun s => g s.1.toK))
      rw [h1, exp_bind]
      have h2 : Partially (execAll d ops) (fun d' => Partially (Digest.estQuantileAtValue d' x)
          (fun r => (∃ z : ℤ, r.1 = .fin ((z : ℚ) / n)) ∧ Digest.count r.2 = .ret n)) := by
        have := hfin.partially
        rwa [partially_bind] at this
      refine exp_congr (h2.mono ?_)
      intro d' hd'
      rw [exp_swap (Digest.estQuantileAtValue d' x)]
      refine congrArg _ (funext fun m => ?_)
      rw [sumLoop_exp]
      refine exp_congr (hd'.mono ?_)
      rintro r ⟨⟨z, hz⟩, -⟩
      rw [hz, Fl.add_exact]
      rfl
    have ih := MultiDigest.sum_mgf x ops hn ha hσ ds (fun d' hd' => h d' (by simp [hd']))
    rw [key (fun y => a ^ (σ * (⌊y * n⌋ - A - (d :: ds).length * R)))]
    have h3 : Partially (execAll d ops >>= fun d' => Digest.estQuantileAtValue d' x) (fun r =>
        exp (execAll (⟨ds⟩ : MultiDigest D) ops)
          (fun m => exp (sumLoop (fun d => Digest.estQuantileAtValue d x) m.digests (.fin ((A : ℚ) / n + r.1.toK)))
            (fun s => a ^ (σ * (⌊s.1.toK * n⌋ - A - (d :: ds).length * R)))) ≤
        rcosh a ^ (ds.length * V) * a ^ (σ * (⌊r.1.toK * n⌋ - R))) := by
      refine hfin.partially.mono ?_
      rintro r ⟨⟨z, hz⟩, -⟩
      rw [hz]
      have e1 : (A : ℚ) / n + (Fl.fin ((z : ℚ) / n)).toK = ((A + z : ℤ) : ℚ) / n := by
        show (A : ℚ) / n + (z : ℚ) / n = _
        push_cast; ring
      have e2 : ⌊(Fl.fin ((z : ℚ) / n)).toK * n⌋ = z := whole_mul z hn
      rw [e1, e2]
      have e3 : (fun m : MultiDigest D => exp (sumLoop (fun d => Digest.estQuantileAtValue d x) m.digests (.fin (((A + z : ℤ) : ℚ) / n)))
            (fun s => a ^ (σ * (⌊s.1.toK * n⌋ - A - (d :: ds).length * R)))) =
          fun m => a ^ (σ * (z - R)) * exp (sumLoop (fun d => Digest.estQuantileAtValue d x) m.digests (.fin (((A + z : ℤ) : ℚ) / n)))
            (fun s => a ^ (σ * (⌊s.1.toK * n⌋ - (A + z) - ds.length * R))) := by
        funext m
        rw [← exp_mul_left]
        refine congrArg _ (funext fun s => ?_)
        rw [← split_pow ha]
        congr 2
        push_cast [List.length_cons]
        ring
      rw [e3, exp_mul_left, mul_comm]
      exact mul_le_mul_of_nonneg_right (ih (A + z)) (zpow_nonneg (by linarith) _)
    refine (exp_mono h3).trans ?_
    rw [exp_mul_left, List.length_cons, Nat.succ_mul, pow_add]
    exact mul_le_mul_of_nonneg_left (hmgf a ha σ hσ) (rcosh_pow_nonneg ha _)

theorem MultiDigest.sum_whole {n : Nat} : ∀ (l : List (Fl ℚ)) (A : ℤ), (∀ y ∈ l, ∃ z : ℤ, y = .fin ((z : ℚ) / n)) →
    ∃ z : ℤ, l.foldl (· + ·) (Fl.fin ((A : ℚ) / n)) = .fin ((z : ℚ) / n)
  | [], A, _ => ⟨A, rfl⟩
  | y :: l, A, h => by
    obtain ⟨b, rfl⟩ := h y (by simp)
    obtain ⟨z, hz⟩ := MultiDigest.sum_whole l (A + b) (fun z hz => h z (by simp [hz]))
    refine ⟨z, ?_⟩
    rw [List.foldl_cons, Fl.add_exact, ← hz]
    congr 2
    push_cast; ring

theorem MultiDigest.concentrates (ds : List D) (hne : ds ≠ []) (ops : List (Op (Fl ℚ))) (x : Fl ℚ) {n R V : Nat} (hn : n ≠ 0)
    (h : ∀ d ∈ ds, Concentrates x ops n R V d) :
    Concentrates x ops (ds.length * n) (ds.length * R) (ds.length * V) (MultiDigest.built ds : MultiDigest D) := by
  have h0 : (0 : ℚ) < ds.length := Nat.cast_pos.2 (List.length_pos_of_ne_nil hne)
  have hnq : (n : ℚ) ≠ 0 := by exact_mod_cast hn
  have hl0 : (Fl.lit 0 : Fl ℚ) = .fin (((0 : ℤ) : ℚ) / n) := by rw [Fl.lit_exact]; simp
  rw [MultiDigest.built_eq]
  have hmem : Always (execAll (⟨ds⟩ : MultiDigest D) ops) (fun m => m.digests.length = ds.length ∧
      Always (sumLoop (fun d => Digest.estQuantileAtValue d x) m.digests (Fl.lit 0)) (fun r =>
        (∃ z : ℤ, r.1 = .fin ((z : ℚ) / n)) ∧ sumCounts r.2 = .ret (ds.length * n))) := by
    refine (MultiDigest.execAll_all ops ds (P := fun d => Always (Digest.estQuantileAtValue d x)
      (fun r => (∃ z : ℤ, r.1 = .fin ((z : ℚ) / n)) ∧ Digest.count r.2 = .ret n)) (fun d hd => ?_)).mono ?_
    · have := (h d hd).sure
      rwa [always_bind] at this
    · rintro m ⟨hl, hm⟩
      refine ⟨hl, (MultiDigest.sumLoop_always _ m.digests (Fl.lit 0) hm).mono ?_⟩
      rintro r ⟨rs, e0, e1, e2, e3⟩
      refine ⟨?_, ?_⟩
      · rw [e3, hl0]
        exact MultiDigest.sum_whole _ _ (fun y hy => by
          obtain ⟨s, hs, rfl⟩ := List.mem_map.1 hy
          exact (e1 s hs).1)
      · rw [← hl, ← e0, ← List.length_map (as := rs) Prod.snd, ← e2]
        refine sumCounts_const n r.2 (fun d hd => ?_)
        rw [e2] at hd
        obtain ⟨s, hs, rfl⟩ := List.mem_map.1 hd
        exact (e1 s hs).2
  have hest : ∀ m : MultiDigest D, Digest.estQuantileAtValue m x =
      sumLoop (fun d => Digest.estQuantileAtValue d x) m.digests (Fl.lit 0) >>= fun r =>
        .ret (r.1 / Fl.ofNat m.digests.length, { m with digests := r.2 }) := fun m => rfl
  have hdiv : ∀ z : ℤ, (Fl.fin ((z : ℚ) / n) : Fl ℚ) / Fl.ofNat ds.length = .fin ((z : ℚ) / (ds.length * n : ℕ)) := by
    intro z
    rw [Fl.ofNat_exact, Fl.div_exact _ h0.ne']
    congr 1
    push_cast
    field_simp
  refine ⟨?_, ?_⟩
  · rw [always_bind]
    refine hmem.mono ?_
    rintro m ⟨hl, hm⟩
    rw [hest, always_bind]
    refine hm.mono ?_
    rintro r ⟨⟨z, hz⟩, hc⟩
    refine ⟨⟨z, ?_⟩, hc⟩
    show r.1 / Fl.ofNat m.digests.length = _
    rw [hl, hz, hdiv]
  · intro a ha σ hσ
    have hb := MultiDigest.sum_mgf x ops hn ha hσ ds h 0
    refine le_trans (le_of_eq ?_) hb
    rw [exp_bind]
    refine exp_congr (hmem.partially.mono ?_)
    rintro m ⟨hl, hm⟩
    rw [hest, exp_bind, ← hl0]
    refine exp_congr (hm.partially.mono ?_)
    rintro r ⟨⟨z, hz⟩, -⟩
    rw [exp_ret]
    show a ^ (σ * (⌊(r.1 / Fl.ofNat m.digests.length).toK * _⌋ - _)) = _
    rw [hl, hz, hdiv]
    have e1 : ⌊(Fl.fin ((z : ℚ) / (ds.length * n : ℕ))).toK * (ds.length * n : ℕ)⌋ = z :=
      whole_mul z (Nat.mul_ne_zero (List.length_pos_of_ne_nil hne).ne' hn)
    have e2 : ⌊(Fl.fin ((z : ℚ) / n)).toK * n⌋ = z := whole_mul z hn
    rw [e1, e2]
    congr 2
    push_cast
    ring

/-! ### Weighted sums -/

namespace ParallelDigest

theorem feedAll_nil : ∀ css : List (List (List (Fl ℚ))), (∀ cs ∈ css, cs.length ≤ ([] : List D).length) →
    feedAll css ([] : List D) = .ret []
  | [], _ => rfl
  | cs :: css, hl => by
    have : cs = [] := List.length_eq_zero_iff.1 (Nat.le_zero.1 (hl cs (by simp)))
    subst this
    exact feedAll_nil css (fun c hc => hl c (by simp [hc]))

theorem whole_toK (z : ℤ) (n : Nat) : (Fl.fin ((z : ℚ) / n)).toK * n = (⌊(Fl.fin ((z : ℚ) / n)).toK * n⌋ : ℚ) := by
  show (z : ℚ) / n * n = (⌊(z : ℚ) / n * n⌋ : ℚ)
  by_cases hn : n = 0
  · subst hn; simp
  · rw [whole_mul z hn, div_mul_cancel₀]; exact_mod_cast hn

theorem feedAll_mgf (x : Fl ℚ) {a : ℚ} (ha : 1 ≤ a) {σ : ℤ} (hσ : |σ| = 1) : ∀ (ds : List D) (css : List (List (List (Fl ℚ))))
    (n R V : Nat → Nat), (∀ i (h : i < ds.length), Concentrates x (column i css) (n i) (R i) (V i) ds[i]) →
    (∀ cs ∈ css, cs.length ≤ ds.length) → ∀ A : ℤ,
    exp (feedAll css ds) (fun ds' => exp (rankLoop x ds' (.fin (A : ℚ)))
      (fun s => a ^ (σ * (⌊s.1.toK⌋ - A - (∑ i ∈ Finset.range ds.length, R i : ℕ))))) ≤ rcosh a ^ (∑ i ∈ Finset.range ds.length, V i)
  | [], css, n, R, V, h, hl, A => by
    rw [feedAll_nil css hl]
    simp [rankLoop, Fl.toK]
  | d :: ds, css, n, R, V, h, hl, A => by
    obtain ⟨hfin, hmgf⟩ := h 0 (by simp)
    simp only [List.getElem_cons_zero] at hfin hmgf
    have key : ∀ g : ℚ → ℚ, exp (feedAll css (d :: ds)) (fun ds' => exp (rankLoop x ds' (.fin (A : ℚ))) (fun s => g s.1.toK)) =
        exp (execAll d (column 0 css) >>= fun d' => Digest.estQuantileAtValue d' x) (fun r => exp (feedAll (css.map List.tail) ds)
          (fun ds' => exp (rankLoop x ds' (.fin ((A : ℚ) + r.1.toK * n 0))) (fun s => g s.1.toK))) := by
      intro g
      rw [feedAll_exp css d ds, exp_bind]
      have h2 : Partially (execAll d (column 0 css)) (fun d' => Partially (Digest.estQuantileAtValue d' x)
          (fun r => (∃ z : ℤ, r.1 = .fin ((z : ℚ) / n 0)) ∧ Digest.count r.2 = .ret (n 0))) := by
        have := hfin.partially
        rwa [partially_bind] at this
      refine exp_congr (h2.mono ?_)
      intro d' hd'
      rw [exp_swap (Digest.estQuantileAtValue d' x)]
      refine congrArg _ (funext fun m => ?_)
      rw [rankLoop_exp]
      refine exp_congr (hd'.mono ?_)
      rintro r ⟨⟨z, hz⟩, hn⟩
      rw [hn, exp_ret, hz, Fl.ofNat_exact, Fl.mul_exact, Fl.add_exact]
      rfl
    have ih := feedAll_mgf x ha hσ ds (css.map List.tail) (fun i => n (i + 1)) (fun i => R (i + 1)) (fun i => V (i + 1))
      (fun i hi => by
        rw [column_tail]
        exact h (i + 1) (by simpa using hi)) (by
        intro cs hcs
        obtain ⟨c, hc, rfl⟩ := List.mem_map.1 hcs
        have := hl c hc
        rw [List.length_tail]
        simp only [List.length_cons] at this
        omega)
    simp only [List.length_cons, Finset.sum_range_succ']
    generalize (∑ i ∈ Finset.range ds.length, R (i + 1)) = S at ih ⊢
    generalize (∑ i ∈ Finset.range ds.length, V (i + 1)) = W at ih ⊢
    rw [key (fun y => a ^ (σ * (⌊y⌋ - A - (S + R 0 : ℕ))))]
    have h3 : Partially (execAll d (column 0 css) >>= fun d' => Digest.estQuantileAtValue d' x) (fun r =>
        exp (feedAll (css.map List.tail) ds) (fun ds' => exp (rankLoop x ds' (.fin ((A : ℚ) + r.1.toK * n 0)))
          (fun s => a ^ (σ * (⌊s.1.toK⌋ - A - (S + R 0 : ℕ))))) ≤
        rcosh a ^ W * a ^ (σ * (⌊r.1.toK * n 0⌋ - R 0))) := by
      refine hfin.partially.mono ?_
      rintro r ⟨⟨z, hz⟩, -⟩
      have e1 : (A : ℚ) + r.1.toK * n 0 = ((A + ⌊r.1.toK * n 0⌋ : ℤ) : ℚ) := by
        push_cast
        rw [hz, ← whole_toK]
      rw [e1]
      generalize ⌊r.1.toK * n 0⌋ = b
      have e3 : (fun ds' : List D => exp (rankLoop x ds' (.fin ((A + b : ℤ) : ℚ)))
            (fun s => a ^ (σ * (⌊s.1.toK⌋ - A - (S + R 0 : ℕ))))) =
          fun ds' => a ^ (σ * (b - R 0)) * exp (rankLoop x ds' (.fin ((A + b : ℤ) : ℚ)))
            (fun s => a ^ (σ * (⌊s.1.toK⌋ - (A + b) - S))) := by
        funext m
        rw [← exp_mul_left]
        refine congrArg _ (funext fun s => ?_)
        rw [← split_pow ha]
        congr 2
        push_cast
        ring
      rw [e3, exp_mul_left, mul_comm]
      exact mul_le_mul_of_nonneg_right (ih (A + b)) (zpow_nonneg (by linarith) _)
    refine (exp_mono h3).trans ?_
    rw [exp_mul_left, pow_add]
    exact mul_le_mul_of_nonneg_left (hmgf a ha σ hσ) (rcosh_pow_nonneg ha _)

theorem rankLoop_whole (x : Fl ℚ) : ∀ (ds : List D) (n : Nat → Nat) (A : ℤ),
    (∀ i (h : i < ds.length), Always (Digest.estQuantileAtValue ds[i] x)
      (fun r => (∃ z : ℤ, r.1 = .fin ((z : ℚ) / n i)) ∧ Digest.count r.2 = .ret (n i))) →
    Always (rankLoop x ds (.fin (A : ℚ))) (fun s => (∃ z : ℤ, s.1 = .fin (z : ℚ)) ∧ sumCounts s.2 = .ret (∑ i ∈ Finset.range ds.length, n i))
  | [], n, A, _ => ⟨⟨A, rfl⟩, by simp [sumCounts]⟩
  | d :: ds, n, A, h => by
    unfold rankLoop
    rw [always_bind]
    have h0 := h 0 (by simp)
    simp only [List.getElem_cons_zero] at h0
    refine h0.mono ?_
    rintro r ⟨⟨z, hz⟩, hn⟩
    have e : (A : ℚ) + (z : ℚ) / n 0 * n 0 = ((A + ⌊(z : ℚ) / n 0 * n 0⌋ : ℤ) : ℚ) := by
      push_cast
      exact congrArg _ (whole_toK z (n 0))
    rw [hn, bind_ret, hz, Fl.ofNat_exact, Fl.mul_exact, Fl.add_exact, e, always_bind]
    refine (rankLoop_whole x ds (fun i => n (i + 1)) _ (fun i hi => h (i + 1) (by simpa using hi))).mono ?_
    rintro s ⟨h1, h2⟩
    refine ⟨h1, ?_⟩
    show sumCounts (r.2 :: s.2) = _
    unfold sumCounts
    rw [hn, bind_ret, h2, bind_ret, List.length_cons, Finset.sum_range_succ', Nat.add_comm]
    rfl

theorem concentrates (ds : List D) (hne : ds ≠ []) (ops : List (Op (Fl ℚ))) (hops : PlainIns ops) (x : Fl ℚ)
    (n R V : Nat → Nat) (hN : 0 < ∑ i ∈ Finset.range ds.length, n i)
    (h : ∀ i (h : i < ds.length), Concentrates x (share ds.length i ops) (n i) (R i) (V i) ds[i]) :
    Concentrates x ops (∑ i ∈ Finset.range ds.length, n i) (∑ i ∈ Finset.range ds.length, R i) (∑ i ∈ Finset.range ds.length, V i)
      (ParallelDigest.new ds : ParallelDigest D ℚ) := by
  have hm : ds.length ≠ 0 := (List.length_pos_of_ne_nil hne).ne'
  have hsure : Always (execAll (ParallelDigest.new ds : ParallelDigest D ℚ) ops) (fun p =>
      Always (rankLoop x p.digests (.fin ((0 : ℤ) : ℚ))) (fun s => (∃ z : ℤ, s.1 = .fin (z : ℚ)) ∧
        sumCounts s.2 = .ret (∑ i ∈ Finset.range ds.length, n i))) := by
    refine (execAll_all (fun i d => Always (Digest.estQuantileAtValue d x)
      (fun r => (∃ z : ℤ, r.1 = .fin ((z : ℚ) / n i)) ∧ Digest.count r.2 = .ret (n i)))
      ops hops (ParallelDigest.new ds) hne (fun i hi => ?_)).mono ?_
    · have := (h i hi).sure
      rwa [always_bind] at this
    · rintro p ⟨h1, h2⟩
      have := rankLoop_whole x p.digests n 0 h2
      rw [h1] at this
      exact this
  have hcol : ∀ i (h : i < ds.length), Concentrates x (column i (ops.map (fun o => cut ds.length o.items))) (n i) (R i) (V i) ds[i] := by
    intro i hi
    rw [column_share _ hm]
    exact h i hi
  have hlen : ∀ cs ∈ ops.map (fun o => cut ds.length o.items), cs.length ≤ ds.length := by
    intro cs hcs
    obtain ⟨o, -, rfl⟩ := List.mem_map.1 hcs
    exact cut_length _ hm _
  have hv : ∀ a : ℚ, 1 ≤ a → ∀ σ : ℤ, |σ| = 1 → exp (feedAll (ops.map (fun o => cut ds.length o.items)) ds)
      (fun ds' => exp (rankLoop x ds' (.fin ((0 : ℤ) : ℚ)))
        (fun s => a ^ (σ * (⌊s.1.toK⌋ - 0 - (∑ i ∈ Finset.range ds.length, R i : ℕ))))) ≤ rcosh a ^ (∑ i ∈ Finset.range ds.length, V i) := by
    intro a ha σ hσ
    exact feedAll_mgf x ha hσ ds _ n R V hcol hlen 0
  clear hcol
  generalize (∑ i ∈ Finset.range ds.length, R i) = S at hv ⊢
  generalize (∑ i ∈ Finset.range ds.length, V i) = W at hv ⊢
  generalize hNe : (∑ i ∈ Finset.range ds.length, n i) = N at hsure hN ⊢
  have hNq : (0 : ℚ) < (N : ℚ) := by exact_mod_cast hN
  have hl0 : (Fl.lit 0 : Fl ℚ) = .fin ((0 : ℤ) : ℚ) := by rw [Fl.lit_exact]; simp
  have hest : ∀ p : ParallelDigest D ℚ, Digest.estQuantileAtValue p x = rankLoop x p.digests (.fin ((0 : ℤ) : ℚ)) >>= fun r =>
      sumCounts r.2 >>= fun m => .ret (r.1 / Fl.ofNat m, { p with digests := r.2 }) := by
    intro p
    rw [← hl0]
    rfl
  refine ⟨?_, ?_⟩
  · rw [always_bind]
    refine hsure.mono ?_
    intro p hp
    rw [hest p, always_bind]
    refine hp.mono ?_
    rintro s ⟨⟨z, hz⟩, hs⟩
    rw [hs, bind_ret, hz, Fl.ofNat_exact, Fl.div_exact _ hNq.ne']
    exact ⟨⟨z, rfl⟩, hs⟩
  · intro a ha σ hσ
    refine le_trans (le_of_eq ?_) (hv a ha σ hσ)
    have e0 := execAll_feedAll (fun ds' => exp (rankLoop x ds' (.fin ((0 : ℤ) : ℚ))) (fun s => a ^ (σ * (⌊s.1.toK⌋ - 0 - S))))
      ops hops (ParallelDigest.new ds) hne
    refine Eq.trans ?_ e0
    rw [exp_bind]
    refine exp_congr (hsure.partially.mono ?_)
    intro p hp
    rw [hest p, exp_bind]
    refine exp_congr (hp.partially.mono ?_)
    rintro s ⟨⟨z, hz⟩, hs⟩
    rw [hs, bind_ret, exp_ret, hz, Fl.ofNat_exact, Fl.div_exact _ hNq.ne']
    have e1 : ⌊(Fl.fin ((z : ℚ) / N)).toK * N⌋ = z := whole_mul z (by omega)
    have e2 : ⌊(Fl.fin (z : ℚ)).toK⌋ = z := Int.floor_intCast z
    show a ^ (σ * (⌊(Fl.fin ((z : ℚ) / N)).toK * N⌋ - _)) = _
    rw [e1, e2]
    congr 2
    ring

end ParallelDigest
end AQ

/-
MultiDigest: the summation loop, independence of the members' coins.
-/
import Verif.Model.MultiDigest
import Verif.Spec.History
import Verif.Spec.Basic
import Mathlib.Algebra.Order.BigOperators.Group.List
import Mathlib.Algebra.BigOperators.Group.List.Lemmas
import Mathlib.Tactic.Ring
import Mathlib.Tactic.Linarith
import Mathlib.Tactic.FieldSimp

set_option linter.unusedSectionVars false
set_option linter.unusedVariables false

namespace AQ
open Prog Spec

/-! ### Expectation of independent programs -/

theorem Prog.exp_zero {α : Type} (p : Prog α) : exp p (fun _ => 0) = 0 := by
  have := exp_mul_left p 0 (fun _ => 0)
  simpa using this

theorem Prog.exp_swap {α β : Type} (p : Prog α) (q : Prog β) (g : α → β → ℚ) :
    exp p (fun a => exp q (g a)) = exp q (fun b => exp p (fun a => g a b)) := by
  induction p with
  | ret a => rfl
  | fail e => exact (exp_zero q).symm
  | flip f ih =>
    simp only [exp_flip, ih]
    rw [← exp_add, div_eq_inv_mul, ← exp_mul_left]
    exact congrArg _ (funext fun b => by rw [div_eq_inv_mul])

theorem Prog.exp_const_mul_add {α : Type} {p : Prog α} (h : Always p (fun _ => True)) (c : ℚ) (g : α → ℚ) :
    exp p (fun a => g a + c) = exp p g + c := by rw [exp_add, exp_const h]

variable {K : Type} [Field K] [LinearOrder K] [IsStrictOrderedRing K] [FloatFmt K]
variable {D : Type} [Digest D (Fl K)]

namespace MultiDigest

/-- The members' answers, and what the loop makes of them. -/
theorem sumLoop_partially (est : D → Prog (Fl K × D)) : ∀ (ds : List D) (acc : Fl K),
    Partially (sumLoop est ds acc) (fun r => ∃ rs : List (Fl K × D), List.Forall₂ (fun d s => CanReturn (est d) s) ds rs ∧
      r.2 = rs.map Prod.snd ∧ r.1 = (rs.map Prod.fst).foldl (· + ·) acc)
  | [], acc => ⟨[], .nil, rfl, rfl⟩
  | d :: ds, acc => by
    unfold sumLoop
    rw [partially_bind, partially_iff]
    intro r hr
    rw [partially_bind]
    refine (sumLoop_partially est ds (acc + r.1)).mono ?_
    rintro s ⟨rs, h1, h2, h3⟩
    exact ⟨r :: rs, .cons hr h1, by simp [h2], by simpa using h3⟩

theorem sumLoop_always (est : D → Prog (Fl K × D)) {P : Fl K × D → Prop} : ∀ (ds : List D) (acc : Fl K),
    (∀ d ∈ ds, Always (est d) P) →
    Always (sumLoop est ds acc) (fun r => ∃ rs : List (Fl K × D), rs.length = ds.length ∧ (∀ s ∈ rs, P s) ∧
      r.2 = rs.map Prod.snd ∧ r.1 = (rs.map Prod.fst).foldl (· + ·) acc)
  | [], acc, _ => ⟨[], rfl, by simp, rfl, rfl⟩
  | d :: ds, acc, h => by
    unfold sumLoop
    rw [always_bind]
    refine (h d (by simp)).mono ?_
    intro r hr
    rw [always_bind]
    refine (sumLoop_always est ds (acc + r.1) (fun d' hd' => h d' (by simp [hd']))).mono ?_
    rintro s ⟨rs, h0, h1, h2, h3⟩
    refine ⟨r :: rs, by simp [h0], ?_, by simp [h2], by simpa using h3⟩
    intro s hs
    rcases List.mem_cons.1 hs with rfl | hs
    · exact hr
    · exact h1 s hs

theorem foldl_fin [FloatFmt.Exact K] : ∀ (as : List K) (a : K),
    (as.map Fl.fin).foldl (· + ·) (.fin a) = (.fin (a + as.sum) : Fl K)
  | [], a => by simp
  | b :: as, a => by
    simp only [List.map_cons, List.foldl_cons, Fl.add_exact, List.sum_cons]
    rw [foldl_fin as, add_assoc]

/-! ### Histories factor into independent histories of the members -/

theorem forEach_exp (f : D → Prog D) (d : D) (ds : List D) (G : List D → ℚ) :
    exp (forEach f (d :: ds)) G = exp (f d) (fun d' => exp (forEach f ds) (fun ds' => G (d' :: ds'))) := by
  simp only [forEach, exp_bind, pure_eq, exp_ret]

theorem sumLoop_exp (est : D → Prog (Fl K × D)) (d : D) (ds : List D) (acc : Fl K) (G : Fl K × List D → ℚ) :
    exp (sumLoop est (d :: ds) acc) G =
      exp (est d) (fun r => exp (sumLoop est ds (acc + r.1)) (fun s => G (s.1, r.2 :: s.2))) := by
  simp only [sumLoop, exp_bind, pure_eq, exp_ret]

/-- The states a loop leaves do not depend on the accumulator. -/
theorem sumLoop_states (est : D → Prog (Fl K × D)) : ∀ (ds : List D) (acc acc' : Fl K) (G : List D → ℚ),
    exp (sumLoop est ds acc) (fun s => G s.2) = exp (sumLoop est ds acc') (fun s => G s.2)
  | [], acc, acc', G => rfl
  | d :: ds, acc, acc', G => by
    rw [sumLoop_exp, sumLoop_exp]
    refine congrArg _ (funext fun r => ?_)
    exact sumLoop_states est ds _ _ (fun l => G (r.2 :: l))

theorem exec_exp (d : D) (ds : List D) (o : Op (Fl K)) (G : List D → ℚ) :
    exp (o.exec (⟨d :: ds⟩ : MultiDigest D)) (fun m => G m.digests) =
      exp (o.exec d) (fun d' => exp (o.exec (⟨ds⟩ : MultiDigest D)) (fun m => G (d' :: m.digests))) := by
  cases o with
  | add x =>
    show exp (MultiDigest.add _ x) _ = exp (Digest.add d x) (fun d' => exp (MultiDigest.add _ x) _)
    unfold MultiDigest.add
    simp only [exp_bind, pure_eq, exp_ret]
    exact forEach_exp _ d ds G
  | addBuffer xs =>
    show exp (MultiDigest.addBuffer _ xs) _ = exp (Digest.addBuffer d xs) (fun d' => exp (MultiDigest.addBuffer _ xs) _)
    unfold MultiDigest.addBuffer
    simp only [exp_bind, pure_eq, exp_ret]
    exact forEach_exp _ d ds G
  | quantile v =>
    show exp (MultiDigest.estQuantileAtValue _ v >>= _) _ =
      exp (Digest.estQuantileAtValue d v >>= _) (fun d' => exp (MultiDigest.estQuantileAtValue _ v >>= _) _)
    unfold MultiDigest.estQuantileAtValue
    simp only [exp_bind, pure_eq, exp_ret]
    rw [sumLoop_exp]
    refine congrArg _ (funext fun r => ?_)
    exact sumLoop_states _ ds _ _ (fun l => G (r.2 :: l))
  | value v =>
    show exp (MultiDigest.estValueAtQuantile _ v >>= _) _ =
      exp (Digest.estValueAtQuantile d v >>= _) (fun d' => exp (MultiDigest.estValueAtQuantile _ v >>= _) _)
    unfold MultiDigest.estValueAtQuantile
    simp only [exp_bind, pure_eq, exp_ret]
    rw [sumLoop_exp]
    refine congrArg _ (funext fun r => ?_)
    exact sumLoop_states _ ds _ _ (fun l => G (r.2 :: l))

theorem execAll_exp : ∀ (ops : List (Op (Fl K))) (d : D) (ds : List D) (G : List D → ℚ),
    exp (execAll (⟨d :: ds⟩ : MultiDigest D) ops) (fun m => G m.digests) =
      exp (execAll d ops) (fun d' => exp (execAll (⟨ds⟩ : MultiDigest D) ops) (fun m => G (d' :: m.digests)))
  | [], d, ds, G => rfl
  | o :: os, d, ds, G => by
    simp only [execAll, exp_bind]
    have hm : ∀ m : MultiDigest D, m = ⟨m.digests⟩ := fun m => rfl
    have h1 := exec_exp d ds o (fun l => exp (execAll (⟨l⟩ : MultiDigest D) os) (fun m => G m.digests))
    refine h1.trans (congrArg _ (funext fun d' => ?_))
    rw [exp_swap (execAll d' os)]
    refine congrArg _ (funext fun m => ?_)
    exact execAll_exp os d' m.digests G

theorem execAll_nil_exp (ops : List (Op (Fl K))) (G : List D → ℚ) :
    exp (execAll (⟨[]⟩ : MultiDigest D) ops) (fun m => G m.digests) = G [] := by
  induction ops with
  | nil => rfl
  | cons o os ih =>
    simp only [execAll, exp_bind]
    cases o <;> exact ih

end MultiDigest

/-! ### Mean and variance of the sum of the answers -/

namespace MultiDigest
section
variable {D : Type} [FloatFmt ℚ] [FloatFmt.Exact ℚ] [Digest D (Fl ℚ)]

/-- After the history `ops` the answer of `d` is unbiased for `μ` with mean squared error at most `v`. -/
def Unbiased (est : D → Prog (Fl ℚ × D)) (ops : List (Op (Fl ℚ))) (μ v : ℚ) (d : D) : Prop :=
  Always (execAll d ops >>= est) (fun r => r.1.IsFin) ∧
  exp (execAll d ops >>= est) (fun r => r.1.toK) = μ ∧
  exp (execAll d ops >>= est) (fun r => (r.1.toK - μ) ^ 2) ≤ v

theorem sum_variance (est : D → Prog (Fl ℚ × D)) (ops : List (Op (Fl ℚ))) (μ v : ℚ) : ∀ (ds : List D),
    (∀ d ∈ ds, Unbiased est ops μ v d) → ∀ a : ℚ,
    exp (execAll (⟨ds⟩ : MultiDigest D) ops) (fun m => exp (sumLoop est m.digests (.fin a)) (fun s => s.1.toK)) =
      a + ds.length * μ ∧
    ∀ c : ℚ, exp (execAll (⟨ds⟩ : MultiDigest D) ops) (fun m => exp (sumLoop est m.digests (.fin a))
      (fun s => (s.1.toK - (a + ds.length * μ) + c) ^ 2)) ≤ ds.length * v + c ^ 2
  | [], _, a => by
    constructor
    · have := execAll_nil_exp (D := D) ops (fun l => exp (sumLoop est l (.fin a)) (fun s => s.1.toK))
      rw [this]
      simp [sumLoop, Fl.toK]
    · intro c
      have := execAll_nil_exp (D := D) ops (fun l => exp (sumLoop est l (.fin a)) (fun s => (s.1.toK - (a + 0 * μ) + c) ^ 2))
      simp only [List.length_nil, Nat.cast_zero] at this ⊢
      rw [this]
      simp [sumLoop, Fl.toK]
  | d :: ds, h, a => by
    obtain ⟨hfin, hmean, hvar⟩ := h d (by simp)
    have hal : Always (execAll d ops >>= est) (fun _ => True) := hfin.mono (fun _ _ => trivial)
    -- the joint expectation
    have key : ∀ g : ℚ → ℚ,
        exp (execAll (⟨d :: ds⟩ : MultiDigest D) ops) (fun m => exp (sumLoop est m.digests (.fin a)) (fun s => g s.1.toK)) =
        exp (execAll d ops >>= est) (fun r => exp (execAll (⟨ds⟩ : MultiDigest D) ops)
          (fun m => exp (sumLoop est m.digests (.fin (a + r.1.toK))) (fun s => g s.1.toK))) := by
      intro g
      have h1 := execAll_exp ops d ds (fun l => exp (sumLoop est l (.fin a)) (fun s => g s.1.toK))
      rw [h1, exp_bind]
      have h2 : Partially (execAll d ops) (fun d' => Partially (est d') (fun r => r.1.IsFin)) := by
        have := hfin.partially
        rwa [partially_bind] at this
      refine exp_congr (h2.mono ?_)
      intro d' hd'
      rw [exp_swap (est d')]
      refine congrArg _ (funext fun m => ?_)
      rw [sumLoop_exp]
      refine exp_congr (hd'.mono ?_)
      rintro r ⟨x, hx⟩
      rw [hx, Fl.add_exact]
      rfl
    have ih := sum_variance est ops μ v ds (fun d' hd' => h d' (by simp [hd']))
    constructor
    · rw [key (fun x => x)]
      have : (fun r : Fl ℚ × D => exp (execAll (⟨ds⟩ : MultiDigest D) ops)
          (fun m => exp (sumLoop est m.digests (.fin (a + r.1.toK))) (fun s => s.1.toK))) =
          fun r => r.1.toK + (a + ds.length * μ) := by
        funext r
        rw [(ih (a + r.1.toK)).1]; ring
      rw [this, exp_const_mul_add hal, hmean]
      push_cast [List.length_cons]
      ring
    · intro c
      rw [key (fun x => (x - (a + (d :: ds).length * μ) + c) ^ 2)]
      have h3 : ∀ r : Fl ℚ × D, exp (execAll (⟨ds⟩ : MultiDigest D) ops)
          (fun m => exp (sumLoop est m.digests (.fin (a + r.1.toK)))
            (fun s => (s.1.toK - (a + (d :: ds).length * μ) + c) ^ 2)) ≤
          (r.1.toK - μ) ^ 2 + (2 * c * (r.1.toK) + (ds.length * v - 2 * c * μ + c ^ 2)) := by
        intro r
        have := (ih (a + r.1.toK)).2 (r.1.toK - μ + c)
        have e : (fun m : MultiDigest D => exp (sumLoop est m.digests (.fin (a + r.1.toK)))
            (fun s => (s.1.toK - (a + r.1.toK + ds.length * μ) + (r.1.toK - μ + c)) ^ 2)) =
            (fun m => exp (sumLoop est m.digests (.fin (a + r.1.toK)))
            (fun s => (s.1.toK - (a + (d :: ds).length * μ) + c) ^ 2)) := by
          funext m
          refine congrArg _ (funext fun s => ?_)
          push_cast [List.length_cons]
          ring
        rw [e] at this
        refine this.trans (le_of_eq ?_)
        ring
      refine (exp_mono ((partially_true _).mono (fun r _ => h3 r))).trans ?_
      rw [exp_add, exp_const_mul_add hal, exp_mul_left, hmean]
      push_cast [List.length_cons]
      nlinarith [hvar]

end
end MultiDigest
end AQ

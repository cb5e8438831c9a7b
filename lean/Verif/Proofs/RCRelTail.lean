/-
Exponential tails of the rank error of RCSketch relative to the rank itself: as long as no level has seen more than twice the
rank, the variance accumulated below a level is at most `16 R² / (κ · buffer_size)`; leaving this region is itself unlikely.
-/
import Verif.Proofs.RCTail
import Verif.Props.RCRelative

set_option linter.unusedSectionVars false
set_option linter.unusedVariables false

namespace AQ
open Prog Spec
variable {K : Type} [Field K] [LinearOrder K] [IsStrictOrderedRing K] [FloatFmt K]

/-- `tail_of_mgf` on an event. -/
theorem tail_on {α : Type} (p : Prog α) (A : α → Prop) [DecidablePred A] (f : α → ℤ) (M : Nat) (V : ℝ) (hM : (M : ℝ) ≤ V)
    (h : ∀ a : ℚ, 1 ≤ a → exp p (fun s => if A s then a ^ f s else 0) ≤ rcosh a ^ M) (t : ℚ) (ht : 0 ≤ t) :
    ((exp p (fun s => if A s ∧ t ≤ f s then 1 else 0) : ℚ) : ℝ) ≤ Real.exp (-((t : ℝ) ^ 2 / (2 * V))) := by
  let e0 : Err := .overflow
  have e : ∀ g : ℤ → ℚ, exp (p >>= fun s => if A s then Prog.ret (f s) else Prog.fail e0) g =
      exp p (fun s => if A s then g (f s) else 0) := by
    intro g
    rw [exp_bind]
    congr 1
    funext s
    split <;> simp [exp]
  have h2 := tail_of_mgf (p >>= fun s => if A s then Prog.ret (f s) else Prog.fail e0) id M V hM
    (fun a ha => by rw [e]; exact h a ha) t ht
  rw [e] at h2
  refine le_trans (le_of_eq ?_) h2
  congr 2
  funext s
  simp only [id]
  by_cases h1 : A s <;> simp [h1]

namespace RCSketch
variable {n k : Nat}

/-- `a ^ (± error of U_h)` over `cosh ^ (variance of the odd compactions below level h)` is a supermartingale. -/
theorem U_mgf_super (hn : n < 2 ^ 32) (x : Fl K) (h : Nat) {a : ℚ} (ha : 1 ≤ a) {σ : ℤ} (hσ : |σ| = 1) :
    HistSuper (K := K) (· ≠ .nan) n k (fun _ m => m = .default)
      (fun l s P => a ^ (σ * ((U (fun b => rank b x) h s P : ℤ) - rank l x)) / rcosh a ^ oddVar x h s.log) where
  good fast m hm := hm ▸ goodFor_default (fun _ h => h)
  super l fast m hm hl :=
    { ensure := fun s j items rest hb hj hlen => by
        rw [U_ensure (additive_rank x)]
        have : (s.ensureLevel j).log = s.log := by unfold ensureLevel; split <;> rfl
        rw [this]
      pop := fun s j rest hb hj hlen => by rw [U_pop (additive_rank x)]
      push := fun s j items rest buf hb hj hg hlen => by
        rw [U_push_all (additive_rank x) h s items rest hg]
        exact le_refl _
      compact := fun s j items rest buf m' hb hj hg hm' hlen => by
        subst hm
        obtain ⟨f, u, he, hc, hf⟩ := flip_U (fast := fast) (fun _ h => h) hb hj hl hn hg hm' hlen
        obtain ⟨δ, hδ, h0, h1⟩ := hf x h
        rw [he, exp_flip]
        simp only [exp_ret, hc, oddVar_cons]
        rw [h0, h1]
        have ha0 : 0 < a := by linarith
        have hc0 : 0 < rcosh a := lt_of_lt_of_le zero_lt_one (one_le_rcosh ha0)
        have key : (a ^ (σ * δ) + a ^ (-(σ * δ))) / 2 ≤ rcosh a ^ (if j < h then 4 ^ j * (rank u x % 2) else 0) := by
          by_cases hz : (if j < h then 4 ^ j * (rank u x % 2) else 0) = 0
          · rw [hz] at hδ ⊢
            have : δ = 0 := by simpa using hδ
            rw [this]; simp
          · have hjh : j < h := by by_contra hc; simp [hc] at hz
            rw [if_pos hjh] at hδ hz ⊢
            have h2 : rank u x % 2 = 1 := by
              rcases Nat.mod_two_eq_zero_or_one (rank u x) with h3 | h3
              · simp [h3] at hz
              · exact h3
            rw [h2, Nat.mul_one] at hδ ⊢
            refine zpow_sym_le ha ?_
            rw [abs_mul, hσ, one_mul]
            refine le_of_sq_le_sq ?_ (by positivity)
            rw [sq_abs, hδ, ← pow_mul, mul_comm j 2, pow_mul]; push_cast; norm_num
        generalize (if j < h then 4 ^ j * (rank u x % 2) else 0) = w4 at *
        generalize (U (fun b => rank b x) h s (⟨j, items⟩ :: rest) : ℤ) = w
        have e1 : σ * (w + δ - rank l x) = σ * (w - rank l x) + σ * δ := by ring
        have e2 : σ * (w - δ - rank l x) = σ * (w - rank l x) + -(σ * δ) := by ring
        rw [e1, e2, zpow_add₀ ha0.ne', zpow_add₀ ha0.ne', pow_add]
        have hp : 0 < a ^ (σ * (w - rank l x)) := zpow_pos ha0 _
        generalize a ^ (σ * (w - rank l x)) = A at *
        have h4 : 0 < rcosh a ^ w4 := by positivity
        have hq : 0 < rcosh a ^ oddVar x h s.log := by positivity
        generalize rcosh a ^ w4 = C at *
        generalize rcosh a ^ oddVar x h s.log = D at *
        generalize a ^ (σ * δ) = y at *
        generalize a ^ (-(σ * δ)) = z at *
        have h6 : ∀ E, E = D * C → (A * y / E + A * z / E) / 2 ≤ A / D := by
          rintro E rfl
          have : (A * y / (D * C) + A * z / (D * C)) / 2 = A * ((y + z) / 2) / (D * C) := by ring
          rw [this, div_le_div_iff₀ (by positivity) hq]
          have := mul_le_mul_of_nonneg_left key (mul_nonneg hp.le hq.le)
          nlinarith
        first
          | exact h6 _ rfl
          | exact h6 _ (mul_comm _ _) }
  start l c s := by
    rw [U_start, rank_append]
    apply le_of_eq
    congr 2
    push_cast; ring
  cnt l s n := le_refl _

/-- The variance accumulated below a level while no level below has seen more than `2R`. -/
theorem oddVar_good {x : Fl K} {s : RCSketch K} {κ B R : Nat} (ho : Odd x s) (hg : s.compactions.length = s.buffers.length)
    (hB : s.bufferSize = B)
    (hκ : ∀ h buf, s.buffers[h]? = some buf → κ * oddAt x h s.log ≤ rank buf x + movedAt x h s.log) :
    ∀ h, (∀ j < h, U (fun b => rank b x) j s [] ≤ 2 * R) →
      ∃ S, S ≤ 8 * R ∧ S ≤ 2 ^ h * B ∧ κ * B * oddVar x h s.log ≤ 2 * R * S := by
  intro h
  induction h with
  | zero => intro _; exact ⟨0, by omega, by omega, by rw [oddVar_zero]; simp⟩
  | succ h ih =>
    intro hU
    obtain ⟨S, h1, h2, h3⟩ := ih (fun j hj => hU j (by omega))
    have hUh := hU h (by omega)
    have hp : 2 ^ (h + 1) * B = 2 * (2 ^ h * B) := by rw [pow_succ]; ring
    rw [oddVar_succ]
    rcases Nat.eq_zero_or_pos (oddAt x h s.log) with h0 | h0
    · exact ⟨S, h1, by omega, by rw [h0]; simpa using h3⟩
    · rcases Nat.lt_or_ge h s.buffers.length with hh | hh
      · have hget : s.buffers[h]? = some s.buffers[h] := List.getElem?_eq_getElem hh
        have h4 := U_ge x h s hget
        have h5 := hκ h _ hget
        have h6 := ho.imp h _ hget (by have := oddAt_le_moved x h s.log; omega)
        rw [hB] at h6
        generalize rank s.buffers[h] x + movedAt x h s.log = I at *
        generalize oddAt x h s.log = O at *
        have h7 : 2 ^ h * B ≤ 4 * R := by
          calc 2 ^ h * B ≤ 2 ^ h * (2 * I) := Nat.mul_le_mul_left _ (by omega)
            _ = 2 * (2 ^ h * I) := by ring
            _ ≤ _ := by omega
        refine ⟨S + 2 ^ h * B, by omega, by omega, ?_⟩
        have h8 : κ * B * (4 ^ h * O) ≤ 2 * R * (2 ^ h * B) := by
          calc κ * B * (4 ^ h * O) = (2 ^ h * (κ * O)) * (2 ^ h * B) := by
                rw [show (4 : Nat) ^ h = 2 ^ h * 2 ^ h by rw [← mul_pow]; norm_num]; ring
            _ ≤ (2 * R) * (2 ^ h * B) :=
                Nat.mul_le_mul_right _ ((Nat.mul_le_mul_left _ h5).trans (h4.trans hUh))
        rw [Nat.mul_add, Nat.mul_add]
        omega
      · rw [(at_zero x h s.log (ho.not_mem (by omega))).1] at h0
        omega

section
variable (n k κ H : Nat) (hk : 1 ≤ k) (hκ : 1 ≤ κ) (hn : n < 2 ^ 32) (ops : List (InsOp K))
    (hm : ∀ o ∈ ops, o.method = .default) (hlen : (insItems ops).length ≤ n) (hnan : ∀ y ∈ insItems ops, y ≠ .nan) (x : Fl K)
    (hprice : Partially (runHist n k ops) (fun s => ∀ h buf, s.buffers[h]? = some buf →
      κ * oddAt x h s.log ≤ rank buf x + movedAt x h s.log))
include hk hκ hn hm hlen hnan hprice

/-- No level below `h` has seen more than `2R`. -/
def Calm (x : Fl K) (R h : Nat) (s : RCSketch K) : Prop := ∀ j < h, U (fun b => rank b x) j s [] ≤ 2 * R

open Classical in
theorem calm_tail {σ : ℤ} (hσ : |σ| = 1) (h : Nat) (t : ℚ) (ht : 0 ≤ t) :
    ((exp (runHist n k ops) (fun s => if Calm x (rank (insItems ops) x) h s ∧
        t ≤ ((σ * ((U (fun b => rank b x) h s [] : ℤ) - rank (insItems ops) x) : ℤ) : ℚ) then 1 else 0) : ℚ) : ℝ) ≤
      Real.exp (-((t : ℝ) ^ 2 / (2 * (16 * (rank (insItems ops) x : ℝ) ^ 2 / (κ * bsize n k))))) := by
  set R := rank (insItems ops) x with hR
  have hBpos : 1 ≤ bsize n k := by have := bsize_ge n k; omega
  have hy : (0 : ℝ) < κ * bsize n k := by exact_mod_cast Nat.mul_pos hκ hBpos
  refine tail_on (runHist n k ops) (Calm x R h) (fun s => σ * ((U (fun b => rank b x) h s [] : ℤ) - R))
    (16 * R ^ 2 / (κ * bsize n k)) _ ?_ ?_ t ht
  · refine le_trans Nat.cast_div_le (le_of_eq ?_)
    push_cast; rfl
  · intro a ha
    have ha0 : 0 < a := by linarith
    have hc1 := one_le_rcosh ha0
    have hc0 : 0 < rcosh a := lt_of_lt_of_le zero_lt_one hc1
    have hodd := odd_paid n k ops hm hlen hnan x
    have hst := hist_partially (ok := fun _ _ => True) (K := K) (J := fun _ _ _ => True)
      ⟨fun _ _ _ _ => ⟨fun _ _ _ _ _ _ _ => trivial, fun _ _ _ _ _ _ => trivial, fun _ _ _ _ _ _ _ _ _ => trivial,
        fun _ _ _ _ _ _ _ _ _ _ _ _ _ => trivial⟩, fun _ _ _ _ _ _ => trivial, fun _ _ _ _ => trivial⟩ n k ops
      (fun _ _ => trivial) (fun _ => trivial)
    have h1 := hist_exp (U_mgf_super (k := k) hn x h ha hσ) (by omega) hn ops (fun o ho => hm o ho) hlen hnan
    have e0 : a ^ (σ * ((U (fun b => rank b x) h (fresh n k : RCSketch K) [] : ℤ) - rank ([] : List (Fl K)) x)) /
        rcosh a ^ oddVar x h (fresh n k : RCSketch K).log = 1 := by simp [U, fresh, lsum, rank, oddVar]
    rw [e0] at h1
    have h2 : exp (runHist n k ops) (fun s => (rcosh a ^ (16 * R ^ 2 / (κ * bsize n k)))⁻¹ *
        (if Calm x R h s then a ^ (σ * ((U (fun b => rank b x) h s [] : ℤ) - R)) else 0)) ≤ 1 := by
      refine le_trans (exp_mono (((hodd.and hprice).and hst).mono ?_)) h1
      rintro s ⟨⟨⟨ho, -⟩, hp⟩, -, hb, -, hs⟩
      split
      · rename_i hcalm
        obtain ⟨S, s1, -, s3⟩ := oddVar_good ho hb.hg hs.2.2.1 hp h hcalm
        rw [mul_comm, ← div_eq_mul_inv]
        refine div_le_div_of_nonneg_left (zpow_pos ha0 _).le (by positivity) (pow_le_pow_right₀ hc1 ?_)
        rw [Nat.le_div_iff_mul_le (Nat.mul_pos hκ hBpos)]
        calc oddVar x h s.log * (κ * bsize n k) = κ * bsize n k * oddVar x h s.log := mul_comm _ _
          _ ≤ 2 * R * S := s3
          _ ≤ 2 * R * (8 * R) := Nat.mul_le_mul_left _ s1
          _ = 16 * R ^ 2 := by ring
      · rw [mul_zero]
        have := zpow_pos ha0 (σ * ((U (fun b => rank b x) h s [] : ℤ) - rank (insItems ops) x))
        positivity
    rw [exp_mul_left, inv_mul_le_iff₀ (by positivity), mul_one] at h2
    exact h2

open Classical in
theorem not_calm (hR : 0 < rank (insItems ops) x) : ∀ h : Nat,
    ((exp (runHist n k ops) (fun s => if Calm x (rank (insItems ops) x) h s then 0 else 1) : ℚ) : ℝ) ≤
      h * Real.exp (-((κ * bsize n k : ℝ) / 32)) := by
  intro h
  have hBpos : 1 ≤ bsize n k := by have := bsize_ge n k; omega
  have hy : (0 : ℝ) < κ * bsize n k := by exact_mod_cast Nat.mul_pos hκ hBpos
  have hRr : (0 : ℝ) < rank (insItems ops) x := by exact_mod_cast hR
  induction h with
  | zero =>
    have : (fun s : RCSketch K => if Calm x (rank (insItems ops) x) 0 s then (0 : ℚ) else 1) = fun _ => 0 := by
      funext s; rw [if_pos (show Calm x (rank (insItems ops) x) 0 s from fun j hj => absurd hj (by omega))]
    rw [this]
    have hz : exp (runHist n k ops) (fun _ => (0 : ℚ)) = 0 := by simpa using exp_mul_left (runHist n k ops) 0 (fun _ => 0)
    rw [hz]; simp
  | succ h ih =>
    have h1 := calm_tail n k κ hk hκ hn ops hm hlen hnan x hprice (σ := 1) (by simp) h (rank (insItems ops) x : ℚ) (by positivity)
    have e : (((rank (insItems ops) x : ℚ) : ℝ)) ^ 2 / (2 * (16 * (rank (insItems ops) x : ℝ) ^ 2 / (κ * bsize n k))) =
        (κ * bsize n k : ℝ) / 32 := by
      push_cast
      field_simp
      norm_num
    rw [e] at h1
    have h2 : exp (runHist n k ops) (fun s => if Calm x (rank (insItems ops) x) (h + 1) s then 0 else 1) ≤
        exp (runHist n k ops) (fun s => if Calm x (rank (insItems ops) x) h s then 0 else 1) +
        exp (runHist n k ops) (fun s => if Calm x (rank (insItems ops) x) h s ∧ (rank (insItems ops) x : ℚ) ≤
          ((1 * ((U (fun b => rank b x) h s [] : ℤ) - rank (insItems ops) x) : ℤ) : ℚ) then 1 else 0) := by
      rw [← exp_add]
      refine exp_mono ((partially_true _).mono (fun s _ => ?_))
      by_cases c1 : Calm x (rank (insItems ops) x) h s
      · by_cases c2 : U (fun b => rank b x) h s [] ≤ 2 * rank (insItems ops) x
        · have c3 : Calm x (rank (insItems ops) x) (h + 1) s := by
            intro j hj
            rcases Nat.lt_or_ge j h with hj' | hj'
            · exact c1 j hj'
            · obtain rfl : j = h := by omega
              exact c2
          rw [if_pos c3, if_pos c1]
          split <;> norm_num
        · have c4 : (rank (insItems ops) x : ℚ) ≤
              ((1 * ((U (fun b => rank b x) h s [] : ℤ) - rank (insItems ops) x) : ℤ) : ℚ) := by
            have : (rank (insItems ops) x : ℤ) ≤ 1 * ((U (fun b => rank b x) h s [] : ℤ) - rank (insItems ops) x) := by omega
            exact_mod_cast this
          rw [if_neg (show ¬Calm x (rank (insItems ops) x) (h + 1) s from fun c => c2 (c h (by omega))), if_pos c1, if_pos (And.intro c1 c4)]
          norm_num
      · rw [if_neg c1]
        split <;> split <;> norm_num
    have h3 : ((exp (runHist n k ops) (fun s => if Calm x (rank (insItems ops) x) (h + 1) s then 0 else 1) : ℚ) : ℝ) ≤
        ((exp (runHist n k ops) (fun s => if Calm x (rank (insItems ops) x) h s then 0 else 1) : ℚ) : ℝ) +
        ((exp (runHist n k ops) (fun s => if Calm x (rank (insItems ops) x) h s ∧ (rank (insItems ops) x : ℚ) ≤
          ((1 * ((U (fun b => rank b x) h s [] : ℤ) - rank (insItems ops) x) : ℤ) : ℚ) then 1 else 0) : ℚ) : ℝ) := by
      exact_mod_cast h2
    push_cast
    linarith

open Classical in
/-- Relative error with price `κ`, levels below `H` compacted. -/
theorem relative_tail (hH : Partially (runHist n k ops) (fun s => s.buffers.length ≤ H + 1 ∧
      ∀ (h c : Nat), s.compactions[h]? = some c → c ≠ 0 → h < H)) (hR : 0 < rank (insItems ops) x) (ε : ℚ) (hε : 0 ≤ ε) :
    ((exp (runHist n k ops) (fun s => if ε * rank (insItems ops) x ≤ |(weightedRank s.buffers x : ℚ) - rank (insItems ops) x|
        then 1 else 0) : ℚ) : ℝ) ≤
      2 * Real.exp (-((ε : ℝ) ^ 2 * (κ * bsize n k) / 32)) + H * Real.exp (-((κ * bsize n k : ℝ) / 32)) := by
  have hBpos : 1 ≤ bsize n k := by have := bsize_ge n k; omega
  have hy : (0 : ℝ) < κ * bsize n k := by exact_mod_cast Nat.mul_pos hκ hBpos
  have hRr : (0 : ℝ) < rank (insItems ops) x := by exact_mod_cast hR
  have ht : 0 ≤ ε * rank (insItems ops) x := by positivity
  have h1 := calm_tail n k κ hk hκ hn ops hm hlen hnan x hprice (σ := 1) (by simp) H _ ht
  have h2 := calm_tail n k κ hk hκ hn ops hm hlen hnan x hprice (σ := -1) (by simp) H _ ht
  have h3 := not_calm n k κ hk hκ hn ops hm hlen hnan x hprice hR H
  have e : (((ε * rank (insItems ops) x : ℚ) : ℝ)) ^ 2 / (2 * (16 * (rank (insItems ops) x : ℝ) ^ 2 / (κ * bsize n k))) =
      (ε : ℝ) ^ 2 * (κ * bsize n k) / 32 := by
    push_cast
    rw [mul_pow, div_eq_div_iff (by positivity) (by norm_num)]
    field_simp
    ring
  rw [e] at h1 h2
  have h4 : exp (runHist n k ops) (fun s => if ε * rank (insItems ops) x ≤ |(weightedRank s.buffers x : ℚ) - rank (insItems ops) x|
        then 1 else 0) ≤
      exp (runHist n k ops) (fun s => if Calm x (rank (insItems ops) x) H s ∧ ε * rank (insItems ops) x ≤
          ((1 * ((U (fun b => rank b x) H s [] : ℤ) - rank (insItems ops) x) : ℤ) : ℚ) then 1 else 0) +
      (exp (runHist n k ops) (fun s => if Calm x (rank (insItems ops) x) H s ∧ ε * rank (insItems ops) x ≤
          ((-1 * ((U (fun b => rank b x) H s [] : ℤ) - rank (insItems ops) x) : ℤ) : ℚ) then 1 else 0) +
      exp (runHist n k ops) (fun s => if Calm x (rank (insItems ops) x) H s then 0 else 1)) := by
    rw [← exp_add, ← exp_add]
    refine exp_mono (((odd_paid n k ops hm hlen hnan x).and hH).mono ?_)
    rintro s ⟨⟨ho, -⟩, g1, g2⟩
    rw [U_eq_weighted x H s g1 (fun e he => by
      obtain ⟨c, h3, h4⟩ := ho.lvl e he
      exact g2 e.1 c h3 h4)]
    generalize rank (insItems ops) x = R
    generalize weightedRank s.buffers x = w
    by_cases c1 : Calm x R H s
    · rw [if_pos c1]
      split
      · rename_i h
        rcases le_abs.1 h with h | h
        · rw [if_pos ⟨c1, by push_cast; linarith⟩]
          split <;> norm_num
        · have h6 : Calm x R H s ∧ ε * (R : ℚ) ≤ ((-1 * ((w : ℤ) - R) : ℤ) : ℚ) := ⟨c1, by push_cast; linarith⟩
          rw [if_pos h6]
          split <;> norm_num
      · split <;> split <;> norm_num
    · rw [if_neg c1]
      split <;> split <;> split <;> norm_num
  have h5 : ((exp (runHist n k ops) (fun s => if ε * rank (insItems ops) x ≤ |(weightedRank s.buffers x : ℚ) - rank (insItems ops) x|
        then 1 else 0) : ℚ) : ℝ) ≤
      ((exp (runHist n k ops) (fun s => if Calm x (rank (insItems ops) x) H s ∧ ε * rank (insItems ops) x ≤
          ((1 * ((U (fun b => rank b x) H s [] : ℤ) - rank (insItems ops) x) : ℤ) : ℚ) then 1 else 0) : ℚ) : ℝ) +
      (((exp (runHist n k ops) (fun s => if Calm x (rank (insItems ops) x) H s ∧ ε * rank (insItems ops) x ≤
          ((-1 * ((U (fun b => rank b x) H s [] : ℤ) - rank (insItems ops) x) : ℤ) : ℚ) then 1 else 0) : ℚ) : ℝ) +
      ((exp (runHist n k ops) (fun s => if Calm x (rank (insItems ops) x) H s then 0 else 1) : ℚ) : ℝ)) := by
    exact_mod_cast h4
  linarith

end
end RCSketch
end AQ

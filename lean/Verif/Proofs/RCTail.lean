/-
Exponential moments of the rank error of RCSketch: a compaction at level `h` multiplies the mean of `a ^ error` by at most
`((a + 1/a) / 2) ^ 4^h`.
-/
import Verif.Proofs.Tail
import Verif.Props.RCTreeValue

set_option linter.unusedSectionVars false
set_option linter.unusedVariables false

namespace AQ
open Prog Spec
variable {K : Type} [Field K] [LinearOrder K] [IsStrictOrderedRing K] [FloatFmt K]

namespace RCSketch
variable {k N B L : Nat}

/-- `a ^ (± error)` over `c ^ (accumulated compaction variance)` is a supermartingale. -/
theorem mgf_lvlSuper (hBL : B = 2 * k * L) (x : Fl K) {a : ℚ} (ha : 1 ≤ a) {σ : ℤ} (hσ : |σ| = 1) :
    LvlSuper (K := K) k B L (fun l s P => a ^ (σ * ((W (fun b => rank b x) s P : ℤ) - rank l x)) / rcosh a ^ wsum4 s.compactions) where
  super l fast N hN :=
    { ensure := fun s h items rest hb hj hlen => by
        rw [W_ensure (additive_rank x)]
        have : wsum4 (s.ensureLevel h).compactions = wsum4 s.compactions := by
          unfold ensureLevel; split
          · exact wsum4_append_zero _
          · rfl
        rw [this]
      pop := fun s h rest hb hj hlen => by rw [W_pop (additive_rank x)]
      push := fun s h items rest buf hb hj hg hlen => by
        rw [W_push_all (additive_rank x) s items rest hg]
        exact le_refl _
      compact := fun s h items rest buf m' hb hj hg hm' hlen => by
        obtain ⟨f, he, hc, hf⟩ := flip_rankC (fast := fast) hBL hb hj hN hg hm' hlen
        obtain ⟨δ, hδ, h0, h1⟩ := hf x
        rw [he, exp_flip]
        simp only [exp_ret, hc]
        rw [h0, h1]
        have hh : h < s.compactions.length := by rw [hb.hg]; exact (List.getElem?_eq_some_iff.1 hg).1
        have hw : wsum4 (s.compactions.set h (s.compactions.getD h 0 + 1)) = wsum4 s.compactions + 4 ^ h := by
          have e : s.compactions.getD h 0 = s.compactions[h] := by simp [List.getD, hh]
          have := wsum4_set s.compactions h _ (s.compactions[h] + 1) (List.getElem?_eq_getElem hh)
          rw [e, Nat.mul_add] at *
          omega
        rw [hw]
        have ha0 : 0 < a := by linarith
        have hc0 : 0 < rcosh a := lt_of_lt_of_le zero_lt_one (one_le_rcosh ha0)
        have key := zpow_sym_le ha (h := h) (δ := σ * δ) (by rw [abs_mul, hσ, one_mul]; exact hδ)
        generalize (W (fun b => rank b x) s (⟨h, items⟩ :: rest) : ℤ) = w
        have e1 : σ * (w + δ - rank l x) = σ * (w - rank l x) + σ * δ := by ring
        have e2 : σ * (w - δ - rank l x) = σ * (w - rank l x) + -(σ * δ) := by ring
        rw [e1, e2, zpow_add₀ ha0.ne', zpow_add₀ ha0.ne', pow_add]
        have hp : 0 < a ^ (σ * (w - rank l x)) := zpow_pos ha0 _
        generalize a ^ (σ * (w - rank l x)) = A at *
        have h4 : 0 < rcosh a ^ 4 ^ h := by positivity
        have hq : 0 < rcosh a ^ wsum4 s.compactions := by positivity
        generalize rcosh a ^ 4 ^ h = C at *
        generalize rcosh a ^ wsum4 s.compactions = D at *
        generalize a ^ (σ * δ) = y at *
        generalize a ^ (-(σ * δ)) = z at *
        have : (A * y / (D * C) + A * z / (D * C)) / 2 = A * ((y + z) / 2) / (D * C) := by ring
        rw [this, div_le_div_iff₀ (by positivity) hq]
        have := mul_le_mul_of_nonneg_left key (mul_nonneg hp.le hq.le)
        nlinarith }
  start l c s h := by
    rw [W_startAt, rank_append, dup_rank]
    apply le_of_eq
    congr 2
    push_cast; ring
  cnt l s n := le_refl _

/-- Exponential moment of the error of one sketch under any calls. -/
theorem any_mgf (n k : Nat) (hk : 1 ≤ k) (hk2 : k % 2 = 0) (ops : List (AnyIns K)) (hm : ∀ o ∈ ops, o.method = .default)
    (hl : AnyIns.LevelsOk 0 ops) (hlen : AnyIns.passed ops < rcCapacity n k) (hnan : ∀ o ∈ ops, ∀ y ∈ o.items, y ≠ .nan) (x : Fl K)
    {a : ℚ} (ha : 1 ≤ a) {σ : ℤ} (hσ : |σ| = 1) :
    exp (AnyIns.run n k ops) (fun s => a ^ (σ * ((weightedRank s.buffers x : ℤ) - suppliedRank x ops))) ≤
      rcosh a ^ ⌊2 * (suppliedWeight ops : ℚ) ^ 2 / (k * (max (2 * k * Nat.clog 2 (n / k)) (2 * k) : Nat))⌋₊ := by
  have hlen' := hlen
  rw [rcCapacity_eq] at hlen'
  have ha0 : 0 < a := by linarith
  have hc1 := one_le_rcosh ha0
  have hc0 : 0 < rcosh a := lt_of_lt_of_le zero_lt_one hc1
  change _ ≤ rcosh a ^ ⌊2 * (suppliedWeight ops : ℚ) ^ 2 / (k * (bsize n k : Nat))⌋₊
  have hw := anyRun_wsum4 n k hk2 ops
  generalize 2 * (suppliedWeight ops : ℚ) ^ 2 / (k * (bsize n k : Nat)) = V at hw ⊢
  have h := anyExecs_exp rfl (mgf_lvlSuper (K := K) (k := k) (L := rcLogLen n k) rfl x ha hσ) ops hm hnan 0 0 [] _ hl (Nat.zero_le _)
    (base_fresh (by omega)) (cap_fresh _ n k) (by simpa using hlen')
  have h0 : a ^ (σ * ((W (fun b => rank b x) (fresh n k : RCSketch K) [] : ℤ) - rank ([] : List (Fl K)) x)) /
      rcosh a ^ wsum4 (fresh n k : RCSketch K).compactions = 1 := by
    simp [W, fresh, fsum, wsum, rank, wsum4]
  rw [h0, ← anyRun_eq hk] at h
  have h2 : exp (AnyIns.run n k ops) (fun s => (rcosh a ^ ⌊V⌋₊)⁻¹ * a ^ (σ * ((weightedRank s.buffers x : ℤ) - suppliedRank x ops))) ≤ 1 := by
    refine le_trans (exp_mono (hw.mono (fun s hs => ?_))) h
    rw [W_nil, List.nil_append, supplied_rank, mul_comm, ← div_eq_mul_inv]
    refine div_le_div_of_nonneg_left (zpow_pos ha0 _).le (by positivity) (pow_le_pow_right₀ hc1 ?_)
    exact Nat.le_floor hs
  rw [exp_mul_left, inv_mul_le_iff₀ (by positivity), mul_one] at h2
  exact h2

end RCSketch

theorem Prog.exp_mul_right' {α : Type} (p : Prog α) (f : α → ℚ) (c : ℚ) : exp p (fun x => f x * c) = exp p f * c := by
  rw [show (fun x => f x * c) = (fun x => c * f x) from funext (fun x => mul_comm _ _), exp_mul_left, mul_comm]

namespace MergeTree
open RCSketch

/-- The variance budget of the sketches merged into another, rounded down sketch by sketch. -/
def inhN : MergeTree K → Nat
  | new _ _ => 0
  | ins t _ => t.inhN
  | merge a b _ => a.inhN + (⌊b.share⌋₊ + b.inhN)

theorem share_nonneg (t : MergeTree K) : 0 ≤ t.share := by unfold share; positivity

theorem inhN_le : ∀ t : MergeTree K, (t.inhN : ℚ) ≤ t.inherited
  | new _ _ => by simp [inhN, inherited]
  | ins t _ => inhN_le t
  | merge a b _ => by
    have h1 := inhN_le a
    have h2 := inhN_le b
    have h3 := Nat.floor_le b.share_nonneg
    change ((a.inhN + (⌊b.share⌋₊ + b.inhN) : Nat) : ℚ) ≤ a.inherited + (b.share + b.inherited)
    push_cast; linarith

/-- Exponential moments of the final sketch and of the calls its root sees. -/
structure Mgf (a : ℚ) (σ : ℤ) (t : MergeTree K) : Prop where
  run : ∀ x, exp t.run (fun s => a ^ (σ * ((weightedRank s.buffers x : ℤ) - rank (insItems t.ops) x))) ≤ rcosh a ^ (⌊t.share⌋₊ + t.inhN)
  calls : ∀ x, exp t.calls (fun l => a ^ (σ * ((suppliedRank x l : ℤ) - rank (insItems t.ops) x))) ≤ rcosh a ^ t.inhN

theorem mgf_of_calls {a : ℚ} (ha : 1 ≤ a) {σ : ℤ} (hσ : |σ| = 1) {t : MergeTree K} (hp : t.PosK) (hev : t.EvenK) (hf : t.Fits rcCapacity)
    (hm : ∀ o ∈ t.ops, o.method = .default) (hnan : ∀ y ∈ insItems t.ops, y ≠ .nan)
    (h : ∀ x, exp t.calls (fun l => a ^ (σ * ((suppliedRank x l : ℤ) - rank (insItems t.ops) x))) ≤ rcosh a ^ t.inhN) : Mgf a σ t := by
  have ha0 : 0 < a := by linarith
  have hc0 : 0 < rcosh a := lt_of_lt_of_le zero_lt_one (one_le_rcosh ha0)
  refine ⟨fun x => ?_, h⟩
  rw [run_dist]
  have hb : Partially t.calls (fun l => exp (AnyIns.run t.root.1 t.root.2 l)
      (fun s => a ^ (σ * ((weightedRank (addCount t.others s).buffers x : ℤ) - rank (insItems t.ops) x))) ≤
      rcosh a ^ ⌊t.share⌋₊ * a ^ (σ * ((suppliedRank x l : ℤ) - rank (insItems t.ops) x))) := by
    refine (calls_ok (G := (· ≠ .nan)) t hev hm hnan).mono (fun l hl => ?_)
    obtain ⟨h1, h2, h3, h4, -⟩ := hl
    have hlen : AnyIns.passed l < rcCapacity t.root.1 t.root.2 := lt_of_le_of_lt ((passed_le l).trans (le_of_eq h3)) (hf.root hp)
    have := any_mgf _ _ hp.root hev.root l h1 h2 hlen h4 x ha hσ
    rw [h3] at this
    have e : (fun s : RCSketch K => a ^ (σ * ((weightedRank (addCount t.others s).buffers x : ℤ) - rank (insItems t.ops) x))) =
        (fun s => a ^ (σ * ((weightedRank s.buffers x : ℤ) - suppliedRank x l)) * a ^ (σ * ((suppliedRank x l : ℤ) - rank (insItems t.ops) x))) := by
      funext s
      rw [← zpow_add₀ ha0.ne']
      congr 1
      change σ * ((weightedRank s.buffers x : ℤ) - _) = _
      ring
    rw [e, Prog.exp_mul_right']
    exact mul_le_mul_of_nonneg_right this (zpow_pos ha0 _).le
  refine (exp_mono hb).trans ?_
  rw [exp_mul_left, pow_add]
  exact mul_le_mul_of_nonneg_left (h x) (by positivity)

theorem mgf {a : ℚ} (ha : 1 ≤ a) {σ : ℤ} (hσ : |σ| = 1) : ∀ (t : MergeTree K), t.PosK → t.EvenK → t.Fits rcCapacity →
    (∀ o ∈ t.ops, o.method = .default) → (∀ y ∈ insItems t.ops, y ≠ .nan) → Mgf a σ t := by
  have ha0 : 0 < a := by linarith
  have hc0 : 0 < rcosh a := lt_of_lt_of_le zero_lt_one (one_le_rcosh ha0)
  intro t
  induction t with
  | new n k =>
    intro hp hev hf hm hnan
    refine mgf_of_calls ha hσ hp hev hf hm hnan (fun x => ?_)
    simp [MergeTree.calls, exp_ret, suppliedRank, ops, insItems, rank, inhN]
  | ins t o ih =>
    intro hp hev hf hm hnan
    have hnan' : ∀ y ∈ insItems t.ops ++ insItems [o], y ≠ .nan := by rw [← insItems_append]; exact hnan
    have g := ih hp hev hf.1 (fun o' ho => hm o' (by simp [ops, ho])) (fun y hy => hnan' y (by simp [hy]))
    have hr : ∀ x l, (suppliedRank x (l ++ [.plain o]) : ℤ) = suppliedRank x l + rank o.items x := by
      intro x l; rw [suppliedRank_append, Nat.cast_add]; simp [suppliedRank, AnyIns.lvl, AnyIns.items]
    have hR : ∀ x, (rank (insItems (ins t o).ops) x : ℤ) = rank (insItems t.ops) x + rank o.items x := by
      intro x; rw [ops, insItems_append, rank_append, insItems_single, Nat.cast_add]
    refine mgf_of_calls ha hσ hp hev hf hm hnan (fun x => ?_)
    unfold MergeTree.calls
    rw [exp_bind]
    simp only [exp_ret, hr, hR, add_sub_add_right_eq_sub]
    exact g.calls x
  | merge b c fast ihb ihc =>
    intro hp hev hf hm hnan
    have hnan' : ∀ y ∈ insItems b.ops ++ insItems c.ops, y ≠ .nan := by rw [← insItems_append]; exact hnan
    have gb := ihb hp.1 hev.1 hf.1 (fun o' ho => hm o' (by simp [ops, ho])) (fun y hy => hnan' y (by simp [hy]))
    have gc := ihc hp.2 hev.2 hf.2.1 (fun o' ho => hm o' (by simp [ops, ho])) (fun y hy => hnan' y (by simp [hy]))
    have hr : ∀ x l (s : RCSketch K), (suppliedRank x (l ++ (levelCalls fast .default 0 s.buffers).map .level) : ℤ) =
        suppliedRank x l + weightedRank s.buffers x := by
      intro x l s; rw [suppliedRank_append, levelCalls_rank, Nat.cast_add]; simp
    have hR : ∀ x, (rank (insItems (merge b c fast).ops) x : ℤ) = rank (insItems b.ops) x + rank (insItems c.ops) x := by
      intro x; rw [ops, insItems_append, rank_append, Nat.cast_add]
    refine mgf_of_calls ha hσ hp hev hf hm hnan (fun x => ?_)
    unfold MergeTree.calls
    rw [exp_bind]
    simp only [exp_bind, exp_ret, hr, hR]
    have e : ∀ (l : List (AnyIns K)) (s : RCSketch K), a ^ (σ * ((suppliedRank x l : ℤ) + weightedRank s.buffers x -
        (rank (insItems b.ops) x + rank (insItems c.ops) x))) = a ^ (σ * ((suppliedRank x l : ℤ) - rank (insItems b.ops) x)) *
        a ^ (σ * ((weightedRank s.buffers x : ℤ) - rank (insItems c.ops) x)) := by
      intro l s; rw [← zpow_add₀ ha0.ne']; congr 1; ring
    simp only [e, exp_mul_left, Prog.exp_mul_right']
    change _ ≤ rcosh a ^ (b.inhN + (⌊c.share⌋₊ + c.inhN))
    rw [pow_add]
    refine mul_le_mul (gb.calls x) (gc.run x) ?_ (by positivity)
    exact Prog.exp_nonneg _ (fun s => (zpow_pos ha0 _).le)

variable (t : MergeTree K) (hp : t.PosK) (hev : t.EvenK) (hf : t.Fits rcCapacity) (hm : ∀ o ∈ t.ops, o.method = .default)
  (hnan : ∀ y ∈ insItems t.ops, y ≠ .nan)
include hp hev hf hm hnan

/-- One-sided exponential tails of the stored rank. -/
theorem one_sided (x : Fl K) (d : ℚ) (hd : 0 ≤ d) :
    ((exp t.run (fun s => if d ≤ (((weightedRank s.buffers x : ℤ) - rank (insItems t.ops) x : ℤ) : ℚ) then 1 else 0) : ℚ) : ℝ) ≤
      Real.exp (-((d : ℝ) ^ 2 / (2 * ((t.share + t.inherited : ℚ) : ℝ)))) ∧
    ((exp t.run (fun s => if d ≤ (((rank (insItems t.ops) x : ℤ) - weightedRank s.buffers x : ℤ) : ℚ) then 1 else 0) : ℚ) : ℝ) ≤
      Real.exp (-((d : ℝ) ^ 2 / (2 * ((t.share + t.inherited : ℚ) : ℝ)))) := by
  have hM : ((⌊t.share⌋₊ + t.inhN : Nat) : ℝ) ≤ ((t.share + t.inherited : ℚ) : ℝ) := by
    have h1 := Nat.floor_le t.share_nonneg
    have h2 := inhN_le t
    have : ((⌊t.share⌋₊ + t.inhN : Nat) : ℚ) ≤ t.share + t.inherited := by push_cast; linarith
    exact_mod_cast this
  constructor
  · refine tail_of_mgf t.run _ _ _ hM (fun a ha => ?_) d hd
    have := (mgf ha (σ := 1) (by simp) t hp hev hf hm hnan).run x
    simpa only [one_mul] using this
  · refine tail_of_mgf t.run _ _ _ hM (fun a ha => ?_) d hd
    have := (mgf ha (σ := -1) (by simp) t hp hev hf hm hnan).run x
    simpa only [neg_one_mul, neg_sub] using this

omit hp hf hnan in
/-- The stored weight up to `x` is a counting function of the supplied items. -/
theorem stored_counts : Partially t.run (fun s => Counts (insItems t.ops) (weightedRank s.buffers)) := by
  refine (C133_weight t hev hm).mono ?_
  rintro s ⟨-, hmem⟩
  refine ⟨fun x y h => weightedRank_mono _ h, fun x f h => ?_, fun x h => ?_⟩
  · unfold weightedRank
    refine congrArg wsum (List.map_congr_left (fun b hb => ?_))
    exact List.countP_congr (fun y hy => by simpa using h y (hmem b hb y hy))
  · have : ∀ L : List (List (Fl K)), (∀ b ∈ L, ∀ y ∈ b, ¬ y ≤ x) → weightedRank L x = 0 := by
      intro L
      induction L with
      | nil => intro _; rfl
      | cons b L ih =>
        intro h
        show rank b x + 2 * wsum (L.map (fun b => rank b x)) = 0
        have h1 := ih (fun b hb => h b (by simp [hb]))
        have h2 : rank b x = 0 := by
          rw [rank, List.countP_eq_zero]
          intro y hy
          simpa using h b (by simp) y hy
        unfold weightedRank at h1
        omega
    exact this _ (fun b hb y hy => h y (hmem b hb y hy))

end MergeTree
end AQ

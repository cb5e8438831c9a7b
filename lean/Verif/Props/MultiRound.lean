/-
C91: `MultiDigest` in floating point.
-/
import Verif.Proofs.ParallelRound
import Verif.Proofs.F64Error
import Verif.Props.MultiDigest
import Verif.Model.Linear

set_option linter.unusedSectionVars false
set_option linter.unusedVariables false

namespace AQ
open Prog Spec
variable {K : Type} [Field K] [LinearOrder K] [IsStrictOrderedRing K] [FloatFmt K]
variable {D : Type} [Digest D (Fl K)]

theorem MultiDigest.foldl_between [hm : FloatFmt.Mono K] {lo hi : K} : ∀ (as : List K) (j : Nat) (s : K),
    (∀ i, i ≤ j + as.length → FloatFmt.rnd (lo * (i : Nat)) = .fin (lo * (i : Nat)) ∧ FloatFmt.rnd (hi * (i : Nat)) = .fin (hi * (i : Nat))) →
    (∀ a ∈ as, lo ≤ a ∧ a ≤ hi) → lo * j ≤ s → s ≤ hi * j →
    ∃ y : K, (as.map Fl.fin).foldl (· + ·) (.fin s : Fl K) = .fin y ∧ lo * (j + as.length : Nat) ≤ y ∧ y ≤ hi * (j + as.length : Nat)
  | [], j, s, _, _, h1, h2 => ⟨s, rfl, h1, h2⟩
  | a :: as, j, s, hex, hb, h1, h2 => by
    obtain ⟨ha1, ha2⟩ := hb a (by simp)
    obtain ⟨e1, e2⟩ := hex (j + 1) (by simp)
    have b1 : lo * ((j + 1 : Nat) : K) ≤ s + a := by push_cast; linarith
    have b2 : s + a ≤ hi * ((j + 1 : Nat) : K) := by push_cast; linarith
    obtain ⟨y, hy, y1, y2⟩ := ParallelDigest.fin_of_between (x := s + a) (l := lo * ((j + 1 : Nat) : K)) (h := hi * ((j + 1 : Nat) : K))
      (by rw [← e1]; exact hm.rnd_mono _ _ b1) (by rw [← e2]; exact hm.rnd_mono _ _ b2)
    have e : j + (a :: as).length = j + 1 + as.length := by simp; omega
    rw [List.map_cons, List.foldl_cons, Fl.add_fin, hy, e]
    exact foldl_between as (j + 1) y (fun i hi => hex i (by rw [e]; exact hi)) (fun b hb' => hb b (by simp [hb'])) y1 y2

theorem MultiDigest.loop_between_rounded [hm : FloatFmt.Mono K] (est : D → Prog (Fl K × D)) (ds : List D) (hne : ds ≠ []) (lo hi : K)
    (hex : ∀ i : Nat, i ≤ ds.length → FloatFmt.rnd (lo * i) = .fin (lo * i) ∧ FloatFmt.rnd (hi * i) = .fin (hi * i) ∧
      FloatFmt.rnd (i : K) = .fin (i : K))
    (h : ∀ d ∈ ds, Always (est d) (fun r => ∃ a : K, r.1 = .fin a ∧ lo ≤ a ∧ a ≤ hi)) :
    Always (MultiDigest.sumLoop est ds (Fl.lit 0)) (fun r =>
      ∃ a : K, r.1 / Fl.ofNat ds.length = .fin a ∧ lo ≤ a ∧ a ≤ hi) := by
  refine (MultiDigest.sumLoop_always est ds (Fl.lit 0) h).mono ?_
  rintro r ⟨rs, h0, h1, h2, h3⟩
  have hex' : ∃ as : List K, rs.map Prod.fst = as.map Fl.fin ∧ ∀ a ∈ as, lo ≤ a ∧ a ≤ hi := by
    clear h0 h2 h3
    induction rs with
    | nil => exact ⟨[], rfl, by simp⟩
    | cons s rs ih =>
      obtain ⟨as, e, hb⟩ := ih (fun s hs => h1 s (by simp [hs]))
      obtain ⟨a, ha, hab⟩ := h1 s (by simp)
      refine ⟨a :: as, by simp [ha, e], ?_⟩
      intro b hb'
      rcases List.mem_cons.1 hb' with rfl | hb'
      · exact hab
      · exact hb b hb'
  obtain ⟨as, e, hb⟩ := hex'
  have hlen : as.length = ds.length := by
    have := congrArg List.length e
    simpa [h0] using this.symm
  have hlit : (Fl.lit 0 : Fl K) = .fin 0 := hm.rnd_zero
  obtain ⟨y, hy, y1, y2⟩ := MultiDigest.foldl_between as 0 0 (fun i hi' => by
    have := hex i (by omega)
    exact ⟨this.1, this.2.1⟩) hb (by simp) (by simp)
  rw [h3, e, hlit, hy]
  have hpos : (0 : K) < ds.length := Nat.cast_pos.2 (List.length_pos_of_ne_nil hne)
  have hof : (Fl.ofNat ds.length : Fl K) = .fin (ds.length : K) := (hex _ le_rfl).2.2
  rw [hof, Fl.div_fin_of_ne _ hpos.ne']
  rw [zero_add, hlen] at y1 y2
  obtain ⟨o1, o2, -⟩ := hex 1 (List.length_pos_of_ne_nil hne)
  rw [Nat.cast_one, mul_one] at o1
  rw [Nat.cast_one, mul_one] at o2
  refine ParallelDigest.fin_of_between ?_ ?_
  · rw [← o1]; exact hm.rnd_mono _ _ (by rw [le_div_iff₀ hpos]; exact y1)
  · rw [← o2]; exact hm.rnd_mono _ _ (by rw [div_le_iff₀ hpos]; exact y2)

/-- C91. In floating point an interval that surely contains the answers of all members contains the answer of the MultiDigest,
provided multiples of its ends up to the number of members are exact. The restriction is needed, `C91_outside_members_f64`. -/
theorem C91_between_members [FloatFmt.Mono K] (ds : List D) (hne : ds ≠ []) (x : Fl K) (lo hi : K)
    (hex : ∀ i : Nat, i ≤ ds.length → FloatFmt.rnd (lo * i) = .fin (lo * i) ∧ FloatFmt.rnd (hi * i) = .fin (hi * i) ∧
      FloatFmt.rnd (i : K) = .fin (i : K)) :
    ((∀ d ∈ ds, Always (Digest.estQuantileAtValue d x) (fun r => ∃ a : K, r.1 = .fin a ∧ lo ≤ a ∧ a ≤ hi)) →
      Always ((MultiDigest.built ds).estQuantileAtValue x) (fun r => ∃ a : K, r.1 = .fin a ∧ lo ≤ a ∧ a ≤ hi)) ∧
    ((∀ d ∈ ds, Always (Digest.estValueAtQuantile d x) (fun r => ∃ a : K, r.1 = .fin a ∧ lo ≤ a ∧ a ≤ hi)) →
      Always ((MultiDigest.built ds).estValueAtQuantile x) (fun r => ∃ a : K, r.1 = .fin a ∧ lo ≤ a ∧ a ≤ hi)) := by
  simp only [MultiDigest.built_eq]
  constructor <;> intro h
  · unfold MultiDigest.estQuantileAtValue
    rw [always_bind]
    exact MultiDigest.loop_between_rounded _ ds hne lo hi hex h
  · unfold MultiDigest.estValueAtQuantile
    rw [always_bind]
    exact MultiDigest.loop_between_rounded _ ds hne lo hi hex h

/-- C91. In particular the quantile of a MultiDigest whose members answer within `[0, 1]` is within `[0, 1]` in floating point. -/
theorem C91_quantile_in_unit [FloatFmt.Mono K] (ds : List D) (hne : ds ≠ []) (hc : ExactCounts K ds.length) (x : Fl K)
    (h : ∀ d ∈ ds, Always (Digest.estQuantileAtValue d x) (fun r => ∃ a : K, r.1 = .fin a ∧ 0 ≤ a ∧ a ≤ 1)) :
    Always ((MultiDigest.built ds).estQuantileAtValue x) (fun r => ∃ a : K, r.1 = .fin a ∧ 0 ≤ a ∧ a ≤ 1) := by
  refine (C91_between_members ds hne x 0 1 (fun i hi => ?_)).1 h
  have := ExactCounts.rnd_nat hc hi
  rw [zero_mul, one_mul]
  exact ⟨FloatFmt.Mono.rnd_zero, this, this⟩

theorem MultiDigest.foldl_near {u η R M : K} (hr : RelErr u η R) (m : Nat) (hum : u * m ≤ 1 / 2) (hR : 2 * m * (M + η) ≤ R) :
    ∀ (as : List K) (j : Nat) (s S : K), j + as.length ≤ m → (∀ a ∈ as, |a| ≤ M) → |S| ≤ j * M →
    |s - S| ≤ j * (2 * u * m * (M + η) + η) →
    ∃ y : K, (as.map Fl.fin).foldl (· + ·) (.fin s : Fl K) = .fin y ∧
      |y - (S + as.sum)| ≤ (j + as.length : Nat) * (2 * u * m * (M + η) + η) ∧ |S + as.sum| ≤ (j + as.length : Nat) * M
  | [], j, s, S, _, _, h1, h2 => ⟨s, rfl, by simpa using h2, by simpa using h1⟩
  | a :: as, j, s, S, hj, hb, h1, h2 => by
    have hu := hr.u_nonneg
    have hη := hr.eta_nonneg
    have ha := hb a (by simp)
    have hM : 0 ≤ M := (abs_nonneg a).trans ha
    have hjm : (j : K) + 1 ≤ m := by
      have : j + 1 ≤ m := by simp at hj; omega
      exact_mod_cast this
    have hj0 : (0 : K) ≤ j := Nat.cast_nonneg j
    have hS' : |S + a| ≤ ((j + 1 : Nat) : K) * M := by
      refine (abs_add_le _ _).trans ?_
      push_cast; linarith
    have hsa : |s + a| ≤ 2 * m * (M + η) := by
      have e : s + a = (s - S) + (S + a) := by ring
      rw [e]
      refine (abs_add_le _ _).trans ?_
      have k1 : j * (2 * u * m * (M + η) + η) ≤ j * (M + η) + j * η := by
        have : 2 * u * m * (M + η) ≤ 1 * (M + η) := mul_le_mul_of_nonneg_right (by linarith) (by linarith)
        have := mul_le_mul_of_nonneg_left this hj0
        linarith
      have k2 : ((j + 1 : Nat) : K) * M + (j * (M + η) + j * η) ≤ 2 * (((j + 1 : Nat) : K) * (M + η)) := by
        push_cast
        nlinarith
      have k3 : ((j + 1 : Nat) : K) * (M + η) ≤ m * (M + η) := by
        push_cast
        exact mul_le_mul_of_nonneg_right hjm (by linarith)
      linarith
    obtain ⟨y, hy, hy2⟩ := hr.near (s + a) (hsa.trans hR)
    have hy3 : |y - (s + a)| ≤ 2 * u * m * (M + η) + η := by
      have := mul_le_mul_of_nonneg_left hsa hu
      linarith
    obtain ⟨z, hz, z1, z2⟩ := foldl_near hr m hum hR as (j + 1) y (S + a) (by simp at hj; omega) (fun b hb' => hb b (by simp [hb']))
      hS' (by
        have e : y - (S + a) = (y - (s + a)) + (s - S) := by ring
        rw [e]
        refine (abs_add_le _ _).trans ?_
        push_cast; linarith)
    have e : j + (a :: as).length = j + 1 + as.length := by simp; omega
    refine ⟨z, ?_, ?_, ?_⟩
    · rw [List.map_cons, List.foldl_cons, Fl.add_fin, hy, hz]
    · rw [e, List.sum_cons, ← add_assoc]; exact z1
    · rw [e, List.sum_cons, ← add_assoc]; exact z2

theorem MultiDigest.loop_near [hm : FloatFmt.Mono K] {u η R M : K} (hr : RelErr u η R) (est : D → Prog (Fl K × D)) (ds : List D)
    (hne : ds ≠ []) (hlen : FloatFmt.rnd (ds.length : K) = .fin (ds.length : K)) (hum : u * ds.length ≤ 1 / 2)
    (hR : 2 * ds.length * (M + η) ≤ R) (h : ∀ d ∈ ds, Always (est d) (fun r => ∃ a : K, r.1 = .fin a ∧ |a| ≤ M)) :
    Always (MultiDigest.sumLoop est ds (Fl.lit 0)) (fun r => ∃ (y : K) (as : List K), r.1 / Fl.ofNat ds.length = .fin y ∧
      List.Forall₂ (fun d a => ∃ d', CanReturn (est d) ((.fin a : Fl K), d')) ds as ∧
      |y - as.sum / as.length| ≤ 2 * u * (ds.length + 1) * (M + η) + 2 * η) := by
  have hu := hr.u_nonneg
  have hη := hr.eta_nonneg
  refine ((MultiDigest.sumLoop_always est ds (Fl.lit 0) (P := fun _ => True) (fun d hd => (h d hd).mono fun _ _ => trivial)).and
    (MultiDigest.sumLoop_partially est ds _)).mono ?_
  rintro r ⟨-, rs, h1, h2, h3⟩
  have hex : ∀ {ds : List D} {rs : List (Fl K × D)}, List.Forall₂ (fun d s => CanReturn (est d) s) ds rs →
      (∀ d ∈ ds, Always (est d) (fun r => ∃ a : K, r.1 = .fin a ∧ |a| ≤ M)) →
      ∃ as : List K, rs.map Prod.fst = as.map Fl.fin ∧ (∀ a ∈ as, |a| ≤ M) ∧
        List.Forall₂ (fun d a => ∃ d', CanReturn (est d) ((.fin a : Fl K), d')) ds as := by
    intro ds rs hf
    induction hf with
    | nil => intro _; exact ⟨[], rfl, by simp, .nil⟩
    | @cons d s ds rs g1 g2 ih =>
      intro h
      obtain ⟨as, e1, e2, e3⟩ := ih (fun d' hd' => h d' (by simp [hd']))
      obtain ⟨a, ha, hab⟩ := (always_iff _ _).1 (h d (by simp)) |>.1 s g1
      refine ⟨a :: as, by simp [ha, e1], ?_, .cons ⟨s.2, by rw [← ha]; exact g1⟩ e3⟩
      intro b hb
      rcases List.mem_cons.1 hb with rfl | hb
      · exact hab
      · exact e2 b hb
  obtain ⟨as, e1, e2, e3⟩ := hex h1 h
  have hal : as.length = ds.length := e3.length_eq.symm
  have hlit : (Fl.lit 0 : Fl K) = .fin 0 := hm.rnd_zero
  obtain ⟨s, hs, s1, s2⟩ := MultiDigest.foldl_near hr ds.length hum hR as 0 0 0 (by omega) e2 (by simp) (by simp)
  have hpos : (0 : K) < ds.length := Nat.cast_pos.2 (List.length_pos_of_ne_nil hne)
  have hof : (Fl.ofNat ds.length : Fl K) = .fin (ds.length : K) := hlen
  rw [zero_add, hal] at s1 s2
  rw [zero_add] at s1 s2
  have hM : 0 ≤ M := by
    cases as with
    | nil => simp only [List.length_nil] at hal; exact absurd (List.length_eq_zero_iff.1 hal.symm) hne
    | cons a as => exact (abs_nonneg a).trans (e2 a (by simp))
  have hone : (1 : K) ≤ ds.length := by exact_mod_cast List.length_pos_of_ne_nil hne
  have d1 : |s / ds.length - as.sum / ds.length| ≤ 2 * u * ds.length * (M + η) + η := by
    rw [← sub_div, abs_div, abs_of_pos hpos, div_le_iff₀ hpos, mul_comm]
    exact s1
  have d2 : |as.sum / ds.length| ≤ M := by
    rw [abs_div, abs_of_pos hpos, div_le_iff₀ hpos, mul_comm]
    exact s2
  have d3 : |s / ds.length| ≤ 2 * (M + η) := by
    have e : s / ds.length = (s / ds.length - as.sum / ds.length) + as.sum / ds.length := by ring
    rw [e]
    refine (abs_add_le _ _).trans ?_
    have : 2 * u * ds.length * (M + η) ≤ 1 * (M + η) := mul_le_mul_of_nonneg_right (by linarith) (by linarith)
    linarith
  have d4 : 2 * (M + η) ≤ R := by
    have : 2 * (M + η) * 1 ≤ 2 * (M + η) * ds.length := mul_le_mul_of_nonneg_left hone (by linarith)
    linarith
  obtain ⟨y, hy, hy2⟩ := hr.near (s / ds.length) (d3.trans d4)
  refine ⟨y, as, ?_, e3, ?_⟩
  · rw [h3, e1, hlit, hs, hof, Fl.div_fin_of_ne _ hpos.ne', hy]
  · rw [hal]
    have e : y - as.sum / ds.length = (y - s / ds.length) + (s / ds.length - as.sum / ds.length) := by ring
    rw [e]
    refine (abs_add_le _ _).trans ?_
    have := mul_le_mul_of_nonneg_left d3 hu
    linarith

/-- C91. In floating point with relative error `u` (absolute error `η` near 0), `m` members that surely answer with magnitude at
most `M`: the answer of a MultiDigest is within `2 u (m + 1) (M + η) + 2 η` of the mean of the members' answers. -/
theorem C91_near_mean [FloatFmt.Mono K] {u η R M : K} (hr : RelErr u η R) (ds : List D)
    (hne : ds ≠ []) (hlen : FloatFmt.rnd (ds.length : K) = .fin (ds.length : K)) (hum : u * ds.length ≤ 1 / 2)
    (hR : 2 * ds.length * (M + η) ≤ R) (x : Fl K) :
    ((∀ d ∈ ds, Always (Digest.estQuantileAtValue d x) (fun r => ∃ a : K, r.1 = .fin a ∧ |a| ≤ M)) →
      Always ((MultiDigest.built ds).estQuantileAtValue x) (fun r => ∃ (y : K) (as : List K), r.1 = .fin y ∧
        List.Forall₂ (fun d a => ∃ d', CanReturn (Digest.estQuantileAtValue d x) ((.fin a : Fl K), d')) ds as ∧
        |y - as.sum / as.length| ≤ 2 * u * (ds.length + 1) * (M + η) + 2 * η)) ∧
    ((∀ d ∈ ds, Always (Digest.estValueAtQuantile d x) (fun r => ∃ a : K, r.1 = .fin a ∧ |a| ≤ M)) →
      Always ((MultiDigest.built ds).estValueAtQuantile x) (fun r => ∃ (y : K) (as : List K), r.1 = .fin y ∧
        List.Forall₂ (fun d a => ∃ d', CanReturn (Digest.estValueAtQuantile d x) ((.fin a : Fl K), d')) ds as ∧
        |y - as.sum / as.length| ≤ 2 * u * (ds.length + 1) * (M + η) + 2 * η)) := by
  simp only [MultiDigest.built_eq]
  constructor <;> intro h
  · unfold MultiDigest.estQuantileAtValue
    rw [always_bind]
    exact MultiDigest.loop_near hr _ ds hne hlen hum hR h
  · unfold MultiDigest.estValueAtQuantile
    rw [always_bind]
    exact MultiDigest.loop_near hr _ ds hne hlen hum hR h

section
attribute [local instance] f64Fmt f64_mono

/-- A linear digest with one item, the number of the format closest to `q`. -/
def oneItem (q : ℚ) : LinearDigest ℚ := ⟨[Fl.lit q]⟩

/-- C91. The restriction on the interval is needed: in `f64` three members that all answer `0.1` (rounded) give a larger answer. -/
theorem C91_outside_members_f64 :
    Always ((MultiDigest.built [oneItem (1 / 10), oneItem (1 / 10), oneItem (1 / 10)]).estValueAtQuantile (.fin 0 : Fl ℚ)) (fun r =>
      (Fl.lit (1 / 10) : Fl ℚ) < r.1) ∧
    Always (Digest.estValueAtQuantile (oneItem (1 / 10)) (.fin 0 : Fl ℚ)) (fun r => r.1 = (Fl.lit (1 / 10) : Fl ℚ)) := by
  constructor <;> decide +kernel

/-- C91. A sum that overflows makes the answer infinite though all members answer with numbers. -/
theorem C91_overflow_f64 :
    Always ((MultiDigest.built [oneItem (2 ^ 1023), oneItem (2 ^ 1023)]).estValueAtQuantile (.fin 0 : Fl ℚ)) (fun r =>
      r.1 = .pinf) := by
  decide +kernel

-- `C91_near_mean` and `C91_between_members` for members with different answers, in `f64`
example : Always ((MultiDigest.built [oneItem (1 / 10), oneItem 3, oneItem (-7 / 3)]).estValueAtQuantile (.fin 0 : Fl ℚ))
    (fun r => ∃ (y : ℚ) (as : List ℚ), r.1 = .fin y ∧
      List.Forall₂ (fun d a => ∃ d', CanReturn (Digest.estValueAtQuantile d (.fin 0 : Fl ℚ)) ((.fin a : Fl ℚ), d'))
        [oneItem (1 / 10), oneItem 3, oneItem (-7 / 3)] as ∧
      |y - as.sum / as.length| ≤ 2 * 2 ^ (-53 : ℤ) * (3 + 1) * (4 + 2 ^ (-1075 : ℤ)) + 2 * 2 ^ (-1075 : ℤ)) := by
  have := (C91_near_mean f64_relErr [oneItem (1 / 10), oneItem 3, oneItem (-7 / 3)] (by simp) (by decide +kernel) (M := 4)
    (by decide +kernel) (by decide +kernel) (.fin 0)).2 (by
      intro d hd
      have key : Always (Digest.estValueAtQuantile d (.fin 0 : Fl ℚ)) (fun r => r.1 ≠ .nan ∧ .fin (-4) ≤ r.1 ∧ r.1 ≤ .fin 4) := by
        revert d
        decide +kernel
      refine key.mono ?_
      rintro ⟨x, d'⟩ ⟨h0, h1, h2⟩
      cases x with
      | nan => exact absurd rfl h0
      | ninf => exact absurd h1 (by simp)
      | pinf => exact absurd h2 (by simp)
      | fin a => exact ⟨a, rfl, abs_le.2 ⟨by simpa using h1, by simpa using h2⟩⟩)
  simpa using this

example : Always ((MultiDigest.built [oneItem (1 / 10), oneItem 3, oneItem (-7 / 3)]).estQuantileAtValue (.fin 1 : Fl ℚ))
    (fun r => ∃ a : ℚ, r.1 = .fin a ∧ 0 ≤ a ∧ a ≤ 1) := by
  refine C91_quantile_in_unit _ (by simp) (fun m hm => f64_exactCounts m (hm.trans (by decide))) _ ?_
  intro d hd
  have key : Always (Digest.estQuantileAtValue d (.fin 1 : Fl ℚ)) (fun r => r.1 ≠ .nan ∧ .fin 0 ≤ r.1 ∧ r.1 ≤ .fin 1) := by
    revert d
    decide +kernel
  refine key.mono ?_
  rintro ⟨x, d'⟩ ⟨h0, h1, h2⟩
  cases x with
  | nan => exact absurd rfl h0
  | ninf => exact absurd h1 (by simp)
  | pinf => exact absurd h2 (by simp)
  | fin a => exact ⟨a, rfl, by simpa using h1, by simpa using h2⟩

end
end AQ

/-
C119: the value query of a TDigest at the quantile estimated for a value.
-/
import Verif.Proofs.TDTrip
import Verif.Props.TDigestQuery

set_option linter.unusedSectionVars false
set_option linter.unusedVariables false

namespace AQ
open Prog Spec
variable {K : Type} [Field K] [LinearOrder K] [IsStrictOrderedRing K] [FloatFmt K]

namespace Spec

/-- No centroid mean lies strictly between `x` and `v`. -/
def NoMeanBetween (d : TDigest K) (x v : Fl K) : Prop :=
  ∀ c ∈ d.centroids, ¬ (x < c.mean ∧ c.mean < v) ∧ ¬ (v < c.mean ∧ c.mean < x)

/-- `v` is what `est_value_at_quantile` answers for the quantile that `est_quantile_at_value` answers for `x`. -/
def RoundTrip [FloorRing K] (d : TDigest K) (x : Fl K) (v : Fl K) : Prop :=
  Always (d.estQuantileAtValue x >>= fun q => d.estValueAtQuantile q) (fun r => r = v)

end Spec

variable [FloorRing K]

namespace TDigest

theorem round_trip_eq [FloatFmt.Exact K] {d : TDigest K} {l : List (K × K)} {a b : K} (h : View d l a b) (h2 : 2 ≤ l.length)
    (hw : ∀ p ∈ l, 1 ≤ p.2) (h64 : wt l < 2 ^ 64) (x : K) :
    RoundTrip d (.fin x) (estV l h.ne a b (wt l * estQ l h.ne a b x)) := by
  unfold RoundTrip
  rw [estQuantile_eq h h2, bind_ret, estValue_eq h hw h64]
  exact rfl

end TDigest

/-- C119, partial. After any history of insertion calls with weights 1 or at least 2 (single items have weight 1) that leaves at least two
centroids, take a finite `x` not strictly between the last mean and the maximum. The value query at the quantile estimated for `x` answers a
value within the data with no centroid mean strictly between it and `x`. It answers `x` itself when `x` is the minimum; when `x` is the mean of
a centroid other than the last and other than a first centroid of weight 1; and below the first mean when the first centroid has weight more
than 2. For `x` between the last mean and the maximum the statement is false: `C119_right_tail`, `C119_right_tail_far`. -/
theorem C119_round_trip_partial [FloatFmt.Exact K] (s i : ScaleFn K) (cf : Fl K) (ops : List (TDigest.TOp K))
    (hne : TDigest.supplied ops ≠ []) (hg : ∀ c ∈ TDigest.supplied ops, Good c ∧ InRange c)
    (hw : ∀ c ∈ TDigest.supplied ops, c.weight.toK = 1 ∨ 2 ≤ c.weight.toK) (h64 : totalW (TDigest.supplied ops) < 2 ^ 64) :
    Always ((TDigest.new s i cf).execOps ops) (fun d => ∀ first last : Centroid K, d.centroids.head? = some first →
      d.centroids.getLast? = some last → 2 ≤ d.centroids.length → ∀ x : K, .fin x ≤ last.mean ∨ d.max ≤ .fin x →
      ∃ v : K, RoundTrip d (.fin x) (.fin v) ∧ d.min ≤ .fin v ∧ .fin v ≤ d.max ∧ NoMeanBetween d (.fin x) (.fin v) ∧
        (.fin x = d.min → v = x) ∧ (.fin x = d.max → first.mean < d.max → v = x) ∧
        (d.min < .fin x → .fin x < first.mean → .fin 2 < first.weight → v = x) ∧
        (∀ c ∈ d.centroids, c.mean = .fin x → c.mean < last.mean → (first.weight = .fin 1 → first.mean < c.mean) → v = x)) := by
  refine (TDigest.reach_view s i cf ops hne hg).mono ?_
  rintro d ⟨hi, l, a, b, hv, hwt, hcl⟩ first last hfirst hlast h2 x hx
  have hwl : ∀ p ∈ l, p.2 = 1 ∨ 2 ≤ p.2 := hcl (fun w => w = 1 ∨ 2 ≤ w) (by
    rintro a b (ha | ha) (hb | hb) <;> right <;> linarith) hw
  have hw1 : ∀ p ∈ l, 1 ≤ p.2 := fun p hp => by rcases hwl p hp with h | h <;> linarith
  have hl2 : 2 ≤ l.length := by rw [hv.cs, List.length_map] at h2; exact h2
  have ef : first = TDigest.toC (l.head hv.ne) := by
    rw [hv.cs, List.head?_map, List.head?_eq_some_head hv.ne] at hfirst
    exact (Option.some.inj hfirst).symm
  have el : last = TDigest.toC (l.getLast hv.ne) := by
    rw [hv.cs, List.getLast?_map, List.getLast?_eq_some_getLast hv.ne] at hlast
    exact (Option.some.inj hlast).symm
  have hx' : x ≤ (l.getLast hv.ne).1 ∨ b ≤ x := by
    rcases hx with h | h
    · left; rw [el] at h; exact Fl.fin_le_fin.1 h
    · right; rw [hv.mx] at h; exact Fl.fin_le_fin.1 h
  obtain ⟨v, e, v1, v2, v3, v4, v5, v6, v7⟩ := TDigest.estV_estQ hv.ne hl2 hv.sorted hwl hv.lo hv.hi x hx'
  have hr := TDigest.round_trip_eq hv hl2 hw1 (by rw [hwt]; exact h64) x
  rw [e] at hr
  refine ⟨v, hr, ?_, ?_, ?_, ?_, ?_, ?_, ?_⟩
  · rw [hv.mn]; exact Fl.fin_le_fin.2 v1
  · rw [hv.mx]; exact Fl.fin_le_fin.2 v2
  · intro c hc
    rw [hv.cs] at hc
    obtain ⟨p, hp, rfl⟩ := List.mem_map.1 hc
    obtain ⟨g1, g2⟩ := v3 p hp
    exact ⟨fun h => g1 ⟨Fl.fin_lt_fin.1 h.1, Fl.fin_lt_fin.1 h.2⟩, fun h => g2 ⟨Fl.fin_lt_fin.1 h.1, Fl.fin_lt_fin.1 h.2⟩⟩
  · intro h
    rw [hv.mn] at h
    exact v4 (by simpa using h)
  · intro h h'
    rw [hv.mx] at h h'
    rw [ef] at h'
    exact v5 (by simpa using h) (Fl.fin_lt_fin.1 h')
  · intro h h' h''
    rw [hv.mn] at h
    rw [ef] at h' h''
    exact v6 (Fl.fin_lt_fin.1 h) (Fl.fin_lt_fin.1 h') (Fl.fin_lt_fin.1 h'')
  · intro c hc hm hl hf
    rw [hv.cs] at hc
    obtain ⟨p, hp, rfl⟩ := List.mem_map.1 hc
    have hpx : p.1 = x := by simpa [TDigest.toC] using hm
    rw [el] at hl
    rw [ef] at hf
    refine v7 ?_ ⟨p, hp, hpx⟩ (fun h => ?_) (by rw [← hpx]; exact Fl.fin_lt_fin.1 hl)
    · rw [← hpx]
      obtain ⟨c, rest, rfl⟩ : ∃ c rest, l = c :: rest := by
        match l, hv.ne with
        | c :: rest, _ => exact ⟨c, rest, rfl⟩
      rcases List.mem_cons.1 hp with rfl | hp
      · exact le_rfl
      · exact (List.pairwise_cons.1 hv.sorted).1 p hp
    · have := hf (by simp [TDigest.toC, h])
      rw [← hpx]
      exact Fl.fin_lt_fin.1 this

/-- C119. What happens between the last mean and the maximum when the last centroid has weight more than 2: the distance to the maximum is
divided by the distance of the last mean to the maximum. -/
theorem C119_right_tail [FloatFmt.Exact K] (s i : ScaleFn K) (cf : Fl K) (ops : List (TDigest.TOp K))
    (hne : TDigest.supplied ops ≠ []) (hg : ∀ c ∈ TDigest.supplied ops, Good c ∧ InRange c)
    (hw : ∀ c ∈ TDigest.supplied ops, 1 ≤ c.weight.toK) (h64 : totalW (TDigest.supplied ops) < 2 ^ 64) :
    Always ((TDigest.new s i cf).execOps ops) (fun d => ∀ (last : Centroid K) (m b x : K), d.centroids.getLast? = some last →
      2 ≤ d.centroids.length → last.mean = .fin m → d.max = .fin b → .fin 2 < last.weight → m < x → x < b →
      RoundTrip d (.fin x) (.fin (b - (b - x) / (b - m)))) := by
  refine (TDigest.reach_view s i cf ops hne hg).mono ?_
  rintro d ⟨hi, l, a, b', hv, hwt, hcl⟩ last m b x hlast h2 hm hb hlw hmx hxb
  have hw1 : ∀ p ∈ l, 1 ≤ p.2 := hcl _ TDigest.one_le_closed hw
  have hl2 : 2 ≤ l.length := by rw [hv.cs, List.length_map] at h2; exact h2
  have el : last = TDigest.toC (l.getLast hv.ne) := by
    rw [hv.cs, List.getLast?_map, List.getLast?_eq_some_getLast hv.ne] at hlast
    exact (Option.some.inj hlast).symm
  have eb : b' = b := by rw [hv.mx] at hb; simpa using hb
  subst eb
  have em : (l.getLast hv.ne).1 = m := by rw [el] at hm; simpa [TDigest.toC] using hm
  have ew : 2 < (l.getLast hv.ne).2 := by rw [el] at hlw; exact Fl.fin_lt_fin.1 hlw
  have hr := TDigest.round_trip_eq hv hl2 hw1 (by rw [hwt]; exact h64) x
  have hpos := TDigest.wt_pos hv.pos hv.ne
  have hhm : (l.head hv.ne).1 ≤ m := by
    rw [← em]
    have := TDigest.vLoop_mem (0 : K) l 0 hv.ne hv.sorted
    exact this.1.trans this.2
  have hha := hv.lo _ (List.head_mem hv.ne)
  have hroom := TDigest.head_room hv.ne hl2 hw1
  have hd : 0 < b' - m := by linarith
  have hth : 0 < (b' - x) / (b' - m) := div_pos (by linarith) hd
  have hth1 : (b' - x) / (b' - m) < 1 := by rw [div_lt_one hd]; linarith
  have hp : 0 < (l.getLast hv.ne).2 / 2 - 1 := by linarith
  have et : TDigest.wt l * TDigest.estQ l hv.ne a b' x =
      TDigest.wt l - 1 - (b' - x) / (b' - m) * ((l.getLast hv.ne).2 / 2 - 1) := by
    unfold TDigest.estQ
    rw [if_neg (by linarith), if_neg (by linarith), if_neg (by linarith), if_pos (by linarith), if_neg (by linarith), em, mul_sub,
      mul_one, mul_div_cancel₀ _ hpos.ne']
    ring
  rw [et] at hr
  -- the last weight and the first are both part of the total
  have hsum : (l.head hv.ne).2 + (l.getLast hv.ne).2 ≤ TDigest.wt l := by
    obtain ⟨c, n, rest, rfl⟩ : ∃ c n rest, l = c :: n :: rest := by
      match l, hl2 with
      | c :: n :: rest, _ => exact ⟨c, n, rest, rfl⟩
    have := TDigest.last_le_wt n rest (fun p hp => hw1 p (List.mem_cons_of_mem _ hp))
    rw [List.getLast_cons (by simp), TDigest.wt_cons, List.head_cons]
    linarith
  have hhw := hw1 _ (List.head_mem hv.ne)
  have m1 := mul_pos hth hp
  have m2 := mul_lt_mul_of_pos_right hth1 hp
  have ev : TDigest.estV l hv.ne a b' (TDigest.wt l - 1 - (b' - x) / (b' - m) * ((l.getLast hv.ne).2 / 2 - 1)) =
      .fin (b' - (b' - x) / (b' - m)) := by
    unfold TDigest.estV
    rw [if_neg (by linarith), if_neg (fun h => by linarith [h.2]), if_neg (by linarith), if_pos ⟨by linarith, by linarith⟩,
      Fl.div_exact _ hp.ne', Fl.sub_exact]
    congr 2
    rw [div_eq_iff hp.ne']
    ring
  rw [ev] at hr
  exact hr

attribute [local instance] ratExact ratExact_exact

instance (d : TDigest ℚ) (x v : Fl ℚ) : Decidable (RoundTrip d x v) := inferInstanceAs (Decidable (Always _ _))

/-- Twelve items in steps of one tenth. -/
def tenths : List (Fl ℚ) := (List.range 12).map (fun j => .fin ((j : ℚ) / 10))

/-- C119. Twelve items 0, 0.1, ..., 1.1 and factor 6: the value at the quantile estimated for 0.965 is 0.2, with more than half of the items between. -/
theorem C119_right_tail_far :
    Always ((TDigest.new k0 invK0 (.fin (6 : ℚ))).addBuffer tenths) (fun d =>
      d.centroids.map (·.mean) = [.fin (3 / 20), .fin (11 / 20), .fin (19 / 20)] ∧ RoundTrip d (.fin (193 / 200)) (.fin (1 / 5))) ∧
    tenths.countP (fun y => Fl.lt (.fin (1 / 5)) y && Fl.lt y (.fin (193 / 200))) = 7 := by decide +kernel

/-- The same digest inside: 0.25 comes back as 13/60, also between its neighbours 0.15 and 0.55, the means 0.15 and 0.55 and values in the left tail unchanged. -/
example : Always ((TDigest.new k0 invK0 (.fin (6 : ℚ))).addBuffer tenths) (fun d =>
    RoundTrip d (.fin (3 / 20)) (.fin (3 / 20)) ∧ RoundTrip d (.fin (11 / 20)) (.fin (11 / 20)) ∧ RoundTrip d (.fin (1 / 10)) (.fin (1 / 10)) ∧
    RoundTrip d (.fin (1 / 4)) (.fin (13 / 60))) := by decide +kernel

/-- The hypotheses hold for it. -/
example : (∀ c ∈ TDigest.supplied [TDigest.TOp.addBuffer tenths], c.weight.toK = 1 ∨ 2 ≤ c.weight.toK) ∧
    totalW (TDigest.supplied [TDigest.TOp.addBuffer tenths]) < 2 ^ 64 := by decide +kernel

end AQ

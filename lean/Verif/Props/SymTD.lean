/-
C147: a SymDigest of two TDigests with `k2_asym` is accurate towards both ends (over the real numbers).
-/
import Verif.Props.TDLow
import Verif.Props.SymRound

set_option linter.unusedSectionVars false
set_option linter.unusedVariables false

namespace AQ
open Prog Spec
section
variable {K : Type} [Field K] [LinearOrder K] [IsStrictOrderedRing K] [FloatFmt K]

/-- `r` is the weight below `x`, up to the factor `F` and the summand `H`, counted from the upper end. -/
structure Spec.HighFactor (l : List (Centroid K)) (r x F H : K) : Prop where
  from_ : totalW l - r ≤ F * weightFrom l (.fin x) + H
  above : weightAbove l (.fin x) ≤ F * (totalW l - r + H)

/-- The data mirrored at zero. -/
theorem mirror_weights {xs : List (Fl K)} (h : ∀ y ∈ xs, y.IsFin) (x : K) :
    weightBelow ((xs.map (fun y => -y)).map (fun y => (⟨y, .fin 1⟩ : Centroid K))) (.fin (-x)) = weightAbove (xs.map (fun y => ⟨y, .fin 1⟩)) (.fin x) ∧
    weightUpTo ((xs.map (fun y => -y)).map (fun y => (⟨y, .fin 1⟩ : Centroid K))) (.fin (-x)) = weightFrom (xs.map (fun y => ⟨y, .fin 1⟩)) (.fin x) := by
  induction xs with
  | nil => simp [weightBelow, weightAbove, weightUpTo, weightFrom]
  | cons y ys ih =>
    obtain ⟨h1, h2⟩ := ih (fun z hz => h z (by simp [hz]))
    obtain ⟨z, rfl⟩ := h y (by simp)
    unfold weightBelow weightAbove at h1
    unfold weightUpTo weightFrom at h2
    unfold weightBelow weightAbove weightUpTo weightFrom
    simp only [List.map_cons, List.filter_cons, Fl.neg_fin, Fl.fin_lt_fin, Fl.fin_le_fin, neg_lt_neg_iff, neg_le_neg_iff]
    constructor
    · by_cases hx : x < z <;> simp only [hx, decide_true, decide_false, if_true, Bool.false_eq_true, if_false, List.map_cons, List.sum_cons, h1]
    · by_cases hx : x ≤ z <;> simp only [hx, decide_true, decide_false, if_true, Bool.false_eq_true, if_false, List.map_cons, List.sum_cons, h2]

theorem LowFactor.mirror [FloatFmt.Exact K] {xs : List (Fl K)} (h : ∀ y ∈ xs, y.IsFin) {x F H r : K}
    (hl : LowFactor ((xs.map (fun y => -y)).map (fun y => (⟨y, .fin 1⟩ : Centroid K))) r (-x) F H) :
    HighFactor (xs.map (fun y => ⟨y, .fin 1⟩)) (xs.length - r) x F H := by
  obtain ⟨h1, h2⟩ := hl
  obtain ⟨e1, e2⟩ := mirror_weights h x
  rw [e1] at h1
  rw [e2] at h2
  constructor
  · rw [TDigest.totalW_items]; linarith
  · rw [TDigest.totalW_items, sub_sub_cancel]; exact h1

theorem RankWithin.mirror {xs : List (Fl K)} (h : ∀ y ∈ xs, y.IsFin) {x r E : K} (hr : RankWithin (xs.map (fun y => -y)) r (-x) E) :
    RankWithin xs (xs.length - r) x E := by
  have e1 : (xs.map (fun y => -y)).countP (fun y => Fl.lt y (.fin (-x))) + xs.countP (fun y => Fl.le y (.fin x)) = xs.length := by
    rw [List.countP_map, List.length_eq_countP_add_countP (fun y => Fl.le y (.fin x)) (l := xs), add_comm]
    congr 1
    refine List.countP_congr (fun y hy => ?_)
    obtain ⟨z, rfl⟩ := h y hy
    simp [Fl.lt_fin, Fl.le_fin]
  have e2 : (xs.map (fun y => -y)).countP (fun y => Fl.le y (.fin (-x))) + xs.countP (fun y => Fl.lt y (.fin x)) = xs.length := by
    rw [List.countP_map, List.length_eq_countP_add_countP (fun y => Fl.lt y (.fin x)) (l := xs), add_comm]
    congr 1
    refine List.countP_congr (fun y hy => ?_)
    obtain ⟨z, rfl⟩ := h y hy
    simp [Fl.lt_fin, Fl.le_fin]
  have f1 : (((xs.map (fun y => -y)).countP (fun y => Fl.lt y (.fin (-x))) : Nat) : K) + (xs.countP (fun y => Fl.le y (.fin x)) : Nat) = xs.length := by
    exact_mod_cast e1
  have f2 : (((xs.map (fun y => -y)).countP (fun y => Fl.le y (.fin (-x))) : Nat) : K) + (xs.countP (fun y => Fl.lt y (.fin x)) : Nat) = xs.length := by
    exact_mod_cast e2
  obtain ⟨h1, h2⟩ := hr
  constructor <;> linarith

/-- A history of insertions into a `TDigest` through the trait, as many calls. -/
theorem td_trait_calls [FloorRing K] : ∀ (ops : List (Op (Fl K))) (hins : ∀ o ∈ ops, (∃ x, o = .add x) ∨ ∃ xs, o = .addBuffer xs),
    ∃ tops : List (TDigest.TOp K), (∀ d : TDigest K, execAll d ops = d.execOps tops) ∧
      TDigest.supplied tops = (itemsOf ops).map (fun x => ⟨x, .fin 1⟩) ∧ tops.length = ops.length
  | [], _ => ⟨[], fun _ => rfl, rfl, rfl⟩
  | o :: os, hins => by
    obtain ⟨ts, h1, h2, h3⟩ := td_trait_calls os (fun o' ho' => hins o' (by simp [ho']))
    rcases hins o (by simp) with ⟨x, rfl⟩ | ⟨xs, rfl⟩
    · refine ⟨.add x :: ts, fun d => ?_, ?_, by simp [h3]⟩
      · show (d.add x >>= fun d => execAll d os) = (d.add x >>= fun d => d.execOps ts)
        simp only [h1]
      · show (_ : List (Centroid K)) ++ TDigest.supplied ts = ([x] ++ itemsOf os).map _
        rw [h2, List.map_append]; rfl
    · refine ⟨.addBuffer xs :: ts, fun d => ?_, ?_, by simp [h3]⟩
      · show (d.addBuffer xs >>= fun d => execAll d os) = (d.addBuffer xs >>= fun d => d.execOps ts)
        simp only [h1]
      · show (_ : List (Centroid K)) ++ TDigest.supplied ts = (xs ++ itemsOf os).map _
        rw [h2, List.map_append]; rfl

end

section
variable [FloatFmt ℝ] [FloatFmt.Exact ℝ]

/-- What is known about one side. -/
structure SideTD (xs : List (Fl ℝ)) (r : ℝ) (m : Nat) (d : TDigest ℝ) : Prop where
  acc : LowAccurate (xs.map (fun x => ⟨x, .fin 1⟩)) r 1 m d
  total : ∀ q : ℝ, ∃ v : Fl ℝ, d.estValueAtQuantile (.fin q) = .ret v
  last : ∃ c, d.centroids.getLast? = some c ∧ c.weight.toK ≤ xs.length

theorem td_side (δ : ℝ) (h0 : 0 < δ) (h5 : 2 * δ ≤ 10 ^ 5) (ops : List (Op (Fl ℝ))) (hins : ∀ o ∈ ops, (∃ x, o = .add x) ∨ ∃ xs, o = .addBuffer xs)
    (hit : ∀ x ∈ itemsOf ops, Item x) (hne : itemsOf ops ≠ []) (h64 : ((itemsOf ops).length : ℝ) < 2 ^ 64) :
    Always (execAll (TDigest.new k2Asym invK2Asym (.fin δ) : TDigest ℝ) ops) (SideTD (itemsOf ops) (asymFactor δ (itemsOf ops).length) ops.length) := by
  obtain ⟨tops, h1, h2, h3⟩ := td_trait_calls ops hins
  have hg : ∀ e ∈ TDigest.supplied tops, Good e ∧ InRange e := by
    rw [h2]
    intro c hc
    obtain ⟨x, hx, rfl⟩ := List.mem_map.1 hc
    exact ⟨⟨(hit x hx).1, 1, zero_lt_one, rfl⟩, (hit x hx).2⟩
  have hw : ∀ e ∈ TDigest.supplied tops, 1 ≤ e.weight.toK ∧ e.weight.toK ≤ 1 := by
    rw [h2]
    intro c hc
    obtain ⟨x, hx, rfl⟩ := List.mem_map.1 hc
    exact ⟨le_of_eq rfl, le_of_eq rfl⟩
  have hW : totalW (TDigest.supplied tops) = (itemsOf ops).length := by rw [h2, TDigest.totalW_items]
  have hne' : TDigest.supplied tops ≠ [] := by rw [h2]; simpa using hne
  have g1 := C145_history δ h0 h5 tops hne' hg (by rw [hW]; exact h64) 1 le_rfl hw
  have e1 := TTree.ofOps_supplied tops (.new k2Asym invK2Asym (.fin δ))
  have e3 := TTree.run_ofOps tops (.new k2Asym invK2Asym (.fin δ))
  rw [show (TTree.new k2Asym invK2Asym (.fin δ) : TTree ℝ).supplied = [] from rfl, List.nil_append] at e1
  have g2 := TTree.run_inv (tops.foldl .ins (.new k2Asym invK2Asym (.fin δ))) (by rw [e1]; exact hg)
  rw [e1, e3] at g2
  rw [h1]
  refine (g1.and (show Always ((TDigest.new k2Asym invK2Asym (.fin δ) : TDigest ℝ).execOps tops) _ from g2).partially).mono ?_
  rintro d ⟨d1, hi⟩
  obtain ⟨l, a, b, hv, hwt, hcl, -⟩ := hi.view hne'
  have hw1 := hcl _ TDigest.one_le_closed (fun e he => (hw e he).1)
  refine ⟨?_, fun q => ?_, ?_⟩
  · rw [hW, h2, h3] at d1; exact d1
  · exact ⟨_, TDigest.estValue_eq hv hw1 (by rw [hwt, hW]; exact h64) q⟩
  · have hgood := hi.good
    have hW' := hi.weight_eq hne'
    have hcne : d.centroids ≠ [] := by
      rw [hv.cs]
      simpa using hv.ne
    refine ⟨_, List.getLast?_eq_some_getLast hcne, ?_⟩
    rw [← hW, ← hW']
    have hmem := List.getLast_mem hcne
    generalize d.centroids.getLast hcne = c at hmem
    obtain ⟨p, s, he⟩ := List.append_of_mem hmem
    rw [he] at hgood ⊢
    rw [totalW_append, totalW_cons]
    have n1 := totalW_nonneg (l := p) (fun e he => hgood e (by simp [he]))
    have n2 := totalW_nonneg (l := s) (fun e he => hgood e (by simp [he]))
    linarith

/-- The bound on the rank error of one side after `m` calls, `N` items and the factor `r`. -/
noncomputable def Spec.asymError (r N : ℝ) (m : Nat) : ℝ := Max.max 1 ((r - 1) / 2 * N / 2) + m * ((r - 1) / 2 * N)

theorem SideTD.quantile {xs : List (Fl ℝ)} (hit : ∀ x ∈ xs, Item x) {r : ℝ} {m : Nat} {d : TDigest ℝ} (h : SideTD xs r m d) (x : ℝ) :
    ∃ e : ℝ, Digest.estQuantileAtValue d (.fin x : Fl ℝ) = .ret (.fin e, d) ∧ RankWithin xs (xs.length * e) x (asymError r xs.length m) ∧
      ∀ H : ℝ, 1 ≤ H → (∀ a, Beside d.centroids (.fin x) a → a.weight ≤ .fin (2 * H)) →
        LowFactor (xs.map (fun x => ⟨x, .fin 1⟩)) (xs.length * e) x (r ^ m) H := by
  obtain ⟨-, h2, -⟩ := h.acc
  obtain ⟨e, h3, h4, h5⟩ := h2 x
  rw [TDigest.weightWithin_items hit] at h4
  rw [TDigest.totalW_items] at h4 h5
  refine ⟨e, ?_, h4, h5⟩
  show (d.estQuantileAtValue (.fin x) >>= fun r => .ret (r, d)) = _
  rw [h3, bind_ret]

theorem SideTD.value {xs : List (Fl ℝ)} (hit : ∀ x ∈ xs, Item x) (hne : xs ≠ []) {r : ℝ} {m : Nat} {d : TDigest ℝ} (h : SideTD xs r m d) (q : ℝ) :
    ∃ y : Fl ℝ, Digest.estValueAtQuantile d (.fin q : Fl ℝ) = .ret (y, d) ∧ (0 ≤ q → q < 1 / 2 → ∃ v : ℝ, y = .fin v ∧
      RankWithin xs (xs.length * q) v (asymError r xs.length m) ∧
      ∀ H : ℝ, 1 ≤ H → (∀ a, Beside d.centroids (.fin v) a → a.weight ≤ .fin (2 * H)) →
        LowFactor (xs.map (fun x => ⟨x, .fin 1⟩)) (xs.length * q) v (r ^ m) H) := by
  obtain ⟨v, hv⟩ := h.total q
  refine ⟨v, ?_, fun h0 h1 => ?_⟩
  · show (d.estValueAtQuantile (.fin q) >>= fun r => .ret (r, d)) = _
    rw [hv, bind_ret]
  · obtain ⟨c, hc, hcw⟩ := h.last
    have hn := one_le_length hne
    obtain ⟨-, -, h2⟩ := h.acc
    rw [TDigest.totalW_items] at h2
    obtain ⟨v', h3, h4, h5⟩ := h2 c q hc h0 (by linarith) (by
      rintro ⟨ha, -⟩
      nlinarith)
    rw [hv] at h3
    rw [TDigest.weightWithin_items hit] at h4
    exact ⟨v', Prog.ret.inj h3, h4, h5⟩

theorem item_neg {x : Fl ℝ} (h : Item x) : Item (-x) := by
  obtain ⟨⟨y, rfl⟩, h1, h2⟩ := h
  unfold Fl.minValue at h1
  unfold Fl.maxValue at h2
  rw [Fl.fin_le_fin] at h1 h2
  refine ⟨⟨-y, rfl⟩, ?_, ?_⟩
  · rw [Fl.neg_fin]; unfold Fl.minValue; rw [Fl.fin_le_fin]; linarith
  · rw [Fl.neg_fin]; unfold Fl.maxValue; rw [Fl.fin_le_fin]; linarith

/-- Both sides after a history of insertions. -/
theorem sym_td_sides (δ : ℝ) (h0 : 0 < δ) (h5 : 2 * δ ≤ 10 ^ 5) (ops : List (Op (Fl ℝ))) (hins : ∀ o ∈ ops, (∃ x, o = .add x) ∨ ∃ xs, o = .addBuffer xs)
    (hit : ∀ x ∈ itemsOf ops, Item x) (hne : itemsOf ops ≠ []) (h64 : ((itemsOf ops).length : ℝ) < 2 ^ 64) :
    Always (execAll (SymDigest.new (TDigest.new k2Asym invK2Asym (.fin δ)) (TDigest.new k2Asym invK2Asym (.fin δ)) : SymDigest (TDigest ℝ)) ops) (fun s =>
      SideTD (itemsOf ops) (asymFactor δ (itemsOf ops).length) ops.length s.low ∧
      SideTD ((itemsOf ops).map (fun y => -y)) (asymFactor δ (itemsOf ops).length) ops.length s.high) := by
  refine SymDigest.always_sides _ _ ops hins _ _ (td_side δ h0 h5 ops hins hit hne h64) ?_
  have := td_side δ h0 h5 (ops.map mirrorOp) (mirror_ins hins) (by
    rw [mirror_items]
    intro x hx
    obtain ⟨y, hy, rfl⟩ := List.mem_map.1 hx
    exact item_neg (hit y hy)) (by rw [mirror_items]; simpa using hne) (by rw [mirror_items, List.length_map]; exact h64)
  rw [mirror_items, List.length_map, List.length_map] at this
  exact this

/-- C147, quantile queries. A SymDigest of two TDigests with `k2_asym` and the compression factor `δ`, after `B` insertion calls with `N` items: with the factor
`r` of one pass and the rank error `E` of one side, the answer is always within `E` ranks; where at most `N/2 - E` items are less than or equal to `x`, it
is that rank up to the factor `r^B` counted from the lower end and half the weight of the centroids of the lower digest next to `x`; where at most `N/2 - E` items
are greater than or equal to `x`, the same from the upper end with the upper digest. -/
theorem C147_quantile (δ : ℝ) (h0 : 0 < δ) (h5 : 2 * δ ≤ 10 ^ 5) (ops : List (Op (Fl ℝ))) (hins : ∀ o ∈ ops, (∃ x, o = .add x) ∨ ∃ xs, o = .addBuffer xs)
    (hit : ∀ x ∈ itemsOf ops, Item x) (hne : itemsOf ops ≠ []) (h64 : ((itemsOf ops).length : ℝ) < 2 ^ 64)
    (N r E : ℝ) (hN : N = (itemsOf ops).length) (hr : r = asymFactor δ N) (hE : E = asymError r N ops.length) :
    Always (execAll (SymDigest.new (TDigest.new k2Asym invK2Asym (.fin δ)) (TDigest.new k2Asym invK2Asym (.fin δ)) : SymDigest (TDigest ℝ)) ops) (fun s =>
      ∀ x : ℝ, Always (s.estQuantileAtValue (.fin x : Fl ℝ)) (fun res => ∃ e : ℝ, res.1 = .fin e ∧ RankWithin (itemsOf ops) (N * e) x E ∧
        ((((itemsOf ops).countP (fun y => Fl.le y (.fin x)) : Nat) : ℝ) + E < N / 2 → ∀ H : ℝ, 1 ≤ H →
          (∀ a, Beside s.low.centroids (.fin x) a → a.weight ≤ .fin (2 * H)) →
          LowFactor ((itemsOf ops).map (fun x => ⟨x, .fin 1⟩)) (N * e) x (r ^ ops.length) H) ∧
        ((((itemsOf ops).countP (fun y => Fl.le (.fin x) y) : Nat) : ℝ) + E < N / 2 → ∀ H : ℝ, 1 ≤ H →
          (∀ a, Beside s.high.centroids (.fin (-x)) a → a.weight ≤ .fin (2 * H)) →
          HighFactor ((itemsOf ops).map (fun x => ⟨x, .fin 1⟩)) (N * e) x (r ^ ops.length) H))) := by
  have hfin : ∀ y ∈ itemsOf ops, y.IsFin := fun y hy => (hit y hy).1
  have hN1 : 1 ≤ N := by rw [hN]; exact one_le_length hne
  refine (sym_td_sides δ h0 h5 ops hins hit hne h64).mono ?_
  rintro s ⟨hl, hh⟩ x
  rw [← hN, ← hr] at hl hh
  obtain ⟨a, l1, l2, l3⟩ := hl.quantile hit x
  obtain ⟨b, u1, u2, u3⟩ := hh.quantile (fun y hy => by
    obtain ⟨z, hz, rfl⟩ := List.mem_map.1 hy
    exact item_neg (hit z hz)) (-x)
  rw [List.length_map] at u2 u3
  replace u2 := RankWithin.mirror hfin u2
  rw [← hN] at l2 l3 u2 u3
  rw [← hE] at l2 u2
  have eN : N - N * b = N * (1 - b) := by ring
  rw [eN] at u2
  have key := SymDigest.chooseQuantile_fin a (1 - b)
  obtain ⟨c, c1, c2, c3, -, c4, c5⟩ := key
  unfold SymDigest.estQuantileAtValue
  rw [l1, bind_ret, Fl.neg_fin, u1, bind_ret]
  rw [Fl.lit_exact, Fl.sub_exact, c1, bind_ret]
  have hcount : (((itemsOf ops).countP (fun y => Fl.lt y (.fin x)) : Nat) : ℝ) + ((itemsOf ops).countP (fun y => Fl.le (.fin x) y) : Nat) = N := by
    rw [hN, List.length_eq_countP_add_countP (fun y => Fl.lt y (.fin x)) (l := itemsOf ops)]
    push_cast
    congr 2
    refine List.countP_congr (fun y hy => ?_)
    obtain ⟨z, rfl⟩ := hfin y hy
    simp [Fl.lt_fin, Fl.le_fin]
  refine ⟨c, rfl, ?_, fun hlow H hH hb => ?_, fun hhigh H hH hb => ?_⟩
  · obtain ⟨p1, p2⟩ := l2
    obtain ⟨q1, q2⟩ := u2
    have hn0 : 0 ≤ N := by linarith
    constructor
    · have := mul_le_mul_of_nonneg_left c4 hn0
      rcases min_choice a (1 - b) with hm | hm <;> rw [hm] at this <;> linarith
    · have := mul_le_mul_of_nonneg_left c5 hn0
      rcases max_choice a (1 - b) with hm | hm <;> rw [hm] at this <;> linarith
  · have hs : a + (1 - b) < 1 := by
      have := l2.2
      have := u2.2
      by_contra hc
      have := mul_le_mul_of_nonneg_left (not_lt.1 hc) (by linarith : 0 ≤ N)
      linarith
    rw [c2 hs]
    exact l3 H hH hb
  · have hs : 1 < a + (1 - b) := by
      have := l2.1
      have := u2.1
      by_contra hc
      have := mul_le_mul_of_nonneg_left (not_lt.1 hc) (by linarith : 0 ≤ N)
      linarith
    rw [c3 hs]
    have := LowFactor.mirror hfin (u3 H hH hb)
    rw [← hN, eN] at this
    exact this

/-- C147, value queries: below the median the lower digest answers, with its accuracy from the lower end; above it the upper one. -/
theorem C147_value (δ : ℝ) (h0 : 0 < δ) (h5 : 2 * δ ≤ 10 ^ 5) (ops : List (Op (Fl ℝ))) (hins : ∀ o ∈ ops, (∃ x, o = .add x) ∨ ∃ xs, o = .addBuffer xs)
    (hit : ∀ x ∈ itemsOf ops, Item x) (hne : itemsOf ops ≠ []) (h64 : ((itemsOf ops).length : ℝ) < 2 ^ 64)
    (N r E : ℝ) (hN : N = (itemsOf ops).length) (hr : r = asymFactor δ N) (hE : E = asymError r N ops.length) :
    Always (execAll (SymDigest.new (TDigest.new k2Asym invK2Asym (.fin δ)) (TDigest.new k2Asym invK2Asym (.fin δ)) : SymDigest (TDigest ℝ)) ops) (fun s =>
      ∀ q : ℝ, Always (s.estValueAtQuantile (.fin q : Fl ℝ)) (fun res =>
        (0 ≤ q → q < 1 / 2 → ∃ v : ℝ, res.1 = .fin v ∧ RankWithin (itemsOf ops) (N * q) v E ∧ ∀ H : ℝ, 1 ≤ H →
          (∀ a, Beside s.low.centroids (.fin v) a → a.weight ≤ .fin (2 * H)) →
          LowFactor ((itemsOf ops).map (fun x => ⟨x, .fin 1⟩)) (N * q) v (r ^ ops.length) H) ∧
        (1 / 2 < q → q ≤ 1 → ∃ v : ℝ, res.1 = .fin v ∧ RankWithin (itemsOf ops) (N * q) v E ∧ ∀ H : ℝ, 1 ≤ H →
          (∀ a, Beside s.high.centroids (.fin (-v)) a → a.weight ≤ .fin (2 * H)) →
          HighFactor ((itemsOf ops).map (fun x => ⟨x, .fin 1⟩)) (N * q) v (r ^ ops.length) H))) := by
  have hfin : ∀ y ∈ itemsOf ops, y.IsFin := fun y hy => (hit y hy).1
  refine (sym_td_sides δ h0 h5 ops hins hit hne h64).mono ?_
  rintro s ⟨hl, hh⟩ q
  rw [← hN, ← hr] at hl hh
  obtain ⟨a, l1, l2⟩ := hl.value hit hne q
  obtain ⟨b, u1, u2⟩ := hh.value (fun y hy => by
    obtain ⟨z, hz, rfl⟩ := List.mem_map.1 hy
    exact item_neg (hit z hz)) (by simpa using hne) (1 - q)
  rw [List.length_map] at u2
  rw [← hN, ← hE] at l2 u2
  unfold SymDigest.estValueAtQuantile
  rw [l1, bind_ret, Fl.lit_exact, Fl.sub_exact, u1, bind_ret]
  obtain ⟨c, c1, c2, c3⟩ : ∃ c, SymDigest.chooseValue (.fin q) a (-b) = .ret c ∧ (q < 1 / 2 → c = a) ∧ (1 / 2 < q → c = -b) := by
    unfold SymDigest.chooseValue
    rw [Fl.lit_exact, Fl.cmp_fin]
    rcases lt_trichotomy q (1 / 2) with h | h | h
    · rw [compare_lt_iff_lt.2 h]; exact ⟨_, rfl, fun _ => rfl, fun h' => absurd h' (not_lt.2 h.le)⟩
    · rw [compare_eq_iff_eq.2 h]; exact ⟨_, rfl, fun h' => absurd h' (by rw [h]; exact lt_irrefl _), fun h' => absurd h' (by rw [h]; exact lt_irrefl _)⟩
    · rw [compare_gt_iff_gt.2 h]; exact ⟨_, rfl, fun h' => absurd h' (not_lt.2 h.le), fun _ => rfl⟩
  show Always (SymDigest.chooseValue (.fin q) a (-b) >>= _) _
  rw [c1, bind_ret]
  refine ⟨fun hq0 hq => ?_, fun hq hq1 => ?_⟩
  · obtain ⟨v, hv, v1, v2⟩ := l2 hq0 hq
    exact ⟨v, by rw [← hv]; exact c2 hq, v1, v2⟩
  · obtain ⟨w, hv, v1, v2⟩ := u2 (by linarith) (by linarith)
    have eN : N - N * (1 - q) = N * q := by ring
    rw [show w = - -w by ring] at v1 v2
    refine ⟨-w, by rw [show _ = -b from c3 hq, hv, Fl.neg_fin], ?_, fun H hH hb => ?_⟩
    · have := RankWithin.mirror hfin v1
      rwa [← hN, eN] at this
    · have := LowFactor.mirror hfin (v2 H hH hb)
      rwa [← hN, eN] at this

end

/-- Non-vacuity: 1000 items in one call, `δ = 500`: every answer is within 45 ranks, and within the factor 53/50 towards the end it is nearer to. -/
theorem C147_example : let _ := realExact; let _ := realExact_exact;
    Always (execAll (SymDigest.new (TDigest.new k2Asym invK2Asym (.fin 500)) (TDigest.new k2Asym invK2Asym (.fin 500)) : SymDigest (TDigest ℝ))
      [.addBuffer (relShard 0 ++ relShard 1)]) (fun s =>
      ∀ x : ℝ, Always (s.estQuantileAtValue (.fin x : Fl ℝ)) (fun res => ∃ e : ℝ, res.1 = .fin e ∧ RankWithin (relShard 0 ++ relShard 1) (1000 * e) x 45 ∧
        ((((relShard 0 ++ relShard 1).countP (fun y => Fl.le y (.fin x)) : Nat) : ℝ) < 455 → ∃ F ≤ (53 / 50 : ℝ), ∀ H : ℝ, 1 ≤ H →
          (∀ a, Beside s.low.centroids (.fin x) a → a.weight ≤ .fin (2 * H)) →
          LowFactor ((relShard 0 ++ relShard 1).map (fun x => ⟨x, .fin 1⟩)) (1000 * e) x F H) ∧
        ((((relShard 0 ++ relShard 1).countP (fun y => Fl.le (.fin x) y) : Nat) : ℝ) < 455 → ∃ F ≤ (53 / 50 : ℝ), ∀ H : ℝ, 1 ≤ H →
          (∀ a, Beside s.high.centroids (.fin (-x)) a → a.weight ≤ .fin (2 * H)) →
          HighFactor ((relShard 0 ++ relShard 1).map (fun x => ⟨x, .fin 1⟩)) (1000 * e) x F H))) := by
  intro i1 i2
  have hit := relShard_item
  have hlen := relShard_length
  generalize relShard 0 ++ relShard 1 = xs at hit hlen ⊢
  have e : itemsOf [Op.addBuffer xs] = xs := by simp [itemsOf, Op.items]
  have hW : ((itemsOf [Op.addBuffer xs]).length : ℝ) = 1000 := by rw [e, hlen]; norm_num
  have h := C147_quantile 500 (by norm_num) (by norm_num) [.addBuffer xs] (by simp) (by rw [e]; exact hit) (by
    rw [e]; intro h; rw [h] at hlen; simp at hlen) (by rw [hW]; norm_num) 1000 _ _ hW.symm rfl rfl
  have hE : asymError (asymFactor 500 1000) 1000 1 ≤ 45 := by
    have := asymFactor_le
    unfold asymError
    rw [Nat.cast_one, one_mul]
    have : Max.max 1 ((asymFactor 500 1000 - 1) / 2 * 1000 / 2) ≤ 15 := max_le (by norm_num) (by linarith)
    linarith
  rw [e] at h
  refine Always.mono h (fun s hs x => Always.mono (hs x) ?_)
  rintro res ⟨c, h1, h2, h3, h4⟩
  rw [show [Op.addBuffer xs].length = 1 from rfl, pow_one] at h3 h4
  refine ⟨c, h1, ⟨?_, ?_⟩, fun hx => ⟨asymFactor 500 1000, asymFactor_le, h3 ?_⟩, fun hx => ⟨asymFactor 500 1000, asymFactor_le, h4 ?_⟩⟩
  · exact h2.1.trans (by simpa using hE)
  · exact h2.2.trans (by simpa using hE)
  · linarith
  · linarith

end AQ

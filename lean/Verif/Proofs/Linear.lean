/-
Lemmas about `LinearDigest` and histories.
-/
import Verif.Model.Linear
import Verif.Proofs.Sort

set_option linter.unusedSectionVars false

namespace AQ
open Spec Prog

section hist
variable {D F : Type} [Digest D F]

/-- Induction over histories for an invariant relating the state to the items supplied so far. -/
theorem execAll_partially {I : List F → D → Prop}
    (hadd : ∀ l d x, I l d → Partially (Digest.add d x) (I (l ++ [x])))
    (hbuf : ∀ l d xs, I l d → Partially (Digest.addBuffer d xs) (I (l ++ xs)))
    (hq : ∀ l d v, I l d → Partially (Digest.estQuantileAtValue d v) (fun r => I l r.2))
    (hv : ∀ l d q, I l d → Partially (Digest.estValueAtQuantile d q) (fun r => I l r.2))
    (ops : List (Op F)) : ∀ (l : List F) (d : D), I l d →
      Partially (execAll d ops) (I (l ++ itemsOf ops)) := by
  induction ops with
  | nil => intro l d h; simpa [execAll, itemsOf] using h
  | cons o os ih =>
    intro l d h
    rw [execAll, partially_bind]
    have key : Partially (o.exec d) (I (l ++ o.items)) := by
      cases o with
      | add x => exact hadd l d x h
      | addBuffer xs => exact hbuf l d xs h
      | quantile v =>
        simp only [Op.exec, Op.items, List.append_nil]
        rw [partially_bind]; exact hq l d v h
      | value q =>
        simp only [Op.exec, Op.items, List.append_nil]
        rw [partially_bind]; exact hv l d q h
    refine key.mono ?_
    intro d' hd'
    have := ih _ _ hd'
    simpa [itemsOf, List.append_assoc] using this
end hist

variable {K : Type} [Field K] [LinearOrder K] [IsStrictOrderedRing K] [FloorRing K] [FloatFmt K]

theorem LinearDigest.estValue_state (d : LinearDigest K) (q : Fl K) :
    Partially (d.estValueAtQuantile q) (fun r => r.2.values.Perm d.values) := by
  unfold LinearDigest.estValueAtQuantile
  simp only [partially_bind]
  cases Fl.toUsize (Fl.fround (q * Fl.ofNat d.values.length)) with
  | none => simp [Prog.unwrap]
  | some i =>
    simp only [unwrap_some, partially_ret, sortFl]
    refine (sortByKey_partially id d.values).mono ?_
    rintro a rfl
    have hp := sorted_perm id d.values
    split
    · rw [partially_bind]
      cases h : (sorted id d.values).getLast? <;> simp [Prog.unwrap, hp]
    · rw [partially_bind]
      unfold Prog.idx
      split <;> simp [hp]

theorem LinearDigest.execAll_perm (ops : List (Op (Fl K))) :
    Partially (execAll (LinearDigest.new : LinearDigest K) ops) (fun d => d.values.Perm (itemsOf ops)) := by
  have := execAll_partially (D := LinearDigest K) (F := Fl K) (I := fun l d => d.values.Perm l)
    (by intro l d x h; exact h.append_right _)
    (by intro l d x h; exact h.append_right _)
    (by intro l d x h; exact h)
    (by intro l d q h; exact (d.estValue_state q).mono (fun r hr => hr.trans h))
    ops [] LinearDigest.new (List.Perm.refl _)
  simpa using this

/-- Rounding of `q·n` under exact counts stays in `[0,n]`. -/
theorem rnd_mul_mem [FloatFmt.Mono K] {n : Nat} (hn : FloatFmt.rnd (n : K) = .fin (n : K)) {q : K}
    (h0 : 0 ≤ q) (h1 : q ≤ 1) : ∃ p : K, FloatFmt.rnd (q * n) = .fin p ∧ 0 ≤ p ∧ p ≤ n := by
  have hlo := FloatFmt.Mono.rnd_mono 0 (q * (n : K)) (by positivity)
  have hhi := FloatFmt.Mono.rnd_mono (q * (n : K)) n (mul_le_of_le_one_left (by positivity) h1)
  rw [FloatFmt.Mono.rnd_zero] at hlo
  rw [hn] at hhi
  have hnan := FloatFmt.Mono.rnd_ne_nan (q * (n : K))
  cases hr : FloatFmt.rnd (q * (n : K)) with
  | nan => simp [hr] at hnan
  | ninf => simp [hr] at hlo
  | pinf => simp [hr] at hhi
  | fin p => rw [hr] at hlo hhi; exact ⟨p, rfl, by simpa using hlo, by simpa using hhi⟩

theorem floor_add_half_le {p : K} {n : Nat} (h0 : 0 ≤ p) (h : p ≤ n) : ⌊p + 1 / 2⌋₊ ≤ n := by
  have : ⌊p + 1 / 2⌋₊ < n + 1 := by
    rw [Nat.floor_lt (by positivity)]; push_cast; linarith
  omega

theorem toUsize_fround {p : K} {n : Nat} (h0 : 0 ≤ p) (h : p ≤ n) (hn : n < 2 ^ 64) :
    Fl.toUsize (Fl.fround (Fl.fin p)) = some (roundNat p) := by
  simp only [Fl.fround, if_pos h0, Fl.toUsize, roundNat]
  have hf0 : 0 ≤ ⌊p + 1 / 2⌋ := Int.floor_nonneg.2 (by positivity)
  have hle := floor_add_half_le h0 h
  have hcast : ((⌊p + 1 / 2⌋ : ℤ) : K) = ((⌊p + 1 / 2⌋₊ : ℕ) : K) := by
    rw [← natCast_floor_eq_intCast_floor (by positivity)]
  rw [hcast, if_pos, Nat.floor_natCast]
  constructor
  · have : (0 : K) ≤ ((⌊p + 1 / 2⌋₊ : ℕ) : K) := by positivity
    linarith
  · have : ((⌊p + 1 / 2⌋₊ : ℕ) : K) < ((2 ^ 64 : ℕ) : K) := Nat.cast_lt.2 (lt_of_le_of_lt hle hn)
    rwa [Nat.cast_pow, Nat.cast_ofNat] at this

/-- The value query on non-empty NaN-free data. -/
theorem LinearDigest.estValue_spec [FloatFmt.Mono K] (d : LinearDigest K) (q : K)
    (hne : d.values ≠ []) (hnan : ∀ x ∈ d.values, x ≠ .nan)
    (hn : FloatFmt.rnd (d.values.length : K) = .fin (d.values.length : K)) (h64 : d.values.length < 2 ^ 64)
    (h0 : 0 ≤ q) (h1 : q ≤ 1) :
    ∃ p : K, FloatFmt.rnd (q * d.values.length) = .fin p ∧
      Always (d.estValueAtQuantile (.fin q)) (fun r =>
        IsOrderStat d.values (min (roundNat p) (d.values.length - 1)) r.1 ∧ r.2.values.Perm d.values) := by
  obtain ⟨p, hp, hp0, hp1⟩ := rnd_mul_mem hn h0 h1
  refine ⟨p, hp, ?_⟩
  have hlen : 0 < d.values.length := List.length_pos_of_ne_nil hne
  have hs := sorted_perm id d.values
  have hsl := hs.length_eq
  have hsw : (sorted id d.values).Pairwise (· ≤ ·) := sorted_pairwise id d.values
  have hr := floor_add_half_le hp0 hp1
  unfold LinearDigest.estValueAtQuantile
  have e1 : (Fl.fin q * Fl.ofNat d.values.length : Fl K) = .fin p := by
    rw [Fl.ofNat, hn, Fl.mul_fin, hp]
  simp only [e1, toUsize_fround hp0 hp1 h64, unwrap_some, bind_ret]
  rw [sortFl, sortByKey_of_no_nan id _ (by simpa using hnan), bind_ret]
  split
  · rename_i h
    have hne' : sorted id d.values ≠ [] := by
      intro h'; rw [h'] at hsl; simp at hsl; omega
    rw [List.getLast?_eq_getLast_of_ne_nil hne']
    simp only [unwrap_some, bind_ret]
    refine ⟨?_, hs⟩
    rw [← isOrderStat_perm hs]
    have : min (roundNat p) (d.values.length - 1) = (sorted id d.values).length - 1 := by omega
    simp only [this]
    rw [List.getLast_eq_getElem]
    exact isOrderStat_getElem hsw _
  · rename_i h
    have hlt : roundNat p < (sorted id d.values).length := by
      unfold roundNat at *; omega
    rw [idx_eq hlt, bind_ret]
    refine ⟨?_, hs⟩
    rw [← isOrderStat_perm hs]
    have : min (roundNat p) (d.values.length - 1) = roundNat p := by omega
    simp only [this]
    exact isOrderStat_getElem hsw _

theorem midRank_eq_half (l : List (Fl K)) (v : Fl K) : ∃ m : Nat, midRank l v = (m : K) / 2 ∧
    m ≤ 2 * l.countP (fun x => Fl.lt x v) + l.countP (fun x => Fl.feq x v) := by
  unfold midRank
  split
  · exact ⟨2 * l.countP (fun x => Fl.lt x v) + l.countP (fun x => Fl.feq x v), by push_cast; ring, le_refl _⟩
  · exact ⟨2 * l.countP (fun x => Fl.lt x v), by push_cast; ring, by omega⟩

theorem lt_feq_excl (a b : Fl K) (h : Fl.lt a b) : Fl.feq a b = false := by
  cases a <;> cases b <;> simp_all [Fl.lt, Fl.feq]
  intro h'; subst h'; simp at h

theorem count_lt_eq_le (l : List (Fl K)) (v : Fl K) :
    l.countP (fun x => Fl.lt x v) + l.countP (fun x => Fl.feq x v) ≤ l.length := by
  induction l with
  | nil => simp
  | cons a l ih =>
    simp only [List.countP_cons, List.length_cons]
    by_cases h : Fl.lt a v
    · simp [h, lt_feq_excl a v h]; omega
    · by_cases h2 : Fl.feq a v <;> simp [h, h2] <;> omega

theorem Spec.ExactCounts.nat {n : Nat} (h : ExactCounts K n) {m : Nat} (hm : m ≤ n) :
    FloatFmt.rnd (m : K) = .fin (m : K) := by
  have := h (2 * m) (by omega)
  have e : ((2 * m : ℕ) : K) / 2 = m := by push_cast; field_simp
  rwa [e] at this

theorem Spec.ExactCounts.half {n : Nat} (h : ExactCounts K n) {m : Nat} (hm : m ≤ 2 * n) :
    FloatFmt.rnd ((m : K) / 2) = .fin ((m : K) / 2) := h m hm

theorem exactCounts_of_exact [FloatFmt.Exact K] (n : Nat) : ExactCounts K n := fun _ _ => Fl.rnd_exact _

/-- The quantile query computes the rounded mid-rank fraction. -/
theorem LinearDigest.estQuantile_eq (d : LinearDigest K) (v : Fl K) (hne : d.values ≠ [])
    (hn : ExactCounts K d.values.length) (hlit : FloatFmt.rnd (1 : K) = .fin 1) (hlit2 : FloatFmt.rnd (2 : K) = .fin 2) :
    d.estQuantileAtValue v = FloatFmt.rnd (midRank d.values v / d.values.length) := by
  have hc := count_lt_eq_le d.values v
  have hlen : 0 < d.values.length := List.length_pos_of_ne_nil hne
  have hlen' : (d.values.length : K) ≠ 0 := by positivity
  unfold LinearDigest.estQuantileAtValue midRank
  simp only [Fl.ofNat, Fl.lit, hlit, hlit2]
  set a := d.values.countP (fun x => Fl.lt x v)
  set b := d.values.countP (fun x => Fl.feq x v)
  rw [hn.nat (show a ≤ d.values.length by omega), hn.nat (show b ≤ d.values.length by omega),
    hn.nat (le_refl _)]
  by_cases h : 2 ≤ b
  · have h' : ¬ ((b : K) ≤ 1) := by
      have : ((2 : ℕ) : K) ≤ (b : K) := Nat.cast_le.2 h
      push_cast at this; intro h; linarith
    simp only [Fl.le_fin, h', decide_false, Bool.false_eq_true, if_false, if_pos h]
    rw [Fl.div_fin_of_ne _ two_ne_zero, hn.half (show b ≤ 2 * d.values.length by omega), Fl.add_fin]
    have e : (a : K) + (b : K) / 2 = ((2 * a + b : ℕ) : K) / 2 := by push_cast; ring
    rw [e, hn.half (by omega), Fl.div_fin_of_ne _ hlen']
  · have h' : ((b : K) ≤ 1) := by
      have : (b : K) ≤ ((1 : ℕ) : K) := Nat.cast_le.2 (by omega)
      simpa using this
    simp only [Fl.le_fin, h', decide_true, if_true, if_neg h, add_zero]
    rw [Fl.div_fin_of_ne _ hlen']

theorem midRank_mono (l : List (Fl K)) {v w : Fl K} (hw : w ≠ .nan) (h : v ≤ w) : midRank l v ≤ midRank l w := by
  have hv : v ≠ .nan := by
    rintro rfl; cases w <;> simp_all
  rcases eq_or_lt_of_le h with rfl | hlt
  · exact le_refl _
  have key : l.countP (fun x => Fl.lt x v) + l.countP (fun x => Fl.feq x v) ≤ l.countP (fun x => Fl.lt x w) := by
    clear h
    induction l with
    | nil => simp
    | cons a l ih =>
      simp only [List.countP_cons]
      by_cases ha : a = .nan
      · subst ha; simpa using ih
      · rw [Fl.lt_eq ha hv, Fl.lt_eq ha hw, Fl.feq_eq ha hv]
        simp only [decide_eq_true_eq]
        by_cases h1 : a < v
        · simp [h1, h1.trans hlt, h1.ne]; omega
        · by_cases h2 : a = v
          · subst h2; simp [hlt]; omega
          · simp [h1, h2]; split <;> omega
  have key' : ((l.countP (fun x => Fl.lt x v) : ℕ) : K) + ((l.countP (fun x => Fl.feq x v) : ℕ) : K) ≤
      ((l.countP (fun x => Fl.lt x w) : ℕ) : K) := by exact_mod_cast key
  unfold midRank
  have p1 : (0 : K) ≤ ((l.countP (fun x => Fl.feq x v) : ℕ) : K) := by positivity
  have p2 : (0 : K) ≤ ((l.countP (fun x => Fl.feq x w) : ℕ) : K) := by positivity
  split <;> split <;> linarith

theorem midRank_nonneg (l : List (Fl K)) (v : Fl K) : 0 ≤ midRank l v := by
  unfold midRank; split <;> positivity

theorem midRank_le (l : List (Fl K)) (v : Fl K) : midRank l v ≤ l.length := by
  have key' : ((l.countP (fun x => Fl.lt x v) : ℕ) : K) + ((l.countP (fun x => Fl.feq x v) : ℕ) : K) ≤
      ((l.length : ℕ) : K) := by exact_mod_cast count_lt_eq_le l v
  unfold midRank
  have p1 : (0 : K) ≤ ((l.countP (fun x => Fl.feq x v) : ℕ) : K) := by positivity
  split <;> linarith

end AQ

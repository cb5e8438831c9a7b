/-
Property C130: level-wise insertion into an RCSketch (`insert_at_rc`, `insert_at_rc_batch`) is weighted insertion.
-/
import Verif.Proofs.RCWeightedInv
import Verif.Props.RCCapacity

set_option linter.unusedSectionVars false
set_option linter.unusedVariables false

namespace AQ
open Prog Spec
variable {K : Type} [Field K] [LinearOrder K] [IsStrictOrderedRing K] [FloatFmt K]

namespace Spec

/-- Total weight supplied: an item inserted at level `h` weighs `2^h`. -/
def suppliedWeight : List (AnyIns K) → Nat
  | [] => 0
  | o :: os => 2 ^ o.lvl * o.items.length + suppliedWeight os

/-- Weight supplied at values up to `x`. -/
def suppliedRank (x : Fl K) : List (AnyIns K) → Nat
  | [] => 0
  | o :: os => 2 ^ o.lvl * rank o.items x + suppliedRank x os

/-- Items supplied by the calls that count (`add`, `add_buffer`, …). -/
def counted : List (AnyIns K) → Nat
  | [] => 0
  | .plain o :: os => o.items.length + counted os
  | .level _ :: os => counted os

end Spec

theorem supplied_length (ops : List (AnyIns K)) : (AnyIns.supplied ops).length = suppliedWeight ops := by
  induction ops with
  | nil => rfl
  | cons o os ih => rw [AnyIns.supplied_cons, List.length_append, dup_length, ih]; rfl

theorem supplied_rank (ops : List (AnyIns K)) (x : Fl K) : rank (AnyIns.supplied ops) x = suppliedRank x ops := by
  induction ops with
  | nil => rfl
  | cons o os ih => rw [AnyIns.supplied_cons, RCSketch.rank_append, dup_rank, ih]; rfl

theorem mem_supplied {ops : List (AnyIns K)} {y : Fl K} (h : y ∈ AnyIns.supplied ops) : ∃ o ∈ ops, y ∈ o.items := by
  unfold AnyIns.supplied at h
  obtain ⟨o, ho, hy⟩ := List.mem_flatMap.1 h
  exact ⟨o, ho, mem_dup.1 hy⟩

namespace RCSketch

theorem cap_fresh (G : Fl K → Prop) (n k : Nat) : Cap G k (2 * k * rcLogLen n k) 0 (fresh n k) [] :=
  ⟨rfl, bsize_eq n k, ⟨fun _ => 0, by simp [fresh], by simp [fresh, pend]⟩, by simp [fresh], by simp⟩

theorem params_fresh (n k : Nat) : Params n k (bsize n k) (fresh n k : RCSketch K) := ⟨rfl, rfl, rfl⟩

theorem anyRun_eq {n k : Nat} (hk : 1 ≤ k) (ops : List (AnyIns K)) : AnyIns.run n k ops = AnyIns.execs (fresh n k) ops := by
  unfold AnyIns.run
  rw [new_eq (by omega), bind_ret]

theorem anyRun_cap {G : Fl K → Prop} (n k : Nat) (hk : 1 ≤ k) (ops : List (AnyIns K)) (hG : ∀ o ∈ ops, GoodFor G o.method)
    (hl : AnyIns.LevelsOk 0 ops) (hlen : AnyIns.passed ops < rcCapacity n k) (hg : ∀ o ∈ ops, ∀ y ∈ o.items, G y) :
    Always (AnyIns.run n k ops) (fun s => Base s [] ∧ Cap G k (2 * k * rcLogLen n k) (AnyIns.passed ops) s []) := by
  rw [anyRun_eq hk]
  rw [rcCapacity_eq] at hlen
  have := anyExecs_cap rfl ops hG hg 0 0 _ hl (Nat.zero_le _) (base_fresh (by omega)) (cap_fresh G n k) (by simpa using hlen)
  simpa using this

/-- C130. No call panics as long as levels are opened in order, the number of items passed stays below the capacity of C122, and no item
is NaN: any mixture of ordinary and level-wise calls, any coins, any rounding. -/
theorem C130_never_panics (n k : Nat) (hk : 1 ≤ k) (ops : List (AnyIns K)) (hm : ∀ o ∈ ops, o.method = .default)
    (hl : AnyIns.LevelsOk 0 ops) (hlen : AnyIns.passed ops < rcCapacity n k) (hnan : ∀ o ∈ ops, ∀ y ∈ o.items, y ≠ .nan) :
    Always (AnyIns.run n k ops) (fun _ => True) :=
  (anyRun_cap n k hk ops (fun o ho => goodFor_of_default (hm o ho)) hl hlen hnan).mono (fun _ _ => trivial)

/-- C130. Skipping a level panics: an item cannot be inserted at level `h` when fewer than `h` levels exist. -/
theorem C130_missing_level_panics (s : RCSketch K) (c : LevelCall K) (hh : s.buffers.length < c.lvl) (hne : c.items ≠ []) :
    c.exec s = .fail .oob := (exec_beyond s c hh).1 hne

/-- C130. For even `k` the stored weight is the supplied weight, for every history, method, coin and level. -/
theorem C130_weight (n k : Nat) (hk : k % 2 = 0) (ops : List (AnyIns K)) :
    Partially (AnyIns.run n k ops) (fun s => wsum (s.buffers.map List.length) = suppliedWeight ops) := by
  refine (anyRun_lvl (weightLvl.and (paramsLvl n k (bsize n k))) n k ops (fun _ _ => ⟨trivial, trivial⟩)
    (fun _ => ⟨fun _ _ => by simp [W, fresh, fsum, wsum], params_fresh n k⟩)).mono ?_
  rintro s ⟨-, -, hw, -, h1, h2⟩
  have := hw (by rw [h1]; exact hk) (by rw [h2]; exact bsize_mod4 hk)
  rw [W_nil, supplied_length] at this
  exact this

/-- C130. The stored weight up to `x` differs from the supplied weight up to `x` by at most `Σ_h 2^h · (compactions at level h)`, for
every history with default compaction and every coin. -/
theorem C130_rank_error (n k : Nat) (ops : List (AnyIns K)) (hm : ∀ o ∈ ops, o.method = .default) :
    Partially (AnyIns.run n k ops) (fun s => ∀ x, weightedRank s.buffers x ≤ suppliedRank x ops + wsum s.compactions ∧
      suppliedRank x ops ≤ weightedRank s.buffers x + wsum s.compactions) := by
  refine (anyRun_lvl errLvl n k ops (fun o ho => hm o ho) (fun _ => within_fresh n k)).mono ?_
  rintro s ⟨-, -, hw⟩ x
  have := hw x
  rw [W_nil, supplied_rank] at this
  exact this

/-- C130. Stored items are supplied items (default compaction). -/
theorem C130_stored (n k : Nat) (ops : List (AnyIns K)) (hm : ∀ o ∈ ops, o.method = .default) :
    Partially (AnyIns.run n k ops) (fun s => ∀ b ∈ s.buffers, ∀ y ∈ b, ∃ o ∈ ops, y ∈ o.items) := by
  refine (anyRun_lvl memLvl n k ops (fun o ho => hm o ho) (fun _ => by simp [AllG, fresh])).mono ?_
  rintro s ⟨-, -, hw⟩ b hb y hy
  exact mem_supplied (hw.1 b hb y hy)

/-- C130. The expected stored weight up to `x` is the supplied weight up to `x` (within the capacity; any `k ≥ 1`). -/
theorem C130_unbiased (n k : Nat) (hk : 1 ≤ k) (ops : List (AnyIns K)) (hm : ∀ o ∈ ops, o.method = .default)
    (hl : AnyIns.LevelsOk 0 ops) (hlen : AnyIns.passed ops < rcCapacity n k) (hnan : ∀ o ∈ ops, ∀ y ∈ o.items, y ≠ .nan) (x : Fl K) :
    exp (AnyIns.run n k ops) (fun s => (weightedRank s.buffers x : ℚ)) = suppliedRank x ops := by
  have hal := C130_never_panics n k hk ops hm hl hlen hnan
  have hlen' := hlen
  rw [rcCapacity_eq] at hlen'
  rw [anyRun_eq hk] at hal ⊢
  have key : ∀ σ : ℚ, σ * exp (AnyIns.execs (fresh n k) ops) (fun s => (weightedRank s.buffers x : ℚ)) ≤ σ * suppliedRank x ops := by
    intro σ
    have h := anyExecs_exp rfl (rank_lvlSuper (K := K) (k := k) (L := rcLogLen n k) rfl x σ 0) ops hm hnan 0 0 [] _ hl (Nat.zero_le _)
      (base_fresh (by omega)) (cap_fresh _ n k) (by simpa using hlen')
    have h0 : σ * ((W (fun b => rank b x) (fresh n k : RCSketch K) [] : ℚ) - rank ([] : List (Fl K)) x + 0) = 0 := by
      simp [W, fresh, fsum, wsum, rank]
    rw [h0] at h
    have e : (fun s : RCSketch K => σ * ((W (fun b => rank b x) s [] : ℚ) - rank ([] ++ AnyIns.supplied ops) x + 0)) =
        (fun s => σ * (weightedRank s.buffers x : ℚ) + (-(σ * suppliedRank x ops))) := by
      funext s; rw [W_nil, List.nil_append, supplied_rank]
      change σ * ((weightedRank s.buffers x : ℚ) - _ + 0) = _
      ring
    rw [e, exp_add, exp_mul_left, exp_const hal] at h
    linarith
  have h1 := key 1
  have h2 := key (-1)
  linarith

/-- The flow invariant with some bound on the levels opened directly. -/
theorem flowLvl : LvlInv (K := K) (fun _ _ => True) (fun l s P => ∃ l0, FlowL l0 l.length s P) where
  closed l fast m _ :=
    { ensure := fun s h items rest hb hj hl => hj.imp (fun l0 hj => hj.ensure hb hl)
      pop := fun s h rest hb hj hl => hj.imp (fun l0 hj => hj.pop)
      push := fun s h items rest buf hb hj hg hl => hj.imp (fun l0 hj => hj.push hg)
      compact := fun s h items rest buf n r hb hj hg hn hl hr => hj.imp (fun l0 hj => hj.compact hb hg hn hl hr) }
  start l c s h hb hh hj := by
    obtain ⟨l0, hj⟩ := hj
    have hj' : FlowL (max l0 (h + 1)) l.length s [] := by
      obtain ⟨r, h1, h2, h3, h4, h5, h6⟩ := hj.flow
      exact ⟨hj.kev, hj.Bev, hj.Bk, r, h1, h2, h3, fun j hj => h4 j (by omega), fun f hf j hj => h5 f hf j (by omega), h6⟩
    have := hj'.startAt (h := h) (Or.inl (by omega)) c
    exact ⟨_, by rw [List.length_append, dup_length]; exact this⟩
  cnt l s n hj := by
    obtain ⟨l0, hj⟩ := hj
    exact ⟨l0, hj.kev, hj.Bev, hj.Bk, hj.flow⟩

theorem anyRun_wsum4 (n k : Nat) (hk2 : k % 2 = 0) (ops : List (AnyIns K)) :
    Partially (AnyIns.run n k ops) (fun s => (wsum4 s.compactions : ℚ) ≤ 2 * (suppliedWeight ops : ℚ) ^ 2 / (k * bsize n k)) := by
  refine (anyRun_lvl (flowLvl.and (paramsLvl n k (bsize n k))) n k ops (fun _ _ => ⟨trivial, trivial⟩)
    (fun _ => ⟨⟨0, (flow_fresh hk2).lvl 0⟩, params_fresh n k⟩)).mono ?_
  rintro s ⟨hk, hb, ⟨l0, hf⟩, -, h1, h2⟩
  have := hf.wsum4 (by rw [h1]; omega)
  rw [h1, h2, supplied_length] at this
  exact this

/-- C130. Mean squared error of the stored weight up to `x`: at most `2 W² / (k · buffer_size)`, `W` the total weight supplied (even `k`,
within the capacity). For ordinary histories this extends C61 beyond the declared length. -/
theorem C130_mean_squared_error (n k : Nat) (hk : 1 ≤ k) (hk2 : k % 2 = 0) (ops : List (AnyIns K)) (hm : ∀ o ∈ ops, o.method = .default)
    (hl : AnyIns.LevelsOk 0 ops) (hlen : AnyIns.passed ops < rcCapacity n k) (hnan : ∀ o ∈ ops, ∀ y ∈ o.items, y ≠ .nan) (x : Fl K) :
    exp (AnyIns.run n k ops) (fun s => ((weightedRank s.buffers x : ℚ) - suppliedRank x ops) ^ 2) ≤
      2 * (suppliedWeight ops : ℚ) ^ 2 / (k * (max (2 * k * Nat.clog 2 (n / k)) (2 * k) : Nat)) := by
  have hal := C130_never_panics n k hk ops hm hl hlen hnan
  have hlen' := hlen
  rw [rcCapacity_eq] at hlen'
  change _ ≤ 2 * (suppliedWeight ops : ℚ) ^ 2 / (k * (bsize n k : Nat))
  have hw := exp_mono (g' := fun _ => 2 * (suppliedWeight ops : ℚ) ^ 2 / (k * (bsize n k : Nat))) (anyRun_wsum4 n k hk2 ops)
  rw [exp_const hal] at hw
  refine le_trans ?_ hw
  rw [anyRun_eq hk]
  have h := anyExecs_exp rfl (var_lvlSuper (K := K) (k := k) (L := rcLogLen n k) rfl x 0) ops hm hnan 0 0 [] _ hl (Nat.zero_le _)
    (base_fresh (by omega)) (cap_fresh _ n k) (by simpa using hlen')
  have h0 : ((W (fun b => rank b x) (fresh n k : RCSketch K) [] : ℚ) - rank ([] : List (Fl K)) x + 0) ^ 2 -
      wsum4 (fresh n k : RCSketch K).compactions = 0 := by
    simp [W, fresh, fsum, wsum, rank, wsum4]
  rw [h0] at h
  have e : (fun s : RCSketch K => ((W (fun b => rank b x) s [] : ℚ) - rank ([] ++ AnyIns.supplied ops) x + 0) ^ 2 - wsum4 s.compactions) =
      (fun s => ((weightedRank s.buffers x : ℚ) - suppliedRank x ops) ^ 2 + (-1) * (wsum4 s.compactions : ℚ)) := by
    funext s; rw [W_nil, List.nil_append, supplied_rank]
    change ((weightedRank s.buffers x : ℚ) - _ + 0) ^ 2 - _ = _
    ring
  rw [e, exp_add, exp_mul_left] at h
  linarith

/-- The count is static under level-wise calls. -/
theorem countCl (c : Nat) (fast : Bool) (m : CompactionMethod) : Closed (K := K) fast m (fun s _ => s.count = c) where
  ensure s h items rest _ hj _ := by unfold ensureLevel; split <;> exact hj
  pop s h rest _ hj _ := hj
  push s h items rest buf _ hj _ _ := hj
  compact s h items rest buf n' r _ hj _ _ _ hr := by
    obtain ⟨ci, ctrs, out, hi, hci, -, ho, rfl⟩ := hr
    exact hj

theorem exec_count (c : LevelCall K) {s : RCSketch K} (hb : Base s []) :
    Partially (c.exec s) (fun s' => Base s' [] ∧ s'.count = s.count) := by
  rcases Nat.lt_or_ge s.buffers.length c.lvl with hh | hh
  · obtain ⟨h1, h2⟩ := exec_beyond s c hh
    by_cases e : c.items = []
    · rw [h2 e]
      exact LevelCall.exec_partially (LevelCall.batch [] s.buffers.length c.fast c.method) (countCl s.count _ _) hb (le_refl _) rfl
    · rw [h1 e]; trivial
  · exact LevelCall.exec_partially c (countCl s.count _ _) hb hh rfl

theorem execs_count : ∀ (cs : List (LevelCall K)) (s : RCSketch K), Base s [] →
    Partially (LevelCall.execs s cs) (fun s' => Base s' [] ∧ s'.count = s.count) := by
  intro cs
  induction cs with
  | nil => intro s hb; exact ⟨hb, rfl⟩
  | cons c cs ih =>
    intro s hb
    rw [LevelCall.execs, partially_bind]
    refine (exec_count c hb).mono ?_
    rintro s' ⟨hb', h1⟩
    exact (ih s' hb').mono (fun s'' h => ⟨h.1, h.2.trans h1⟩)

theorem anyExecs_count : ∀ (ops : List (AnyIns K)) (s : RCSketch K), Base s [] →
    Partially (AnyIns.execs s ops) (fun s' => s'.count = s.count + counted ops) := by
  intro ops
  induction ops with
  | nil => intro s hb; simp [AnyIns.execs, counted]
  | cons o os ih =>
    intro s hb
    rw [AnyIns.execs, partially_bind]
    cases o with
    | level c =>
      refine (exec_count c hb).mono ?_
      rintro s' ⟨hb', h1⟩
      exact (ih s' hb').mono (fun s'' h => by rw [h, h1]; rfl)
    | plain o =>
      obtain ⟨cs, -, -, h3⟩ := execOp_calls hb o
      simp only [AnyIns.exec]
      rw [h3, partially_bind]
      refine (execs_count cs s hb).mono ?_
      rintro s' ⟨hb', h1⟩
      refine (ih { s' with count := s'.count + o.items.length } (base_count hb' _)).mono ?_
      intro s'' h
      rw [h, h1]
      simp only [counted]; omega

/-- C130. `count()` only counts items supplied through the ordinary calls: level-wise calls do not change it. -/
theorem C130_count (n k : Nat) (ops : List (AnyIns K)) :
    Partially (AnyIns.run n k ops) (fun s => Digest.count s = .ret (counted ops)) := by
  by_cases hk : k = 0
  · subst hk; unfold AnyIns.run; simp [RCSketch.new, calcBufferSize, bind_fail]
  · rw [anyRun_eq (by omega)]
    exact (anyExecs_count ops _ (base_fresh hk)).mono (fun s h => by
      change Prog.ret s.count = _
      rw [h]; simp [fresh])

/-- The flow invariant when no call is above level `l0 - 1`. -/
theorem execs_flowL {l0 : Nat} (h0 : 1 ≤ l0) : ∀ (cs : List (LevelCall K)) (N : Nat) (s : RCSketch K), Base s [] → FlowL l0 N s [] →
    (∀ c ∈ cs, c.lvl < l0) →
    Partially (LevelCall.execs s cs) (fun s' => Base s' [] ∧ FlowL l0 (N + (LevelCall.supplied cs).length) s' []) := by
  intro cs
  induction cs with
  | nil => intro N s hb hf _; exact ⟨hb, hf⟩
  | cons c cs ih =>
    intro N s hb hf hl
    rw [LevelCall.execs, partially_bind]
    have h1 : Partially (c.exec s) (fun s' => Base s' [] ∧ FlowL l0 (N + 2 ^ c.lvl * c.items.length) s' []) := by
      have hc := hl c (by simp)
      rcases Nat.lt_or_ge s.buffers.length c.lvl with hh | hh
      · obtain ⟨e1, e2⟩ := exec_beyond s c hh
        by_cases e : c.items = []
        · rw [e2 e, e]
          exact LevelCall.exec_partially (LevelCall.batch [] s.buffers.length c.fast c.method) (FlowL.closed _ _) hb (le_refl _)
            (hf.startAt (h := s.buffers.length) (Or.inl (by omega)) [])
        · rw [e1 e]; trivial
      · exact LevelCall.exec_partially c (FlowL.closed _ _) hb hh (hf.startAt (Or.inl hc) c.items)
    refine h1.mono ?_
    rintro s' ⟨hb', h1⟩
    have := ih _ s' hb' h1 (fun c hc => hl c (by simp [hc]))
    rw [LevelCall.supplied_cons, List.length_append, dup_length, ← Nat.add_assoc]
    exact this

theorem anyExecs_flowL {l0 : Nat} (h0 : 1 ≤ l0) : ∀ (ops : List (AnyIns K)) (N : Nat) (s : RCSketch K), Base s [] → FlowL l0 N s [] →
    (∀ o ∈ ops, o.lvl < l0) →
    Partially (AnyIns.execs s ops) (fun s' => Base s' [] ∧ FlowL l0 (N + suppliedWeight ops) s' []) := by
  intro ops
  induction ops with
  | nil => intro N s hb hf _; exact ⟨hb, hf⟩
  | cons o os ih =>
    intro N s hb hf hl
    rw [AnyIns.execs, partially_bind]
    have h1 : Partially (o.exec s) (fun s' => Base s' [] ∧ FlowL l0 (N + 2 ^ o.lvl * o.items.length) s' []) := by
      cases o with
      | level c =>
        have h := execs_flowL h0 [c] N s hb hf (by simpa [AnyIns.lvl] using hl (.level c) (by simp))
        rw [LevelCall.execs] at h
        have e : (c.exec s >>= fun s' => LevelCall.execs s' []) = c.exec s := bind_ret_right _
        rw [e] at h
        refine h.mono (fun s' h => ⟨h.1, ?_⟩)
        have := h.2
        simpa [LevelCall.supplied, dup_length, AnyIns.lvl, AnyIns.items] using this
      | plain o =>
        obtain ⟨cs, hc1, hc2, hc3⟩ := execOp_calls hb o
        simp only [AnyIns.exec]
        rw [hc3, partially_bind]
        refine (execs_flowL h0 cs N s hb hf (fun c hc => by rw [(hc1 c hc).1]; omega)).mono ?_
        rintro s' ⟨hb', h1⟩
        refine ⟨base_count hb' _, ?_⟩
        rw [calls_supplied0 cs (fun c hc => (hc1 c hc).1), hc2] at h1
        have : FlowL l0 (N + o.items.length) { s' with count := s'.count + o.items.length } [] := ⟨h1.kev, h1.Bev, h1.Bk, h1.flow⟩
        simpa [AnyIns.lvl, AnyIns.items] using this
    refine h1.mono ?_
    rintro s' ⟨hb', h1⟩
    have := ih _ s' hb' h1 (fun o ho => hl o (by simp [ho]))
    rw [suppliedWeight, ← Nat.add_assoc]
    exact this

/-- At most 64 levels for weights below `2^63`, when no call is above level 63 (even `k`). -/
theorem anyRun_levels (n k : Nat) (hk2 : k % 2 = 0) (ops : List (AnyIns K)) (hl : ∀ o ∈ ops, o.lvl < 64)
    (hW : suppliedWeight ops < 2 ^ 63) : Partially (AnyIns.run n k ops) (fun s => s.buffers.length ≤ 64) := by
  by_cases hk : k = 0
  · subst hk; unfold AnyIns.run; simp [RCSketch.new, calcBufferSize, bind_fail]
  · rw [anyRun_eq (by omega)]
    refine (anyExecs_flowL (l0 := 64) (by norm_num) ops 0 _ (base_fresh hk) ((flow_fresh hk2).lvl 64) hl).mono ?_
    rintro s ⟨hb, hf⟩
    by_contra hc
    obtain ⟨-, h2, -⟩ := hf.bounds
    have h3 := h2 (s.buffers.length - 2) (by omega) (by omega)
    have h4 : 2 ^ 63 ≤ 2 ^ (s.buffers.length - 2) := Nat.pow_le_pow_right (by norm_num) (by omega)
    have h5 : 2 ^ (s.buffers.length - 2) ≤ 2 ^ (s.buffers.length - 2) * s.bufferSize := Nat.le_mul_of_pos_right _ (by have := hb.hB; omega)
    omega

/-- C130. `interpolate_rank` returns the stored weight up to `x`, for weights below `2^63` (even `k`, levels up to 63). -/
theorem C130_interpolate_rank (n k : Nat) (hk2 : k % 2 = 0) (ops : List (AnyIns K)) (hl : ∀ o ∈ ops, o.lvl < 64)
    (hW : suppliedWeight ops < 2 ^ 63) : Partially (AnyIns.run n k ops) (fun s => ∀ x, x ≠ .nan →
      s.interpolateRank x = .ret (weightedRank s.buffers x)) := by
  refine (anyRun_levels n k hk2 ops hl hW).mono (fun s hs x hx => ?_)
  unfold interpolateRank
  rw [rankFrom_eq hx _ _ _ (by omega)]
  simp

/-! ### Concrete cases -/

attribute [local instance] ratExact ratExact_exact

/-- A history with weighted items: 1 and 2 once each, 3 as one item of weight 2 (twice), 4 as one of weight 4. -/
def weightedHist : List (AnyIns ℚ) :=
  [.plain (.addBuffer [.fin 1, .fin 2]), .level (.item (.fin 3) 1 false .default), .level (.batch [.fin 3] 1 true .default),
    .level (.item (.fin 4) 2 false .default), .plain (.add (.fin 5))]

/-- Non-vacuity: the hypotheses hold, the calls return, and the weights are 1, 1, 2, 2, 4 and 1. -/
theorem C130_example : AnyIns.LevelsOk 0 weightedHist ∧ AnyIns.passed weightedHist < rcCapacity 8 2 ∧
    suppliedWeight weightedHist = 11 ∧ suppliedRank (.fin 3) weightedHist = 6 ∧ counted weightedHist = 3 ∧
    CanReturn (AnyIns.run 8 2 weightedHist >>= fun s => s.interpolateRank (.fin 3)) 6 ∧
    CanReturn (AnyIns.run 8 2 weightedHist >>= fun s => s.interpolateRank (.fin 4)) 10 := by
  refine ⟨?_, by decide +kernel, by decide +kernel, by decide +kernel, by decide +kernel, by decide +kernel, by decide +kernel⟩
  simp [weightedHist, AnyIns.LevelsOk, AnyIns.lvl, AnyIns.opens, LevelCall.lvl, InsOp.items]

/-- Since `count()` does not include them, a sketch fed through `insert_at_rc` answers quantile queries outside `[0, 1]`: after three
`add`s and one item of weight 4 the quantile at the top is 7/3. -/
theorem C130_quantile_above_one :
    CanReturn (AnyIns.run 8 2 [.plain (.addBuffer [.fin 1, .fin 2, .fin 3]), .level (.batch [] 1 false .default),
      .level (.item (.fin 4) 2 false .default)] >>= fun s => s.estQuantileAtValue (.fin (4 : ℚ))) (.fin (7 / 3)) := by
  decide +kernel

end RCSketch
end AQ

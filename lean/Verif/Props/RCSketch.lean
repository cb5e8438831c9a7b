/-
Properties C05–C17 and C61–C63 (RCSketch).
-/
import Verif.Spec.F64
import Verif.Proofs.F64
import Verif.Proofs.RCQuery
import Verif.Proofs.RCBuf
import Verif.Proofs.RCExp
import Verif.Proofs.RCFlow

set_option linter.unusedSectionVars false
set_option linter.unusedVariables false

namespace AQ
open Spec Prog RCSketch
variable {K : Type} [Field K] [LinearOrder K] [IsStrictOrderedRing K] [FloatFmt K]

theorem rc_static (n k : Nat) (ops : List (InsOp K)) :
    Partially (runHist n k ops) (fun s => k ≠ 0 ∧ Base s [] ∧ s.stored ≤ (insItems ops).length ∧
      Static n k (bsize n k) (insItems ops).length s) :=
  (hist_partially storedInv n k ops (fun _ _ => trivial) (fun _ => by simp [total, fresh, stored])).mono
    (fun s h => ⟨h.1, h.2.1, by have := h.2.2.1; simpa [total, stored] using this, h.2.2.2⟩)

/-- C05. `count()` is the number of supplied items after every history of insertion calls that returns. -/
theorem C05_count_exact (n k : Nat) (ops : List (InsOp K)) :
    Partially (runHist n k ops) (fun s => Digest.count s = .ret (insItems ops).length) :=
  (rc_static n k ops).mono (fun s h => by have := h.2.2.2.2.2.2; simp [Digest.count, this])

/-- C06. Between calls every buffer holds fewer than `buffer_size` items, and the total stored is at most
`buffer_size` times the number of levels. -/
theorem C06_buffers_below_capacity (n k : Nat) (ops : List (InsOp K)) :
    Partially (runHist n k ops) (fun s => (∀ b ∈ s.buffers, b.length < s.bufferSize) ∧
      (s.buffers.map List.length).sum ≤ s.bufferSize * s.buffers.length ∧
      s.bufferSize = max (2 * k * Nat.clog 2 (n / k)) (2 * k)) := by
  refine (rc_static n k ops).mono ?_
  rintro s ⟨-, hb, -, hs⟩
  refine ⟨hb.hlt, ?_, hs.2.2.1⟩
  have : ∀ L : List (List (Fl K)), (∀ b ∈ L, b.length < s.bufferSize) → (L.map List.length).sum ≤ s.bufferSize * L.length := by
    intro L
    induction L with
    | nil => simp
    | cons b L ih =>
      intro h
      have h1 := h b (by simp)
      have h2 := ih (fun b hb => h b (by simp [hb]))
      rw [List.map_cons, List.sum_cons, List.length_cons, Nat.mul_succ]; omega
  exact this _ hb.hlt

/-- C07. Within the declared input length insertion calls never panic and terminate (the model's loop bounds are
failures too), for default and fast compaction in any mix, any coins, any non-NaN data, any rounding. -/
theorem C07_insertions_never_panic (n k : Nat) (hk : 1 ≤ k) (hn : n < 2 ^ 32) (ops : List (InsOp K))
    (hm : ∀ o ∈ ops, o.method = .default) (hlen : (insItems ops).length ≤ n) (hnan : ∀ y ∈ insItems ops, y ≠ .nan) :
    Always (runHist n k ops) (fun s => s.count = (insItems ops).length) :=
  ((runHist_always (G := (· ≠ .nan)) n k (by omega) hn ops
    (fun o ho => by rw [hm o ho]; exact goodFor_default (fun _ h => h)) hlen hnan).and (rc_static n k ops)).mono
    (fun s h => h.2.2.2.2.2.2.2)

/-- C07 with `AverageNeighbour` allowed: binary floating point, items whose double does not overflow. -/
theorem C07_insertions_never_panic_average [FloatFmt.Binary K] (n k : Nat) (hk : 1 ≤ k) (hn : n < 2 ^ 32)
    (ops : List (InsOp K)) (hlen : (insItems ops).length ≤ n) (hfin : ∀ y ∈ insItems ops, y.CanDouble) :
    Always (runHist n k ops) (fun s => s.count = (insItems ops).length) :=
  ((runHist_always (G := Fl.CanDouble) n k (by omega) hn ops (fun o _ => goodFor_fin o.method) hlen hfin).and
    (rc_static n k ops)).mono (fun s h => h.2.2.2.2.2.2.2)

theorem rc_flow (n k : Nat) (hk : k % 2 = 0) (ops : List (InsOp K)) :
    Partially (runHist n k ops) (fun s => Base s [] ∧ Flow (insItems ops).length s [] ∧ s.k = k ∧
      s.bufferSize = bsize n k ∧ s.count = (insItems ops).length ∧ 4 ≤ bsize n k) :=
  (hist_partially flowInv n k ops (fun _ _ => trivial) (fun _ => flow_fresh hk)).mono
    (fun s h => ⟨h.2.1, h.2.2.1, h.2.2.2.2.1, h.2.2.2.2.2.1, h.2.2.2.2.2.2, by have := bsize_ge n k; omega⟩)

/-- C15. For even `k` a sketch that has seen `c ≥ 1` items has at most `log2 c + 1` levels, each below `buffer_size`
items (even outside the declared input length). -/
theorem C15_memory_logarithmic (n k : Nat) (hk : k % 2 = 0) (ops : List (InsOp K)) (hne : insItems ops ≠ []) :
    Partially (runHist n k ops) (fun s => s.buffers.length ≤ Nat.log 2 (insItems ops).length + 1 ∧
      ∀ b ∈ s.buffers, b.length < s.bufferSize) := by
  refine (rc_flow n k hk ops).mono ?_
  rintro s ⟨hb, hf, -, hB, -, h4⟩
  refine ⟨?_, hb.hlt⟩
  obtain ⟨-, h2, -⟩ := hf.bounds
  have hpos : 0 < (insItems ops).length := List.length_pos_of_ne_nil hne
  by_contra hc
  have h3 := h2 (s.buffers.length - 2) (by omega)
  rw [hB] at h3
  have h5 : 2 ^ (s.buffers.length - 2) ≤ (insItems ops).length := by nlinarith
  have h6 : 2 ^ (s.buffers.length - 2) * 4 ≤ (insItems ops).length := le_trans (Nat.mul_le_mul_left _ h4) h3
  have h7 : 2 ^ s.buffers.length ≤ (insItems ops).length := by
    have : s.buffers.length = s.buffers.length - 2 + 2 := by omega
    rw [this, pow_add]; exact h6
  have := Nat.le_log_of_pow_le (by norm_num) h7
  omega

theorem rc_levels (n k : Nat) (hk : k % 2 = 0) (ops : List (InsOp K)) (hlen : (insItems ops).length < 2 ^ 32) :
    Partially (runHist n k ops) (fun s => s.buffers.length ≤ 31) := by
  refine (rc_flow n k hk ops).mono ?_
  rintro s ⟨hb, hf, -, hB, -, h4⟩
  obtain ⟨-, h2, -⟩ := hf.bounds
  by_contra hc
  have h3 := h2 (s.buffers.length - 2) (by omega)
  rw [hB] at h3
  have h6 : 2 ^ (s.buffers.length - 2) * 4 ≤ (insItems ops).length := le_trans (Nat.mul_le_mul_left _ h4) h3
  have h7 : 2 ^ 30 ≤ 2 ^ (s.buffers.length - 2) := Nat.pow_le_pow_right (by norm_num) (by omega)
  norm_num at h7 hlen
  omega

/-- C08 (partial: even `k` only; for odd `k` see `C08_odd_k_weight_not_conserved`). The total weight of the stored items is
the number of items seen and no estimate exceeds 1, for every history (both methods, in or out of range), all coins. -/
theorem C08_weight_conserved_partial [FloatFmt.Mono K] (n k : Nat) (hk : k % 2 = 0) (ops : List (InsOp K)) (hne : insItems ops ≠ [])
    (hf : ∃ c : K, FloatFmt.rnd ((insItems ops).length : K) = .fin c) :
    Partially (runHist n k ops) (fun s => wsum (s.buffers.map List.length) = (insItems ops).length ∧
      ∀ x, x ≠ .nan → Partially (s.estQuantileAtValue x) (fun r => .fin 0 ≤ r ∧ r ≤ .fin 1)) := by
  refine (hist_partially weightInv n k ops (fun _ _ => trivial) (fun _ _ _ => by simp [W, fresh, fsum, wsum])).mono ?_
  rintro s ⟨-, hb, hw, -, h1, h2, h3⟩
  have hw := hw (by rw [h1]; exact hk) (by rw [h2]; exact bsize_mod4 hk)
  rw [W_nil] at hw
  refine ⟨hw, fun x hx => ?_⟩
  have hpos := List.length_pos_of_ne_nil hne
  refine (estQuantile_partially hx s.buffers s.count).mono ?_
  rintro r rfl
  rw [h3]
  refine ⟨quantile_div_nonneg _ hpos hf, ?_⟩
  rw [← quantile_div_self hpos hf]
  exact quantile_div_mono hpos hf (hw ▸ weightedRank_le _ _)

/-- C08 (partial: even `k`): at or above the largest item the estimate is exactly 1 (default compaction). -/
theorem C08_top_is_one_partial [FloatFmt.Mono K] (n k : Nat) (hk : k % 2 = 0) (ops : List (InsOp K)) (hne : insItems ops ≠ [])
    (hm : ∀ o ∈ ops, o.method = .default)
    (hf : ∃ c : K, FloatFmt.rnd ((insItems ops).length : K) = .fin c) (x : Fl K) (hx : x ≠ .nan)
    (hmax : ∀ y ∈ insItems ops, y ≤ x) :
    Partially (runHist n k ops) (fun s => Partially (s.estQuantileAtValue x) (fun r => r = .fin 1)) := by
  have h1 := hist_partially memInv n k ops (fun o ho => hm o ho) (fun _ => by simp [AllG, fresh])
  refine (h1.and (hist_partially weightInv n k ops (fun _ _ => trivial) (fun _ _ _ => by simp [W, fresh, fsum, wsum]))).mono ?_
  rintro s ⟨⟨-, -, hmem, -⟩, -, hb, hw, -, h1, h2, h3⟩
  have hw := hw (by rw [h1]; exact hk) (by rw [h2]; exact bsize_mod4 hk)
  rw [W_nil] at hw
  refine (estQuantile_partially hx s.buffers s.count).mono ?_
  rintro r rfl
  rw [h3, weightedRank_top s.buffers x (fun b hb y hy => hmax y (hmem.1 b hb y hy)), hw]
  exact quantile_div_self (List.length_pos_of_ne_nil hne) hf

/-- C08 (partial: even `k`): the same with `AverageNeighbour` allowed: binary floating point, items whose double
does not overflow. -/
theorem C08_top_is_one_average_partial [FloatFmt.Binary K] (n k : Nat) (hk : k % 2 = 0) (ops : List (InsOp K))
    (hne : insItems ops ≠ []) (hfin : ∀ y ∈ insItems ops, y.CanDouble)
    (hf : ∃ c : K, FloatFmt.rnd ((insItems ops).length : K) = .fin c) (x : Fl K) (hx : x ≠ .nan)
    (hmax : ∀ y ∈ insItems ops, y ≤ x) :
    Partially (runHist n k ops) (fun s => Partially (s.estQuantileAtValue x) (fun r => r = .fin 1)) := by
  have h1 := hist_partially betweenInv n k ops (fun o ho => trivial) (fun _ => by simp [AllG, fresh])
  refine (h1.and (hist_partially weightInv n k ops (fun _ _ => trivial) (fun _ _ _ => by simp [W, fresh, fsum, wsum]))).mono ?_
  rintro s ⟨⟨-, -, hmem, -⟩, -, hb, hw, -, h1, h2, h3⟩
  have hw := hw (by rw [h1]; exact hk) (by rw [h2]; exact bsize_mod4 hk)
  rw [W_nil] at hw
  refine (estQuantile_partially hx s.buffers s.count).mono ?_
  rintro r rfl
  have hle : ∀ b ∈ s.buffers, ∀ y ∈ b, y ≤ x := by
    intro b hb y hy
    obtain ⟨-, -, z, hz, hyz⟩ := hmem.1 b hb y hy hfin
    exact hyz.trans (hmax z hz)
  rw [h3, weightedRank_top s.buffers x hle, hw]
  exact quantile_div_self (List.length_pos_of_ne_nil hne) hf

theorem rankFrom_returns (x : Fl K) : ∀ (L : List (List (Fl K))) (i acc : Nat), i + L.length ≤ 64 →
    ∃ r, rankFrom x i acc L = .ret r := by
  intro L
  induction L with
  | nil => intro i acc _; exact ⟨_, rfl⟩
  | cons b L ih =>
    intro i acc hi
    rw [List.length_cons] at hi
    rw [rankFrom, if_pos (by omega)]
    exact ih (i + 1) _ (by omega)

/-- C07, queries: for even `k`, within the declared input length, neither query panics on a non-empty sketch (quantile
queries never panic; value queries for every `q`, including NaN). -/
theorem C07_queries_never_panic (n k : Nat) (hk : k % 2 = 0) (hk1 : 1 ≤ k) (hn : n < 2 ^ 32) (ops : List (InsOp K))
    (hm : ∀ o ∈ ops, o.method = .default) (hlen : (insItems ops).length ≤ n) (hnan : ∀ y ∈ insItems ops, y ≠ .nan)
    (hne : insItems ops ≠ []) :
    Always (runHist n k ops) (fun s => (∀ x, Always (s.estQuantileAtValue x) (fun _ => True)) ∧
      ∀ q, Always (s.estValueAtQuantile q) (fun v => v ∈ insItems ops)) := by
  have hw := hist_partially (K := K) weightInv n k ops (fun _ _ => trivial) (fun _ _ _ => by simp [W, fresh, fsum, wsum])
  have hmem := hist_partially (K := K) memInv n k ops (fun o ho => hm o ho) (fun _ => by simp [AllG, fresh])
  refine ((C07_insertions_never_panic n k hk1 hn ops hm hlen hnan).and
    ((rc_levels n k hk ops (by omega)).and (hw.and hmem))).mono ?_
  rintro s ⟨hc, hl, ⟨-, -, hw, hst⟩, -, -, hmem, -⟩
  have hw := hw (by rw [hst.2.1]; exact hk) (by rw [hst.2.2.1]; exact bsize_mod4 hk)
  rw [W_nil] at hw
  refine ⟨fun x => ?_, fun q => ?_⟩
  · unfold estQuantileAtValue estQuantileFrom
    obtain ⟨r, hr⟩ := rankFrom_returns x s.buffers 0 0 (by omega)
    rw [hr]
    trivial
  · have hmem' : ∀ v ∈ s.buffers.flatten, v ∈ insItems ops := by
      intro v hv
      obtain ⟨b, hb, hv⟩ := List.mem_flatten.1 hv
      exact hmem.1 b hb v hv
    have hsne : s.buffers.flatten ≠ [] := by
      intro h0
      have : ∀ b ∈ s.buffers, b.length = 0 := by
        intro b hb; rw [List.flatten_eq_nil_iff] at h0; rw [h0 b hb]; rfl
      have h00 : ∀ L : List (List (Fl K)), (∀ b ∈ L, b.length = 0) → wsum (L.map List.length) = 0 := by
        intro L
        induction L with
        | nil => simp [wsum]
        | cons b L ih => intro h; simp [wsum, h b (by simp), ih (fun b hb => h b (by simp [hb]))]
      rw [h00 _ this] at hw
      exact hne (List.length_eq_zero_iff.1 hw.symm)
    obtain ⟨v, hv⟩ := estValue_returns s.buffers s.count q hl (fun y hy => hnan y (hmem' y hy)) hsne
    unfold estValueAtQuantile
    have := estValue_mem s.buffers s.count q
    rw [hv] at this ⊢
    exact hmem' v this

/-! ### Rank error -/

theorem within_query {l : List (Fl K)} {s : RCSketch K} (h : Within l s []) (x : Fl K) (hx : x ≠ .nan) :
    Partially (s.interpolateRank x) (fun r => r ≤ rank l x + wsum s.compactions ∧ rank l x ≤ r + wsum s.compactions) := by
  refine (rankFrom_partially hx s.buffers 0 0).mono ?_
  rintro r rfl
  have := h x
  rw [W_nil] at this
  simpa [weightedRank] using this

/-- C09. The estimated rank of every `x` is within `Σ_h 2^h · (compactions performed at level h)` of the number of
supplied items `≤ x`: every history, every coin (default compaction, any data, any rounding). -/
theorem C09_rank_error_bound (n k : Nat) (ops : List (InsOp K)) (hm : ∀ o ∈ ops, o.method = .default) :
    Partially (runHist n k ops) (fun s => ∀ x, x ≠ .nan → Partially (s.interpolateRank x) (fun r =>
      r ≤ rank (insItems ops) x + wsum s.compactions ∧ rank (insItems ops) x ≤ r + wsum s.compactions)) :=
  (hist_partially errInv_default n k ops (fun o ho => hm o ho) (fun _ => within_fresh n k)).mono
    (fun s h x hx => within_query h.2.2.1 x hx)

/-- C09 with either compaction method: binary floating point, items whose double does not overflow. -/
theorem C09_rank_error_bound_any_method [FloatFmt.Binary K] (n k : Nat) (ops : List (InsOp K))
    (hfin : ∀ y ∈ insItems ops, y.CanDouble) :
    Partially (runHist n k ops) (fun s => ∀ x, x ≠ .nan → Partially (s.interpolateRank x) (fun r =>
      r ≤ rank (insItems ops) x + wsum s.compactions ∧ rank (insItems ops) x ≤ r + wsum s.compactions)) :=
  (hist_partially errInv_any n k ops (fun o ho => trivial) (fun _ => ⟨by simp [AllG, fresh], fun _ => within_fresh n k⟩)).mono
    (fun s h x hx => within_query (h.2.2.1.2 hfin) x hx)

/-- C09. Without fast compaction the number of compactions is the sketch's own `compaction_counters`. -/
theorem C09_counters (n k : Nat) (ops : List (InsOp K)) (hf : ∀ o ∈ ops, o.fast = false) :
    Partially (runHist n k ops) (fun s => s.compactions = s.counters) :=
  (hist_partially counterInv n k ops (fun o ho => hf o ho) (fun _ => rfl)).mono (fun s h => h.2.2.1)

/-- C10. With fair coins the expected estimated rank is the true rank, within the declared input length. -/
theorem C10_rank_unbiased (n k : Nat) (hk : 1 ≤ k) (hn : n < 2 ^ 32) (ops : List (InsOp K))
    (hm : ∀ o ∈ ops, o.method = .default) (hlen : (insItems ops).length ≤ n) (hnan : ∀ y ∈ insItems ops, y ≠ .nan)
    (x : Fl K) :
    exp (runHist n k ops) (fun s => (weightedRank s.buffers x : ℚ)) = rank (insItems ops) x := by
  have hal := (C07_insertions_never_panic n k hk hn ops hm hlen hnan).mono (R := fun _ => True) (fun _ _ => trivial)
  have key : ∀ σ : ℚ, σ * (exp (runHist n k ops) (fun s => (weightedRank s.buffers x : ℚ)) - rank (insItems ops) x) ≤ 0 := by
    intro σ
    have h := hist_exp (rank_super (k := k) hn x σ) (by omega) hn ops (fun o ho => hm o ho) hlen hnan
    have h0 : σ * ((W (fun b => rank b x) (fresh n k : RCSketch K) [] : ℚ) - rank ([] : List (Fl K)) x) = 0 := by
      simp [W, fresh, fsum, wsum, rank]
    rw [h0] at h
    have e : exp (runHist n k ops) (fun s => σ * ((W (fun b => rank b x) s [] : ℚ) - rank (insItems ops) x)) =
        σ * (exp (runHist n k ops) (fun s => (weightedRank s.buffers x : ℚ)) - rank (insItems ops) x) := by
      rw [exp_mul_left]
      have : (fun s : RCSketch K => (W (fun b => rank b x) s [] : ℚ) - rank (insItems ops) x) =
          (fun s => (weightedRank s.buffers x : ℚ) + (-(rank (insItems ops) x : ℚ))) := by
        funext s; rw [W_nil, sub_eq_add_neg]; rfl
      rw [this, exp_add, exp_const hal, sub_eq_add_neg]
    rw [← e]; exact h
  have h1 := key 1
  have h2 := key (-1)
  linarith

/-- C10 in terms of the API: `new`, insertions, then `interpolate_rank` (even `k`, so that the shift by the level number
cannot overflow). -/
theorem C10_interpolate_rank_unbiased (n k : Nat) (hk : 1 ≤ k) (hk2 : k % 2 = 0) (hn : n < 2 ^ 32) (ops : List (InsOp K))
    (hm : ∀ o ∈ ops, o.method = .default) (hlen : (insItems ops).length ≤ n) (hnan : ∀ y ∈ insItems ops, y ≠ .nan)
    (x : Fl K) (hx : x ≠ .nan) :
    exp (runHist n k ops >>= fun s => s.interpolateRank x) (fun r => (r : ℚ)) = rank (insItems ops) x := by
  rw [exp_bind, ← C10_rank_unbiased n k hk hn ops hm hlen hnan x]
  apply exp_congr
  refine (rc_levels n k hk2 ops (by omega)).mono (fun s hs => ?_)
  unfold interpolateRank
  rw [rankFrom_eq hx _ _ _ (by omega)]
  simp

/-- C11. Within the declared input length ranks up to `buffer_size / 2` are exact, whatever the coins. -/
theorem C11_low_ranks_exact (n k : Nat) (hk : 1 ≤ k) (hn : n < 2 ^ 32) (ops : List (InsOp K))
    (hm : ∀ o ∈ ops, o.method = .default) (hlen : (insItems ops).length ≤ n) (hnan : ∀ y ∈ insItems ops, y ≠ .nan) :
    Always (runHist n k ops) (fun s => ∀ x, x ≠ .nan → rank (insItems ops) x ≤ s.bufferSize / 2 →
      Partially (s.interpolateRank x) (fun r => r = rank (insItems ops) x)) := by
  have hG : ∀ (fast : Bool) (m : CompactionMethod), m = .default → GoodFor (K := K) (· ≠ .nan) m :=
    fun fast m h => h ▸ goodFor_default (fun _ h => h)
  have hi := histInv_range (K := K) (n := n) (k := k) (G := (· ≠ .nan)) (ok := fun _ m => m = .default)
    (J := fun l s P => LowEnd (bsize n k) l s P) hG
    (fun l fast m hm hl => lowEnd_closed (hG fast m hm)
      (fun u out hs _ ho x => by subst hm; exact isOut_rank_default hs ho x) l hl)
    (fun l c s _ _ hj => lowEnd_start l c s hj) (fun l s n hj => hj)
  have h1 := hist_partially hi n k ops (fun o ho => hm o ho) (fun h0 _ _ => ⟨InR.fresh h0, fun x _ => by
    simp [W, fresh, fsum, wsum, rank]⟩)
  refine ((C07_insertions_never_panic n k hk hn ops hm hlen hnan).and h1).mono ?_
  rintro s ⟨-, -, -, hj, hst⟩ x hx hr
  refine (rankFrom_partially hx s.buffers 0 0).mono ?_
  rintro r rfl
  have := ((hj hlen hnan).2 x (by rw [hst.2.2.1] at hr; exact hr)).1
  rw [W_nil] at this
  simpa [weightedRank] using this

/-- C12. Rank and quantile estimates are monotone in the queried value, on any sketch state whatever, for any monotone
rounding. -/
theorem C12_quantile_monotone [FloatFmt.Mono K] (s : RCSketch K) (hc : 1 ≤ s.count)
    (hf : ∃ c : K, FloatFmt.rnd (s.count : K) = .fin c) (x y : Fl K) (hy : y ≠ .nan) (hxy : x ≤ y) :
    Partially (s.interpolateRank x) (fun r => Partially (s.interpolateRank y) (fun r' => r ≤ r')) ∧
    Partially (s.estQuantileAtValue x) (fun r => Partially (s.estQuantileAtValue y) (fun r' => r ≤ r')) := by
  have hx : x ≠ .nan := by rintro rfl; exact hy (le_antisymm (Fl.le_nan _) hxy)
  constructor
  · refine (rankFrom_partially hx s.buffers 0 0).mono ?_
    rintro r rfl
    refine (rankFrom_partially hy s.buffers 0 0).mono ?_
    rintro r rfl
    simpa using weightedRank_mono s.buffers hxy
  · refine (estQuantile_partially hx s.buffers s.count).mono ?_
    rintro r rfl
    refine (estQuantile_partially hy s.buffers s.count).mono ?_
    rintro r rfl
    exact quantile_div_mono hc hf (weightedRank_mono s.buffers hxy)

/-- C13. With default compaction a value estimate is one of the supplied items: every history, coin, `q`, rounding. -/
theorem C13_value_is_input (n k : Nat) (ops : List (InsOp K)) (hm : ∀ o ∈ ops, o.method = .default) (q : Fl K) :
    Partially (runHist n k ops) (fun s => Partially (s.estValueAtQuantile q) (fun v => v ∈ insItems ops)) := by
  refine (hist_partially memInv n k ops (fun o ho => hm o ho) (fun _ => by simp [AllG, fresh])).mono ?_
  rintro s ⟨-, -, hmem, -⟩
  refine (estValue_mem s.buffers s.count q).mono ?_
  intro v hv
  obtain ⟨b, hb, hv⟩ := List.mem_flatten.1 hv
  exact hmem.1 b hb v hv

/-- C13. With either method (binary floating point, items whose double does not overflow) it lies between two supplied items.
The restriction is necessary: `C13_average_overflow`. -/
theorem C13_value_in_range [FloatFmt.Binary K] (n k : Nat) (ops : List (InsOp K)) (hfin : ∀ y ∈ insItems ops, y.CanDouble)
    (q : Fl K) :
    Partially (runHist n k ops) (fun s => Partially (s.estValueAtQuantile q) (fun v =>
      (∃ a ∈ insItems ops, a ≤ v) ∧ ∃ b ∈ insItems ops, v ≤ b)) := by
  refine (hist_partially betweenInv n k ops (fun o ho => trivial) (fun _ => by simp [AllG, fresh])).mono ?_
  rintro s ⟨-, -, hmem, -⟩
  refine (estValue_mem s.buffers s.count q).mono ?_
  intro v hv
  obtain ⟨b, hb, hv⟩ := List.mem_flatten.1 hv
  exact (hmem.1 b hb v hv hfin).2

/-- C14. Value estimates are monotone in `q` on every sketch state, for any monotone rounding (`q ≤ q'` may be
infinite). -/
theorem C14_value_monotone [FloatFmt.Mono K] (s : RCSketch K) (hc : 1 ≤ s.count)
    (hf : ∃ c : K, FloatFmt.rnd (s.count : K) = .fin c) (q q' : Fl K) (h : q ≤ q') :
    Partially (s.estValueAtQuantile q) (fun v => Partially (s.estValueAtQuantile q') (fun v' => v ≤ v')) :=
  estValue_mono s.buffers hc hf h

/-- C16. Within the declared input length `add_buffer(xs)` is the same program (same result for every sequence of coin
flips) as adding the items one at a time. -/
theorem C16_add_buffer_is_repeated_add (n k : Nat) (hk : 1 ≤ k) (hn : n < 2 ^ 32) (ops : List (InsOp K)) (xs : List (Fl K))
    (hm : ∀ o ∈ ops, o.method = .default) (hlen : (insItems ops).length + xs.length ≤ n)
    (hnan : ∀ y ∈ insItems ops, y ≠ .nan) (hxs : ∀ y ∈ xs, y ≠ .nan) :
    Always (runHist n k ops) (fun s => s.addBuffer xs = s.addEach xs) := by
  have h := runHist_always (G := (· ≠ .nan)) n k (by omega) hn ops
    (fun o ho => by rw [hm o ho]; exact goodFor_default (fun _ h => h)) (by omega) hnan
  refine (h.and ((rc_static n k ops).and (hist_partially climbInv n k ops (fun _ _ => trivial) (fun _ => climb_fresh _ rfl)))).mono ?_
  rintro s ⟨⟨hb, hj⟩, ⟨-, -, hs, -⟩, -, -, hc, -⟩
  exact addBuffer_eq_addEach (goodFor_default (fun _ h => h)) hn hb hj hs hc xs hlen hxs

/-- C17. On every non-empty NaN-free sketch with at most 31 levels, and integers up to the stored weight exactly
representable, the value query returns the least stored value whose weighted rank exceeds `q·count` (or the largest stored
value when there is none). -/
theorem C17_value_quantile_consistent (s : RCSketch K) (hL : s.buffers.length ≤ 31)
    (hnan : ∀ y ∈ s.buffers.flatten, y ≠ .nan) (hne : s.buffers.flatten ≠ [])
    (hex : ∀ m : Nat, m ≤ wsum (s.buffers.map List.length) → FloatFmt.rnd (m : K) = .fin (m : K)) (q : Fl K)
    (ht : q * Fl.ofNat s.count ≠ .nan) :
    Always (s.estValueAtQuantile q) (fun v => IsWeightedStat s.buffers (q * Fl.ofNat s.count) v) := by
  obtain ⟨v, h1, h2⟩ := estValue_correct s.buffers s.count q hL hnan hne hex ht
  unfold estValueAtQuantile
  rw [h1]; exact h2

/-- C17. The weighted rank in that statement is what `interpolate_rank` returns. -/
theorem C17_rank_is_interpolate_rank (s : RCSketch K) (hL : s.buffers.length ≤ 64) (x : Fl K) (hx : x ≠ .nan) :
    s.interpolateRank x = .ret (weightedRank s.buffers x) := by
  unfold interpolateRank
  rw [rankFrom_eq hx _ _ _ (by omega)]; simp

/-! ### A-priori accuracy -/

theorem wsum_le_levels (k N : Nat) : ∀ (l : List Nat) (M : Nat), (∀ h c, l[h]? = some c → 2 ^ h * (k * c) ≤ N) →
    (∀ h c, l[h]? = some c → c ≠ 0 → h < M) → k * wsum l ≤ N * M := by
  intro l
  induction l generalizing N with
  | nil => intro M _ _; simp [wsum]
  | cons a l ih =>
    intro M h1 h2
    have ha := h1 0 a rfl
    simp only [pow_zero, one_mul] at ha
    cases M with
    | zero =>
      have hz : ∀ (l : List Nat), (∀ c ∈ l, c = 0) → wsum l = 0 := by
        intro l
        induction l with
        | nil => simp [wsum]
        | cons b l ih => intro h; simp [wsum, h b (by simp), ih (fun c hc => h c (by simp [hc]))]
      rw [hz]; · simp
      intro c hc
      obtain ⟨i, hi⟩ := List.getElem?_of_mem hc
      by_contra h0
      exact absurd (h2 i c hi h0) (by omega)
    | succ M =>
      have h3 := ih (N / 2) M (fun h c hc => by
        have := h1 (h + 1) c hc
        rw [pow_succ] at this
        rw [Nat.le_div_iff_mul_le (by norm_num)]
        calc 2 ^ h * (k * c) * 2 = 2 ^ h * 2 * (k * c) := by ring
          _ ≤ N := this) (fun h c hc h0 => by have := h2 (h + 1) c hc h0; omega)
      rw [wsum]
      have h4 : 2 * (N / 2 * M) ≤ N * M := by
        rw [← Nat.mul_assoc]; exact Nat.mul_le_mul_right _ (by omega)
      calc k * (a + 2 * wsum l) = k * a + 2 * (k * wsum l) := by ring
        _ ≤ N + 2 * (N / 2 * M) := by omega
        _ ≤ N + N * M := by omega
        _ = N * (M + 1) := by ring

/-- C63. A bound on the rank error that depends only on the parameters and the number `N` of items: for even `k`,
`|estimate − true rank| ≤ N·(log2(N / buffer_size) + 1) / k`, for every history (default compaction), all coins. -/
theorem C63_a_priori_rank_error (n k : Nat) (hk : k % 2 = 0) (ops : List (InsOp K)) (hm : ∀ o ∈ ops, o.method = .default) :
    Partially (runHist n k ops) (fun s => ∀ x, x ≠ .nan → Partially (s.interpolateRank x) (fun r =>
      k * r ≤ k * rank (insItems ops) x + (insItems ops).length * (Nat.log 2 ((insItems ops).length / s.bufferSize) + 1) ∧
      k * rank (insItems ops) x ≤ k * r + (insItems ops).length * (Nat.log 2 ((insItems ops).length / s.bufferSize) + 1))) := by
  refine ((rc_flow n k hk ops).and (C09_rank_error_bound n k ops hm)).mono ?_
  rintro s ⟨⟨hb, hf, hk', hB, -, h4⟩, he⟩ x hx
  refine (he x hx).mono ?_
  rintro r ⟨h1, h2⟩
  obtain ⟨b1, -, b3⟩ := hf.bounds
  rw [hk'] at b1
  have hB0 : 0 < s.bufferSize := by omega
  have key := wsum_le_levels k _ s.compactions (Nat.log 2 ((insItems ops).length / s.bufferSize) + 1) b1 (fun h c hc h0 => by
    have h5 := b3 h c hc h0
    have h6 : 2 ^ h ≤ (insItems ops).length / s.bufferSize := (Nat.le_div_iff_mul_le hB0).2 h5
    have := Nat.le_log_of_pow_le (by norm_num) h6
    omega)
  constructor
  · calc k * r ≤ k * (rank (insItems ops) x + wsum s.compactions) := Nat.mul_le_mul_left _ h1
      _ = k * rank (insItems ops) x + k * wsum s.compactions := by ring
      _ ≤ _ := by omega
  · calc k * rank (insItems ops) x ≤ k * (r + wsum s.compactions) := Nat.mul_le_mul_left _ h2
      _ = k * r + k * wsum s.compactions := by ring
      _ ≤ _ := by omega

/-- C61, step 1: the mean squared rank error is at most the expected `Σ_h 4^h · (compactions at level h)`. -/
theorem C61_variance_by_compactions (n k : Nat) (hk : 1 ≤ k) (hn : n < 2 ^ 32) (ops : List (InsOp K))
    (hm : ∀ o ∈ ops, o.method = .default) (hlen : (insItems ops).length ≤ n) (hnan : ∀ y ∈ insItems ops, y ≠ .nan)
    (x : Fl K) :
    exp (runHist n k ops) (fun s => ((weightedRank s.buffers x : ℚ) - rank (insItems ops) x) ^ 2) ≤
      exp (runHist n k ops) (fun s => (wsum4 s.compactions : ℚ)) := by
  have h := hist_exp (var_super (k := k) hn x) (by omega) hn ops (fun o ho => hm o ho) hlen hnan
  have h0 : ((W (fun b => rank b x) (fresh n k : RCSketch K) [] : ℚ) - rank ([] : List (Fl K)) x) ^ 2 -
      wsum4 (fresh n k : RCSketch K).compactions = 0 := by
    simp [W, fresh, fsum, wsum, rank, wsum4]
  rw [h0] at h
  have e : (fun s : RCSketch K => ((W (fun b => rank b x) s [] : ℚ) - rank (insItems ops) x) ^ 2 - wsum4 s.compactions) =
      (fun s => ((weightedRank s.buffers x : ℚ) - rank (insItems ops) x) ^ 2 + (-1) * (wsum4 s.compactions : ℚ)) := by
    funext s; rw [W_nil, sub_eq_add_neg, neg_one_mul]; rfl
  rw [e, exp_add, exp_mul_left] at h
  linarith

/-- C61. Mean squared rank error: for even `k`, within the declared input length and `N` items seen,
`E[(estimate − true rank)²] ≤ 2 N² / (k · buffer_size)`. -/
theorem C61_mean_squared_error (n k : Nat) (hk : 1 ≤ k) (hk2 : k % 2 = 0) (hn : n < 2 ^ 32) (ops : List (InsOp K))
    (hm : ∀ o ∈ ops, o.method = .default) (hlen : (insItems ops).length ≤ n) (hnan : ∀ y ∈ insItems ops, y ≠ .nan)
    (x : Fl K) :
    exp (runHist n k ops) (fun s => ((weightedRank s.buffers x : ℚ) - rank (insItems ops) x) ^ 2) ≤
      2 * ((insItems ops).length : ℚ) ^ 2 / (k * (max (2 * k * Nat.clog 2 (n / k)) (2 * k) : Nat)) := by
  have hal := (C07_insertions_never_panic n k hk hn ops hm hlen hnan).mono (R := fun _ => True) (fun _ _ => trivial)
  refine (C61_variance_by_compactions n k hk hn ops hm hlen hnan x).trans ?_
  rw [← exp_const hal (2 * ((insItems ops).length : ℚ) ^ 2 / (k * (max (2 * k * Nat.clog 2 (n / k)) (2 * k) : Nat)))]
  apply exp_mono
  refine (rc_flow n k hk2 ops).mono ?_
  rintro s ⟨hb, hf, hk', hB, -, h4⟩
  change (wsum4 s.compactions : ℚ) ≤ 2 * ((insItems ops).length : ℚ) ^ 2 / (k * (bsize n k : Nat))
  obtain ⟨b1, -, b3⟩ := hf.bounds
  rw [hk'] at b1
  rw [hB] at b3
  have hBq : (0 : ℚ) < (bsize n k : Nat) := by exact_mod_cast (by omega : 0 < bsize n k)
  have hkq : (0 : ℚ) < k := by exact_mod_cast hk
  have hN : (0 : ℚ) ≤ (insItems ops).length := by positivity
  have key := wsum4_le (k : ℚ) hkq.le s.compactions (insItems ops).length (2 * (insItems ops).length / (bsize n k : Nat)) hN
    (by positivity)
    (fun h c hc => by exact_mod_cast b1 h c hc)
    (fun h c hc h0 => by
      rw [le_div_iff₀ hBq]
      have : (2 : ℚ) ^ h * (bsize n k : Nat) ≤ (insItems ops).length := by exact_mod_cast b3 h c hc h0
      rw [pow_succ]; nlinarith)
  rw [le_div_iff₀ (by positivity)]
  have e : ((insItems ops).length : ℚ) * (2 * (insItems ops).length / (bsize n k : Nat)) * (bsize n k : Nat) =
      2 * ((insItems ops).length : ℚ) ^ 2 := by field_simp
  calc (wsum4 s.compactions : ℚ) * (k * (bsize n k : Nat)) = k * wsum4 s.compactions * (bsize n k : Nat) := by ring
    _ ≤ (insItems ops).length * (2 * (insItems ops).length / (bsize n k : Nat)) * (bsize n k : Nat) :=
        mul_le_mul_of_nonneg_right key hBq.le
    _ = _ := e

/-- C62. Tail probability: the chance that the rank estimate of `x` is off by at least `t` is at most
`2 N² / (k · buffer_size · t²)` (even `k`, within the declared input length). -/
theorem C62_rank_error_tail (n k : Nat) (hk : 1 ≤ k) (hk2 : k % 2 = 0) (hn : n < 2 ^ 32) (ops : List (InsOp K))
    (hm : ∀ o ∈ ops, o.method = .default) (hlen : (insItems ops).length ≤ n) (hnan : ∀ y ∈ insItems ops, y ≠ .nan)
    (x : Fl K) (t : ℚ) (ht : 0 < t) :
    exp (runHist n k ops) (fun s => if t ≤ |(weightedRank s.buffers x : ℚ) - rank (insItems ops) x| then 1 else 0) ≤
      2 * ((insItems ops).length : ℚ) ^ 2 / (k * (max (2 * k * Nat.clog 2 (n / k)) (2 * k) : Nat)) / t ^ 2 := by
  rw [le_div_iff₀ (by positivity), mul_comm, ← exp_mul_left]
  refine le_trans (exp_mono ?_) (C61_mean_squared_error n k hk hk2 hn ops hm hlen hnan x)
  refine (partially_true _).mono (fun s _ => ?_)
  split
  · rename_i h
    rw [← sq_abs ((weightedRank s.buffers x : ℚ) - _), mul_one]
    exact pow_le_pow_left₀ ht.le h 2
  · rw [mul_zero]; positivity

/-! ### C60: NaN -/

/-- C60. Compacting a level that holds a NaN and another value panics. -/
theorem C60_compact_nan_panics (s : RCSketch K) (h ci : Nat) (m : CompactionMethod) (buf : List (Fl K))
    (hb : s.buffers[h]? = some buf) (h2 : 2 ≤ buf.length) (hn : .nan ∈ buf) : Panics (s.compact h ci m) := by
  have e : s.compact h ci m = .fail .unwrap := by
    unfold compact
    simp only [idx, hb]
    rw [bind_ret, show sortFl buf = .fail .unwrap from sortByKey_nan id buf h2 ⟨_, hn, rfl⟩]
    rfl
  rw [e]; simp [Panics]

theorem estValue_nan (L : List (List (Fl K))) (n : Nat) (q : Fl K) (h2 : 2 ≤ L.flatten.length) (hn : .nan ∈ L.flatten) :
    Panics (estValueFrom L n q) := by
  have key : ∀ (L : List (List (Fl K))) (i : Nat), (∃ e, e ≠ Err.fuel ∧ weightedFrom i L = .fail e) ∨
      ∃ cs : List (Centroid K), weightedFrom i L = .ret cs ∧ cs.map Centroid.mean = L.flatten := by
    intro L
    induction L with
    | nil => intro i; right; exact ⟨[], rfl, rfl⟩
    | cons b L ih =>
      intro i
      rw [weightedFrom]
      have h1 : (∃ e, e ≠ Err.fuel ∧ levelCentroids i b = .fail e) ∨
          ∃ cs : List (Centroid K), levelCentroids i b = .ret cs ∧ cs.map Centroid.mean = b := by
        unfold levelCentroids levelWeight
        split
        · right; exact ⟨[], rfl, by simp [*]⟩
        · split
          · right; exact ⟨_, rfl, by simp [Function.comp_def]⟩
          · split
            · right; exact ⟨_, rfl, by simp [Function.comp_def]⟩
            · left; exact ⟨.overflow, by decide, rfl⟩
      rcases h1 with ⟨e, he, h⟩ | ⟨cs, h, h'⟩
      · left; exact ⟨e, he, by rw [h]; rfl⟩
      · rcases ih (i + 1) with ⟨e, he, h2⟩ | ⟨cs2, h2, h2'⟩
        · left; exact ⟨e, he, by rw [h, bind_ret, h2]; rfl⟩
        · right; exact ⟨cs ++ cs2, by rw [h, bind_ret, h2]; rfl, by simp [h', h2']⟩
  unfold estValueFrom sortedWeightedValues
  rcases key L 0 with ⟨e, he, h⟩ | ⟨cs, h, h'⟩
  · rw [h]; exact he
  · rw [h, bind_ret, sortByKey_nan]
    · simp [Panics]
    · rw [← h', List.length_map] at h2; exact h2
    · rw [← h', List.mem_map] at hn; exact hn

/-- C60. A value query on a sketch holding a NaN and another value panics. -/
theorem C60_rc_value_nan_panics (s : RCSketch K) (q : Fl K) (h2 : 2 ≤ s.buffers.flatten.length) (hn : .nan ∈ s.buffers.flatten) :
    Panics (s.estValueAtQuantile q) := estValue_nan s.buffers s.count q h2 hn

/-! Concrete cases, and the failure of weight conservation for odd `k`. -/
section examples
attribute [local instance] ratExact
attribute [local instance] ratExact_exact

/-- Items `0, 1, …, n-1`. -/
def upTo (n : Nat) : List (Fl ℚ) := (List.range n).map (fun i => .fin (i : ℚ))

/-- C08 fails for odd `k`: `new(4, 1)` fed 4 items has stored weight 5 (or 3), and reports quantile 5/4 at the maximum. -/
theorem C08_odd_k_weight_not_conserved :
    (∃ s, CanReturn (runHist 4 1 [.addBuffer (upTo 4)]) s ∧ wsum (s.buffers.map List.length) = 5 ∧
      Always (s.estQuantileAtValue (.fin 3)) (fun r => r = .fin (5 / 4))) ∧
    (∃ s, CanReturn (runHist 4 1 [.addBuffer (upTo 4)]) s ∧ wsum (s.buffers.map List.length) = 3 ∧
      Always (s.estQuantileAtValue (.fin 3)) (fun r => r = .fin (3 / 4))) := by
  refine ⟨⟨⟨[[.fin 0, .fin 1, .fin 2], [.fin 3]], 4, 1, 4, 4, [1, 0], [1, 0], [(0, [.fin 3])]⟩, ?_, ?_, ?_⟩,
    ⟨⟨[[.fin 0, .fin 1, .fin 2], []], 4, 1, 4, 4, [1, 0], [1, 0], [(0, [.fin 3])]⟩, ?_, ?_, ?_⟩⟩ <;> decide +kernel

/-- A mixed history of 16 items for `new(16, 2)`: buffer size 12. -/
def rcHist : List (InsOp ℚ) :=
  [.add (.fin 20), .addBuffer (upTo 6), .addBufferFast (upTo 7), .addBufferCustom (upTo 2) false .averageNeighbour]
def rcHistD : List (InsOp ℚ) := [.add (.fin 20), .addBuffer (upTo 6), .addBufferFast (upTo 7), .add (.fin 1)]

example : (insItems rcHist).length = 16 := by decide +kernel
example : ∀ y ∈ insItems rcHist, y.CanDouble := by
  intro y hy
  have : ∀ y ∈ insItems rcHist, ∃ i ∈ List.range 21, y = .fin (i : ℚ) := by decide +kernel
  obtain ⟨i, -, h⟩ := this y hy
  exact Fl.canDouble_exact.2 ⟨_, h⟩
/-- The history does compact, and its outcome depends on a coin: two different reachable sketches. -/
example : Always (runHist 16 2 rcHist) (fun s => s.count = 16 ∧ s.compactions = [1, 0] ∧ s.buffers.length = 2 ∧
    wsum (s.buffers.map List.length) = 16) := by decide +kernel
example : (runHist 16 2 rcHistD).run [false] ≠ (runHist 16 2 rcHistD).run [true] := by decide +kernel
example : rank (insItems rcHistD) (.fin 1) = 5 := by decide +kernel
/-- The bounds of C61 for this history: with 15 items, mean squared error at most 2·15²/(2·12) = 18.75. -/
example : exp (runHist 16 2 rcHistD) (fun s => ((weightedRank s.buffers (.fin 5) : ℚ) - rank (insItems rcHistD) (.fin 5)) ^ 2) = 1 := by
  decide +kernel
/-- C60: a sketch holding a NaN and another value. -/
example : (.nan : Fl ℚ) ∈ (RCSketch.mk [[.nan, .fin (1:ℚ)]] 4 1 4 2 [0] [0] []).buffers.flatten := by decide +kernel
/-- C17: value query on a two-level sketch. -/
example : ((RCSketch.mk [[.fin 0, .fin 1, .fin 5], [.fin (3:ℚ)]] 4 1 4 5 [1, 0] [1, 0] []).estValueAtQuantile (.fin (1/2))).run [] =
    .ok (.fin 3) := by decide +kernel
end examples

section rounding
attribute [local instance] f64Fmt f64_binary

/-- Non-vacuity of the `AverageNeighbour` theorems in `f64` arithmetic: items whose averages are rounded (the average of 0.1 and the
next number of the format is 0.1). -/
example : (∀ y ∈ ([Fl.lit (1/10), Fl.lit (1/10 + 1/2^56), .fin 400, .fin (3/4)] : List (Fl ℚ)), y.CanDouble) ∧
    (Fl.lit (1/10 + 1/2^56) : Fl ℚ) ≠ Fl.lit (1/10) ∧
    ((Fl.lit (1/10) : Fl ℚ) + Fl.lit (1/10 + 1/2^56)) / Fl.ofNat 2 = Fl.lit (1/10) := by
  refine ⟨?_, by decide +kernel, by decide +kernel⟩
  intro y hy
  simp only [List.mem_cons, List.not_mem_nil, or_false] at hy
  have e1 : (Fl.lit (1/10) : Fl ℚ) = .fin (Ieee.double.round (1/10)) := by decide +kernel
  have e2 : (Fl.lit (1/10 + 1/2^56) : Fl ℚ) = .fin (Ieee.double.round (1/10 + 1/2^56)) := by decide +kernel
  rw [e1, e2] at hy
  rcases hy with rfl | rfl | rfl | rfl <;> exact ⟨_, rfl, by decide +kernel, by decide +kernel⟩

/-- C13 for `AverageNeighbour` needs items whose double is a number of the format: in `f64` arithmetic the largest finite number,
inserted eight times, is averaged to infinity, which a value query then returns. -/
theorem C13_average_overflow :
    Always (runHist 8 2 [.addBufferCustom (List.replicate 8 (Fl.maxValue : Fl ℚ)) false .averageNeighbour]) (fun s =>
      Always (s.estValueAtQuantile (.fin 1)) (fun v => v = .pinf)) := by decide +kernel
end rounding
end AQ

/-
Property C122: how many items an RCSketch takes, whatever its declared input length.
-/
import Verif.Proofs.RCCapacity
import Verif.Props.RCSketch

set_option linter.unusedSectionVars false
set_option linter.unusedVariables false

namespace AQ
open Prog Spec
variable {K : Type} [Field K] [LinearOrder K] [IsStrictOrderedRing K] [FloatFmt K]

namespace Spec

/-- `max 1 ⌈log2 (n/k)⌉`: the buffer size is `2k` times this. -/
def rcLogLen (n k : Nat) : Nat := max 1 (Nat.clog 2 (n / k))

/-- The number of items whose insertion makes a sketch for declared length `n` fail. -/
def rcCapacity (n k : Nat) : Nat :=
  let L := rcLogLen n k
  if L ≤ 16 then 2 * k * (4 ^ L - 1) else k * (2 ^ 33 - 34 + 2 * L)

end Spec

namespace RCSketch

theorem rcCapacity_eq (n k : Nat) : rcCapacity n k = capacityB k (rcLogLen n k) := by
  unfold rcCapacity capacityB
  simp only
  generalize rcLogLen n k = L
  split
  · rename_i h
    rw [Nat.min_eq_left (by omega)]
    have e : 2 ^ (2 * L) = 4 ^ L := by rw [pow_mul]; norm_num
    rw [e]
    have hp : L < 4 ^ L := Nat.lt_pow_self (by norm_num)
    have h1 : 2 * L ≤ 2 * (4 ^ L - 1) := by omega
    obtain ⟨d, hd⟩ := Nat.exists_eq_add_of_le h1
    rw [hd, Nat.add_sub_cancel_left]
    have : 2 * k * (4 ^ L - 1) = k * (2 * (4 ^ L - 1)) := by ring
    rw [this, hd]; ring
  · rename_i h
    rw [Nat.min_eq_right (by omega)]
    have : 2 * (2 ^ 32 - 1) - 32 = 2 ^ 33 - 34 := by norm_num
    rw [this]; ring

theorem bsize_eq (n k : Nat) : bsize n k = 2 * k * rcLogLen n k := by
  unfold bsize rcLogLen
  rcases Nat.eq_zero_or_pos (Nat.clog 2 (n / k)) with h | h
  · rw [h]; simp
  · rw [Nat.max_eq_left (by nlinarith), Nat.max_eq_right h]

theorem runHist_eq_freshB {n k : Nat} (hk : k ≠ 0) (ops : List (InsOp K)) :
    runHist n k ops = (freshB n k (2 * k * rcLogLen n k)).execOps ops := by
  unfold runHist
  rw [new_eq hk, bind_ret, ← bsize_eq]; rfl

theorem rcLogLen_ne (n k : Nat) : rcLogLen n k ≠ 0 := by
  have : 1 ≤ rcLogLen n k := le_max_left _ _
  omega

/-- C122. Fewer items than the capacity never make an insertion panic, also beyond the declared length; any mixture of `add`,
`add_buffer` and `add_buffer_fast`. -/
theorem C122_safe (n k : Nat) (hk : 1 ≤ k) (ops : List (InsOp K)) (hm : ∀ o ∈ ops, o.method = .default)
    (hlen : (insItems ops).length < rcCapacity n k) (hnan : ∀ y ∈ insItems ops, y ≠ .nan) :
    Always (runHist n k ops) (fun s => Digest.count s = .ret (insItems ops).length) := by
  have h := freshB_always (K := K) (n := n) (k := k) (G := (· ≠ .nan)) (by omega) (rcLogLen_ne n k) ops
    (fun o ho => by rw [hm o ho]; exact goodFor_default (fun _ h => h)) (by rwa [← rcCapacity_eq]) hnan
  rw [← runHist_eq_freshB (by omega)] at h
  exact (h.and (C05_count_exact n k ops)).mono (fun s h => h.2)

/-- C122 with `AverageNeighbour` allowed: binary floating point, items whose double does not overflow. -/
theorem C122_safe_average [FloatFmt.Binary K] (n k : Nat) (hk : 1 ≤ k) (ops : List (InsOp K))
    (hlen : (insItems ops).length < rcCapacity n k) (hfin : ∀ y ∈ insItems ops, y.CanDouble) :
    Always (runHist n k ops) (fun s => Digest.count s = .ret (insItems ops).length) := by
  have h := freshB_always (K := K) (n := n) (k := k) (G := Fl.CanDouble) (by omega) (rcLogLen_ne n k) ops
    (fun o ho => goodFor_fin _) (by rwa [← rcCapacity_eq]) hfin
  rw [← runHist_eq_freshB (by omega)] at h
  exact (h.and (C05_count_exact n k ops)).mono (fun s h => h.2)

/-- C122. As many items as the capacity, without fast compaction: whatever the items, the way they are split into calls, the method, the
coins and tie orders, the calls do not all return. -/
theorem C122_panics (n k : Nat) (hk : 1 ≤ k) (ops : List (InsOp K)) (hf : ∀ o ∈ ops, o.fast = false)
    (hlen : rcCapacity n k ≤ (insItems ops).length) : Partially (runHist n k ops) (fun _ => False) := by
  rw [runHist_eq_freshB (by omega)]
  exact freshB_panics (by omega) (rcLogLen_ne n k) ops hf (by rwa [← rcCapacity_eq])

/-- C122. The failure is an arithmetic overflow, in the very `add` that brings the number of items to the capacity. -/
theorem C122_overflow (n k : Nat) (hk : 1 ≤ k) (ops : List (InsOp K)) (hf : ∀ o ∈ ops, o.fast = false)
    (hm : ∀ o ∈ ops, o.method = .default) (hnan : ∀ y ∈ insItems ops, y ≠ .nan)
    (hlen : (insItems ops).length + 1 = rcCapacity n k) :
    Always (runHist n k ops) (fun s => ∀ x, s.add x = .fail .overflow) := by
  have h1 := C122_safe n k hk ops hm (by omega) hnan
  have h2 := freshB_last (K := K) (n := n) (k := k) (by omega) (rcLogLen_ne n k) ops hf (by rwa [← rcCapacity_eq])
  rw [← runHist_eq_freshB (by omega)] at h2
  exact (h1.and h2).mono (fun s h => h.2)

/-- C122. The declared length is within the capacity (below about `2^33·k`), and the capacity grows with its square:
`2 n² / k`, up to rounding. This extends C07 to `n ≥ 2^32`. -/
theorem C122_declared (n k : Nat) (hk : 1 ≤ k) (hn : n < k * (2 ^ 33 - 34)) : n < rcCapacity n k := by
  unfold rcCapacity
  simp only
  split
  · have h1 : n < k * (n / k + 1) := by
      have := Nat.lt_div_mul_add (a := n) (show 0 < k by omega)
      rw [Nat.mul_add, Nat.mul_one, Nat.mul_comm]; exact this
    refine lt_of_lt_of_le h1 ?_
    have e : 2 * k * (4 ^ rcLogLen n k - 1) = k * (2 * (4 ^ rcLogLen n k - 1)) := by ring
    rw [e]
    apply Nat.mul_le_mul_left
    have h2 : n / k ≤ 2 ^ rcLogLen n k :=
      (Nat.le_pow_clog (by norm_num) _).trans (Nat.pow_le_pow_right (by norm_num) (le_max_right _ _))
    have h3 : 1 ≤ rcLogLen n k := le_max_left _ _
    have h4 : 2 ^ 1 ≤ 2 ^ rcLogLen n k := Nat.pow_le_pow_right (by norm_num) h3
    have h5 : 4 ^ rcLogLen n k = 2 ^ rcLogLen n k * 2 ^ rcLogLen n k := by rw [← mul_pow]; norm_num
    rw [h5]
    generalize 2 ^ rcLogLen n k = p at *
    have : 2 * p ≤ p * p := Nat.mul_le_mul_right _ (by omega)
    omega
  · refine lt_of_lt_of_le hn (Nat.mul_le_mul_left _ (by omega))

theorem C122_square (n k : Nat) (h16 : n / k ≤ 2 ^ 16) : 2 * k * ((n / k) ^ 2 - 1) ≤ rcCapacity n k := by
  have hL : rcLogLen n k ≤ 16 := by
    apply max_le (by norm_num)
    rw [Nat.clog_le_iff_le_pow (by norm_num)]; exact h16
  unfold rcCapacity
  simp only
  rw [if_pos hL]
  apply Nat.mul_le_mul_left
  have h2 : n / k ≤ 2 ^ rcLogLen n k :=
    (Nat.le_pow_clog (by norm_num) _).trans (Nat.pow_le_pow_right (by norm_num) (le_max_right _ _))
  have h5 : 4 ^ rcLogLen n k = (2 ^ rcLogLen n k) ^ 2 := by rw [← pow_mul, Nat.mul_comm, pow_mul]; norm_num
  rw [h5]
  have := Nat.pow_le_pow_left h2 2
  omega

/-- The bound on the capacity used for buffers one section pair short (C121). -/
theorem lt_capacityB {n k L : Nat} (hk : 0 < k) (hL : L ≠ 0) (hn : n < 2 ^ 32) (h : n / k ≤ 2 * 2 ^ L) : n < capacityB k L := by
  have h1 : n < k * (n / k + 1) := by
    have := Nat.lt_div_mul_add (a := n) hk
    rw [Nat.mul_add, Nat.mul_one, Nat.mul_comm]; exact this
  unfold capacityB
  rcases Nat.lt_or_ge (2 * L) 32 with hl | hl
  · rw [Nat.min_eq_left hl.le]
    have h3 : 2 ^ (2 * L) = 2 ^ L * 2 ^ L := by rw [← pow_add]; congr 1; omega
    have h4 : 2 ^ 1 ≤ 2 ^ L := Nat.pow_le_pow_right (by norm_num) (by omega)
    have h6 : 2 * L ≤ 2 * (2 ^ (2 * L) - 1) := by
      have : L < 2 ^ L := Nat.lt_two_pow_self
      have : 2 * 2 ^ L ≤ 2 ^ L * 2 ^ L := Nat.mul_le_mul_right _ (by omega)
      omega
    have h5 : k * (2 * (2 ^ (2 * L) - 1) - 2 * L) + 2 * k * L = k * (2 * (2 ^ (2 * L) - 1)) := by
      have : 2 * k * L = k * (2 * L) := by ring
      rw [this, ← Nat.mul_add, Nat.sub_add_cancel h6]
    rw [h5]
    refine lt_of_lt_of_le h1 (Nat.mul_le_mul_left _ ?_)
    rw [h3]
    generalize 2 ^ L = p at *
    have : 2 * p ≤ p * p := Nat.mul_le_mul_right _ (by omega)
    omega
  · rw [Nat.min_eq_right hl]
    have : 1 * (2 * (2 ^ 32 - 1) - 32) ≤ k * (2 * (2 ^ 32 - 1) - 32) := Nat.mul_le_mul_right _ hk
    omega

/-! ### Examples -/

attribute [local instance] ratExact ratExact_exact

/-- Declared for 1000 items with `k = 10`: 327660 items fit. -/
example : rcCapacity 1000 10 = 327660 ∧ rcCapacity 1 1 = 6 ∧ rcCapacity (2 ^ 40) 2 = 2 * (2 ^ 33 - 34 + 2 * 39) := by
  decide +kernel

/-- Declared for one item: five `add` calls return, six do not. -/
example : CanReturn (runHist (K := ℚ) 1 1 [.add (.fin 1), .add (.fin 2), .add (.fin 3), .add (.fin 4), .add (.fin 5)] >>= Digest.count) 5 := by
  decide +kernel

example : Partially (runHist (K := ℚ) 1 1 [.add (.fin 1), .add (.fin 2), .add (.fin 3), .add (.fin 4), .add (.fin 5), .add (.fin 6)])
    (fun _ => False) :=
  C122_panics 1 1 (by norm_num) _ (by simp [InsOp.fast]) (by decide +kernel)

/-- `C122_overflow` for those five. -/
example : Always (runHist (K := ℚ) 1 1 [.addBuffer [.fin 1, .fin 2, .fin 3], .add (.fin 4), .add (.fin 5)])
    (fun s => ∀ x, s.add x = .fail .overflow) :=
  C122_overflow 1 1 (by norm_num) _ (by simp [InsOp.fast]) (by simp [InsOp.method]) (by simp [insItems, InsOp.items])
    (by decide +kernel)

/-- Fast insertions do not count towards the counter: six fit when they come by `add_buffer_fast`. -/
example : CanReturn (runHist (K := ℚ) 1 1 [.addBufferFast [.fin 1, .fin 2, .fin 3, .fin 4, .fin 5, .fin 6]] >>= Digest.count) 6 := by
  decide +kernel

end RCSketch
end AQ

/-
RCSketch with a buffer size other than the exact one: the declared input length is only a field.
-/
import Verif.Proofs.RCRange
import Verif.Proofs.TDRoundQuery
import Verif.Model.RCBuffer

set_option linter.unusedSectionVars false
set_option linter.unusedVariables false

namespace AQ
open Prog Spec
variable {K : Type} [Field K] [LinearOrder K] [IsStrictOrderedRing K] [FloatFmt K]

namespace RCSketch

/-! ### No modelled function reads `input_length` -/

/-- The same sketch with another declared length. -/
def withLen (n : Nat) (s : RCSketch K) : RCSketch K := { s with inputLength := n }

theorem withLen_withLen (n m : Nat) (s : RCSketch K) : (s.withLen n).withLen m = s.withLen m := rfl

theorem getCompactIndex_withLen (n : Nat) (s : RCSketch K) (h : Nat) :
    (s.withLen n).getCompactIndex h = (s.getCompactIndex h >>= fun r => .ret (r.1, r.2.withLen n)) := by
  unfold getCompactIndex
  rw [bind_assoc']
  show (idx s.buffers h >>= _) = (idx s.buffers h >>= _)
  congr 1; funext buf
  rw [bind_assoc']
  show (idx s.counters h >>= _) = (idx s.counters h >>= _)
  congr 1; funext c
  rw [bind_assoc']
  show (usub buf.length ((trailingOnes c + 1) * s.k) >>= _) = (usub buf.length ((trailingOnes c + 1) * s.k) >>= _)
  congr 1; funext ci
  split <;> rfl

theorem compact_withLen (n : Nat) (s : RCSketch K) (h ci : Nat) (m : CompactionMethod) :
    (s.withLen n).compact h ci m = (s.compact h ci m >>= fun r => .ret (r.1, r.2.withLen n)) := by
  unfold compact
  rw [bind_assoc']
  show (idx s.buffers h >>= _) = (idx s.buffers h >>= _)
  congr 1; funext buf
  rw [bind_assoc']
  congr 1; funext srt
  split
  · rw [bind_assoc']; rfl
  · rfl

theorem compactAt_withLen (n : Nat) (s : RCSketch K) (h : Nat) (fast : Bool) (m : CompactionMethod) :
    (s.withLen n).compactAt h fast m = (s.compactAt h fast m >>= fun r => .ret (r.1, r.2.withLen n)) := by
  unfold compactAt
  cases fast
  · simp only [Bool.false_eq_true, if_false]
    rw [getCompactIndex_withLen, bind_assoc', bind_assoc']
    congr 1; funext r
    rw [bind_ret, compact_withLen]
  · simp only [if_true, bind_ret]
    exact compact_withLen n s h _ m

theorem ensureLevel_withLen (n : Nat) (s : RCSketch K) (h : Nat) : (s.withLen n).ensureLevel h = (s.ensureLevel h).withLen n := by
  unfold ensureLevel
  show (if s.buffers.length ≤ h then _ else _) = _
  split <;> rfl

theorem cascade_withLen (fast : Bool) (m : CompactionMethod) (n : Nat) : ∀ f : Nat,
    (∀ (items : List (Fl K)) (h : Nat) (s : RCSketch K), batch fast m f items h (s.withLen n) = (batch fast m f items h s >>= fun s' => .ret (s'.withLen n))) ∧
    (∀ (items : List (Fl K)) (h : Nat) (s : RCSketch K), fill fast m f items h (s.withLen n) = (fill fast m f items h s >>= fun s' => .ret (s'.withLen n))) ∧
    (∀ (h : Nat) (s : RCSketch K), drain fast m f h (s.withLen n) = (drain fast m f h s >>= fun s' => .ret (s'.withLen n)))
  | 0 => ⟨fun _ _ _ => by simp [batch], fun _ _ _ => by simp [fill], fun _ _ => by simp [drain]⟩
  | f + 1 => by
    obtain ⟨ih1, ih2, ih3⟩ := cascade_withLen fast m n f
    refine ⟨fun items h s => ?_, fun items h s => ?_, fun h s => ?_⟩
    · rw [batch, batch, ensureLevel_withLen, ih2]
    · rw [fill, fill]
      split
      · rfl
      · rw [bind_assoc']
        show (idx s.buffers h >>= _) = (idx s.buffers h >>= _)
        congr 1; funext buf
        rw [bind_assoc']
        show (usub s.bufferSize buf.length >>= _) = (usub s.bufferSize buf.length >>= _)
        congr 1; funext room
        have e : (s.withLen n).setBuf h (buf ++ items.take room) = (s.setBuf h (buf ++ items.take room)).withLen n := rfl
        rw [e, ih3, bind_assoc', bind_assoc']
        congr 1; funext s'
        rw [bind_ret, ih2]
    · rw [drain, drain, bind_assoc']
      show (idx s.buffers h >>= _) = (idx s.buffers h >>= _)
      congr 1; funext buf
      show (if s.bufferSize ≤ buf.length then _ else _) = _
      split
      · rw [compactAt_withLen, bind_assoc', bind_assoc']
        congr 1; funext r
        rw [bind_ret, ih1, bind_assoc', bind_assoc']
        congr 1; funext s'
        rw [bind_ret, ih3]
      · rfl

theorem insertAt_withLen (n f : Nat) (item : Fl K) (h : Nat) (fast : Bool) (m : CompactionMethod) (s : RCSketch K) :
    insertAt f item h fast m (s.withLen n) = (insertAt f item h fast m s >>= fun s' => .ret (s'.withLen n)) := by
  unfold insertAt
  simp only []
  rw [ensureLevel_withLen, bind_assoc']
  show (idx (s.ensureLevel h).buffers h >>= _) = (idx (s.ensureLevel h).buffers h >>= _)
  congr 1; funext buf
  have e : ((s.ensureLevel h).withLen n).setBuf h (buf ++ [item]) = ((s.ensureLevel h).setBuf h (buf ++ [item])).withLen n := rfl
  rw [e]
  show (if ((s.ensureLevel h).setBuf h (buf ++ [item])).bufferSize ≤ (buf ++ [item]).length then _ else _) = _
  split
  · rw [compactAt_withLen, bind_assoc', bind_assoc']
    congr 1; funext r
    rw [bind_ret, (cascade_withLen fast m n f).1]
  · rfl

theorem batches_withLen (fast : Bool) (m : CompactionMethod) (n : Nat) : ∀ (cs : List (List (Fl K))) (s : RCSketch K),
    batches fast m cs (s.withLen n) = (batches fast m cs s >>= fun s' => .ret (s'.withLen n))
  | [], s => rfl
  | c :: cs, s => by
    rw [batches, batches, bind_assoc']
    show (batch fast m (s.fuelFor c.length) c 0 (s.withLen n) >>= _) = _
    rw [(cascade_withLen fast m n _).1, bind_assoc']
    congr 1; funext s'
    rw [bind_ret, batches_withLen]

theorem addBufferCustom_withLen (n : Nat) (s : RCSketch K) (xs : List (Fl K)) (fast : Bool) (m : CompactionMethod) :
    (s.withLen n).addBufferCustom xs fast m = (s.addBufferCustom xs fast m >>= fun s' => .ret (s'.withLen n)) := by
  unfold addBufferCustom
  rw [bind_assoc']
  show (chunks (s.bufferSize / 2) xs >>= _) = (chunks (s.bufferSize / 2) xs >>= _)
  congr 1; funext cs
  rw [batches_withLen, bind_assoc', bind_assoc']
  rfl

theorem execOp_withLen (n : Nat) (s : RCSketch K) (o : InsOp K) :
    (s.withLen n).execOp o = (s.execOp o >>= fun s' => .ret (s'.withLen n)) := by
  cases o with
  | add x =>
    show (s.withLen n).add x = (s.add x >>= _)
    unfold add
    show (insertAt (s.fuelFor 1) x 0 false .default (s.withLen n) >>= _) = _
    rw [insertAt_withLen, bind_assoc', bind_assoc']
    rfl
  | addBuffer xs => exact addBufferCustom_withLen n s xs false .default
  | addBufferFast xs => exact addBufferCustom_withLen n s xs true .default
  | addBufferCustom xs fast m => exact addBufferCustom_withLen n s xs fast m

theorem execOps_withLen (n : Nat) : ∀ (ops : List (InsOp K)) (s : RCSketch K),
    (s.withLen n).execOps ops = (s.execOps ops >>= fun s' => .ret (s'.withLen n))
  | [], s => rfl
  | o :: os, s => by
    rw [execOps, execOps, execOp_withLen, bind_assoc', bind_assoc']
    congr 1; funext s'
    rw [bind_ret, execOps_withLen]

end RCSketch
end AQ

/-
Model of `src/multi_digest.rs` (complete). The members `Box<dyn Digest<F>>` are modelled by one type `D` with a `Digest`
instance; members of two different types are covered by the sum type, for which an instance is given.
-/
import Verif.Model.Traits

set_option linter.unusedSectionVars false

namespace AQ
open Prog

/-- Dynamic dispatch between two implementations (`Box<dyn Digest<F>>`, multi_digest.rs:8). -/
instance {D E F : Type} [Digest D F] [Digest E F] : Digest (D ⊕ E) F where
  add
    | .inl d, x => do let d' ← Digest.add d x; return .inl d'
    | .inr d, x => do let d' ← Digest.add d x; return .inr d'
  addBuffer
    | .inl d, xs => do let d' ← Digest.addBuffer d xs; return .inl d'
    | .inr d, xs => do let d' ← Digest.addBuffer d xs; return .inr d'
  estQuantileAtValue
    | .inl d, v => do let r ← Digest.estQuantileAtValue d v; return (r.1, .inl r.2)
    | .inr d, v => do let r ← Digest.estQuantileAtValue d v; return (r.1, .inr r.2)
  estValueAtQuantile
    | .inl d, v => do let r ← Digest.estValueAtQuantile d v; return (r.1, .inl r.2)
    | .inr d, v => do let r ← Digest.estValueAtQuantile d v; return (r.1, .inr r.2)
  count
    | .inl d => Digest.count d
    | .inr d => Digest.count d

/-- `for digest in &mut self.digests { f(digest) }` (multi_digest.rs:31-33, 37-39). -/
def forEach {D : Type} (f : D → Prog D) : List D → Prog (List D)
  | [] => .ret []
  | d :: ds => do
    let d' ← f d
    let ds' ← forEach f ds
    return d' :: ds'

/-- `iter().map(|d| d.count()).sum()` (multi_digest.rs:59, parallel_digest.rs:83). -/
def sumCounts {D F : Type} [Digest D F] : List D → Prog Nat
  | [] => .ret 0
  | d :: ds => do
    let n ← Digest.count d
    let m ← sumCounts ds
    return n + m

/-- `struct MultiDigest` (multi_digest.rs:4-9). -/
structure MultiDigest (D : Type) where
  digests : List D
  deriving DecidableEq

namespace MultiDigest
variable {K : Type} [Field K] [LinearOrder K] [IsStrictOrderedRing K] [FloatFmt K]
variable {D : Type} [Digest D (Fl K)]

/-- `new` (multi_digest.rs:15-19). -/
def new : MultiDigest D := ⟨[]⟩

/-- `add_digest` (multi_digest.rs:21-23). -/
def addDigest (m : MultiDigest D) (d : D) : MultiDigest D := ⟨m.digests ++ [d]⟩

/-- `add` (multi_digest.rs:30-34). -/
def add (m : MultiDigest D) (item : Fl K) : Prog (MultiDigest D) := do
  let ds ← forEach (fun d => Digest.add d item) m.digests
  return ⟨ds⟩

/-- `add_buffer` (multi_digest.rs:36-40). -/
def addBuffer (m : MultiDigest D) (items : List (Fl K)) : Prog (MultiDigest D) := do
  let ds ← forEach (fun d => Digest.addBuffer d items) m.digests
  return ⟨ds⟩

/-- The loop `sum += digest.est_…(…)` (multi_digest.rs:44-46, 52-54). -/
def sumLoop (est : D → Prog (Fl K × D)) : List D → Fl K → Prog (Fl K × List D)
  | [], sum => .ret (sum, [])
  | d :: ds, sum => do
    let r ← est d
    let s ← sumLoop est ds (sum + r.1)
    return (s.1, r.2 :: s.2)

/-- `est_quantile_at_value` (multi_digest.rs:42-48). -/
def estQuantileAtValue (m : MultiDigest D) (value : Fl K) : Prog (Fl K × MultiDigest D) := do
  let r ← sumLoop (fun d => Digest.estQuantileAtValue d value) m.digests (Fl.lit 0)
  return (r.1 / Fl.ofNat m.digests.length, ⟨r.2⟩)

/-- `est_value_at_quantile` (multi_digest.rs:50-56). -/
def estValueAtQuantile (m : MultiDigest D) (quantile : Fl K) : Prog (Fl K × MultiDigest D) := do
  let r ← sumLoop (fun d => Digest.estValueAtQuantile d quantile) m.digests (Fl.lit 0)
  return (r.1 / Fl.ofNat m.digests.length, ⟨r.2⟩)

/-- `count` (multi_digest.rs:58-60). -/
def count (m : MultiDigest D) : Prog Nat := sumCounts m.digests

instance : Digest (MultiDigest D) (Fl K) where
  add := add
  addBuffer := addBuffer
  estQuantileAtValue := estQuantileAtValue
  estValueAtQuantile := estValueAtQuantile
  count := count

end MultiDigest
end AQ

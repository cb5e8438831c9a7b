/-
Model of `src/sym_digest.rs` (complete; `owned_size` is in Model/OwnedSize.lean).
-/
import Verif.Model.Traits

set_option linter.unusedSectionVars false

namespace AQ
open Prog
variable {K : Type} [Field K] [LinearOrder K] [IsStrictOrderedRing K] [FloatFmt K]

/-- `struct SymDigest` (sym_digest.rs:8-13). -/
structure SymDigest (D : Type) where
  low : D
  high : D
  deriving DecidableEq

namespace SymDigest
variable {D : Type} [Digest D (Fl K)]

/-- `new` (sym_digest.rs:75-80). -/
def new (low high : D) : SymDigest D := ⟨low, high⟩

/-- `add` (sym_digest.rs:26-29). -/
def add (s : SymDigest D) (item : Fl K) : Prog (SymDigest D) := do
  let l ← Digest.add s.low item
  let h ← Digest.add s.high (-item)
  return ⟨l, h⟩

/-- `add_buffer` (sym_digest.rs:31-35). -/
def addBuffer (s : SymDigest D) (items : List (Fl K)) : Prog (SymDigest D) := do
  let l ← Digest.addBuffer s.low items
  let h ← Digest.addBuffer s.high (items.map (fun x => -x))
  return ⟨l, h⟩

/-- The choice by `avg.partial_cmp(0.5)` (sym_digest.rs:44-52). -/
def chooseQuantile (low high : Fl K) : Prog (Fl K) :=
  let avg := (low + high) / Fl.lit 2
  match Fl.cmp avg (Fl.lit (1 / 2)) with
  | none => .fail .unwrap
  | some .lt => .ret low
  | some .gt => .ret high
  | some .eq => .ret avg

/-- `est_quantile_at_value` (sym_digest.rs:40-53). -/
def estQuantileAtValue (s : SymDigest D) (value : Fl K) : Prog (Fl K × SymDigest D) := do
  let l ← Digest.estQuantileAtValue s.low value
  let h ← Digest.estQuantileAtValue s.high (-value)
  let r ← chooseQuantile l.1 (Fl.lit 1 - h.1)
  return (r, ⟨l.2, h.2⟩)

/-- The choice by `target_quantile.partial_cmp(0.5)` (sym_digest.rs:62-66). -/
def chooseValue (q low high : Fl K) : Prog (Fl K) :=
  match Fl.cmp q (Fl.lit (1 / 2)) with
  | none => .fail .unwrap
  | some .lt => .ret low
  | some .gt => .ret high
  | some .eq => .ret ((low + high) / Fl.lit 2)

/-- `est_value_at_quantile` (sym_digest.rs:55-67). -/
def estValueAtQuantile (s : SymDigest D) (quantile : Fl K) : Prog (Fl K × SymDigest D) := do
  let l ← Digest.estValueAtQuantile s.low quantile
  let h ← Digest.estValueAtQuantile s.high (Fl.lit 1 - quantile)
  let r ← chooseValue quantile l.1 (-h.1)
  return (r, ⟨l.2, h.2⟩)

/-- `count` (sym_digest.rs:69-71). -/
def count (s : SymDigest D) : Prog Nat := Digest.count s.low

instance : Digest (SymDigest D) (Fl K) where
  add := add
  addBuffer := addBuffer
  estQuantileAtValue := estQuantileAtValue
  estValueAtQuantile := estValueAtQuantile
  count := count

end SymDigest
end AQ

/-
Model of `src/buffered_digest.rs` (complete; `owned_size` is in Model/OwnedSize.lean).
-/
import Verif.Model.Traits

namespace AQ
open Prog

/-- `struct BufferedDigest` (buffered_digest.rs:5-13). -/
structure BufferedDigest (D F : Type) where
  digest : D
  buffer : List F
  capacity : Nat
  deriving DecidableEq

namespace BufferedDigest
variable {D F : Type} [Digest D F]

/-- `new` (buffered_digest.rs:32-38). -/
def new {D F : Type} [Digest D F] (digest : D) (capacity : Nat) : BufferedDigest D F := { digest := digest, buffer := [], capacity := capacity }

/-- `flush` (buffered_digest.rs:40-43). -/
def flush (b : BufferedDigest D F) : Prog (BufferedDigest D F) := do
  let d ← Digest.addBuffer b.digest b.buffer
  return { b with digest := d, buffer := [] }

/-- `if self.buffer.len() > self.capacity { self.flush(); }` (buffered_digest.rs:53-55, 61-63). -/
def flushIfFull (b : BufferedDigest D F) : Prog (BufferedDigest D F) :=
  if b.capacity < b.buffer.length then b.flush else .ret b

/-- `add` (buffered_digest.rs:51-56). -/
def add (b : BufferedDigest D F) (item : F) : Prog (BufferedDigest D F) :=
  flushIfFull { b with buffer := b.buffer ++ [item] }

/-- The loop over the chunks (buffered_digest.rs:59-64). -/
def addChunks (b : BufferedDigest D F) : List (List F) → Prog (BufferedDigest D F)
  | [] => .ret b
  | c :: cs => do
    let b' ← flushIfFull { b with buffer := b.buffer ++ c }
    addChunks b' cs

/-- `add_buffer` (buffered_digest.rs:58-65). -/
def addBuffer (b : BufferedDigest D F) (items : List F) : Prog (BufferedDigest D F) := do
  let cs ← chunks b.capacity items
  addChunks b cs

/-- `est_quantile_at_value` (buffered_digest.rs:67-70). -/
def estQuantileAtValue (b : BufferedDigest D F) (value : F) : Prog (F × BufferedDigest D F) := do
  let b' ← b.flush
  let r ← Digest.estQuantileAtValue b'.digest value
  return (r.1, { b' with digest := r.2 })

/-- `est_value_at_quantile` (buffered_digest.rs:72-75). -/
def estValueAtQuantile (b : BufferedDigest D F) (quantile : F) : Prog (F × BufferedDigest D F) := do
  let b' ← b.flush
  let r ← Digest.estValueAtQuantile b'.digest quantile
  return (r.1, { b' with digest := r.2 })

/-- `count` (buffered_digest.rs:77-79). -/
def count (b : BufferedDigest D F) : Prog Nat := do
  let n ← Digest.count b.digest
  return n + b.buffer.length

instance : Digest (BufferedDigest D F) F where
  add := add
  addBuffer := addBuffer
  estQuantileAtValue := estQuantileAtValue
  estValueAtQuantile := estValueAtQuantile
  count := count

end BufferedDigest
end AQ

/-
Spec: how many bytes a Rust value occupies and owns (the words of traits.rs:37-39).

A value of type `T` occupies `size_of::<T>()` bytes where it stands. A `Vec<T>` owns in addition one heap block of
`capacity` slots of `size_of::<T>()` bytes, and whatever the elements own. A struct owns what its fields own.
Sizes are parameters: nothing below depends on the values `size_of` takes on a particular target.
-/

namespace AQ.Spec

/-- `std::mem::size_of::<T>()`. -/
class MemSize (T : Type) where
  bytes : Nat

/-- The bytes a value owns outside itself. -/
class Owns (T : Type) where
  heap : T → Nat

/-- A `Vec<T>`: its elements and its capacity. -/
structure RVec (T : Type) where
  items : List T
  cap : Nat
  fits : items.length ≤ cap

/-- The heap block of a vector and what its elements own. -/
instance {T : Type} [MemSize T] [Owns T] : Owns (RVec T) where
  heap v := v.cap * MemSize.bytes T + (v.items.map Owns.heap).sum

/-- The bytes a value occupies and owns. -/
def footprint {T : Type} [MemSize T] [Owns T] (x : T) : Nat := MemSize.bytes T + Owns.heap x

/-- A type without pointers owns nothing beyond itself. -/
def Plain (T : Type) [Owns T] : Prop := ∀ x : T, Owns.heap x = 0

end AQ.Spec

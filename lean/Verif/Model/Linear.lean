/-
Model of `src/util/linear_digest.rs` (complete) and `weighted_average` of `src/util/mod.rs`.
-/
import Verif.Model.Traits

set_option linter.unusedSectionVars false

namespace AQ
variable {K : Type} [Field K] [LinearOrder K] [IsStrictOrderedRing K] [FloorRing K] [FloatFmt K]

/-- `weighted_average` (src/util/mod.rs:11-19). -/
def weightedAverage (x1 w1 x2 w2 : Fl K) : Fl K :=
  let weighted := (x1 * w1 + x2 * w2) / (w1 + w2)
  let mx := Fl.fmax x1 x2
  let mn := Fl.fmin x1 x2
  Fl.fmax mn (Fl.fmin weighted mx)

/-- `struct LinearDigest` (src/util/linear_digest.rs:4-9). -/
structure LinearDigest (K : Type) where
  values : List (Fl K)
  deriving DecidableEq

namespace LinearDigest

/-- `LinearDigest::new` (linear_digest.rs:15-17). -/
def new : LinearDigest K := ⟨[]⟩

/-- `add` (linear_digest.rs:24-26). -/
def add (d : LinearDigest K) (item : Fl K) : LinearDigest K := ⟨d.values ++ [item]⟩

/-- `add_buffer` (linear_digest.rs:28-30). -/
def addBuffer (d : LinearDigest K) (items : List (Fl K)) : LinearDigest K := ⟨d.values ++ items⟩

/-- `est_quantile_at_value` (linear_digest.rs:32-41). -/
def estQuantileAtValue (d : LinearDigest K) (target : Fl K) : Fl K :=
  let lessThan : Fl K := Fl.ofNat (d.values.countP (fun x => Fl.lt x target))
  let equalTo : Fl K := Fl.ofNat (d.values.countP (fun x => Fl.feq x target))
  if Fl.le equalTo (Fl.lit 1) then
    lessThan / Fl.ofNat d.values.length
  else
    (lessThan + equalTo / Fl.lit 2) / Fl.ofNat d.values.length

/-- `est_value_at_quantile` (linear_digest.rs:43-52). Sorts the stored values in place. -/
def estValueAtQuantile (d : LinearDigest K) (q : Fl K) : Prog (Fl K × LinearDigest K) := do
  let fLen : Fl K := Fl.ofNat d.values.length
  let targetIndex ← Prog.unwrap (Fl.toUsize (Fl.fround (q * fLen)))
  let values ← sortFl d.values
  if targetIndex = values.length then
    let v ← Prog.unwrap values.getLast?
    return (v, ⟨values⟩)
  else
    let v ← Prog.idx values targetIndex
    return (v, ⟨values⟩)

/-- `count` (linear_digest.rs:54-56). -/
def count (d : LinearDigest K) : Nat := d.values.length

instance : Digest (LinearDigest K) (Fl K) where
  add d x := .ret (d.add x)
  addBuffer d xs := .ret (d.addBuffer xs)
  estQuantileAtValue d v := .ret (d.estQuantileAtValue v, d)
  estValueAtQuantile d q := d.estValueAtQuantile q
  count d := .ret d.count

end LinearDigest
end AQ

/-
Histories of a ParTDigest that also call the public `flush`.
-/
import Verif.Model.ParTDigest

set_option linter.unusedSectionVars false

namespace AQ
open Prog
variable {K : Type} [Field K] [LinearOrder K] [IsStrictOrderedRing K] [FloatFmt K] [FloorRing K]

/-- A call to a ParTDigest: one of the trait's, or `flush`. -/
inductive ParTDigest.Call (K : Type) where
  | op (o : Op (Fl K))
  | flush

/-- The items supplied by a history of calls. -/
def ParTDigest.itemsOfCalls (cs : List (ParTDigest.Call K)) : List (Fl K) :=
  cs.flatMap (fun c => match c with
    | .op o => o.items
    | .flush => [])

/-- Execute a history of calls. -/
def ParTDigest.execCalls (p : ParTDigest K) : List (ParTDigest.Call K) → Prog (ParTDigest K)
  | [] => .ret p
  | .op o :: cs => o.exec p >>= fun p' => execCalls p' cs
  | .flush :: cs => p.flush >>= fun p' => execCalls p' cs

/-- A new ParTDigest over empty digests and then a history of calls. -/
def ParTDigest.callHistory (s i : ScaleFn K) (cf : Fl K) (threads capacity : Nat) (cs : List (ParTDigest.Call K)) :
    Prog (ParTDigest K) := do
  let p ← ParTDigest.new threads capacity (.ret (TDigest.new s i cf))
  p.execCalls cs

end AQ

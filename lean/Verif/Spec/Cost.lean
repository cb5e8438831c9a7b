/-
How many insertions and queries a history makes.
-/
import Verif.Model.Traits

namespace AQ
namespace Spec

/-- Number of `add` and `add_buffer` calls of a history. -/
def insertCalls {F : Type} (ops : List (Op F)) : Nat :=
  ops.countP (fun o => match o with
    | .add _ => true
    | .addBuffer _ => true
    | _ => false)

/-- Number of queries of a history. -/
def queryCalls {F : Type} (ops : List (Op F)) : Nat :=
  ops.countP (fun o => match o with
    | .quantile _ => true
    | .value _ => true
    | _ => false)

end Spec
end AQ

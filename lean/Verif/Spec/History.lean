/-
Observations of a digest that is used through the trait `Digest`: the answers to the queries of a history, and which items had
been supplied before each query.
-/
import Verif.Model.Traits

namespace AQ

/-- Execute one call; the answer of a query, nothing for an insertion. -/
def Op.call {D F : Type} [Digest D F] (d : D) : Op F → Prog (List F × D)
  | .add x => do let d' ← Digest.add d x; return ([], d')
  | .addBuffer xs => do let d' ← Digest.addBuffer d xs; return ([], d')
  | .quantile v => do let r ← Digest.estQuantileAtValue d v; return ([r.1], r.2)
  | .value q => do let r ← Digest.estValueAtQuantile d q; return ([r.1], r.2)

/-- Execute a history and collect the answers to its queries in order. -/
def answers {D F : Type} [Digest D F] (d : D) : List (Op F) → Prog (List F × D)
  | [] => .ret ([], d)
  | o :: os => do
    let r ← o.call d
    let s ← answers r.2 os
    return (r.1 ++ s.1, s.2)

namespace Spec

/-- For each query of a history (in order): the items supplied before it, and the query. `seen` was supplied before. -/
def queriesFrom {F : Type} (seen : List F) : List (Op F) → List (List F × Op F)
  | [] => []
  | .add x :: os => queriesFrom (seen ++ [x]) os
  | .addBuffer xs :: os => queriesFrom (seen ++ xs) os
  | .quantile v :: os => (seen, .quantile v) :: queriesFrom seen os
  | .value q :: os => (seen, .value q) :: queriesFrom seen os

/-- Starting from nothing. -/
def queriesOf {F : Type} (ops : List (Op F)) : List (List F × Op F) := queriesFrom [] ops

/-- A digest whose `count` is the number of items supplied, after every history. -/
def CountsItems {D F : Type} [Digest D F] (d : D) : Prop :=
  ∀ ops : List (Op F), Prog.Partially (execAll d ops) (fun d' => Digest.count d' = .ret (itemsOf ops).length)

end Spec
end AQ

/-
Two programs with the same possible outcomes.
-/
import Verif.Base.Prog

namespace AQ.Prog

/-- The same values can be returned and the same panics can occur, for some sequence of random bits. -/
def SameOutcomes {α : Type} (p q : Prog α) : Prop := (∀ a, CanReturn p a ↔ CanReturn q a) ∧ ∀ e, CanFail p e ↔ CanFail q e

end AQ.Prog

/-
`RCSketch` histories through the trait `Digest` as histories of insertions.
-/
import Verif.Spec.History
import Verif.Spec.RCSketch

set_option linter.unusedSectionVars false
set_option linter.unusedVariables false

namespace AQ
open Prog Spec RCSketch
variable {K : Type} [Field K] [LinearOrder K] [IsStrictOrderedRing K] [FloatFmt K]

/-- Insertions through the trait. -/
inductive TraitIns {K : Type} : Op (Fl K) → InsOp K → Prop
  | add (x : Fl K) : TraitIns (.add x) (.add x)
  | addBuffer (xs : List (Fl K)) : TraitIns (.addBuffer xs) (.addBuffer xs)

theorem traitIns_exec {ops : List (Op (Fl K))} {iops : List (InsOp K)} (h : List.Forall₂ TraitIns ops iops) (s : RCSketch K) :
    execAll s ops = s.execOps iops ∧ itemsOf ops = insItems iops ∧ ∀ o ∈ iops, o.method = .default := by
  induction h generalizing s with
  | nil => exact ⟨rfl, rfl, by simp⟩
  | cons h hs ih =>
    have e2 : ∀ (o : Op (Fl K)) os, itemsOf (o :: os) = o.items ++ itemsOf os := fun o os => rfl
    have e3 : ∀ (o : InsOp K) os, insItems (o :: os) = o.items ++ insItems os := fun o os => rfl
    cases h with
    | add x =>
      refine ⟨?_, ?_, ?_⟩
      · show (s.add x >>= _) = (s.add x >>= _)
        exact congrArg _ (funext fun s' => (ih s').1)
      · rw [e2, e3, (ih s).2.1]; rfl
      · intro o ho
        rcases List.mem_cons.1 ho with rfl | ho
        · rfl
        · exact (ih s).2.2 o ho
    | addBuffer x =>
      refine ⟨?_, ?_, ?_⟩
      · show (s.addBuffer x >>= _) = (s.addBuffer x >>= _)
        exact congrArg _ (funext fun s' => (ih s').1)
      · rw [e2, e3, (ih s).2.1]; rfl
      · intro o ho
        rcases List.mem_cons.1 ho with rfl | ho
        · rfl
        · exact (ih s).2.2 o ho

theorem exists_traitIns : ∀ ops : List (Op (Fl K)), (∀ o ∈ ops, (∃ x, o = .add x) ∨ ∃ xs, o = .addBuffer xs) →
    ∃ iops, List.Forall₂ TraitIns ops iops
  | [], _ => ⟨[], .nil⟩
  | o :: os, h => by
    obtain ⟨is, hi⟩ := exists_traitIns os (fun o' ho' => h o' (by simp [ho']))
    rcases h o (by simp) with ⟨x, rfl⟩ | ⟨xs, rfl⟩
    · exact ⟨_, .cons (.add x) hi⟩
    · exact ⟨_, .cons (.addBuffer xs) hi⟩

theorem traitIns_fast {ops : List (Op (Fl K))} {iops : List (InsOp K)} (h : List.Forall₂ TraitIns ops iops) :
    ∀ o ∈ iops, o.fast = false := by
  induction h with
  | nil => simp
  | cons h hs ih =>
    intro o ho
    rcases List.mem_cons.1 ho with rfl | ho
    · cases h <;> rfl
    · exact ih o ho

end AQ

import Verif.Pddl
import Mathlib.Logic.Relation

/-! Which parameters of an action the literals of an assignment force to be one. -/
namespace Spec

/-- The parameter occurs in a literal that was not selected. -/
def InUnselected (model : List (Lit × Bool)) (p : String) : Prop := ∃ q ∈ model, q.2 = false ∧ p ∈ q.1.args

/-- Two parameters fill the same position of two literals of one predicate (of any sign), and
neither occurs in a literal that was not selected. -/
def SameSlot (params : List String) (model : List (Lit × Bool)) (p q : String) : Prop :=
  p ∈ params ∧ q ∈ params ∧ ¬ InUnselected model p ∧ ¬ InUnselected model q ∧
  ∃ l ∈ model, ∃ l' ∈ model, l.1.name = l'.1.name ∧ ∃ i : Nat, l.1.args[i]? = some p ∧ l'.1.args[i]? = some q

/-- Literals of one predicate have one arity. -/
def OneArity (model : List (Lit × Bool)) : Prop :=
  ∀ l ∈ model, ∀ l' ∈ model, l.1.name = l'.1.name → l.1.args.length = l'.1.args.length

end Spec

import Verif.Spec.Strips

/-! Vocabulary for disjunctive antecedents: propositional formulas over atom texts. -/
namespace Spec

/-- A formula over atoms that are texts. -/
inductive Form where
  | atom (s : List Char)
  | neg (f : Form)
  | conj (fs : List Form)
  | disj (fs : List Form)

mutual
/-- Truth of a formula. -/
def Form.Holds (v : List Char → Prop) : Form → Prop
  | .atom s => v s
  | .neg f => ¬ f.Holds v
  | .conj fs => Form.AllHold v fs
  | .disj fs => Form.SomeHolds v fs
/-- All formulas of a list are true. -/
def Form.AllHold (v : List Char → Prop) : List Form → Prop
  | [] => True
  | f :: fs => f.Holds v ∧ Form.AllHold v fs
/-- One formula of a list is true. -/
def Form.SomeHolds (v : List Char → Prop) : List Form → Prop
  | [] => False
  | f :: fs => f.Holds v ∨ Form.SomeHolds v fs
end

mutual
/-- The formula as PDDL text; a conjunction or disjunction of one formula is that formula. -/
def Form.text : Form → List Char
  | .atom s => s
  | .neg f => "(not ".toList ++ f.text ++ [')']
  | .conj [f] => f.text
  | .conj fs => "(and".toList ++ Form.texts fs ++ [')']
  | .disj [f] => f.text
  | .disj fs => "(or".toList ++ Form.texts fs ++ [')']
/-- The texts of formulas, each after a space. -/
def Form.texts : List Form → List Char
  | [] => []
  | f :: fs => ' ' :: f.text ++ Form.texts fs
end

mutual
/-- No conjunction or disjunction is empty. -/
def Form.Proper : Form → Prop
  | .atom _ => True
  | .neg f => f.Proper
  | .conj fs => fs ≠ [] ∧ Form.AllProper fs
  | .disj fs => fs ≠ [] ∧ Form.AllProper fs
/-- All formulas of a list are proper. -/
def Form.AllProper : List Form → Prop
  | [] => True
  | f :: fs => f.Proper ∧ Form.AllProper fs
end

/-- A conjunction of disjunctions of conjunctions of literals is true. -/
def DnfsTrue {α : Type} (v : α → Prop) (E : List (List (List α))) : Prop := ∀ D ∈ E, ∃ C ∈ D, ∀ l ∈ C, v l

/-- A disjunction of at least two conjunctions of literals of a set, no literal twice, at most `n`
literals, conjunctions and literals in increasing order. -/
structure Disjunction {α : Type} [LT α] [LT (List α)] (S : Finset α) (n : Nat) (X : List (List α)) : Prop where
  two : 2 ≤ X.length
  order : X.Pairwise (· < ·)
  literals : ∀ c ∈ X, c ≠ [] ∧ c.Pairwise (· < ·) ∧ ∀ l ∈ c, l ∈ S
  once : X.flatten.Nodup
  size : X.flatten.length ≤ n

end Spec

import Verif.Pddl

/-! Formulas built from literals, and their meaning. -/

/-- `binary_operator` of `Precondition`. -/
inductive BoolOp where
  | and | or
deriving DecidableEq, Repr

/-- A `Predicate` or a `Precondition(op)` with operands (a set in Python: order is irrelevant). -/
inductive Cond where
  | lit (l : Lit)
  | node (op : BoolOp) (kids : List Cond)

namespace Spec

/-- A truth assignment to literals in which a literal and its negation have opposite values. -/
def Valuation (v : Lit → Prop) : Prop := ∀ l, v l.neg ↔ ¬ v l

mutual
/-- Truth value of a formula. -/
def Cond.eval (v : Lit → Prop) : Cond → Prop
  | .lit l => v l
  | .node .and ks => Cond.evalAll v ks
  | .node .or ks => Cond.evalAny v ks
/-- All formulas are true. -/
def Cond.evalAll (v : Lit → Prop) : List Cond → Prop
  | [] => True
  | k :: ks => Cond.eval v k ∧ Cond.evalAll v ks
/-- Some formula is true. -/
def Cond.evalAny (v : Lit → Prop) : List Cond → Prop
  | [] => False
  | k :: ks => Cond.eval v k ∨ Cond.evalAny v ks
end

/-- What is assumed of `Precondition.add_condition` (pddl_plus_parser): the node keeps its operator, and
its meaning becomes the conjunction (disjunction) with the added operand. -/
def AddOK (add : Cond → Cond → Cond) : Prop :=
  ∀ op ks c, ∃ ks', add (.node op ks) c = .node op ks' ∧ ∀ v, Valuation v →
    (Cond.eval v (.node op ks') ↔
      match op with
      | .and => Cond.eval v (.node op ks) ∧ Cond.eval v c
      | .or => Cond.eval v (.node op ks) ∨ Cond.eval v c)

mutual
/-- The literals met when iterating over a formula: `Precondition.__iter__` descends into nested
operands (see tests/conditional_learning_tests/dependecy_set_test.py:199-200, where iterating over an
`or` of two `and`s yields the literals of both). -/
def Cond.lits : Cond → List Lit
  | .lit l => [l]
  | .node _ ks => Cond.litsAll ks
def Cond.litsAll : List Cond → List Lit
  | [] => []
  | k :: ks => Cond.lits k ++ Cond.litsAll ks
end

/-- A conditional effect of a true action: conjunctive antecedent and result literals. -/
structure CondEff where
  ante : Finset Lit
  res : Finset Lit
deriving DecidableEq

/-- An action schema with conditional effects; a plain effect has the empty antecedent. -/
structure CondSchema where
  params : Sig
  pre : Finset Lit
  effs : List CondEff

end Spec

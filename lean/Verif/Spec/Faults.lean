import Mathlib.Algebra.Order.Field.Basic
import Mathlib.Algebra.Order.Group.Abs
import Mathlib.Data.Finset.Basic

/-!
Vocabulary of the fault-injection properties: numeric expression trees with their meaning, actions
with numeric conditions and effects, and what it means for an action to be applicable.
Nothing here refers to the model of the code.
-/
namespace Spec
namespace Faulty

/-- An expression tree as the parser builds it: a literal (parsed literals are floats, `isFloat`),
a function of the state, or a binary operator. -/
inductive ETree (K : Type) where
  | lit (isFloat : Bool) (k : K)
  | fn (f : String)
  | node (op : String) (l r : ETree K)
deriving DecidableEq, Repr

/-- An action: facts, inequalities and numeric conditions it requires, and its effects. -/
structure Act (K : Type) where
  pos : List String
  ineq : List (String × String)
  nums : List (ETree K)
  adds : List String
  dels : List String
  effs : List (ETree K)
deriving DecidableEq, Repr

/-- The comparison operators. -/
def comparisons : List String := [">=", ">", "<=", "<", "="]

section
variable {K : Type} [Field K]

/-- The value of an arithmetic tree in a state. -/
def ETree.value (x : String → K) : ETree K → K
  | .lit _ k => k
  | .fn f => x f
  | .node op l r =>
    if op = "+" then l.value x + r.value x
    else if op = "-" then l.value x - r.value x
    else if op = "*" then l.value x * r.value x
    else if op = "/" then l.value x / r.value x
    else 0

/-- The new value that a numeric effect gives to the function on its left. -/
def ETree.newValue (x : String → K) : ETree K → K
  | .node op l r =>
    if op = "assign" then r.value x
    else if op = "increase" then l.value x + r.value x
    else if op = "decrease" then l.value x - r.value x
    else if op = "scale-up" then l.value x * r.value x
    else if op = "scale-down" then l.value x / r.value x
    else l.value x
  | t => t.value x

variable [LinearOrder K]

/-- A numeric condition is true in a state. -/
def ETree.holds (x : String → K) : ETree K → Prop
  | .node op l r =>
    if op = ">=" then r.value x ≤ l.value x
    else if op = ">" then r.value x < l.value x
    else if op = "<=" then l.value x ≤ r.value x
    else if op = "<" then l.value x < r.value x
    else if op = "=" then l.value x = r.value x
    else False
  | _ => False

/-- The action is applicable: the facts are there, the inequalities hold, and so do the numeric
conditions. -/
def Act.applicable (a : Act K) (facts : Finset String) (x : String → K) : Prop :=
  (∀ p ∈ a.pos, p ∈ facts) ∧ (∀ q ∈ a.ineq, q.1 ≠ q.2) ∧ ∀ t ∈ a.nums, t.holds x

end

/-- The rightmost leaf of a tree. -/
def ETree.last {K : Type} : ETree K → ETree K
  | .node _ _ r => r.last
  | t => t

/-- On the way to the rightmost leaf only these operators occur. -/
def ETree.along {K : Type} (ops : List String) : ETree K → Prop
  | .node op _ r => op ∈ ops ∧ r.along ops
  | _ => True

end Faulty
end Spec

import Verif.Spec.Faults
import Verif.Model.Core

/-!
Model of `fault_detection/fault_generator.py`. The parsed domain is a list of named actions.
Random numbers are arguments: `random.choice(l)` is `l[i % len(l)]` for an arbitrary `i`, and raises
`IndexError` on an empty list. Sets of conditions are lists (the order in which `list(set)` shows
them). Nodes of expression trees have two children.

`pddl_plus_parser` of the pinned version has no attributes `numeric_preconditions` and
`positive_preconditions` any more; the model follows the attributes the file names.
-/
namespace Model
namespace FaultGen

open Spec.Faulty

/-- fault_detection/defect_types.py:5-12 `DefectType`. -/
inductive Defect where
  | sign
  | value
  | effect
  | removedPredicate
  | removedNumeric
deriving DecidableEq, Repr

/-- The random numbers of one run: which action, which condition or effect, by how much. -/
structure Rand where
  action : Nat
  item : Nat
  amount : Nat
deriving DecidableEq, Repr

/-- An action as it is put into the faulty domain (fault_generator.py:179-187): numeric parts as
texts. -/
structure Printed where
  pos : List String
  ineq : List (String × String)
  nums : List String
  adds : List String
  dels : List String
  effs : List String
deriving DecidableEq, Repr

section
variable {K : Type} [Field K] [DecidableEq K]

/-- `random.choice`: the chosen position. -/
def choose {α : Type} (i : Nat) (l : List α) : Except Err (Nat × α) :=
  match l[i % l.length]? with
  | some t => .ok (i % l.length, t)
  | none => .error .indexError

/-- fault_generator.py:38-46: the new comparison sign. -/
def flip : ETree K → ETree K
  | .node op l r =>
    if op = ">=" ∨ op = ">" then .node "<=" l r
    else if op = "<=" ∨ op = "<" then .node ">=" l r
    else .node op l r
  | t => t

/-- fault_generator.py:30-46 `alter_action_numeric_precondition`. -/
def alterSign (R : Rand) (a : Act K) : Except Err (Act K) := do
  let p ← choose R.item a.nums
  .ok { a with nums := a.nums.set p.1 (flip p.2) }

/-- fault_generator.py:57-73: walking to the rightmost leaf (below the root) and changing it: a float
grows by `k`, anything else gets an operation around it. -/
def alterLeaf (dec : Bool) (k : K) : ETree K → ETree K
  | .node op l r => .node op l (alterLeaf dec k r)
  | .lit true v => .lit true (v + k)
  | .lit false v => .node (if dec then "-" else "+") (.lit false v) (.lit false k)
  | .fn f => .node (if dec then "-" else "+") (.fn f) (.lit false k)

/-- fault_generator.py:48-73 `_alter_numeric_expression`; a function as the whole tree has no parent
(`AttributeError`). -/
def alterExpr (dec : Bool) (k : K) : ETree K → Except Err (ETree K)
  | .node op l r => .ok (.node op l (alterLeaf dec k r))
  | .lit true v => .ok (.lit true (v + k))
  | _ => .error .attributeError

/-- The operator at the root. -/
def rootOp : ETree K → Option String
  | .node op _ _ => some op
  | _ => none

/-- fault_generator.py:75-85 `alter_action_numeric_precondition_value`. -/
def alterValue (R : Rand) (a : Act K) : Except Err (Act K) := do
  let p ← choose R.item a.nums
  let t ← alterExpr (rootOp p.2 = some ">=") (R.amount : K) p.2
  .ok { a with nums := a.nums.set p.1 t }

/-- fault_generator.py:87-95 `alter_action_numeric_effect`. -/
def alterEffect (R : Rand) (a : Act K) : Except Err (Act K) := do
  let p ← choose R.item a.effs
  let t ← alterExpr false (R.amount : K) p.2
  .ok { a with effs := a.effs.set p.1 t }

/-- fault_generator.py:97-103 `remove_predicate_from_action`. -/
def removePredicate (R : Rand) (a : Act K) : Except Err (Act K) := do
  let p ← choose R.item a.pos
  .ok { a with pos := a.pos.eraseIdx p.1 }

/-- fault_generator.py:105-111 `remove_numeric_precondition`. -/
def removeNumeric (R : Rand) (a : Act K) : Except Err (Act K) := do
  let p ← choose R.item a.nums
  .ok { a with nums := a.nums.eraseIdx p.1 }

/-- fault_generator.py:125-162 `_alter_action_according_to_defect_type` and
`_alter_action_according_to_random_defect`. -/
def alter (d : Option Defect) (R : Rand) (a : Act K) : Except Err (Act K) :=
  match d with
  | some .sign => alterSign R a
  | some .removedNumeric => removeNumeric R a
  | some .value => alterValue R a
  | some .effect => alterEffect R a
  | some .removedPredicate => removePredicate R a
  | none =>
    if 0 < a.nums.length then alterSign R a
    else if 0 < a.effs.length then alterEffect R a
    else removePredicate R a

/-- fault_generator.py:113-123, 172: the action to alter. -/
def select (R : Rand) (name : Option String) (dom : List (String × Act K)) : Except Err (String × Act K) :=
  match name with
  | none => do
    let p ← choose R.action dom
    .ok p.2
  | some n => match dom.lookup n with
    | some a => .ok (n, a)
    | none => .error .keyError

/-- fault_generator.py:179-187: the fields of one action of the result. -/
def printAct (render : ETree K → String) (a : Act K) : Printed :=
  ⟨a.pos, a.ineq, a.nums.map render, a.adds, a.dels, a.effs.map render⟩

/-- fault_generator.py:164-198 `generate_faulty_domain`: the chosen action is changed in place, then
the numeric parts of all actions are replaced by their texts. -/
def generate (render : ETree K → String) (d : Option Defect) (name : Option String) (R : Rand)
    (dom : List (String × Act K)) : Except Err (List (String × Printed)) := do
  let p ← select R name dom
  let a ← alter d R p.2
  .ok ((dom.map fun q => if q.1 = p.1 then (q.1, a) else q).map fun q => (q.1, printAct render q.2))

end
end FaultGen
end Model

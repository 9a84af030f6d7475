import Verif.Model.NumSam
import Verif.Py.Dict
import Mathlib.Algebra.Order.Field.Basic
import Mathlib.Algebra.Order.Group.Abs

/-! Model of `fault_detection/fault_repair.py`. -/
namespace Model
namespace Fault

/-- `State` of `pddl_plus_parser`: the texts of the facts by predicate, the fluents by name (both
dictionaries in insertion order). -/
structure FState (K : Type) where
  preds : List (String × Finset String)
  fluents : List (String × K)

/-- A domain as far as executing it goes: its actions and `Operator(...).apply`. -/
structure Machine (S : Type) where
  names : List String
  apply : Call → S → Except Err S

/-- `ObservedComponent`. -/
structure Comp (S : Type) where
  prev : S
  call : Call
  next : S

section
variable {K : Type} [Field K] [LinearOrder K]

/-- fault_repair.py:55-69: the comparison of the facts. -/
def factsSame (valid faulty : FState K) : Bool :=
  valid.preds.all fun p => match faulty.preds.lookup p.1 with
    | none => false
    | some q => p.2 = q

/-- fault_repair.py:71-79: the comparison of the fluents; a missing fluent raises `KeyError`. -/
def fluentsSame (faulty : FState K) : List (String × K) → Except Err Bool
  | [] => .ok true
  | p :: rest => match faulty.fluents.lookup p.1 with
    | none => .error .keyError
    | some w => if 1 ≤ |p.2 - w| then .ok false else fluentsSame faulty rest

/-- fault_repair.py:47-81 `_validate_applied_action`. -/
def validate (valid faulty : FState K) : Except Err Bool :=
  if factsSame valid faulty then fluentsSame faulty valid.fluents else .ok false

/-- fault_repair.py:83-95, 143-162: the loop over the plan. An action missing in one of the domains
raises `KeyError`. The results: the observation of the model, that of the faulty domain, the first
action with a difference. -/
def observeLoop (M F : Machine (FState K)) : FState K → FState K → List Call →
    Except Err (List (Comp (FState K)) × List (Comp (FState K)) × Option String)
  | _, _, [] => .ok ([], [], none)
  | s, t, c :: plan =>
    if c.name ∉ M.names ∨ c.name ∉ F.names then .error .keyError
    else do
      let s' ← M.apply c s
      let t' ← F.apply c t
      let same ← validate s' t'
      let r ← observeLoop M F s' t' plan
      .ok (⟨s, c, s'⟩ :: r.1, if same then r.2.1 else ⟨t, c, t'⟩ :: r.2.1, if same then r.2.2 else some c.name)

end

/-- `\w` on ASCII characters. -/
def wordChar (c : Char) : Bool := c.isAlphanum || c == '_'

/-- fault_repair.py:18 `FAULTY_ACTION_LOCATOR_REGEX` on the text after
`Plan failed because of unsatisfied precondition in:\n`: `\((\w+) [\w+ ]*\)`. -/
def locate (text : List Char) : Option (List Char) :=
  match text with
  | '(' :: rest =>
    let name := rest.takeWhile wordChar
    if name = [] then none
    else match rest.dropWhile wordChar with
      | ' ' :: rest => match rest.dropWhile (fun c => wordChar c || c == '+' || c == ' ') with
        | ')' :: _ => some name
        | _ => none
      | _ => none
  | _ => none

/-- The log of VAL: which sentences occur, and the texts after the sentence of the regular expression. -/
structure Log where
  valid : Bool
  goalMissing : Bool
  failed : Bool
  reports : List (List Char)

/-- fault_repair.py:97-119 `_is_plan_applicable`. No match: `AttributeError`; no sentence: the result
`None` cannot be unpacked (`TypeError` at line 135). -/
def planApplicable (log : Log) : Except Err (Bool × Option String) :=
  if log.valid || log.goalMissing then .ok (true, none)
  else if log.failed then
    match log.reports.findSome? locate with
    | none => .error .attributeError
    | some n => .ok (false, some (String.ofList n))
  else .error .typeError

/-- A solution file with its problem: the stem, VAL's log, the initial state, the plan. -/
structure Job (K : Type) where
  stem : String
  log : Log
  init : FState K
  plan : List Call

section
variable {K : Type} [Field K] [LinearOrder K]

/-- fault_repair.py:121-164 `_observe_single_plan`. -/
def observePlan (M F : Machine (FState K)) (j : Job K) :
    Except Err (Option (List (Comp (FState K)) × List (Comp (FState K))) × Option String) := do
  let r ← planApplicable j.log
  if r.1 then
    let o ← observeLoop M F j.init j.init j.plan
    .ok (some (o.1, o.2.1), o.2.2)
  else .ok (none, r.2)

/-- The verdict on a plan. -/
inductive Verdict where
  | ok | notApplicable | stateDifference
deriving DecidableEq, Repr

/-- The variables of the loop of `execute_plans_on_agent`. -/
structure Run (K : Type) where
  valid : List (List (Comp (FState K)))
  faulty : List (List (Comp (FState K)))
  verdicts : List (String × Verdict)
  name : Option String

/-- fault_repair.py:208-234: one round of the loop. -/
def executeStep (M F : Machine (FState K)) (report : List String) (r : Run K) (j : Job K) : Except Err (Run K) :=
  if j.stem ∉ report then .ok r
  else do
    let o ← observePlan M F j
    let r := if o.2 = none then { r with verdicts := Py.dictSet r.verdicts j.stem Verdict.ok } else r
    let r := if o.1 = none then { r with name := o.2, verdicts := Py.dictSet r.verdicts j.stem Verdict.notApplicable } else r
    let r := if o.2 ≠ none then { r with name := o.2, verdicts := Py.dictSet r.verdicts j.stem Verdict.stateDifference } else r
    .ok (match o.1 with
      | some p => { r with valid := r.valid ++ [p.1], faulty := r.faulty ++ [p.2] }
      | none => r)

/-- fault_repair.py:166-186 `_filter_redundant_observations` (both lists have one entry per applicable
plan). -/
def keepAction (name : Option String) (o : List (Comp (FState K))) : List (Comp (FState K)) :=
  o.filter fun c => some c.call.name = name

/-- fault_repair.py:188-242 `execute_plans_on_agent`; the jobs in the order of the glob. -/
def executePlans (M F : Machine (FState K)) (report : List String) (jobs : List (Job K)) (repaired : Bool) : Except Err (Run K) := do
  let r ← jobs.foldlM (executeStep M F report) ⟨[], [], [], none⟩
  if r.name = none ∧ repaired = false then .error .valueError
  else .ok { r with valid := r.valid.map (keepAction r.name), faulty := r.faulty.map (keepAction r.name) }

end

/-- A numeric domain: the boolean part and the numeric parts of the actions. -/
structure NumDomain (K : Type) where
  dom : Domain
  num : String → NumPart K

/-- fault_repair.py:244-265 `repair_model`. `model` is the domain parsed from the file of the model, with
its preconditions and effects (line 259 does not ask for partial parsing); the learned numeric parts
replace the parsed ones. -/
def repairModel {K : Type} [Field K] [LinearOrder K] [IsStrictOrderedRing K] [FloorRing K] (cfg : NumCfg K) (model : Domain)
    (faulty : NumDomain K) (obs : List (List (NumComponent K))) (name : String) :
    Except NumErr (NumDomain K × List (String × NumStatus)) := do
  let r ← (NumLearner.init model).learn cfg obs
  if name ∈ r.1.base.dom.names then
    .ok (⟨{ faulty.dom.setAct name (r.1.base.dom.act name) with
            names := if name ∈ faulty.dom.names then faulty.dom.names else faulty.dom.names ++ [name] },
          Function.update faulty.num name (r.1.num name)⟩, r.2)
  else .error (.py .keyError)

end Fault
end Model

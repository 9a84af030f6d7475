import Verif.Model.Core

/-! Model of `trajectory_creators/ma_common_functions.py`. Randomness is an argument. -/
namespace Model
namespace Dummy

/-- One agent's entry of a joint action: `NOP_ACTION` or an action call. -/
inductive Slot where
  | nop
  | call (name : String) (params : List String)
deriving DecidableEq, Repr

abbrev Joint := List Slot

/-- ma_common_functions.py:13-14. -/
def addName : String := "dummy-add-predicate-action"
def delName : String := "dummy-del-predicate-action"

/-- ma_common_functions.py:51: `empty_indices`. -/
def freeSlots (j : Joint) : List Nat := (List.range j.length).filter fun i => j[i]? = some .nop

/-- ma_common_functions.py:45-56 `_find_empty_action_index` (`none` for -1); `k`: the draw of
`random.choice`. -/
def pickFree (j : Joint) (k : Nat) : Option Nat :=
  let f := freeSlots j
  if f.length = 0 then none else f[k % f.length]?

/-- `joint_action.actions[i] = ActionCall(name=..., grounded_parameters=[agent_names[i]])`. -/
def put (agents : List String) (j : Joint) (i : Nat) (name : String) : Except Err Joint :=
  match agents[i]? with
  | none => .error .indexError
  | some g => .ok (j.set i (.call name [g]))

/-- The draws of one round of the loop (lines 93-94, 98). -/
structure Draw where
  add : Bool
  del : Bool
  slot : Nat

/-- ma_common_functions.py:78-86: the dummy action for the goal, from the last joint action to the first.
The argument is the reversed plan with the index of its head; the result the reversed plan and the
index of the changed joint action. -/
def goalStep (agents : List String) (pick : Nat → Nat) : Nat → List Joint → Except Err (List Joint × Option Nat)
  | _, [] => .ok ([], none)
  | i, j :: js =>
    match pickFree j (pick i) with
    | some k => match put agents j k addName with
      | .error e => .error e
      | .ok j' => .ok (j' :: js, some i)
    | none => match goalStep agents pick (i - 1) js with
      | .error e => .error e
      | .ok r => .ok (j :: r.1, r.2)

/-- ma_common_functions.py:88-107: the loop from index `i`; the plan as it is left (the joint actions
are changed in place) and the returned plan. -/
def loop (agents : List String) (draws : Nat → Draw) (last : Nat) : Nat → List Joint → Except Err (List Joint × List Joint)
  | _, [] => .ok ([], [])
  | i, j :: js =>
    if last ≤ i then
      match loop agents draws last (i + 1) js with
      | .error e => .error e
      | .ok r => .ok (j :: r.1, j :: r.2)
    else if (draws i).add = false then
      match loop agents draws last (i + 1) js with
      | .error e => .error e
      | .ok r => .ok (j :: r.1, r.2)
    else
      match pickFree j (draws i).slot with
      | none => match loop agents draws last (i + 1) js with
        | .error e => .error e
        | .ok r => .ok (j :: r.1, r.2)
      | some k => match put agents j k (if (draws i).del then delName else addName) with
        | .error e => .error e
        | .ok j' => match loop agents draws last (i + 1) js with
          | .error e => .error e
          | .ok r => .ok (j' :: r.1, j' :: r.2)

/-- ma_common_functions.py:59-107 `insert_dummy_actions_to_plan`: the plan as it is left and the
returned plan. -/
def insertDummy (plan : List Joint) (agents : List String) (inGoal : Bool) (pick : Nat → Nat) (draws : Nat → Draw) :
    Except Err (List Joint × List Joint) :=
  if inGoal then
    match goalStep agents pick (plan.length - 1) plan.reverse with
    | .error e => .error e
    | .ok r => loop agents draws (r.2.getD (plan.length - 1)) 0 r.1.reverse
  else loop agents draws (plan.length - 1) 0 plan

end Dummy
end Model

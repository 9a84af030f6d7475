import Verif.Model.Core
import Verif.Model.Results

/-! Model of `trajectory_creators/plan_miner_trajectories_creator.py`: the file for PlanMiner. How the library writes atoms, functions and calls
(`str(predicate)`, `state_typed_representation`, `typed_action_call`) is an argument. -/
namespace Model
namespace PlanMiner
open Results

/-- A text. -/
abbrev Text := List Char

/-- `sep.join(parts)`. -/
def join (sep : Text) (parts : List Text) : Text := (parts.intersperse sep).flatten

/-- `str.upper` (ASCII). -/
def upper (t : Text) : Text := t.map Char.toUpper

/-- How the library writes things. -/
structure Writer where
  atom : Atom → Text
  call : Call → Text

/-- A state as it is passed to `create_complete_state`: the literals in the order of the set, and the typed representations of the functions. -/
structure StateView where
  lits : List Lit
  functions : List Text

/-- plan_miner_trajectories_creator.py:59-79 `create_complete_state`. -/
def completeState (W : Writer) (v : StateView) : Text :=
  let positive := (v.lits.filter fun l => l.pos).map fun l => upper (W.atom l.atom)
  let negative := (v.lits.filter fun l => !l.pos).map fun l => "(not ".toList ++ upper (W.atom l.atom) ++ ")".toList
  let functions := v.functions.map upper
  "(".toList ++ join " ".toList positive ++ " ".toList ++ join " ".toList functions ++ " ".toList ++ join " ".toList negative ++ ")".toList

/-- A component of an observation. -/
structure Step where
  call : Call
  prev : StateView
  next : StateView

/-- plan_miner_trajectories_creator.py:113: the line of an action. -/
def actionLine (W : Writer) (i : Nat) (c : Call) : Text :=
  "[".toList ++ num i ++ ", ".toList ++ num (i + 1) ++ "]: ".toList ++ upper (W.call c)

/-- plan_miner_trajectories_creator.py:118, 121: the line of a state. -/
def stateLine (W : Writer) (i : Nat) (v : StateView) : Text := "[".toList ++ num i ++ "]: ".toList ++ completeState W v

/-- plan_miner_trajectories_creator.py:101-121: the loop over the components: the lines of the actions and of the states. -/
def collect (W : Writer) : Nat → List Step → List Text × List Text
  | _, [] => ([], [])
  | i, s :: rest =>
    let r := collect W (i + 1) rest
    (actionLine W i s.call :: r.1, (if i = 0 then [stateLine W i s.prev] else []) ++ stateLine W (i + 1) s.next :: r.2)

/-- plan_miner_trajectories_creator.py:99-126: the text of an observation. -/
def planText (W : Writer) (obs : List Step) : Text :=
  let r := collect W 0 obs
  "New plan!!!\n\n".toList ++ join "\n".toList ("##Tasks##".toList :: r.1) ++ "\n\n\n".toList ++
    join "\n\n".toList ("##States##".toList :: r.2)

/-- plan_miner_trajectories_creator.py:81-130 `create_plan_miner_trajectories`: an existing file is left as it is. -/
def create (W : Writer) (existing : Option Text) (observations : List (List Step)) : Text :=
  match existing with
  | some t => t
  | none => join "\n\n".toList (observations.map (planText W))

end PlanMiner
end Model

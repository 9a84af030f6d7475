import Verif.Model.OnlineDomain
import Verif.Spec.Hybrid

/-! Model of the training of the discrete and numeric learners of all actions:
`sam_learning/learners/semi_online_learning_algorithm.py:110-167, 204-246, 312-331, 420-448`, with the learners of C30 and C79 themselves
(Model/Training.lean has a membership test for the numeric learner). -/
namespace Model
namespace OnlineTraining
open Spec

/-- Exceptions: from Qhull, or from Python. -/
inductive TrainErr where
  | qhull
  | py (e : Err)
deriving DecidableEq

/-- The learners and the undecided failures of one action. -/
structure Pupil (K : Type) where
  disc : DiscreteOnline
  num : ONum K
  undecided : List (Finset Lit × List (String × K))

/-- A transition: the call, its objects, the states and whether it was applicable. -/
structure Obs (K : Type) where
  call : HybridCall
  params : List String
  before : HybridState K
  after : HybridState K
  ok : Bool

/-- `match_state_functions`: the lifted functions of a call with their values. The parts of the state that the discrete learner gets
(`get_possible_literal_matches`) are the literals of the vocabulary that hold (C45); for the functions see C60. -/
abbrev Reader (K : Type) := HybridCall → (String → K) → List (String × K)

variable {K : Type} [Field K] [LinearOrder K] [IsStrictOrderedRing K] [FloorRing K]

/-- semi_online_learning_algorithm.py:312-331: the learners of one action. -/
def Pupil.new (V : Finset Lit) (functions : List String) (degree : Nat) : Pupil K := ⟨.init V, .new functions degree, []⟩

/-- semi_online_learning_algorithm.py:110-148 `_handle_execution_failure`. -/
def Pupil.handleFailure (cfg : ONumCfg K) (P : Pupil K) (pre : Finset Lit) (fl : List (String × K)) : Except TrainErr (Pupil K) :=
  if P.disc.inSafe pre then .ok { P with num := (P.num.add cfg ⟨fl, [], false⟩).1 }
  else match P.num.inSafe cfg fl with
    | .error e => .error (.py e)
    | .ok true => .ok { P with disc := P.disc.add pre ∅ false }
    | .ok false => .ok { P with undecided := P.undecided ++ [(pre, fl)] }

/-- A loop that handles a list of failures. -/
def handleAll (cfg : ONumCfg K) : Pupil K → List (Finset Lit × List (String × K)) → Except TrainErr (Pupil K)
  | P, [] => .ok P
  | P, u :: us =>
    match P.handleFailure cfg u.1 u.2 with
    | .error e => .error e
    | .ok P' => handleAll cfg P' us

/-- semi_online_learning_algorithm.py:149-167 `_eliminate_undecided_observations`. -/
def Pupil.eliminate (cfg : ONumCfg K) (P : Pupil K) : Except TrainErr (Pupil K) := handleAll cfg { P with undecided := [] } P.undecided.reverse

/-- semi_online_learning_algorithm.py:204-246 `_add_transition_data`, for the learners of the action. -/
def Pupil.learn (cfg : ONumCfg K) (read : Reader K) (P : Pupil K) (o : Obs K) : Except TrainErr (Pupil K) :=
  let pre := seen P.disc.superset o.call.ρ o.before.1
  let post := seen P.disc.superset o.call.ρ o.after.1
  let fl := read o.call o.before.2
  if o.ok then
    let n := P.num.add cfg ⟨fl, read o.call o.after.2, true⟩
    if n.2 then .error .qhull else .ok { P with disc := P.disc.add pre post true, num := n.1 }
  else P.handleFailure cfg pre fl

/-- The dictionaries by action name. -/
abbrev Class (K : Type) := List (String × Pupil K)

/-- Replacing the entry of an action. -/
def setPupil (D : Class K) (a : String) (P : Pupil K) : Class K := D.map fun p => if p.1 = a then (a, P) else p

/-- `_add_transition_data` on the dictionaries; an unknown action raises a `KeyError`. -/
def learnObs (cfg : ONumCfg K) (read : Reader K) (D : Class K) (o : Obs K) : Except TrainErr (Class K) :=
  match D.lookup o.call.name with
  | none => .error (.py .keyError)
  | some P =>
    match P.learn cfg read o with
    | .error e => .error e
    | .ok P' => .ok (setPupil D o.call.name P')

/-- A series of transitions. -/
def learnSeq (cfg : ONumCfg K) (read : Reader K) : Class K → List (Obs K) → Except TrainErr (Class K)
  | D, [] => .ok D
  | D, o :: os =>
    match learnObs cfg read D o with
    | .error e => .error e
    | .ok D' => learnSeq cfg read D' os

/-- semi_online_learning_algorithm.py:414-416, 442-444, noam_algorithm.py:326-328: the undecided failures of all actions. -/
def eliminateSeq (cfg : ONumCfg K) : Class K → List String → Except TrainErr (Class K)
  | D, [] => .ok D
  | D, a :: as =>
    match D.lookup a with
    | none => .error (.py .keyError)
    | some P =>
      match P.eliminate cfg with
      | .error e => .error e
      | .ok P' => eliminateSeq cfg (setPupil D a P') as

/-- What the learners get between two uses of their models: a trace, or the integrated transitions of an exploration. An exploration
ends with an elimination or not (semi_online_learning_algorithm.py:379-418 returns before it when the goal is reached). -/
inductive Lesson (K : Type) where
  | trace (t : List (Obs K))
  | explored (t : List (Obs K)) (elim : Bool)

/-- semi_online_learning_algorithm.py:420-448 `train_models_using_trace`, 248-279, 379-418, noam_algorithm.py:244-328. -/
def learnLesson (cfg : ONumCfg K) (read : Reader K) (names : List String) (D : Class K) : Lesson K → Except TrainErr (Class K)
  | .trace t =>
    match learnSeq cfg read D (t.filter fun o => !containsDuplicates o.params) with
    | .error e => .error e
    | .ok D' => eliminateSeq cfg D' names
  | .explored t elim =>
    match learnSeq cfg read D t with
    | .error e => .error e
    | .ok D' => if elim then eliminateSeq cfg D' names else .ok D'

/-- A history of lessons; the first exception ends it. -/
def learnLessons (cfg : ONumCfg K) (read : Reader K) (names : List String) : Class K → List (Lesson K) → Except TrainErr (Class K)
  | D, [] => .ok D
  | D, l :: ls =>
    match learnLesson cfg read names D l with
    | .error e => .error e
    | .ok D' => learnLessons cfg read names D' ls

/-- semi_online_learning_algorithm.py:312-331 `initialize_learning_algorithms`. -/
def newClass (names : List String) (V : String → Finset Lit) (fns : String → List String) (degree : Nat) : Class K :=
  names.map fun a => (a, Pupil.new (V a) (fns a) degree)

/-- `_discrete_models_learners` and `_numeric_models_learners`. -/
def discOf (D : Class K) : List (String × DiscreteOnline) := D.map fun p => (p.1, p.2.disc)
def numOf (D : Class K) : List (String × ONum K) := D.map fun p => (p.1, p.2.num)

end OnlineTraining
end Model

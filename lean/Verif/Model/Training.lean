import Verif.Model.SemiOnline
import Verif.Model.Agent

/-! Model of the training of all actions from traces and of the construction of the safe model:
`semi_online_learning_algorithm.py:204-246, 312-331, 420-448`, `online_utilities.py:13-38`.
States have a discrete part and a numeric part of any type `N`. -/
namespace Model
open Spec

variable {N X : Type} [DecidableEq X]

/-- What the learners are told about a call: the substitution of the parameters by the objects and the point of the numeric part
(`match_state_functions`). -/
structure CallReading (N X : Type) where
  ρ : Call → String → String
  pt : Call → N → X

/-- semi_online_learning_algorithm.py:312-331 `initialize_learning_algorithms`: `V a` is the lifted vocabulary of action `a`. -/
def initLearners (V : String → Finset Lit) : String → SemiOnline X := fun a => SemiOnline.init (V a)

/-- semi_online_learning_algorithm.py:204-246 `_add_transition_data` on the dictionaries by action name. -/
def addToLearners (hull : List X → X → Bool) (B : CallReading N X) (D : String → SemiOnline X) (t : Try (State × N) Call) : String → SemiOnline X :=
  Function.update D t.act.name ((D t.act.name).addTransition hull
    (seen (D t.act.name).disc.superset (B.ρ t.act) t.before.1) (seen (D t.act.name).disc.superset (B.ρ t.act) t.after.1)
    (B.pt t.act t.before.2) t.ok)

/-- semi_online_learning_algorithm.py:414-416, 445-447, noam_algorithm.py:326-328: `_eliminate_undecided_observations` for every action. -/
def eliminateAll (hull : List X → X → Bool) (names : List String) (D : String → SemiOnline X) : String → SemiOnline X :=
  names.foldl (fun D a => Function.update D a ((D a).eliminate hull)) D

/-- semi_online_learning_algorithm.py:420-448 `train_models_using_trace`: calls with repeated objects are skipped. -/
def trainTrace (hull : List X → X → Bool) (B : CallReading N X) (names : List String) (D : String → SemiOnline X)
    (trace : List (Try (State × N) Call)) : String → SemiOnline X :=
  eliminateAll hull names (trace.foldl (fun D t => if containsDuplicates t.act.params then D else addToLearners hull B D t) D)

/-- What happens to the learners between two uses of the models: a trace is learned, or the integrated attempts of an exploration
(semi_online_learning_algorithm.py:272-274; the elimination of noam_algorithm.py:326-328 follows). -/
inductive Lesson (N : Type) where
  | trace (t : List (Try (State × N) Call))
  | explored (log : List (Try (State × N) Call × Bool))

/-- One lesson. -/
def learnLesson (hull : List X → X → Bool) (B : CallReading N X) (names : List String) (D : String → SemiOnline X) : Lesson N → String → SemiOnline X
  | .trace t => trainTrace hull B names D t
  | .explored log => eliminateAll hull names ((log.filter (·.2)).foldl (fun D t => addToLearners hull B D t.1) D)

/-- A history of lessons. -/
def learnAll (hull : List X → X → Bool) (B : CallReading N X) (names : List String) (V : String → Finset Lit) (lessons : List (Lesson N)) :
    String → SemiOnline X :=
  lessons.foldl (learnLesson hull B names) (initLearners V)

/-- online_utilities.py:13-38 `construct_safe_action_model`, as a transition system: the safe discrete precondition and the numeric
precondition are conjoined; the numeric one is membership in the hull, and empty when the action has no point
(incremental_convex_hull_learner.py:268-273); `upd` is the learned numeric effect. -/
def safeEnv (hull : List X → X → Bool) (B : CallReading N X) (D : String → SemiOnline X) (upd : Call → N → N) (goal : State × N → Bool) :
    Env (State × N) Call where
  step s c :=
    if applicable (D c.name).disc.safeModel.1 (B.ρ c) s.1 ∧ ((D c.name).points = [] ∨ hull (D c.name).points (B.pt c s.2) = true) then
      some (successor (D c.name).disc.safeModel.2 (B.ρ c) s.1, upd c s.2)
    else none
  goal := goal

end Model

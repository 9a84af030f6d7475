import Verif.Model.Explore
import Verif.Model.Core

/-! Model of `sam_learning/core/online_learning_agents/ipc_agent.py` and of the way its answers are used:
`semi_online_learning_algorithm.py:333-368`, `noam_algorithm.py:301-415, 492-576`. `Operator.apply` of the external package is the
environment's `step`: `none` stands for its `ValueError`. -/
namespace Model
open Spec

variable {S A : Type}

/-- ipc_agent.py:70-94 `observe`; `known` tells whether the domain has the action. -/
def ipcObserve (known : A → Bool) (E : Env S A) (s : S) (a : A) : Except Err (S × Bool) :=
  if known a then .ok (observe E s a) else .error .keyError

/-- ipc_agent.py:135-147: the loop of `execute_plan`: the trace, the last state and whether the plan was applicable. -/
def planLoop (known : A → Bool) (E : Env S A) : S → List A → Except Err (List (Try S A) × S × Bool)
  | s, [] => .ok ([], s, true)
  | s, a :: p =>
    match ipcObserve known E s a with
    | .error e => .error e
    | .ok r =>
      if r.2 then
        match planLoop known E r.1 p with
        | .error e => .error e
        | .ok q => .ok (⟨s, a, r.1, r.2⟩ :: q.1, q.2.1, q.2.2)
      else .ok ([⟨s, a, r.1, r.2⟩], r.1, false)

/-- ipc_agent.py:127-150 `execute_plan`: the trace, whether the goal was reached, whether the plan was applicable. -/
def executePlan (known : A → Bool) (E : Env S A) (init : S) (plan : List A) : Except Err (List (Try S A) × Bool × Bool) :=
  match planLoop known E init plan with
  | .error e => .error e
  | .ok q => .ok (q.1, E.goal q.2.1, q.2.2)

/-! ### The goal test -/

/-- A numeric goal expression: the functions in it and its value under an assignment to them. -/
structure NumGoal where
  fns : List String
  eval : (String → Rat) → Bool

/-- ipc_agent.py:36-51 `_assign_state_fluent_value`: the function objects of the goal keep their value (`mem`) when the state does
not mention them. -/
def assignFluents (goals : List NumGoal) (mem : String → Rat) (fluents : List (String × Rat)) : String → Rat :=
  fun f => if f ∈ goals.flatMap NumGoal.fns then (fluents.lookup f).getD (mem f) else mem f

/-- ipc_agent.py:104-125 `goal_reached`, with the values now stored in the goal expressions. -/
def goalReached (G : Finset Lit) (goals : List NumGoal) (mem : String → Rat) (s : State) (fluents : List (String × Rat)) :
    Bool × (String → Rat) :=
  let m := assignFluents goals mem fluents
  (decide (G ⊆ s.image fun x => (⟨x.name, x.args, true⟩ : Lit)) && goals.all fun g => g.eval m, m)

/-- A series of goal tests by one agent on one problem. -/
def goalTests (G : Finset Lit) (goals : List NumGoal) (mem : String → Rat) : List (State × List (String × Rat)) → String → Rat
  | [] => mem
  | x :: xs => goalTests G goals (goalReached G goals mem x.1 x.2).2 xs

/-! ### Using a solver's plan -/

/-- `SolutionOutputTypes`: the values that the code distinguishes. -/
inductive SolveStatus where
  | ok | noSolution | notApplicable | goalNotAchieved | other (s : String)
deriving DecidableEq

/-- What `_use_solvers_to_solve_problem` returns, with the trace given to `train_models_using_trace`. -/
structure Solved (S A : Type) where
  status : SolveStatus
  len : Nat
  state : Option S
  trace : List (Try S A)

/-- semi_online_learning_algorithm.py:343-368: the loop over the solvers; each solver is given by the status it returns and by the
plan read from its solution file; `st` is the status so far. -/
def solverLoop (known : A → Bool) (E : Env S A) (init : S) : SolveStatus → List (SolveStatus × List A) → Except Err (Solved S A)
  | st, [] => .ok ⟨st, 0, some init, []⟩
  | _, (.ok, plan) :: _ =>
    match executePlan known E init plan with
    | .error e => .error e
    | .ok q =>
      if q.2.1 then .ok ⟨.ok, q.1.length, none, q.1⟩
      else
        match q.1.getLast? with
        | none => .error .indexError
        | some t => .ok ⟨if q.2.2 then .goalNotAchieved else .notApplicable, q.1.length, some t.after, q.1⟩
  | _, (st, _) :: rest => solverLoop known E init st rest

/-- semi_online_learning_algorithm.py:333-368 `_use_solvers_to_solve_problem`. -/
def useSolvers (known : A → Bool) (E : Env S A) (init : S) (solvers : Option (List (SolveStatus × List A))) : Except Err (Solved S A) :=
  match solvers with
  | none => .error .valueError
  | some l => solverLoop known E init .noSolution l

/-- noam_algorithm.py:301-415 `try_to_solve_problem` with `apply_exploration_policy` and `_explore_and_terminate_episode`: the
verdict and the number of steps. `safe` and `optimistic` are the solvers' answers on the two exported models (the second may
depend on the trace of the first attempt), `explore` is `explore_to_refine_models` in the learner's state at that point. -/
def noamTry (known : A → Bool) (E : Env S A) (init : S) (safe : Option (List (SolveStatus × List A)))
    (optimistic : List (Try S A) → Option (List (SolveStatus × List A))) (explore : List (Try S A) → S → Explored S A) :
    Except Err (Bool × Nat) :=
  match useSolvers known E init safe with
  | .error e => .error e
  | .ok q =>
    if q.status = .ok then .ok (true, q.len)
    else if q.status = .notApplicable then .error .valueError
    else
      match useSolvers known E init (optimistic q.trace) with
      | .error e => .error e
      | .ok o =>
        if o.status = .ok then .ok (true, o.len)
        else
          let r := explore (q.trace ++ o.trace) (o.state.getD init)
          .ok (r.reached, r.steps)

/-- noam_algorithm.py:492-508: `InformativeExplorer` skips the optimistic model and explores from the initial state. -/
def informativeTry (known : A → Bool) (E : Env S A) (init : S) (safe : Option (List (SolveStatus × List A)))
    (explore : List (Try S A) → S → Explored S A) : Except Err (Bool × Nat) :=
  match useSolvers known E init safe with
  | .error e => .error e
  | .ok q =>
    if q.status = .ok then .ok (true, q.len)
    else if q.status = .notApplicable then .error .valueError
    else
      let r := explore q.trace init
      .ok (r.reached, r.steps)

/-- noam_algorithm.py:540-576, 608-644: `OptimisticExplorer` and `InformativeSVM` skip the safe model and explore from the initial
state. -/
def optimisticTry (known : A → Bool) (E : Env S A) (init : S) (optimistic : Option (List (SolveStatus × List A)))
    (explore : List (Try S A) → S → Explored S A) : Except Err (Bool × Nat) :=
  match useSolvers known E init optimistic with
  | .error e => .error e
  | .ok o =>
    if o.status = .ok then .ok (true, o.len)
    else
      let r := explore o.trace init
      .ok (r.reached, r.steps)

/-- semi_online_learning_algorithm.py:497-568 `try_to_solve_problems`, one problem: `plan` tells whether the solvers are used at all
(line 515). The result is the recorded verdict `goal_reached` and `has_solved_solver_problem`. -/
def semiTry (known : A → Bool) (E : Env S A) (init : S) (plan : Bool) (safe : Option (List (SolveStatus × List A)))
    (optimistic : List (Try S A) → Option (List (SolveStatus × List A))) (explore : List (Try S A) → S → Explored S A) :
    Except Err (Bool × Bool) :=
  if safe.isNone then .error .valueError
  else if plan then
    match useSolvers known E init safe with
    | .error e => .error e
    | .ok q =>
      if q.status = .ok then .ok (true, true)
      else
        match useSolvers known E init (optimistic q.trace) with
        | .error e => .error e
        | .ok o =>
          if o.status = .ok then .ok (true, true)
          else .ok ((explore (q.trace ++ o.trace) (o.state.getD init)).reached, false)
  else .ok ((explore [] init).reached, false)

end Model

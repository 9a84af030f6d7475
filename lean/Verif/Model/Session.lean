import Verif.Model.OnlineTraining
import Verif.Model.Agent
import Verif.Model.Episodes

/-! Model of whole runs of the online learners over series of problems: `sam_learning/learners/semi_online_learning_algorithm.py:333-568` and
`sam_learning/learners/noam_algorithm.py:244-415, 492-576`, with the concrete learners (Model/OnlineTraining.lean), the constructed domains
(Model/OnlineDomain.lean), the executed plans (Model/Agent.lean) and the explorations (Model/Explore.lean). -/
namespace Model
namespace Session
open Spec OnlineTraining OnlineDomain

variable {K : Type} [Field K] [LinearOrder K] [IsStrictOrderedRing K] [FloorRing K]

/-- A grounded action: the call and its objects. -/
structure Ground where
  call : HybridCall
  params : List String

/-- An executed action as the learners get it. -/
def obsOf (t : Try (HybridState K) Ground) : Obs K := ⟨t.act.call, t.act.params, t.before, t.after, t.ok⟩

/-- `contains_duplicates` of the objects of a grounded action. -/
def dup (g : Ground) : Bool := containsDuplicates g.params

/-- A problem with everything external: the environment, the initial state, the grounded actions, and what the solvers answer on an
exported domain, safe (`true`) or optimistic (`false`): the status and the plan read from the solution file. -/
structure Episode (K : Type) where
  env : Env (HybridState K) Ground
  init : HybridState K
  grounded : List Ground
  answers : Bool → List (String × OAction K) → List (SolveStatus × List Ground)

/-- The parameters of a run: the numeric libraries, the partial domain, the random choices and the constants. -/
structure Setup (K : Type) where
  cfg : ONumCfg K
  add : Cond → Cond → Cond
  ord : LitOrd
  read : Reader K
  names : List String
  voc : String → Finset Lit
  fns : String → List String
  degree : Nat
  order : List (Try (HybridState K) Ground × Bool) → List Ground → List Ground
  select : Explorer (HybridState K) Ground → HybridState K → Ground → List Ground → Ground × List Ground
  minEpisodes : Nat
  minExecutions : Nat
  maxFailed : Nat
  maxSteps : Nat
  maxFile : Nat

/-- Exceptions that end a run: from the training, from the construction of a domain, from the use of a plan, and the `ValueError` of
noam_algorithm.py:406-407 ("The goal should have been reached when used the safe action model!"). -/
inductive RunErr where
  | train (e : TrainErr)
  | model (e : NumErr)
  | py (e : Err)
  | unsafePlan

/-- The learner between two steps: the learners of the actions, the explorer's bookkeeping, and the trajectory files that have not been
read (`_preprocessed_traces_paths`). `lessons` is a ghost: the lessons given so far. -/
structure Learner (K : Type) where
  pupils : Class K
  explorer : Explorer (HybridState K) Ground
  pending : List (List (Obs K))
  lessons : List (Lesson K)

/-- semi_online_learning_algorithm.py:94-108, 312-331. -/
def Learner.new (U : Setup K) : Learner K := ⟨newClass U.names U.voc U.fns U.degree, .init, [], []⟩

/-- The learners get a lesson. -/
def teach (U : Setup K) (st : Learner K) (l : Lesson K) : Except RunErr (Learner K) :=
  match learnLesson U.cfg U.read U.names st.pupils l with
  | .error e => .error (.train e)
  | .ok D => .ok { st with pupils := D, lessons := st.lessons ++ [l] }

/-- The domain has the action (ipc_agent.py:84). -/
def known (U : Setup K) (g : Ground) : Bool := decide (g.call.name ∈ U.names)

/-- semi_online_learning_algorithm.py:450-481 `_construct_model_and_solve_problem` with 333-368 `_use_solvers_to_solve_problem`: the models
are trained with the trace of the executed plan, which is the plan of the first solver that reports a solution. -/
def solve (U : Setup K) (safe : Bool) (st : Learner K) (p : Episode K) : Except RunErr (Learner K × Solved (HybridState K) Ground) :=
  match (if safe then constructSafe U.cfg U.add U.ord U.names (discOf st.pupils) (numOf st.pupils)
    else constructOptimistic U.cfg U.add U.ord U.names (discOf st.pupils) (numOf st.pupils)) with
  | .error e => .error (.model e)
  | .ok acts =>
    match useSolvers (known U) p.env p.init (some (p.answers safe acts)) with
    | .error e => .error (.py e)
    | .ok q =>
      if (p.answers safe acts).any (fun x => decide (x.1 = .ok)) then
        match teach U st (.trace (q.trace.map obsOf)) with
        | .error e => .error e
        | .ok st' => .ok (st', q)
      else .ok (st, q)

/-- A list of trajectory files is read, in order. -/
def readAll (U : Setup K) : Learner K → List (List (Obs K)) → Except RunErr (Learner K)
  | st, [] => .ok st
  | st, t :: ts =>
    match teach U st (.trace t) with
    | .error e => .error e
    | .ok st' => readAll U st' ts

/-- semi_online_learning_algorithm.py:483-496 `_read_trajectories_and_train_models`; reading a file gives back what was exported (C42 for
the export; the parser is external). -/
def readPending (U : Setup K) (st : Learner K) : Except RunErr (Learner K) := readAll U { st with pending := [] } st.pending

/-- semi_online_learning_algorithm.py:370-377 `_executed_enough_successful_steps_per_action`: the recorded steps are those of the
explorations (C41). -/
def enough (U : Setup K) (log : List (Try (HybridState K) Ground × Bool)) : Bool :=
  U.names.all fun a => decide (U.minExecutions ≤ (log.filter fun t => t.1.ok && t.1.act.call.name == a).length)

/-- What `end_episode` is told: `goal_reached`, `has_solved_solver_problem` and the two statuses. -/
structure Record where
  reached : Bool
  solver : Bool
  safe : SolveStatus
  optimistic : SolveStatus
deriving DecidableEq

/-- semi_online_learning_algorithm.py:545-568 with 379-418: the exploration at the end of an episode, whose transitions are not
integrated but exported; the undecided failures are only reconsidered when the goal was not reached. -/
def semiEpisode (U : Setup K) (st : Learner K) (p : Episode K) (s : HybridState K) (safe optimistic : SolveStatus) : Except RunErr (Learner K × Record) :=
  let r := semiExplore p.env U.maxFailed U.maxSteps U.order dup p.grounded s st.explorer
  let new := (r.learner.log.drop st.explorer.log.length).map fun t => obsOf t.1
  match (if r.reached then .ok st else teach U st (.explored [] true)) with
  | .error e => .error e
  | .ok st' => .ok ({ st' with explorer := r.learner, pending := st'.pending ++ slices U.maxFile new.length new }, ⟨r.reached, false, safe, optimistic⟩)

/-- semi_online_learning_algorithm.py:497-568 `try_to_solve_problems`: one problem. -/
def semiProblem (U : Setup K) (index : Nat) (st : Learner K) (p : Episode K) : Except RunErr (Learner K × Record) :=
  if decide (U.minEpisodes ≤ index) || enough U st.explorer.log then
    match readPending U st with
    | .error e => .error e
    | .ok st1 =>
      match solve U true st1 p with
      | .error e => .error e
      | .ok (st2, q) =>
        if q.status = .ok then .ok (st2, ⟨true, true, q.status, .other "irrelevant"⟩)
        else
          match solve U false st2 p with
          | .error e => .error e
          | .ok (st3, o) =>
            if o.status = .ok then .ok (st3, ⟨true, true, q.status, o.status⟩)
            else semiEpisode U st3 p (o.state.getD p.init) q.status o.status
  else semiEpisode U st p p.init .noSolution .noSolution

/-- semi_online_learning_algorithm.py:497-568 `try_to_solve_problems`: the loop. -/
def semiRun (U : Setup K) : Nat → Learner K → List (Episode K) → Except RunErr (Learner K × List Record)
  | _, st, [] => .ok (st, [])
  | i, st, p :: ps =>
    match semiProblem U i st p with
    | .error e => .error e
    | .ok (st', r) =>
      match semiRun U (i + 1) st' ps with
      | .error e => .error e
      | .ok (st'', rs) => .ok (st'', r :: rs)

/-! ### NOAM -/

/-- noam_algorithm.py:301-338 `_explore_and_terminate_episode`: the transitions of the informative selections are integrated, those of the
random fallback are not; then the undecided failures are reconsidered. -/
def noamEpisode (U : Setup K) (st : Learner K) (p : Episode K) (s : HybridState K) : Except RunErr (Learner K × Bool × Nat) :=
  let r := noamExplore p.env U.maxFailed U.maxSteps U.order (fun g => g.call.name) U.select dup p.grounded s st.explorer
  let new := ((r.learner.log.drop st.explorer.log.length).filter fun t => t.2).map fun t => obsOf t.1
  match teach U st (.explored new true) with
  | .error e => .error e
  | .ok st' => .ok ({ st' with explorer := r.learner }, r.reached, r.steps)

/-- The learners of noam_algorithm.py: `NumericOnlineActionModelLearner` and `GoalOrientedExplorer` (which differ in `select` and
`order`), `InformativeExplorer`, and `OptimisticExplorer` with `InformativeSVM`. -/
inductive Explorers where
  | noam | informative | optimistic
deriving DecidableEq

/-- noam_algorithm.py:340-381, 540-576, 608-644: the optimistic model, then an exploration from the state that the executed plan reached
(`apply_exploration_policy`) or from the initial state (`OptimisticExplorer`, `InformativeSVM`). -/
def tryOptimistic (U : Setup K) (fromInit : Bool) (st : Learner K) (p : Episode K) : Except RunErr (Learner K × Bool × Nat) :=
  match solve U false st p with
  | .error e => .error e
  | .ok (st1, o) => if o.status = .ok then .ok (st1, true, o.len) else noamEpisode U st1 p (if fromInit then p.init else o.state.getD p.init)

/-- noam_algorithm.py:383-415 `try_to_solve_problem`; `next` is `apply_exploration_policy`. -/
def trySafe (U : Setup K) (next : Learner K → Except RunErr (Learner K × Bool × Nat)) (st : Learner K) (p : Episode K) :
    Except RunErr (Learner K × Bool × Nat) :=
  match solve U true st p with
  | .error e => .error e
  | .ok (st1, q) =>
    if q.status = .ok then .ok (st1, true, q.len)
    else if q.status = .notApplicable then .error .unsafePlan
    else next st1

/-- noam_algorithm.py:340-415, 492-508, 540-576, 608-644: `try_to_solve_problem` of each learner. -/
def noamProblem (U : Setup K) (π : Explorers) (st : Learner K) (p : Episode K) : Except RunErr (Learner K × Bool × Nat) :=
  match π with
  | .noam => trySafe U (fun st1 => tryOptimistic U false st1 p) st p
  | .informative => trySafe U (fun st1 => noamEpisode U st1 p p.init) st p
  | .optimistic => tryOptimistic U true st p

/-- A series of problems given to one learner. -/
def noamRun (U : Setup K) (π : Explorers) : Learner K → List (Episode K) → Except RunErr (Learner K × List (Bool × Nat))
  | st, [] => .ok (st, [])
  | st, p :: ps =>
    match noamProblem U π st p with
    | .error e => .error e
    | .ok (st', r) =>
      match noamRun U π st' ps with
      | .error e => .error e
      | .ok (st'', rs) => .ok (st'', r :: rs)

end Session
end Model

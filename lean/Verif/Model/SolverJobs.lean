import Verif.Spec.SolverJobs

/-! Model of the solver jobs: `experiments/cluster_scripts/sbatching_{fast_downward_solver,solver,solver_metric_ff}.py` submit one job for every problem of a directory, and
each job runs `solve_problem` of `solvers/{fast_downward,enhsp,metric_ff}_solver.py` once (their `__main__`). The jobs run at the same time on one directory; the job of a
problem is named by the stem of the problem file. A planner writes its file line by line, and so does the Python process when it rewrites the file, so that a job can be
killed in between. The directories exist and can be written to; the SAS files have `uuid` names and are left out. -/
namespace Model
namespace SolverJobs
open Spec.SolverJobs
open Spec.Jobs (Planner)
open Spec (Outcome)

/-- Where a job is. -/
inductive Phase where
  | ready
  -- the `i`-th process of the planner runs; `done`: the lines it has written, `none` before it opens the file
  | planning (i : Nat) (done : Option Nat)
  -- it has ended; `hit`: killed by another job
  | ended (i : Nat) (hit : Bool)
  -- the file has been read and is about to be opened for writing
  | opening (t : Text)
  -- the lines that are still to be written
  | rewriting (rest : Text)
  | unlinking (o : Outcome)
  | returned (o : Outcome)
  | raised
  | dead
deriving DecidableEq

/-- What can happen to one job: its planner is started, opens the file, writes a line or ends; it runs out of time; the Python process goes on; the planner is killed
by another job; the cluster kills the job. -/
inductive Act where
  | launch
  | openFile
  | line
  | exit
  | timeout
  | go
  | hit
  | kill
deriving DecidableEq

/-- A job: its phase and its solution file. -/
structure Job where
  phase : Phase
  file : Option Text
deriving DecidableEq

/-- The start of the `i`-th process. metric_ff_solver.py:112-113: the shell empties the file (`> solution`); fast_downward_solver.py:64-86, enhsp_solver.py:103-123: the planner is
given the name of the file. -/
def start (s : Planner) (i : Nat) (j : Job) : Job :=
  if s = .metricFF then ⟨.planning i (some 0), some []⟩ else ⟨.planning i none, j.file⟩

/-- Metric-FF after its process: metric_ff_solver.py:62-88 (the file exists because the shell has made it; it is read once here, several times in the code). -/
def afterFF (W : World) (p : String) (i : Nat) (hit : Bool) (j : Job) : Job :=
  match j.file with
  | none => ⟨.raised, none⟩
  | some t =>
    if (hit = true ∨ (W.process p i).code ≠ 0) ∧ W.status t ≠ .ok ∧ W.status t ≠ .noSolution then { j with phase := .unlinking .solverError }
    else if W.status t = .ok then { j with phase := .opening (W.plan t) }
    else { j with phase := .unlinking .noSolution }

/-- Fast Downward: fast_downward_solver.py:88-107 with 29-40; a missing file raises `FileNotFoundError`. -/
def afterFD (W : World) (p : String) (i : Nat) (j : Job) : Job :=
  if fdOutcome (W.process p i).code = .ok then
    match j.file with
    | none => ⟨.raised, none⟩
    | some t => { j with phase := .opening (removeCost t) }
  else { j with phase := .returned (fdOutcome (W.process p i).code) }

/-- ENHSP: enhsp_solver.py:64-88 and the retries 124-128. -/
def afterENHSP (W : World) (p : String) (i : Nat) (hit : Bool) (j : Job) : Job :=
  let r := enhspOutcome (if hit then (W.process p i).cut else (W.process p i).sentences)
  if r.1 = false ∧ i < 3 then start .enhsp (i + 1) j else { j with phase := .returned r.2 }

/-- The Python process goes on. -/
def go (W : World) (s : Planner) (p : String) (j : Job) : Option Job :=
  match j.phase with
  | .ended i hit => some (match s with
    | .metricFF => afterFF W p i hit j
    | .fastDownward => afterFD W p i j
    | .enhsp => afterENHSP W p i hit j)
  | .opening t => some ⟨.rewriting t, some []⟩
  | .rewriting [] => some { j with phase := .returned .ok }
  | .rewriting (l :: ls) => some ⟨.rewriting ls, some (j.file.getD [] ++ [l])⟩
  | .unlinking o => some ⟨.returned o, none⟩
  | _ => none

/-- One job. `none`: this cannot happen now. -/
def act (W : World) (s : Planner) (p : String) (j : Job) : Act → Option Job
  | .launch => if j.phase = .ready then some (start s 0 j) else none
  -- the planner opens the file it was given
  | .openFile => match j.phase with
    | .planning i none => if (W.process p i).text.isSome then some ⟨.planning i (some 0), some []⟩ else none
    | _ => none
  | .line => match j.phase with
    | .planning i (some k) => match ((W.process p i).text.getD [])[k]? with
      | some l => some ⟨.planning i (some (k + 1)), some (j.file.getD [] ++ [l])⟩
      | none => none
    | _ => none
  -- the process ends when it has written everything
  | .exit => match j.phase with
    | .planning i none => if (W.process p i).text.isSome then none else some { j with phase := .ended i false }
    | .planning i (some k) => if k < ((W.process p i).text.getD []).length then none else some { j with phase := .ended i false }
    | _ => none
  -- metric_ff_solver.py:54-60, enhsp_solver.py:47-53; Fast Downward watches the time itself and answers with its return code
  | .timeout => match j.phase, s with
    | .planning _ _, .metricFF => some { j with phase := .unlinking .timeout }
    | .planning _ _, .enhsp => some { j with phase := .returned .timeout }
    | _, _ => none
  | .go => go W s p j
  -- a process that does not run is not hit
  | .hit => match j.phase with
    | .planning i _ => some { j with phase := .ended i true }
    | _ => some j
  | .kill => match j.phase with
    | .returned _ => none
    | .raised => none
    | .dead => none
    | _ => some { j with phase := .dead }

/-- The jobs of all problems. -/
abbrev Jobs := String → Job

/-- What happens: an act of the job of a problem; being hit is not an act of its own. -/
abbrev Event := String × Act

/-- Whether a timeout of the job of `q` kills the planner of `p`: `pkill -f` on the machine. metric_ff_solver.py:57, enhsp_solver.py:52. -/
def kills (C : Cluster) (q p : String) : Bool := decide (q ≠ p ∧ C.planner q = C.planner p ∧ C.machine q = C.machine p)

/-- One event; only a timeout concerns other jobs. -/
def step (W : World) (C : Cluster) (js : Jobs) (e : Event) : Option Jobs :=
  if e.2 = .hit then none
  else match act W (C.planner e.1) e.1 (js e.1) e.2 with
    | none => none
    | some j => some fun p =>
      if p = e.1 then j
      else if e.2 = .timeout ∧ kills C e.1 p then (act W (C.planner p) p (js p) .hit).getD (js p)
      else js p

/-- A history. -/
def run (W : World) (C : Cluster) (js : Jobs) : List Event → Option Jobs
  | [] => some js
  | e :: es => (step W C js e).bind fun js' => run W C js' es

/-- Before the jobs: `files` are the solution files. -/
def initial (files : String → Option Text) : Jobs := fun p => ⟨.ready, files p⟩

/-- The jobs a submission script starts: sbatching_*.py:66-87: one for every problem file of the directory with the prefix, in the order of the file system; `" ".join(arguments)`
(common.py:226) raises when an argument is not a string. `problems`: the stems. -/
def submitted (pre : String) (timeoutIsText : Bool) (problems : List String) : Except Err (List String) :=
  let ps := problems.filter fun p => pre.toList.isPrefixOf p.toList
  if ps = [] ∨ timeoutIsText = true then .ok ps else .error .typeError

end SolverJobs
end Model

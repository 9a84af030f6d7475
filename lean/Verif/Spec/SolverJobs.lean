import Verif.Model.Validator
import Verif.Spec.Jobs

/-! The programs the solver jobs start, and what the jobs are meant to answer and to leave in the solution files when nothing disturbs them. -/
namespace Spec
namespace SolverJobs
open Jobs (Planner)
open Model (FfStatus EnhspRun)

/-- A file: its lines. -/
abbrev Text := List String

/-- One process of a planner: what it writes into the solution file (`none`: it does not open it), its return code, its sentences (ENHSP), and its sentences if it is
killed before its end. -/
structure Process where
  text : Option Text
  code : Nat
  sentences : EnhspRun
  cut : EnhspRun

/-- The programs: the `i`-th process started for a problem, and `MetricFFParser` (not in the repository): the status and the plan it finds in the output. -/
structure World where
  process : String → Nat → Process
  status : Text → FfStatus
  plan : Text → Text

/-- The jobs: the planner of a problem and the machine it runs on. -/
structure Cluster where
  planner : String → Planner
  machine : String → Nat

/-- What a Metric-FF job leaves when its planner has written `t` and ended with the return code `code`: the answer and the file. -/
def ffAnswer (W : World) (t : Text) (code : Nat) : Outcome × Option Text :=
  if W.status t = .ok then (.ok, some (W.plan t))
  else if code ≠ 0 ∧ W.status t ≠ .noSolution then (.solverError, none)
  else (.noSolution, none)

/-- What a Fast Downward job leaves; `before`: the solution file before the job. `none`: `FileNotFoundError`. -/
def fdAnswer (before : Option Text) (P : Process) : Option (Outcome × Option Text) :=
  let file := match P.text with
    | none => before
    | some t => some t
  if P.code = 0 then
    match file with
    | none => none
    | some t => some (.ok, some t.dropLast)
  else if P.code = 21 ∨ P.code = 23 ∨ P.code = 247 then some (.timeout, file)
  else if P.code = 11 ∨ P.code = 12 then some (.noSolution, file)
  else some (.solverError, file)

/-- What ENHSP says: time out, solved, no solution; `none`: none of the sentences. -/
def said (r : EnhspRun) : Option Outcome :=
  if r.timedOut then some .timeout
  else if r.solved then some .ok
  else if r.unsolvable ∨ r.otherUnsolvable ∨ r.planNull ∨ r.goalUnreachable then some .noSolution
  else none

/-- The file after processes that wrote `texts` one after the other. -/
def lastText (before : Option Text) (texts : List (Option Text)) : Option Text :=
  texts.foldl (fun f t => match t with
    | none => f
    | some t => some t) before

end SolverJobs
end Spec

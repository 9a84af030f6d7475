import Verif.Model.WorkingDir

/-! Model of the jobs of the numeric experiments that run PlanMiner on one machine:
`experiments/concurrent_execution/parallel_numeric_experiment_runner.py:89-199`. Several jobs run at the same time; what happens is a list of
events. Times are in seconds. -/
namespace Model
namespace PlanMinerRun
open Results (Name)
open Spec.Jobs (Text)

/-- parallel_numeric_experiment_runner.py:30: `LEARNING_TIMEOUT`. -/
def learningTimeout : Nat := 60 * 30

/-- A job: the name of the output file, chosen with a fresh `uuid` (l.140), and what its PlanMiner process, left alone, does to that file: the texts the
file has one after the other, the last one being the complete output. A process that fails without output has none. -/
structure Job where
  out : Name
  drafts : List Text

/-- What `_apply_plan_miner` returns (l.164-199): the learned domain and the learning time. -/
structure Result (Dom : Type) where
  domain : Dom
  time : Int
deriving DecidableEq

/-- Where a job is: before PlanMiner is started; waiting for its process, which was started at `since` and has written `k` drafts; its process has ended,
`wait` is about to return; returned. -/
inductive Phase (Dom : Type) where
  | idle
  | alive (since k : Nat)
  | ended (since : Nat)
  | done (r : Result Dom)

/-- The machine: the time, the jobs, the files of the directory of PlanMiner. -/
structure Machine (Dom : Type) where
  now : Nat
  phase : Nat → Phase Dom
  files : Name → Option Text

/-- What can happen. -/
inductive Event where
  | tick
  | start (j : Nat)
  | write (j : Nat)
  | exit (j : Nat)
  | timeout (j : Nat)
  | collect (j : Nat)
deriving DecidableEq

section
variable {Dom : Type} (parse : Text → Option Dom) (empty : Dom) (jobs : Nat → Job)

/-- parallel_numeric_experiment_runner.py:156-162, 186-199, 92-131: if the output file exists, the domain in it, or the domain without actions if it cannot
be parsed, and the time since the start; otherwise the domain without actions and the time -1. (Setting the name and the requirements of the
parsed domain is left out; assigning each action its own fields changes nothing.) -/
def result (m : Machine Dom) (since : Nat) (j : Nat) : Result Dom :=
  match m.files (jobs j).out with
  | none => ⟨empty, -1⟩
  | some t => ⟨(parse t).getD empty, (m.now - since : Nat)⟩

/-- The job returns; the output file, if there is one, is moved to the test set (l.198). -/
def finish (m : Machine Dom) (since : Nat) (j : Nat) : Machine Dom :=
  { m with phase := Function.update m.phase j (.done (result parse empty jobs m since j)),
           files := Function.update m.files (jobs j).out none }

/-- `pkill -f ./bin/PlanMiner` (l.149): every PlanMiner process of the machine ends, whichever job started it. -/
def killAll (m : Machine Dom) : Machine Dom :=
  { m with phase := fun i => match m.phase i with
      | .alive since _ => .ended since
      | p => p }

/-- One event; `none` if it is not possible. -/
def step (m : Machine Dom) : Event → Option (Machine Dom)
  | .tick => some { m with now := m.now + 1 }
  -- l.138-143: `Popen`
  | .start j => match m.phase j with
    | .idle => some { m with phase := Function.update m.phase j (.alive m.now 0) }
    | _ => none
  -- the process goes on
  | .write j => match m.phase j with
    | .alive since k => match (jobs j).drafts[k]? with
      | some t => some { m with phase := Function.update m.phase j (.alive since (k + 1)), files := Function.update m.files (jobs j).out (some t) }
      | none => none
    | _ => none
  -- the process has done everything
  | .exit j => match m.phase j with
    | .alive since k => if k = (jobs j).drafts.length then some { m with phase := Function.update m.phase j (.ended since) } else none
    | _ => none
  -- l.146-149: `TimeoutExpired`; then l.156-162 as after a normal end
  | .timeout j => match m.phase j with
    | .alive since _ => if since + learningTimeout ≤ m.now then some (finish parse empty jobs (killAll m) since j) else none
    | _ => none
  -- l.145, 156-162: `wait` returns (it raises nothing for a return code)
  | .collect j => match m.phase j with
    | .ended since => some (finish parse empty jobs m since j)
    | _ => none

/-- A list of events. -/
def run (m : Machine Dom) : List Event → Option (Machine Dom)
  | [] => some m
  | e :: es => (step parse empty jobs m e).bind fun m' => run m' es

/-- No job has started PlanMiner; no file has the name of an output. -/
def initial : Machine Dom := ⟨0, fun _ => .idle, fun _ => none⟩

end

/-! ### Paths after the change of directory -/
open WorkingDir (Abs Path)

/-- The directories as the job was given them, and the names of files. -/
structure Dirs where
  miner : Path
  workdir : Path
  test : Path
  working : Path
  minerDomain : Name
  domain : Name

/-- What the job opens after `os.chdir(PLAN_MINER_DIR_PATH)` (l.139), in this order, until it returns to the runner: the trajectories (l.143), the output
(l.156) and, without an output, the domain of PlanMiner (l.93); else the output, the domain of PlanMiner (l.106 or l.122) and the file in the
test set (l.198). The process never changes back; then the exported domain (parallel_basic_experiment_runner.py:113-127, 184) and the
directory of backups (185-186). -/
def opens (S : Dirs) (out : Name) (exists_ : Bool) (cwd : Abs) : List Abs :=
  let dir := S.miner.at cwd
  [(S.workdir.child "plan_miner_trajectories.pts".toList).at dir, (S.miner.child (out ++ ".pddl".toList)).at dir] ++
  (if exists_ then [(S.miner.child (out ++ ".pddl".toList)).at dir, (S.workdir.child S.minerDomain).at dir, (S.test.child S.domain).at dir]
   else [(S.workdir.child S.minerDomain).at dir]) ++
  [(S.test.child S.domain).at dir, ((S.working.child "results_directory".toList).child "domains_backup".toList).at dir]

end PlanMinerRun
end Model

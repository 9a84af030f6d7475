import Verif.Model.Results
import Verif.Spec.Jobs

/-! Model of a submission script and the cluster: `experiments/cluster_scripts/common.py:35-67, 160-270` and the loops of
`numeric_experiments_sbatch_runner.py:27-59`, `multi_agent_experiments_sbatch_runner.py:31-84`, `online_experiment_sbatch_runner.py:42-70`. The cluster starts and
ends jobs when it likes; what happens is a list of events. Which jobs the loops go through is that of `Model/Cluster.lean`; here it is a list. -/
namespace Model
namespace Submission
open Results (num)
open Spec.Jobs (Text)

variable {α : Type}

/-- What a submitted file asks for: the creation of the folders of an experiment, a run that is submitted until the queue shows it, or a run over triplets, which is
submitted once (multi_agent_experiments_sbatch_runner.py:66-78). -/
inductive Work (α : Type) where
  | folders (a : α)
  | run (a : α)
  | triplets (a : α)
deriving DecidableEq

inductive Status where
  | pending | running | ended (ok : Bool)
deriving DecidableEq

/-- Where the script is. The head of `todo` is what is being submitted; `again`: `sbatch` has failed once for it; `written`: `temp.sbatch` has been written. -/
inductive Script (α : Type) where
  -- common.py:170-187 with 69-107: the folders of the experiments
  | folders (again written : Bool) (todo : List (Work α)) (sids : List Nat)
  -- common.py:104-106
  | foldersUnlink (todo : List (Work α)) (sids : List Nat)
  -- common.py:185: the list of one round; `rest`: not asked yet; `any`: one has been shown
  | poll (sids rest : List Nat) (any : Bool)
  -- the runs
  | runs (again written : Bool) (todo : List (Work α))
  -- common.py:270
  | check (sid : Nat) (todo : List (Work α))
  -- numeric_experiments_sbatch_runner.py:55
  | runsUnlink (todo : List (Work α))
  | finished
  | raised
deriving DecidableEq

/-- The jobs of the cluster by their ids, the file `temp.sbatch`, the script. -/
structure World (α : Type) where
  jobs : Nat → Option (Work α × Status)
  file : Option (Work α)
  script : Script α

/-- What can happen: the cluster starts or ends a job (also one that was cancelled while pending); the script writes the file; `sbatch` accepts it with an id, fails,
or fails although the job was accepted; the script deletes the file; `squeue` prints a text or fails; the script goes on; another program writes or deletes the file. -/
inductive Event (α : Type) where
  | start (id : Nat)
  | stop (id : Nat) (ok : Bool)
  | write
  | accept (id : Nat)
  | refuse
  | lose (id : Nat)
  | unlink
  | listing (t : Text)
  | noListing
  | next
  | otherWrite (w : Work α)
  | otherUnlink
deriving DecidableEq

/-- A new job. -/
def submit (w : World α) (id : Nat) (x : Work α) : Nat → Option (Work α × Status) := Function.update w.jobs id (some (x, .pending))

/-- common.py:57-67 `validate_job_running`: `str(sid) in result`. With `shell=True` and a list only the word `squeue` is the command, so the text lists the jobs of
everybody. -/
def shown (sid : Nat) (t : Text) : Bool := decide (num sid <:+: t)

/-- common.py:192-241 `submit_job` up to `sbatch`: a failure is answered by a second attempt (without a dependency, and the runners give none), a second failure is
raised. -/
def refused (again : Bool) (retry : Script α) : Script α := if again then .raised else retry

/-- common.py:270 and the loops around it: after the answer whether the job is shown. A run is submitted again, a run over triplets is not. -/
def checked (is : Bool) (todo : List (Work α)) : Script α :=
  match todo with
  | [] => .runs false false []
  | .run a :: t => if is then .runsUnlink t else .runs false false (.run a :: t)
  | _ :: t => .runs false false t

/-- One event; `none` if it is not possible. `plan`: the runs. -/
def step (plan : List (Work α)) (w : World α) : Event α → Option (World α)
  | .start id => match w.jobs id with
    | some (x, .pending) => some { w with jobs := Function.update w.jobs id (some (x, .running)) }
    | _ => none
  | .stop id ok => match w.jobs id with
    | some (_, .ended _) => none
    | some (x, _) => some { w with jobs := Function.update w.jobs id (some (x, .ended ok)) }
    | none => none
  -- common.py:36-37
  | .write => match w.script with
    | .folders a false (x :: t) sids => some { w with file := some x, script := .folders a true (x :: t) sids }
    | .runs a false (x :: t) => some { w with file := some x, script := .runs a true (x :: t) }
    | _ => none
  -- common.py:39-41: the job is what the file says
  | .accept id => match w.script, w.file, w.jobs id with
    | .folders _ true (_ :: t) sids, some y, none => some { w with jobs := submit w id y, script := .foldersUnlink t (sids ++ [id]) }
    | .runs _ true (x :: t), some y, none => some { w with jobs := submit w id y, script := .check id (x :: t) }
    | _, _, _ => none
  -- common.py:237-241
  | .refuse => match w.script with
    | .folders a true (x :: t) sids => some { w with script := refused a (.folders true false (x :: t) sids) }
    | .runs a true (x :: t) => some { w with script := refused a (.runs true false (x :: t)) }
    | _ => none
  | .lose id => match w.script, w.file, w.jobs id with
    | .folders a true (x :: t) sids, some y, none => some { w with jobs := submit w id y, script := refused a (.folders true false (x :: t) sids) }
    | .runs a true (x :: t), some y, none => some { w with jobs := submit w id y, script := refused a (.runs true false (x :: t)) }
    | _, _, _ => none
  -- common.py:106; numeric_experiments_sbatch_runner.py:55; FileNotFoundError without the file
  | .unlink => match w.script with
    | .foldersUnlink t sids => some { w with file := none, script := if w.file.isNone then .raised else .folders false false t sids }
    | .runsUnlink t => some { w with file := none, script := if w.file.isNone then .raised else .runs false false t }
    | _ => none
  | .listing t => match w.script with
    | .poll sids (x :: r) any => some { w with script := .poll sids r (any || shown x t) }
    | .check sid todo => some { w with script := checked (shown sid t) todo }
    | _ => none
  -- common.py:66-67
  | .noListing => match w.script with
    | .poll sids (_ :: r) any => some { w with script := .poll sids r any }
    | .check _ todo => some { w with script := checked false todo }
    | _ => none
  | .next => match w.script with
    | .folders _ _ [] sids => some { w with script := .poll sids sids false }
    | .poll sids [] any => some { w with script := if any then .poll sids sids false else .runs false false plan }
    | .runs _ _ [] => some { w with script := .finished }
    | _ => none
  | .otherWrite x => some { w with file := some x }
  | .otherUnlink => some { w with file := none }

/-- A list of events. -/
def run (plan : List (Work α)) (w : World α) : List (Event α) → Option (World α)
  | [] => some w
  | e :: es => (step plan w e).bind fun w' => run plan w' es

/-- Before the script: no job of it, no file. -/
def initial (folders : List (Work α)) : World α := ⟨fun _ => none, none, .folders false false folders []⟩

end Submission
end Model

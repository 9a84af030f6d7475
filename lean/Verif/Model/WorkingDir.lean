import Verif.Spec.Jobs

/-! Model of the working directory of the process while a learned domain is validated: the planners and VAL are started after
`os.chdir`, and paths that are not absolute mean different files then. `validators/safe_domain_validator.py:271-318`,
`validators/validator_script_data.py:20-46`, `solvers/{fast_downward,metric_ff,enhsp}_solver.py`.
Paths have no `..` and no links; whether a planner solves a problem is given. -/
namespace Model
namespace WorkingDir
open Spec.Jobs (Planner solutionOf)
open Results (Name)

/-- A directory or file of the file system: its components from the root. -/
abbrev Abs := List Name

/-- A path as the program has it. -/
structure Path where
  absolute : Bool
  parts : List Name
deriving DecidableEq

/-- The file a path means when the process is in `cwd`. -/
def Path.at (p : Path) (cwd : Abs) : Abs := if p.absolute then p.parts else cwd ++ p.parts

/-- `path / name`. -/
def Path.child (p : Path) (n : Name) : Path := ⟨p.absolute, p.parts ++ [n]⟩

/-- The directories of the tools, of the experiment and of the test set; the name of the domain file. -/
structure Setup where
  fastDownward : Path
  metricFF : Path
  validator : Path
  working : Path
  test : Path
  domain : Name

/-- A program that is started, with the files it reads and writes, or a solution file that is rewritten. -/
inductive Call where
  | plan (s : Planner) (domain problem solution : Abs)
  | rewrite (solution : Abs)
  | val (domain problem plan log : Abs)
deriving DecidableEq

/-- The process: its working directory, what it has started, and whether it raised a `FileNotFoundError`. -/
structure Proc where
  cwd : Abs
  calls : List Call
  raised : Bool
deriving DecidableEq

/-- Starting something. -/
def Proc.add (s : Proc) (c : List Call) : Proc := { s with calls := s.calls ++ c }

/-- fast_downward_solver.py:44-107: the paths are made absolute before the change of directory; the process returns only after a
success. -/
def fastDownward (S : Setup) (dirs : Abs → Bool) (solved : Bool) (p : Name) (s : Proc) : Proc :=
  let dir := S.fastDownward.at s.cwd
  let sol := (S.test.child (solutionOf p)).at s.cwd
  if dirs dir then
    let t := s.add [.plan .fastDownward ((S.test.child S.domain).at s.cwd) ((S.test.child p).at s.cwd) sol]
    if solved then t.add [.rewrite sol] else { t with cwd := dir }
  else { s with raised := true }

/-- metric_ff_solver.py:91-113: the process changes its directory and never returns; the paths are used as they are. -/
def metricFF (S : Setup) (dirs : Abs → Bool) (solved : Bool) (p : Name) (s : Proc) : Proc :=
  let dir := S.metricFF.at s.cwd
  let sol := (S.test.child (solutionOf p)).at dir
  if dirs dir then
    let t := { s with cwd := dir }.add [.plan .metricFF ((S.test.child S.domain).at dir) ((S.test.child p).at dir) sol]
    if solved then t.add [.rewrite sol] else t
  else { s with raised := true }

/-- enhsp_solver.py:86-128 (one attempt). -/
def enhsp (S : Setup) (p : Name) (s : Proc) : Proc :=
  s.add [.plan .enhsp ((S.test.child S.domain).at s.cwd) ((S.test.child p).at s.cwd) ((S.test.child (solutionOf p)).at s.cwd)]

/-- A planner. -/
def solve (S : Setup) (dirs : Abs → Bool) (solved : Bool) (p : Name) (s : Proc) : Planner → Proc
  | .fastDownward => fastDownward S dirs solved p s
  | .metricFF => metricFF S dirs solved p s
  | .enhsp => enhsp S p s

/-- The log of VAL; its name has a `uuid`. -/
def logName : Name := "validation_log.txt".toList

/-- validator_script_data.py:20-46 and opening the log (safe_domain_validator.py:135-137, 160-163): the log is next to the domain file;
if that directory does not exist there is no log. -/
def val (S : Setup) (dirs : Abs → Bool) (dir : Path) (p : Name) (plan : Path) (s : Proc) : Proc :=
  if dirs (S.validator.at s.cwd) && dirs (dir.at s.cwd) then
    s.add [.val ((dir.child S.domain).at s.cwd) ((S.test.child p).at s.cwd) (plan.at s.cwd) ((dir.child logName).at s.cwd)]
  else { s with raised := true }

/-- safe_domain_validator.py:275-300: the planners one after the other, then VAL with the domain of the experiment; otherwise
VAL with the learned domain and the expert's plan (302-312). -/
def problem (S : Setup) (dirs : Abs → Bool) (solved : Planner → Name → Bool) (p : Name) : List Planner → Proc → Proc
  | [], s => val S dirs S.test p (S.working.child (solutionOf p)) s
  | a :: rest, s =>
    let t := solve S dirs (solved a p) p s a
    if t.raised then t
    else if solved a p then val S dirs S.working p (S.test.child (solutionOf p)) t
    else problem S dirs solved p rest t

/-- safe_domain_validator.py:271-312: the problems. -/
def validate (S : Setup) (dirs : Abs → Bool) (solved : Planner → Name → Bool) (portfolio : List Planner) : List Name → Proc → Proc
  | [], s => s
  | p :: ps, s =>
    let t := problem S dirs solved p portfolio s
    if t.raised then t else validate S dirs solved portfolio ps t

end WorkingDir
end Model

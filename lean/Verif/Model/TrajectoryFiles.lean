import Mathlib.Data.List.Basic

/-! Model of the creation of trajectory files, with crash points: `trajectory_creators/experiments_trajectories_creator.py` and
`trajectory_creators/ma_shorted_experiments_trajectories_creator.py`. What the parsers and exporters of the library make of a problem and
a plan is an argument. -/
namespace Model
namespace TrajectoryFiles

/-- The content of a file. -/
abbrev Text := List Char

/-- The directories: the working directory, and the two data sets of the multi-agent creator. -/
inductive Folder where
  | work | enhanced | vanilla
deriving DecidableEq

/-- The kinds of files. -/
inductive Kind where
  | problem | plan | trajectory
deriving DecidableEq

/-- A file: directory, stem and suffix. -/
structure Path where
  folder : Folder
  stem : String
  kind : Kind
deriving DecidableEq

/-- The files on the disk. -/
abbrev Disk := Path → Option Text

/-- Opening a file for writing and writing a text. -/
structure Write where
  path : Path
  text : Text

/-- A file replaced. -/
def setFile (d : Disk) (p : Path) (t : Text) : Disk := fun q => if q = p then some t else d q

/-- The disk after writes. -/
def apply (d : Disk) (ws : List Write) : Disk := ws.foldl (fun d w => setFile d w.path w.text) d

/-- The possible disks after a crash during a series of writes: some writes are done, and of the next one any part. (A file is truncated when
it is opened, and its text reaches the disk from the front.) -/
def Crashed (d : Disk) (ws : List Write) (d' : Disk) : Prop :=
  ∃ k, d' = apply d (ws.take k) ∨ ∃ w pre, ws[k]? = some w ∧ pre <+: w.text ∧ d' = setFile (apply d (ws.take k)) w.path pre

/-- A loop over the solution files: the writes, and whether an exception ended it. The check of existing files sees the writes before. -/
def loop (step : Disk → String → List Write × Bool) : Disk → List String → List Write × Bool
  | _, [] => ([], false)
  | d, s :: ss =>
    if (step d s).2 then ((step d s).1, true)
    else ((step d s).1 ++ (loop step (apply d (step d s).1) ss).1, (loop step (apply d (step d s).1) ss).2)

/-- What becomes of a plan: the text of its trajectory; a `ValueError` or an `IndexError` while parsing or exporting the plan; any other
exception (also one while parsing the problem). -/
inductive Outcome where
  | exported (t : Text)
  | refused
  | failed
deriving DecidableEq

/-- experiments_trajectories_creator.py:46-58: a solution. -/
def step (plan : String → Outcome) (d : Disk) (s : String) : List Write × Bool :=
  if (d ⟨.work, s, .trajectory⟩).isSome then ([], false)
  else match plan s with
    | .exported t => ([⟨⟨.work, s, .trajectory⟩, t⟩], false)
    | .refused => ([], false)
    | .failed => ([], true)

/-- experiments_trajectories_creator.py:40-58 `create_domain_trajectories`, on the solutions in the order of `glob`. -/
def create (plan : String → Outcome) (d : Disk) (solutions : List String) : List Write × Bool := loop (step plan) d solutions

/-- What `_create_multi_agent_trajectory` does (ma_shorted_experiments_trajectories_creator.py:25-57): all three files; a `ValueError` before the
first, or after the plan (line 56); another exception after some of the files. -/
inductive Attempt where
  | done (problem plan trajectory : Text)
  | refused
  | halfway (problem plan : Text)
  | failed (problem plan : Text) (written : Nat)
deriving DecidableEq

/-- The writes of an attempt. -/
def Attempt.writes (folder : Folder) (s : String) : Attempt → List Write
  | .done a b c => [⟨⟨folder, s, .problem⟩, a⟩, ⟨⟨folder, s, .plan⟩, b⟩, ⟨⟨folder, s, .trajectory⟩, c⟩]
  | .refused => []
  | .halfway a b => [⟨⟨folder, s, .problem⟩, a⟩, ⟨⟨folder, s, .plan⟩, b⟩]
  | .failed a b n => [⟨⟨folder, s, .problem⟩, a⟩, ⟨⟨folder, s, .plan⟩, b⟩].take n

/-- ma_shorted_experiments_trajectories_creator.py:74-105: a solution. -/
def maStep (enhanced vanilla : String → Attempt) (d : Disk) (s : String) : List Write × Bool :=
  if (d ⟨.enhanced, s, .trajectory⟩).isSome ∧ (d ⟨.vanilla, s, .trajectory⟩).isSome then ([], false)
  else match enhanced s with
    | .done a b c =>
      ((enhanced s).writes .enhanced s ++ (vanilla s).writes .vanilla s,
        match vanilla s with | .failed _ _ _ => true | _ => false)
    | .failed a b n => ((enhanced s).writes .enhanced s, true)
    | .refused => ([], false)
    | .halfway a b => ((enhanced s).writes .enhanced s, false)

/-- ma_shorted_experiments_trajectories_creator.py:59-105 `create_domain_trajectories` (the domains, copied at the end, are left out). The random numbers of the
run are in `enhanced`. -/
def maCreate (enhanced vanilla : String → Attempt) (d : Disk) (solutions : List String) : List Write × Bool :=
  loop (maStep enhanced vanilla) d solutions

end TrajectoryFiles
end Model

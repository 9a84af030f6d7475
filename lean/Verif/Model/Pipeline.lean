import Verif.Model.TrajectoryFiles
import Verif.Model.Sam

/-! Model of the way from problems to observations: `experiments/experiments_dataset_generator.py:59-73`, `trajectory_creators/experiments_trajectories_creator.py:40-58`
(`Model/TrajectoryFiles.lean`) and `experiments/basic_experiment_runner.py:119-134`. The planners, the exporter and the parser are arguments. -/
namespace Model
namespace Pipeline
open TrajectoryFiles

/-- The library: what becomes of the plan in a solution file, for the problem of that stem; and the observation in a trajectory file. -/
structure Library where
  exporter : String → Text → Outcome
  parser : String → Text → Except Err (List Component)

/-- What becomes of the solution file of a stem as it is on the disk (experiments_trajectories_creator.py:52-58). -/
def planOf (L : Library) (d : Disk) (s : String) : Outcome :=
  match d ⟨.work, s, .plan⟩ with
  | some p => L.exporter s p
  | none => .failed

/-- The creation of the trajectories on the files as they are. -/
def created (L : Library) (d : Disk) (solutions : List String) : Disk := apply d (create (planOf L d) d solutions).1

/-- experiments_dataset_generator.py:63-69 `execute_solver`: planners change solution files and nothing else. -/
def Solving (d d' : Disk) : Prop := ∀ p : Path, p.kind ≠ .plan → d' p = d p

/-- basic_experiment_runner.py:119-134 `collect_observations`: the trajectories in the order of their names; the first one that cannot be parsed ends it. -/
def collect (L : Library) (d : Disk) : List String → Except Err (List (List Component))
  | [] => .ok []
  | s :: ss =>
    match d ⟨.work, s, .trajectory⟩ with
    | none => collect L d ss
    | some t =>
      match L.parser s t with
      | .error e => .error e
      | .ok o =>
        match collect L d ss with
        | .error e => .error e
        | .ok os => .ok (o :: os)

end Pipeline
end Model

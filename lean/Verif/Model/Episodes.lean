import Verif.Model.Core
import Verif.Py.Dict
import Verif.Spec.Episodes

/-! Model of `sam_learning/core/online_learning/episode_info_recorder.py`. Times, solver statuses and the other columns that are
only copied into the summary are left out; serialisation of a step is a parameter. -/
namespace Model
open Spec

/-- episode_info_recorder.py:13-27 `RECORD_COLUMNS`. -/
def recordColumns : List String := ["fold_number", "algorithm_type", "problem_name", "num_grounded_actions", "exploration_time",
  "model_load_time", "sum_failed_actions", "sum_successful_actions", "goal_reached", "num_steps_in_episode",
  "solver_solved_problem", "safe_model_solution_status", "optimistic_model_solution_status"]

def successKey (a : String) : String := "num_" ++ a ++ "_success"
def failKey (a : String) : String := "num_" ++ a ++ "_fail"
def reasonKey (a : String) : Reason → String
  | .discrete => "num_failed_due_to_discrete_condition_" ++ a
  | .numeric => "num_failed_due_to_numeric_condition_" ++ a
  | .unknown => "num_unknown_failed_transitions_" ++ a

/-- episode_info_recorder.py:51-58: the keys of `_episode_info`. -/
def infoKeys (names : List String) : List String :=
  recordColumns ++ names.map successKey ++ names.map failKey ++ names.map (reasonKey · .discrete) ++
    names.map (reasonKey · .numeric) ++ names.map (reasonKey · .unknown)

/-- A row of `summarized_info` (lines 167-179): the episode number, the problem, the counters and `num_steps_in_episode`. -/
structure EpisodeRow where
  number : Nat
  problem : String
  info : List (String × Nat)
  steps : Nat

/-- The fields of `EpisodeInfoRecord`; `files` are the trajectory files written, as the recorded path and the steps in it. -/
structure Recorder (S : Type) where
  number : Nat
  info : List (String × Nat)
  rows : List EpisodeRow
  trajectory : List (LogStep S)
  history : List (String × Nat)
  paths : List String
  files : List (String × List (LogStep S))

variable {S : Type}

/-- episode_info_recorder.py:40-77 `__init__`. -/
def Recorder.init (names : List String) : Recorder S :=
  ⟨1, Py.dictOf ((infoKeys names).map (·, 0)), [], [], Py.dictOf (names.map fun a => (successKey a, 0)), [], []⟩

/-- `d[key] += 1`. -/
def incr (d : List (String × Nat)) (k : String) : Except Err (List (String × Nat)) :=
  match d.lookup k with
  | none => .error .keyError
  | some n => .ok (Py.dictSet d k (n + 1))

/-- episode_info_recorder.py:101-117 `record_failure_reason` (an unknown reason cannot be expressed here; it is a `ValueError`). -/
def Recorder.recordReason (r : Recorder S) (a : String) (why : Reason) : Recorder S × Option Err :=
  match incr r.info (reasonKey a why) with
  | .ok d => ({ r with info := d }, none)
  | .error e => (r, some e)

/-- episode_info_recorder.py:119-145 `record_single_step`. An exception leaves the changes made before it. -/
def Recorder.recordStep (r : Recorder S) (s : LogStep S) : Recorder S × Option Err :=
  let r := { r with trajectory := r.trajectory ++ [s] }
  if s.ok then
    match incr r.info (successKey s.action) with
    | .error e => (r, some e)
    | .ok d1 =>
      let r := { r with info := d1 }
      match incr r.info "sum_successful_actions" with
      | .error e => (r, some e)
      | .ok d2 =>
        let r := { r with info := d2 }
        match incr r.history (successKey s.action) with
        | .error e => (r, some e)
        | .ok h => ({ r with history := h }, none)
  else
    match incr r.info (failKey s.action) with
    | .error e => (r, some e)
    | .ok d1 =>
      let r := { r with info := d1 }
      match incr r.info "sum_failed_actions" with
      | .error e => (r, some e)
      | .ok d2 => ({ r with info := d2 }, none)

/-- `trajectory.components[i : i + MAX_STEPS_IN_FILE]` for `i` in `range(0, len, MAX_STEPS_IN_FILE)` (lines 206-207). -/
def slices (max : Nat) : Nat → List α → List (List α)
  | 0, _ => []
  | _, [] => []
  | n + 1, x :: l => ((x :: l).take max) :: slices max n ((x :: l).drop max)

/-- episode_info_recorder.py:196-234 `export_episode_trajectory` (`test_mode=False`); the limit of 5000 steps is `max`. -/
def Recorder.exportTrajectory (max : Nat) (r : Recorder S) (problem : String) : Recorder S :=
  let parts := slices max r.trajectory.length r.trajectory
  let named := parts.zipIdx.map fun p =>
    ("trajectory_" ++ problem ++ "_episode_" ++ toString r.number ++ "_part_" ++ toString p.2 ++ ".trajectory", p.1)
  { r with paths := r.paths ++ named.map Prod.fst, files := r.files ++ named }

/-- episode_info_recorder.py:147-187 `end_episode`. -/
def Recorder.endEpisode (max : Nat) (r : Recorder S) (problem : String) (export_ : Bool) : Recorder S × Option Err :=
  match r.info.lookup "sum_successful_actions", r.info.lookup "sum_failed_actions" with
  | some a, some b =>
    let r := { r with rows := r.rows ++ [⟨r.number, problem, r.info, a + b⟩], info := r.info.map fun p => (p.1, 0),
                      number := r.number + 1 }
    (if export_ then r.exportTrajectory max problem else r, none)
  | _, _ => (r, some .keyError)

/-- One call. -/
def Recorder.step (max : Nat) (r : Recorder S) : LogOp S → Recorder S × Option Err
  | .step s => r.recordStep s
  | .reason a why => r.recordReason a why
  | .endEpisode p e => r.endEpisode max p e
  | .clearTrajectory => ({ r with trajectory := [] }, none)
  | .clearPaths => ({ r with paths := [] }, none)

/-- A sequence of calls; an exception is reported and the next call made. -/
def Recorder.run (max : Nat) (r : Recorder S) : List (LogOp S) → Recorder S × List (Option Err)
  | [] => (r, [])
  | o :: os =>
    let (r', e) := r.step max o
    let (r'', es) := r'.run max os
    (r'', e :: es)

/-- episode_info_recorder.py:84-85 `get_number_successful_action_executions`. -/
def Recorder.successCount (r : Recorder S) (a : String) : Except Err Nat :=
  match r.history.lookup (successKey a) with
  | none => .error .keyError
  | some n => .ok n

end Model

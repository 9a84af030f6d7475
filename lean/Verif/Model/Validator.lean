import Verif.Spec.Validation
import Verif.Model.Core

/-!
Model of `validators/safe_domain_validator.py` (`DomainValidator.validate_domain`, the statistics it
keeps) and of `solvers/*.py` (how the outcome of a planner process is read). Processes, VAL and the
clock are outside: their results are parameters. The statistics dictionary, whose keys are fixed
(safe_domain_validator.py:70-75, 282-284), is a record of functions of the label.
-/
namespace Model
open Spec

/-- safe_domain_validator.py:70-75 `NUMERIC_STATISTICS_LABELS`: every outcome but `irrelevant`,
and the two expert labels. -/
inductive Label
  | out (o : Outcome) | validated | notValidated
deriving DecidableEq

/-- The labels that are keys of the dictionary. -/
def isLabel : Label → Bool
  | .out .irrelevant => false
  | _ => true

/-- The dictionary `solving_stats` (lines 282-284): counters and name lists by label. -/
structure SolvingStats where
  count : Label → Nat
  names : Label → List String

/-- Lines 282-284. -/
def SolvingStats.init : SolvingStats := ⟨fun _ => 0, fun _ => []⟩

/-- `stats[label] += 1; stats["problems_" + label].append(name)`; `KeyError` on an unknown label. -/
def SolvingStats.bump (s : SolvingStats) (l : Label) (name : String) : Except Err SolvingStats :=
  if isLabel l then
    .ok ⟨Function.update s.count l (s.count l + 1), Function.update s.names l (s.names l ++ [name])⟩
  else .error .keyError

/-- `problem_file_path.name`, for a file found by the glob `pfile*.pddl` (line 288). -/
def fileName (stem : String) : String := stem ++ ".pddl"

/-- Lines 147-176 `_validate_solution_content`. -/
def validateSolution (t : TestCase) (log : ValLog) (s : SolvingStats) : Except Err SolvingStats :=
  if log.valid then s.bump (.out .ok) (fileName t.stem)
  else if log.inapplicable then s.bump (.out .notApplicable) (fileName t.stem)
  else if log.goalMissed then s.bump (.out .goalNotAchieved) (fileName t.stem)
  else .ok s

/-- Lines 115-145 `_validate_against_expert_plan`. -/
def validateExpert (t : TestCase) (s : SolvingStats) : Except Err SolvingStats :=
  if t.expert.valid then s.bump .validated (fileName t.stem)
  else s.bump .notValidated (fileName t.stem)

/-- Lines 292-314: the loop over the portfolio. `report`: `problem_solving_report`, `none` when the
dictionary is empty. The answer: the report when the loop ends without a `break`, or the updated
statistics when a planner claimed a plan. -/
def tryPortfolio (t : TestCase) (s : SolvingStats) :
    List (Outcome × ValLog) → Option Outcome → Except Err (SolvingStats ⊕ Option Outcome)
  | [], report => .ok (.inr report)
  | (o, log) :: rest, _ =>
    if o = .ok then do
      let s' ← validateSolution t log s
      return .inl s'
    else tryPortfolio t s rest (some o)

/-- Lines 288-328: one problem of the test set. -/
def validateProblem (t : TestCase) (s : SolvingStats) : Except Err SolvingStats := do
  match ← tryPortfolio t s t.answers none with
  | .inl s' => return s'
  | .inr none => .error .keyError
  | .inr (some o) =>
    let s' ← s.bump (.out o) t.stem
    validateExpert t s'

/-- validators/common.py:1-8 `AGGREGATED_SOLVING_FIELDS`. -/
def aggregatedFields : List Outcome := [.ok, .noSolution, .timeout, .solverError, .notApplicable, .goalNotAchieved]

/-- `total if total > 0 else 1` (lines 210, 221). -/
def orOne (n : Nat) : Nat := if n > 0 then n else 1

/-- Lines 215-225 `_calculate_solving_percentages`, the value of `percent_<o>`. -/
def percentSolved (s : SolvingStats) (o : Outcome) : ℚ :=
  100 * ((s.count (.out o) : ℚ) / (orOne ((aggregatedFields.map (fun f => s.count (.out f))).sum) : ℚ))

/-- Lines 200-213 `_calculate_expert_validation_statistics`, the value of `percent_<label>`. -/
def percentExpert (s : SolvingStats) (l : Label) : ℚ :=
  100 * ((s.count l : ℚ) / (orOne (s.count .validated + s.count .notValidated) : ℚ))

/-- What was given as `used_observations`: parsed observations (their numbers of components) or
paths (the number of operator lines of each file). -/
inductive Used
  | observations (comps : List Nat)
  | paths (lines : List Nat)

/-- `len(used_observations)`. -/
def Used.len : Used → Nat
  | .observations c => c.length
  | .paths l => l.length

/-- Lines 178-198 `_extract_num_triplets`: the first path returns. -/
def numTriplets : Option Used → Nat
  | none => 0
  | some (.observations c) => c.sum
  | some (.paths []) => 0
  | some (.paths (l :: _)) => l

/-- A row of `self.solving_stats` (lines 333-347): the numbers a row reports. Algorithm, policy,
learning time and solver names are passed through and not modelled. -/
structure SolvingRow where
  stats : SolvingStats
  numTrajectories : Nat
  triplets : Nat
  percent : Outcome → ℚ
  percentExp : Label → ℚ

/-- Lines 253-348 `validate_domain`. `tests`: the problems of the directory in glob order. -/
def validateDomain (used : Option Used) (tests : List TestCase) : Except Err SolvingRow := do
  let s ← tests.foldlM (fun s t => validateProblem t s) SolvingStats.init
  match used with
  | none => .error .typeError
  | some u => return ⟨s, u.len, numTriplets used, percentSolved s, percentExpert s⟩

/-- The validator's two lists (lines 105-106). -/
structure ValidatorState where
  solving : List SolvingRow
  aggregated : List SolvingRow

/-- What a user calls on a validator. -/
inductive ValidatorCall
  | validate (used : Option Used) (tests : List TestCase)
  | clear

/-- Lines 333, 377-380: a call; `validate_domain` that raises appends nothing. -/
def ValidatorState.call (v : ValidatorState) : ValidatorCall → ValidatorState
  | .validate u ts =>
    match validateDomain u ts with
    | .ok r => ⟨v.solving ++ [r], v.aggregated⟩
    | .error _ => v
  | .clear => ⟨[], v.aggregated ++ v.solving⟩

/-- What a planner process did: it ran out of time, or it ended; `stdout`/`stderr` sentences for
ENHSP (enhsp_solver.py:18-23). -/
structure EnhspRun where
  timedOut : Bool
  solved : Bool
  unsolvable : Bool
  otherUnsolvable : Bool
  planNull : Bool
  goalUnreachable : Bool
deriving DecidableEq

/-- enhsp_solver.py:36-88 `_run_enhsp_process`. -/
def enhspOutcome (r : EnhspRun) : Bool × Outcome :=
  if r.timedOut then (true, .timeout)
  else if r.solved then (true, .ok)
  else if r.unsolvable || r.otherUnsolvable || r.planNull then (true, .noSolution)
  else if r.goalUnreachable then (true, .noSolution)
  else (false, .solverError)

/-- enhsp_solver.py:124-128: the retry loop. `runs i`: what the `i`-th process does; `left`: retries
left; the answer and the number of processes started. -/
def enhspRetry (runs : Nat → EnhspRun) : Nat → Nat → Bool × Outcome → Outcome × Nat
  | 0, i, r => (r.2, i)
  | left + 1, i, r => if r.1 then (r.2, i) else enhspRetry runs left (i + 1) (enhspOutcome (runs i))

/-- enhsp_solver.py:90-130 `solve_problem`: outcome and number of processes. -/
def enhspSolve (runs : Nat → EnhspRun) : Outcome × Nat := enhspRetry runs 3 1 (enhspOutcome (runs 0))

/-- fast_downward_solver.py:83-104: the outcome by the return code of the driver. -/
def fdOutcome (rc : Nat) : Outcome :=
  if rc = 0 then .ok
  else if rc ∈ [21, 23, 247] then .timeout
  else if rc ∈ [11, 12] then .noSolution
  else .solverError

/-- fast_downward_solver.py:29-40 `_remove_cost_from_file`: `lines[:-1]`. -/
def removeCost (lines : List String) : List String := lines.dropLast

/-- fast_downward_solver.py:83-104: outcome, and the lines of the solution file. `before`: the
file the process left. A missing file after success raises (`open`). -/
def fdSolve (rc : Nat) (file : Option (List String)) : Except Err (Outcome × Option (List String)) :=
  if fdOutcome rc = .ok then
    match file with
    | none => .error .valueError
    | some ls => .ok (.ok, some (removeCost ls))
  else .ok (fdOutcome rc, file)

/-- fast_downward_solver.py:128-140: the retries of `execute_solver`. -/
def fdRetry (runs : Nat → Outcome) : Nat → Nat → Outcome → Outcome × Nat
  | 0, i, o => (o, i)
  | left + 1, i, o => if o = .solverError then fdRetry runs left (i + 1) (runs i) else (o, i)

/-- fast_downward_solver.py:128-140. -/
def fdExecute (runs : Nat → Outcome) : Outcome × Nat := fdRetry runs 3 1 (runs 0)

/-- The status the Metric-FF output parser finds (`MetricFFParser.get_solving_status`, outside the
repository). -/
inductive FfStatus
  | ok | noSolution | timeout | other
deriving DecidableEq

/-- A Metric-FF run: time out, return code (`none`: Python's `returncode is None`), and the status
in the output file when the file exists. -/
structure FfRun where
  timedOut : Bool
  returnCode : Option Nat
  file : Option FfStatus

/-- metric_ff_solver.py:40-86 `_run_metric_ff_process`: outcome, and whether the solution file
exists afterwards. `get_solving_status` on a missing file raises (line 76). -/
def ffSolve (r : FfRun) : Except Err (Outcome × Bool) :=
  if r.timedOut then .ok (.timeout, false)
  else match r.returnCode with
    | none => .ok (.timeout, false)
    | some rc =>
      match r.file with
      | none => if rc ≠ 0 then .ok (.solverError, false) else .error .valueError
      | some st =>
        if rc ≠ 0 ∧ st ≠ .ok ∧ st ≠ .noSolution then .ok (.solverError, false)
        else if st = .ok then .ok (.ok, true)
        else .ok (.noSolution, false)

end Model

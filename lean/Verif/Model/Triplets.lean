import Verif.Model.MaSam
import Mathlib.Data.Rat.Defs

/-! Model of the training sets of the experiments:
`experiments/concurrent_execution/parallel_basic_experiment_runner.py` (observations cut into pieces of
equal size), `parallel_multi_agent_experiment_runner.py` (the single-agent baseline) and
`experiments/cluster_scripts/common.py` (the list of iterations). -/
namespace Model
namespace Triplets

/-- An observation: the objects of its problem and its components. -/
structure Obs (α : Type) where
  objects : List String
  comps : List α

/-- Python `range(0, len, n)` for `n > 0`. -/
def starts (len n : Nat) : List Nat := (List.range ((len + n - 1) / n)).map (· * n)

/-- parallel_basic_experiment_runner.py:145-154: the loop over the start indices of one observation;
`components[i : i + n]` shorter than `n` ends it. -/
def windows {α : Type} (n : Nat) (o : Obs α) : List Nat → List (Obs α)
  | [] => []
  | i :: is =>
    let w := (o.comps.drop i).take n
    if w.length < n then [] else ⟨o.objects, w⟩ :: windows n o is

/-- parallel_basic_experiment_runner.py:126-156 `create_transitions_based_training_set`. `% 0` raises
`ZeroDivisionError`, here `valueError`. Negative sizes are not modelled. -/
def chunks {α : Type} (n : Nat) (obs : List (Obs α)) : Except Err (List (Obs α)) :=
  if n = 0 ∧ obs ≠ [] then .error .valueError
  else .ok (obs.flatMap fun o => windows n o (starts o.comps.length n))

/-- The variables of the loop of `_filter_baseline_single_agent_trajectory`. -/
structure Baseline where
  comps : List Component
  trivial : Nat
  nonTrivial : Nat

/-- parallel_multi_agent_experiment_runner.py:73-93: one component. `calls` are the operational actions,
`action_count` their number; a joint action with none raises `IndexError` (line 92). The components
are added as successful ones. -/
def baselineStep (b : Baseline) (c : JointComponent) : Except Err Baseline :=
  if 1 < c.calls.length then
    .ok { b with
      nonTrivial := b.nonTrivial + 1
      comps := match b.comps.getLast? with
        | some last => b.comps ++ [last]
        | none => b.comps }
  else match c.calls with
    | [] => .error .indexError
    | k :: _ => .ok { b with trivial := b.trivial + 1, comps := b.comps ++ [⟨c.prev, k, c.next, true⟩] }

/-- parallel_multi_agent_experiment_runner.py:63-95 `_filter_baseline_single_agent_trajectory`. -/
def baseline (cs : List JointComponent) : Except Err Baseline := cs.foldlM baselineStep ⟨[], 0, 0⟩

/-- parallel_multi_agent_experiment_runner.py:228-231: the single-agent observations. -/
def baselineAll (obs : List (List JointComponent)) : Except Err (List (List Component)) :=
  obs.mapM fun o => do
    let b ← baseline o
    .ok b.comps

/-- parallel_multi_agent_experiment_runner_with_triplets.py:68-80 and
parallel_multi_agent_experiment_runner.py:49-61 `_export_dataset_statistics`: the totals over the
observations and their ratio; a division by zero raises (`ZeroDivisionError`, here `valueError`). -/
def datasetRatio (bs : List Baseline) : Except Err (Nat × Nat × Rat) :=
  let t := (bs.map Baseline.trivial).sum
  let n := (bs.map Baseline.nonTrivial).sum
  if n = 0 then .error .valueError else .ok (t, n, (t : Rat) / n)

/-- What the configuration file gives: `experiment_size` or `max_index`. -/
inductive Size where
  | experiment (size : Nat)
  | maxIndex (i : Nat)

/-- common.py:122-126: `int(size * 0.8) + 1` in rational arithmetic, or `max_index + 1`. -/
def maxTrain : Size → Nat
  | .experiment s => 4 * s / 5 + 1
  | .maxIndex i => i + 1

/-- Python `range(a, b, step)` for `step > 0`. -/
def rangeStep (a b step : Nat) : List Nat := (List.range ((b - a + step - 1) / step)).map (fun i => a + i * step)

/-- common.py:121-130 `create_internal_iterations_list`; `range` with step 0 raises `ValueError`. -/
def iterations (size : Size) (hop : Nat) : Except Err (List Nat) :=
  if hop = 100 then .ok ([1] ++ rangeStep 10 100 10 ++ rangeStep 100 (maxTrain size) 100)
  else if hop = 0 then .error .valueError
  else .ok (rangeStep 1 10 1 ++ rangeStep 10 (maxTrain size) hop)

/-- parallel_multi_agent_experiment_runner_with_triplets.py:86-98: the training sets of the rounds
`range(1, rounds)`. -/
def rounds {α : Type} (obs : List α) (n : Nat) : List (List α) := (rangeStep 1 n 1).map fun i => obs.take i

end Triplets
end Model

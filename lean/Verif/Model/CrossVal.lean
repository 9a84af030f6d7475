import Verif.Model.Core

/-! Model of `experiments/basic_experiment_runner.py: run_cross_validation` with the state of the validator
(`validators/safe_domain_validator.py`), of the statistics manager (`statistics/learning_statistics_manager.py`) and of the semantic
calculator. `A`, `V`, `P`: rows of the action, solving and semantic statistics. Learning, solving and evaluating are parameters of a
fold; each may raise. -/
namespace Model
namespace CrossVal

variable {A V P : Type}

/-- The result files. -/
inductive File where
  | actions (fold : Nat)
  | solving (fold : Nat)
  | semantic (number : Nat)
  | allSolving
  | combinedSemantic
  | allNumeric
deriving DecidableEq

/-- The rows of a file. -/
inductive Content (A V P : Type) where
  | actions (rows : List A)
  | solving (rows : List V)
  | semantic (rows : List P)
deriving DecidableEq

/-- What happens in a fold: the rows added by `add_to_action_stats` (with the learning before it), by
`validate_learned_domain` and by `calculate_performance`, or the exceptions they raise. -/
structure Fold (A V P : Type) where
  learn : Except Err (List A)
  validate : Except Err (List V)
  evaluate : Except Err (List P)

/-- The state of the runner. `sem = none`: `semantic_performance_calc` is `None`. `mergedNumeric` are rows of the numeric statistics. -/
structure St (A V P : Type) where
  actionStats : List A
  mergedActions : List A
  numericStats : List A
  mergedNumeric : List A
  solvingStats : List V
  aggregated : List V
  sem : Option (List P)
  files : List (File × Content A V P)

/-- Opening for writing replaces a file. -/
def put (fs : List (File × Content A V P)) (f : File) (c : Content A V P) : List (File × Content A V P) :=
  fs.filter (fun p => decide (p.1 ≠ f)) ++ [(f, c)]

/-- basic_experiment_runner.py:136-167 `learn_model_offline`. -/
def learnOffline (n : Nat) (w : Fold A V P) (s : St A V P) : St A V P × Option Err :=
  match w.learn with
  | .error e => (s, some e)
  | .ok a =>
    let s := { s with actionStats := s.actionStats ++ a }
    match w.validate with
    | .error e => (s, some e)
    | .ok v =>
      let s := { s with solvingStats := s.solvingStats ++ v }
      match s.sem with
      | none => (s, some .attributeError)
      | some c =>
        match w.evaluate with
        | .error e => (s, some e)
        | .ok p =>
          let s := { s with sem := some (c ++ p) }
          let fs := put s.files (.actions n) (.actions s.actionStats)
          let fs := put fs (.semantic (n + 1)) (.semantic (c ++ p))
          let fs := put fs (.solving n) (.solving s.solvingStats)
          ({ s with files := fs }, none)

/-- safe_domain_validator.py:380-383 and learning_statistics_manager.py:249-254 `clear_statistics`. -/
def clear (s : St A V P) : St A V P :=
  { s with aggregated := s.aggregated ++ s.solvingStats, solvingStats := [],
           mergedNumeric := s.mergedNumeric ++ s.numericStats, mergedActions := s.mergedActions ++ s.actionStats,
           numericStats := [], actionStats := [] }

/-- basic_experiment_runner.py:209-216: the folds from number `n` on. -/
def folds (n : Nat) : List (Fold A V P) → St A V P → St A V P × Option Err
  | [], s => (s, none)
  | w :: ws, s =>
    let s := { s with sem := some [] }
    match learnOffline n w s with
    | (s, some e) => (s, some e)
    | (s, none) => folds (n + 1) ws (clear s)

/-- basic_experiment_runner.py:206-220 `run_cross_validation`; `fits`: the row has only the columns of the combined semantic file. -/
def run (fits : P → Bool) (ws : List (Fold A V P)) (s : St A V P) : St A V P × Option Err :=
  match folds 0 ws s with
  | (s, some e) => (s, some e)
  | (s, none) =>
    let s := { s with files := put s.files .allSolving (.solving s.aggregated) }
    match s.sem with
    | none => (s, some .attributeError)
    | some c =>
      let s := { s with files := put s.files .combinedSemantic (.semantic (c.takeWhile fits)) }
      if c.all fits then ({ s with files := put s.files .allNumeric (.actions s.mergedNumeric) }, none)
      else (s, some .valueError)

/-- A new runner in an empty results directory. -/
def St.new : St A V P := ⟨[], [], [], [], [], [], none, []⟩

/-- The contents of a file. -/
def St.file (s : St A V P) (f : File) : Option (Content A V P) := s.files.lookup f

end CrossVal
end Model

import Mathlib.Data.List.Basic

/-! What an experiment log says: steps, failure reasons and the ends of episodes. -/
namespace Spec

/-- Why an action failed. -/
inductive Reason where
  | discrete | numeric | unknown
deriving DecidableEq

/-- A step: action, whether it succeeded, and the transition it made (`S` is whatever is stored about it). -/
structure LogStep (S : Type) where
  action : String
  ok : Bool
  data : S

/-- The calls made to the recorder. -/
inductive LogOp (S : Type) where
  | step (s : LogStep S)
  | reason (action : String) (r : Reason)
  | endEpisode (problem : String) (exportTrajectory : Bool)
  | clearTrajectory
  | clearPaths

variable {S : Type}

/-- The calls since the last end of an episode. -/
def current : List (LogOp S) → List (LogOp S) → List (LogOp S)
  | acc, [] => acc
  | _, .endEpisode _ _ :: l => current [] l
  | acc, o :: l => current (acc ++ [o]) l

/-- The calls of each finished episode, in order. -/
def episodes : List (LogOp S) → List (LogOp S) → List (String × List (LogOp S))
  | _, [] => []
  | acc, .endEpisode p _ :: l => (p, acc) :: episodes [] l
  | acc, o :: l => episodes (acc ++ [o]) l

/-- The steps since the trajectory was last cleared. -/
def sinceClear : List (LogStep S) → List (LogOp S) → List (LogStep S)
  | acc, [] => acc
  | acc, .step s :: l => sinceClear (acc ++ [s]) l
  | _, .clearTrajectory :: l => sinceClear [] l
  | acc, _ :: l => sinceClear acc l

/-- Steps of an action with a given outcome. -/
def stepsOf (a : String) (ok : Bool) (l : List (LogOp S)) : Nat :=
  l.countP fun | .step s => s.action = a ∧ s.ok = ok | _ => false
/-- Steps with a given outcome. -/
def stepsWith (ok : Bool) (l : List (LogOp S)) : Nat := l.countP fun | .step s => s.ok = ok | _ => false
/-- All steps. -/
def steps (l : List (LogOp S)) : Nat := l.countP fun | .step _ => true | _ => false
/-- Failures of an action for a given reason. -/
def reasonsOf (a : String) (r : Reason) (l : List (LogOp S)) : Nat :=
  l.countP fun | .reason b q => b = a ∧ q = r | _ => false

end Spec

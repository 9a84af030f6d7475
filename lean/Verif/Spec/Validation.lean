import Mathlib.Data.List.Basic
import Mathlib.Algebra.Field.Rat

/-!
What it means to evaluate a learned domain on a test set: every problem has one verdict.
Independent of the validator's code.
-/
namespace Spec

/-- What a planner can answer. -/
inductive Outcome
  | ok | noSolution | timeout | notApplicable | goalNotAchieved | solverError | irrelevant
deriving DecidableEq, Repr

/-- What the plan validator VAL says of a plan: which of the three sentences its log contains. -/
structure ValLog where
  valid : Bool
  inapplicable : Bool
  goalMissed : Bool
deriving DecidableEq

/-- A test problem with everything that happens to it: the answer of each planner of the portfolio,
in order; VAL's log on the plan that planner wrote (against the reference domain); VAL's log on the
expert's plan (against the learned domain). -/
structure TestCase where
  stem : String
  answers : List (Outcome × ValLog)
  expert : ValLog

/-- The planner that decides a problem: the first that claims a plan, else the last one asked. -/
def deciding : List (Outcome × ValLog) → Option (Outcome × ValLog)
  | [] => none
  | [a] => some a
  | a :: b :: rest => if a.1 = .ok then some a else deciding (b :: rest)

/-- Some planner claimed a plan. -/
def TestCase.Solved (t : TestCase) : Prop := ∃ a ∈ t.answers, a.1 = .ok

instance TestCase.decSolved (t : TestCase) : Decidable t.Solved := by
  unfold TestCase.Solved; infer_instance

/-- The verdict on a plan, by VAL's log: the first sentence found decides; none found, no verdict. -/
def ValLog.verdict (l : ValLog) : Option Outcome :=
  if l.valid then some .ok else if l.inapplicable then some .notApplicable
  else if l.goalMissed then some .goalNotAchieved else none

/-- The verdict on a test problem. -/
def TestCase.verdict (t : TestCase) : Option Outcome :=
  match deciding t.answers with
  | none => none
  | some (.ok, log) => log.verdict
  | some (o, _) => some o

end Spec

namespace Spec

/-- No verdict can be given: no planner was asked, or the deciding one answered `irrelevant`. -/
def TestCase.Stuck (t : TestCase) : Prop :=
  t.answers = [] ∨ ∃ log, deciding t.answers = some (.irrelevant, log)

end Spec

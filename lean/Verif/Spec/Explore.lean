import Mathlib.Data.List.Count
import Mathlib.Data.List.Perm.Basic
import Mathlib.Data.List.Nodup

/-! Environments, attempts and paths. Nothing here refers to the model of the code. -/
namespace Spec

/-- A deterministic environment: what an action leads to (`none` when it is inapplicable), and the goal. -/
structure Env (S A : Type) where
  step : S → A → Option S
  goal : S → Bool

/-- An attempt: the state before, the action, the state after and whether it was reported successful. -/
structure Try (S A : Type) where
  before : S
  act : A
  after : S
  ok : Bool

variable {S A : Type}

/-- The attempt tells what the environment does: an applicable action succeeds and leads to its result, an inapplicable one fails
and changes nothing. -/
def Honest (E : Env S A) (t : Try S A) : Prop :=
  (t.ok = true ∧ E.step t.before t.act = some t.after) ∨
  (t.ok = false ∧ E.step t.before t.act = none ∧ t.after = t.before)

/-- Honest attempts one after another, from one state to another. -/
def Path (E : Env S A) : S → List (Try S A) → S → Prop
  | s, [], s' => s = s'
  | s, t :: ts, s' => t.before = s ∧ Honest E t ∧ Path E t.after ts s'

/-- The actions can be executed one after another. -/
def Runs (E : Env S A) : S → List A → S → Prop
  | s, [], s' => s = s'
  | s, a :: as, s' => ∃ m, E.step s a = some m ∧ Runs E m as s'

/-- The number of successful attempts. -/
def okCount (ts : List (Try S A)) : Nat := (ts.filter (·.ok)).length
/-- The number of failed attempts. -/
def failCount (ts : List (Try S A)) : Nat := (ts.filter (fun t => !t.ok)).length

/-- No action of the list is applicable. -/
def Dead (E : Env S A) (acts : List A) (s : S) : Prop := ∀ a ∈ acts, E.step s a = none

end Spec

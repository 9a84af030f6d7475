import Verif.Spec.Explore

/-! Model of the exploration loops: `sam_learning/learners/semi_online_learning_algorithm.py:183-202, 248-310, 379-418` and
`sam_learning/learners/noam_algorithm.py:72-81, 174-219, 236-308, 447-460`.

States and grounded actions are of any type. The environment is given by `step` (`none` when the agent reports a failure).
Random choices are functions of the attempts made so far: `order` is the random order of the frontier, `pick` is `random.choice`.
What the learned models say of a state and an action (`_calculate_state_action_informative`) is `informative`, again a function
of the attempts made so far. -/
namespace Model
open Spec

variable {S A : Type}

/-- abstract_agent.py / ipc_agent.py:70-94 `observe`: a failing action leaves (a copy of) the state. -/
def observe (E : Env S A) (s : S) (a : A) : S × Bool :=
  match E.step s a with
  | some s' => (s', true)
  | none => (s, false)

/-- The fields of the learner that the loops use: the recorded attempts, each with the flag `integrate_in_models`,
`episode_step_failure_counter`, `_action_last_executed_step` and `_global_step_counter`. -/
structure Explorer (S A : Type) where
  log : List (Try S A × Bool)
  failures : Nat
  last : String → Option Nat
  global : Nat

/-- semi_online_learning_algorithm.py:94-108, noam_algorithm.py:64-69. -/
def Explorer.init : Explorer S A := ⟨[], 0, fun _ => none, 0⟩

/-- semi_online_learning_algorithm.py:248-279 `_execute_selected_action`. -/
def execute (E : Env S A) (integrate : Bool) (s : S) (a : A) (L : Explorer S A) : S × Bool × Explorer S A :=
  let r := observe E s a
  (r.1, r.2, { L with log := L.log ++ [(⟨s, a, r.1, r.2⟩, integrate)], failures := if r.2 then L.failures else L.failures + 1 })

/-- What `_select_action_and_execute` returns, with what is left of the frontier. -/
structure Selected (S A : Type) where
  act : A
  ok : Bool
  state : S
  rest : List A
  learner : Explorer S A

/-- semi_online_learning_algorithm.py:281-310 `_select_action_and_execute`, for a frontier `a :: f`. -/
def tryAll (E : Env S A) (s : S) : A → List A → Explorer S A → Selected S A
  | a, [], L =>
    let r := execute E false s a L
    ⟨a, r.2.1, r.1, [], r.2.2⟩
  | a, b :: f, L =>
    let r := execute E false s a L
    if r.2.1 then ⟨a, r.2.1, r.1, b :: f, r.2.2⟩ else tryAll E s b f r.2.2

/-- The result of an exploration episode. -/
structure Explored (S A : Type) where
  reached : Bool
  steps : Nat
  state : S
  learner : Explorer S A

/-- semi_online_learning_algorithm.py:183-202: the actions that may be selected, before they are put in a random order. -/
def injectiveActions (dup : A → Bool) (grounded : List A) : List A := grounded.filter fun a => !dup a

/-- semi_online_learning_algorithm.py:379-418 `explore_to_refine_models`: the loop; `fuel` counts the rounds that are left
(`num_steps_till_episode_end - step_number`), `bound` is `num_steps_till_episode_end`, `F` is `MAX_FAILED_STEPS_PER_EPISODE`. -/
def semiLoop (E : Env S A) (F bound : Nat) (order : List (Try S A × Bool) → List A → List A) (acts : List A) :
    (fuel step : Nat) → S → Explorer S A → Explored S A
  | 0, _, s, L => ⟨false, bound, s, L⟩
  | fuel + 1, step, s, L =>
    match order L.log acts with
    | [] => ⟨false, bound, s, L⟩
    | a :: f =>
      if F ≤ L.failures then ⟨false, bound, s, L⟩
      else
        let r := tryAll E s a f L
        if E.goal r.state then ⟨true, step + 1, r.state, r.learner⟩
        else semiLoop E F bound order acts fuel (step + 1) r.state r.learner

/-- semi_online_learning_algorithm.py:379-418 `explore_to_refine_models`. -/
def semiExplore (E : Env S A) (F bound : Nat) (order : List (Try S A × Bool) → List A → List A) (dup : A → Bool)
    (grounded : List A) (s : S) (L : Explorer S A) : Explored S A :=
  semiLoop E F bound order (injectiveActions dup grounded) bound 0 s L

/-! ### noam_algorithm.py -/

/-- noam_algorithm.py:36 `NUM_STEPS_FOR_STARVATION`. -/
def starvationSteps : Nat := 1000

/-- noam_algorithm.py:192-196: never executed, or last executed at a step at most `_global_step_counter - W`, where `W` is
`NUM_STEPS_FOR_STARVATION`. -/
def starved (W : Nat) (L : Explorer S A) (name : String) : Bool :=
  match L.last name with
  | none => true
  | some k => decide (k + W ≤ L.global)

/-- noam_algorithm.py:205-213: actions are popped until an informative one or the last one is met. -/
def skipUninformative (informative : A → Bool) : A → List A → A × List A
  | a, [] => (a, [])
  | a, b :: f => if informative a then (a, b :: f) else skipUninformative informative b f

/-- noam_algorithm.py:174-213: the selection, for a frontier `a :: f`: the selected action and the remaining frontier. The first
starved name in the order of the dictionary is the name of the first action of the frontier with a starved name. -/
def noamSelect [DecidableEq A] (W : Nat) (name : A → String) (pick : List (Try S A × Bool) → List A → A)
    (informative : List (Try S A × Bool) → S → A → Bool) (L : Explorer S A) (s : S) (a : A) (f : List A) : A × List A :=
  match (a :: f).find? (fun b => starved W L (name b)) with
  | some b =>
    let x := pick L.log ((a :: f).filter fun c => name c == name b)
    (x, (a :: f).erase x)
  | none => skipUninformative (informative L.log s) a f

/-- noam_algorithm.py:455-460: `GoalOrientedExplorer` and its subclasses pop the first action. -/
def popSelect (_ : Explorer S A) (_ : S) (a : A) (f : List A) : A × List A := (a, f)

/-- noam_algorithm.py:271-272, 276-277, 283-284: the bookkeeping after a selection. -/
def Explorer.noted (L : Explorer S A) (name : String) (step : Nat) : Explorer S A :=
  { L with last := Function.update L.last name (some step), global := L.global + 1 }

/-- noam_algorithm.py:270-277: selections until a success or until the frontier is empty; the inner loop of a round. `fuel` bounds
the number of further selections; every selection shortens the frontier. -/
def noamRound (E : Env S A) (name : A → String) (select : Explorer S A → S → A → List A → A × List A) (step : Nat) (s : S) :
    (fuel : Nat) → A → List A → Explorer S A → Selected S A
  | fuel, a, f, L =>
    let x := select L s a f
    let r := execute E true s x.1 L
    let L' := r.2.2.noted (name x.1) step
    match fuel, x.2 with
    | fuel + 1, b :: g => if r.2.1 then ⟨x.1, r.2.1, r.1, b :: g, L'⟩ else noamRound E name select step s fuel b g L'
    | _, rest => ⟨x.1, r.2.1, r.1, rest, L'⟩

/-- noam_algorithm.py:260-299: the loop. The popped frontier of the fallback is not empty, because `order` permutes. -/
def noamLoop (E : Env S A) (F bound : Nat) (order : List (Try S A × Bool) → List A → List A) (name : A → String)
    (select : Explorer S A → S → A → List A → A × List A) (acts : List A) :
    (fuel step : Nat) → S → Explorer S A → Explored S A
  | 0, _, s, L => ⟨false, bound, s, L⟩
  | fuel + 1, step, s, L =>
    match order L.log acts with
    | [] => ⟨false, bound, s, L⟩
    | a :: f =>
      if F ≤ L.failures then ⟨false, bound, s, L⟩
      else
        let r := noamRound E name select step s f.length a f L
        if r.ok then
          if E.goal r.state then ⟨true, step + 1, r.state, r.learner⟩
          else noamLoop E F bound order name select acts fuel (step + 1) r.state r.learner
        else
          match order r.learner.log acts with
          | [] => ⟨false, bound, s, r.learner⟩
          | b :: g =>
            let q := tryAll E s b g r.learner
            let L' := q.learner.noted (name q.act) step
            if q.ok then
              if E.goal q.state then ⟨true, step + 1, q.state, L'⟩
              else noamLoop E F bound order name select acts fuel (step + 1) q.state L'
            else ⟨false, bound, s, L'⟩

/-- noam_algorithm.py:244-299 `explore_to_refine_models`: the failure counter is reset. -/
def noamExplore (E : Env S A) (F bound : Nat) (order : List (Try S A × Bool) → List A → List A) (name : A → String)
    (select : Explorer S A → S → A → List A → A × List A) (dup : A → Bool) (grounded : List A) (s : S) (L : Explorer S A) :
    Explored S A :=
  noamLoop E F bound order name select (injectiveActions dup grounded) bound 0 s { L with failures := 0 }

end Model

import Verif.Model.Online

/-! Model of how failures are attributed to the discrete or to the numeric part of an action:
`sam_learning/learners/semi_online_learning_algorithm.py:110-167, 204-246`, `sam_learning/learners/noam_algorithm.py:121-142` and
`sam_learning/core/online_learning/informative_states_learner.py:103-214`, for one action (the dictionaries by action name keep
the actions apart). The numeric part of a state is a point of any type `X`; the hull membership test of the numeric learner is
the parameter `hull`, a function of the observed points and of the queried one. -/
namespace Model
open Spec

/-- The learner of one action: the discrete learner, the points of the numeric learner (successes) and its failures
(`numeric_failure_data` / the SVM negatives), the undecided failures and the three failure counters of the episode recorder. -/
structure SemiOnline (X : Type) where
  disc : DiscreteOnline
  points : List X
  failures : List X
  undecided : List (Finset Lit × X)
  numericCount : Nat
  discreteCount : Nat
  unknownCount : Nat

/-- semi_online_learning_algorithm.py:94-108, 300-322: nothing observed. -/
def SemiOnline.init {X : Type} (V : Finset Lit) : SemiOnline X := ⟨.init V, [], [], [], 0, 0, 0⟩

variable {X : Type} [DecidableEq X] (hull : List X → X → Bool)

/-- convex_hull_learner.py / incremental_convex_hull_learner.py:199-214 `add_new_point`: a known point is not added again. -/
def addPoint (pts : List X) (x : X) : List X := if x ∈ pts then pts else pts ++ [x]

/-- semi_online_learning_algorithm.py:110-148 `_handle_execution_failure` followed by noam_algorithm.py:136-142 (a failure that
is numeric because the discrete part is safe is also put in `numeric_failure_data`, without repetition,
informative_states_learner.py:136-153). -/
def SemiOnline.handleFailure (L : SemiOnline X) (pre : Finset Lit) (x : X) : SemiOnline X :=
  if L.disc.inSafe pre then { L with failures := addPoint L.failures x, numericCount := L.numericCount + 1 }
  else if hull L.points x then { L with disc := L.disc.add pre ∅ false, discreteCount := L.discreteCount + 1 }
  else { L with undecided := L.undecided ++ [(pre, x)], unknownCount := L.unknownCount + 1 }

/-- semi_online_learning_algorithm.py:150-167 `_eliminate_undecided_observations`: the undecided failures are taken from the end
and handled again; the loop ends because the backup list only shrinks. -/
def SemiOnline.eliminate (L : SemiOnline X) : SemiOnline X :=
  L.undecided.reverse.foldl (fun L u => L.handleFailure hull u.1 u.2) { L with undecided := [] }

/-- semi_online_learning_algorithm.py:204-246 `_add_transition_data`. -/
def SemiOnline.addTransition (L : SemiOnline X) (pre post : Finset Lit) (x : X) (ok : Bool) : SemiOnline X :=
  if ok then { L with disc := L.disc.add pre post true, points := addPoint L.points x }
  else L.handleFailure hull pre x

/-- informative_states_learner.py:103-134 `_is_state_not_applicable_in_safe_numeric_model`. -/
def SemiOnline.numericNotApplicable (L : SemiOnline X) (x : X) : Bool :=
  if L.points.length ≤ 1 then false else L.failures.any fun f => hull (addPoint L.points x) f

/-- informative_states_learner.py:183-192 `is_applicable`. -/
def SemiOnline.isApplicable (L : SemiOnline X) (state : Finset Lit) (x : X) : Bool := L.disc.inSafe state && hull L.points x

/-- informative_states_learner.py:194-214 `is_sample_informative`. -/
def SemiOnline.isInformative (L : SemiOnline X) (state : Finset Lit) (x : X) : Bool :=
  if L.disc.inSafe state && hull L.points x then false
  else !(L.disc.notApplicable state || L.numericNotApplicable hull x)

/-- A run of the learner. -/
def SemiOnline.run (L : SemiOnline X) : List (Event X) → SemiOnline X
  | [] => L
  | .attempt a x :: es =>
    SemiOnline.run (L.addTransition hull (seen L.disc.superset a.ρ a.before) (seen L.disc.superset a.ρ a.after) x a.ok) es
  | .eliminate :: es => SemiOnline.run (L.eliminate hull) es

end Model

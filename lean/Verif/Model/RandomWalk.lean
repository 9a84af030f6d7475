import Verif.Model.Core

/-! Model of `trajectory_creators/random_walk_trajectories_creator.py`. States and operators are
abstract: `app o s` is `operator.is_applicable`, `next o s` is `operator.apply`. Randomness is an
argument: `bad i` is the coin of step `i`, `queue i` the shuffled list of step `i`. -/
namespace Model
namespace Walk

/-- The operators of a problem. -/
structure Ops (S O : Type) where
  app : O → S → Bool
  next : O → S → S

/-- One `TrajectoryTriplet`. -/
structure Triplet (S O : Type) where
  prev : S
  op : O
  next : S

/-- random_walk_trajectories_creator.py:48-64, 81-94: pop from the end of the queue until the popped
operator satisfies the test or the queue is empty; popping from an empty queue raises `IndexError`
(`none`). The argument is the reversed queue. -/
def popUntil {O : Type} (p : O → Bool) : List O → Option O
  | [] => none
  | [a] => some a
  | a :: b :: rest => if p a then some a else popUntil p (b :: rest)

/-- random_walk_trajectories_creator.py:36-66 `_select_inapplicable_action`. -/
def selectBad {S O : Type} (M : Ops S O) (s : S) (queue : List O) : Except Err (O × S) :=
  match popUntil (fun o => !M.app o s) queue.reverse with
  | none => .error .indexError
  | some o => .ok (o, s)

/-- random_walk_trajectories_creator.py:68-100 `_select_applicable_action`. -/
def selectGood {S O : Type} (M : Ops S O) (s : S) (queue : List O) : Except Err (O × S) :=
  match popUntil (fun o => M.app o s) queue.reverse with
  | none => .error .indexError
  | some o => if M.app o s then .ok (o, M.next o s) else .error .valueError

/-- random_walk_trajectories_creator.py:102-139 `create_random_plan`: `fuel` steps from step `i`. -/
def walk {S O : Type} (M : Ops S O) (bad : Nat → Bool) (queue : Nat → List O) : Nat → Nat → S → Except Err (List (Triplet S O))
  | 0, _, _ => .ok []
  | fuel + 1, i, s =>
    if bad i then
      match selectBad M s (queue i) with
      | .error e => .error e
      | .ok r => match walk M bad queue fuel (i + 1) r.2 with
        | .error e => .error e
        | .ok ts => .ok (⟨s, r.1, r.2⟩ :: ts)
    else
      match selectGood M s (queue i) with
      | .error .valueError => .ok []
      | .error e => .error e
      | .ok r => match walk M bad queue fuel (i + 1) r.2 with
        | .error e => .error e
        | .ok ts => .ok (⟨s, r.1, r.2⟩ :: ts)

/-- random_walk_trajectories_creator.py:17, 102-139: the triplets and the plan. -/
def createRandomPlan {S O : Type} (M : Ops S O) (bad : Nat → Bool) (queue : Nat → List O) (s0 : S) (maxSteps : Nat := 500) :
    Except Err (List (Triplet S O) × List O) :=
  match walk M bad queue maxSteps 0 s0 with
  | .error e => .error e
  | .ok ts => .ok (ts, ts.map Triplet.op)

/-- random_walk_trajectories_creator.py:141-172 `create_all_grounded_actions`; `preFluents`,
`effFluents`: the numeric fluents of the grounded operator. -/
def legalActions (D : Domain) (objs : Sig) (preFluents effFluents : String × List String → Finset String)
    (initial : Finset String) : Finset (String × List String) :=
  (groundedActions D objs).filter fun a => preFluents a ⊆ initial ∧ effFluents a ⊆ initial

end Walk
end Model

import Verif.Spec.Strips
import Verif.Spec.Cond

/-! Online learning of a conjunctive action from attempts that may fail. -/
namespace Spec

/-- One attempt to execute the action: the substitution of the call, the states before and after, and whether it succeeded. -/
structure Attempt where
  ρ : String → String
  before : State
  after : State
  ok : Bool

/-- The literals of the vocabulary that hold in a state. -/
def seen (V : Finset Lit) (ρ : String → String) (s : State) : Finset Lit := V.filter fun l => holds s (ground ρ l)

/-- A conjunctive precondition over the vocabulary explains the attempts: exactly the successful ones satisfied it. -/
def PreConsistent (V : Finset Lit) (h : List Attempt) (T : Finset Lit) : Prop :=
  T ⊆ V ∧ ∀ a ∈ h, a.ok = true ↔ applicable T a.ρ a.before

/-- The substitution sends different names of the vocabulary to different objects. -/
def InjectiveOn (V : Finset Lit) (ρ : String → String) : Prop :=
  ∀ l ∈ V, ∀ l' ∈ V, ∀ x ∈ l.args, ∀ y ∈ l'.args, ρ x = ρ y → x = y

/-- The effects explain the attempts: every successful one leads to the successor state. -/
structure EffTrue (V : Finset Lit) (h : List Attempt) (E : Finset Lit) : Prop where
  sub : E ⊆ V
  consistent : ∀ l ∈ E, l.neg ∉ E
  next : ∀ a ∈ h, a.ok = true → a.after = successor E a.ρ a.before
  inj : ∀ a ∈ h, a.ok = true → InjectiveOn V a.ρ

/-- A membership test is sound for a region: it accepts only points of the region whenever the observed points are in it
(true of any subset of the convex hull when the region is convex). -/
def HullSound {X : Type} (hull : List X → X → Bool) (R : X → Prop) : Prop :=
  ∀ pts, (∀ p ∈ pts, R p) → ∀ x, hull pts x = true → R x

/-- Discrete precondition and numeric region explain an attempt made in a state with numeric part `x`. -/
def AttemptExplained {X : Type} (T : Finset Lit) (R : X → Prop) (a : Attempt) (x : X) : Prop :=
  a.ok = true ↔ applicable T a.ρ a.before ∧ R x

/-- What the exploration and training loops do to one action. -/
inductive Event (X : Type) where
  | attempt (a : Attempt) (x : X)
  | eliminate

/-- The failed attempts of a run. -/
def failed {X : Type} : List (Event X) → Nat
  | [] => 0
  | .attempt a _ :: es => (if a.ok then 0 else 1) + failed es
  | .eliminate :: es => failed es

/-- The successful attempts of a run, in order. -/
def successes {X : Type} : List (Event X) → List Attempt
  | [] => []
  | .attempt a _ :: es => (if a.ok then [a] else []) ++ successes es
  | .eliminate :: es => successes es

end Spec

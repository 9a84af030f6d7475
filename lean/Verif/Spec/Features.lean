import Mathlib.Data.Finset.Basic
import Mathlib.Data.List.Basic

/-! Observations that contradict a choice of features. -/
namespace Spec

/-- One observation: the predicates that hold, the rest of the row, and whether the action succeeded. -/
structure Labelled (V : Type) where
  holds : Finset String
  rest : V
  ok : Bool
deriving DecidableEq

/-- After the observations `h`, a new failure in spite of an earlier success in a state with no more predicates: the predicates do
not explain the failure. -/
def Contradicts {V : Type} (h : List (Labelled V)) (r : Labelled V) : Prop :=
  r ∉ h ∧ r.ok = false ∧ ∃ s ∈ h, s.ok = true ∧ s.holds ⊆ r.holds

instance {V : Type} [DecidableEq V] (h : List (Labelled V)) (r : Labelled V) : Decidable (Contradicts h r) :=
  inferInstanceAs (Decidable (_ ∧ _ ∧ ∃ s ∈ h, _))

/-- How many observations contradicted the ones before. -/
def contradictions {V : Type} [DecidableEq V] : List (Labelled V) → List (Labelled V) → Nat
  | _, [] => 0
  | h, r :: rs => (if Contradicts h r then 1 else 0) + contradictions (h ++ [r]) rs

end Spec

import Mathlib.Logic.Relation
import Mathlib.Data.Finset.Basic

/-! Groups of parameters. -/
namespace Spec
variable {α : Type}

/-- Two elements are in a common group. -/
def Together (groups : List (List α)) (x y : α) : Prop := ∃ g ∈ groups, x ∈ g ∧ y ∈ g

/-- Two elements are linked by a chain of overlapping groups. -/
def Linked (groups : List (List α)) : α → α → Prop := Relation.ReflTransGen (Together groups)

end Spec

import Verif.Spec.Strips
import Mathlib.Data.Finset.Sum
import Mathlib.Data.Rat.Floor

/-! What precision and recall mean, independently of the code. -/
namespace Spec

variable {α : Type} [DecidableEq α]

/-- Share of `A` that lies in `B`, for a nonempty `A`. -/
def share (A B : Finset α) : ℚ := ((A ∩ B).card : ℚ) / A.card

/-- Precision of a retrieved set against the relevant one; nothing retrieved counts as perfect. -/
def precision (retrieved relevant : Finset α) : ℚ := if retrieved = ∅ then 1 else share retrieved relevant

/-- Recall of a retrieved set against the relevant one; nothing relevant counts as perfect. -/
def recall (retrieved relevant : Finset α) : ℚ := if relevant = ∅ then 1 else share relevant retrieved

/-- The literals of an action, tagged: precondition or effect. -/
def tagged (pre eff : Finset Lit) : Finset (Lit ⊕ Lit) := pre.disjSum eff

/-- Number of elements of a list with two properties. -/
def both (p q : α → Bool) (l : List α) : ℕ := l.countP fun x => p x && q x

end Spec

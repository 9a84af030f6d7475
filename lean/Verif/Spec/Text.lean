import Verif.Model.Logic

/-! Which names can be printed and read back. -/
namespace Spec
open Model

/-- A predicate name the code can handle: letters, digits, `_`, `-`, not empty, not starting with `not`. -/
def GoodName (n : Str) : Prop :=
  n ≠ [] ∧ (∀ c ∈ n, isWord c = true ∨ c = '-') ∧ startsWith "not".toList n = false

/-- An argument without hyphen: letters, digits, `_`, possibly a leading (or other) `?`. -/
def PlainArg (a : Str) : Prop := a ≠ [] ∧ ∀ c ∈ a, isWord c = true ∨ c = '?'

/-- Text that is one token: not empty, no white space, no brackets. -/
def Token (a : Str) : Prop := a ≠ [] ∧ ∀ c ∈ a, c ≠ ' ' ∧ c ≠ '(' ∧ c ≠ ')'

instance (n : Str) : Decidable (GoodName n) := by unfold GoodName; infer_instance
instance (n : Str) : Decidable (PlainArg n) := by unfold PlainArg; infer_instance
instance (n : Str) : Decidable (Token n) := by unfold Token; infer_instance

/-- The printed form of some literal the code can handle. -/
def Printed (s : Str) : Prop :=
  ∃ name args pos, GoodName name ∧ (∀ a ∈ args, PlainArg a) ∧ s = showLit name args pos

end Spec

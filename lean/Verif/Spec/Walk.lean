import Mathlib.Data.List.Basic

/-! Recorded walks: each step starts where the previous one ended. -/
namespace Spec

/-- The steps start at `s` and follow one another. -/
def FollowsFrom {S T : Type} (src dst : T → S) : S → List T → Prop
  | _, [] => True
  | s, t :: ts => src t = s ∧ FollowsFrom src dst (dst t) ts

/-- The state after the steps. -/
def endState {S T : Type} (dst : T → S) (s : S) (ts : List T) : S := (ts.getLast?.map dst).getD s

end Spec

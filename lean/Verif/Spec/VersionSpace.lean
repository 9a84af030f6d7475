import Verif.Spec.Learning

/-! The action models that could be the true one. -/
namespace Spec
open Model

/-- An action model that could be the true one: well formed, and every successful transition whose call has distinct objects is one of its transitions. -/
structure Candidate (D : Domain) (M : String → Schema) (obs : List (List Component)) : Prop where
  wf : WFTruth D M
  explains : ∀ c ∈ obs.flatten, c.success = true → c.call.params.Nodup → Explained M c

end Spec

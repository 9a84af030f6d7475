import Verif.Spec.Learning

/-! Trajectories drawn at random, and what it means that a learned domain deals with one. -/
namespace Spec
open Model

/-- A trajectory of the true domain: successful transitions are of known actions; those with distinct objects are real and bind no
parameter to a constant. -/
structure TrueTrajectory (D : Domain) (truth : String → Schema) (o : List Component) : Prop where
  known : ∀ c ∈ o, c.success = true → c.call.name ∈ D.names
  explained : ∀ c ∈ o, c.success = true → c.call.params.Nodup → Explained truth c
  noConst : ∀ c ∈ o, c.success = true → c.call.params.Nodup → ∀ x ∈ c.call.params, x ∉ Sig.names D.consts

/-- The action model accepts every successful transition of the trajectory with distinct objects and predicts its next state. -/
def Handles (truth M : String → Schema) (o : List Component) : Prop :=
  ∀ c ∈ o, c.success = true → c.call.params.Nodup →
    applicable (M c.call.name).pre (substOf truth c) c.prev ∧ successor (M c.call.name).eff (substOf truth c) c.prev = c.next

/-- The finite set has (at least) the pairs of an action and a well typed literal over its parameters that is not one of its
true preconditions. -/
def Covers (D : Domain) (truth : String → Schema) (W : Finset (String × Lit)) : Prop :=
  ∀ a ∈ D.names, ∀ l, TypedLit D.preds ((D.act a).sig ++ D.consts) l → l ∉ (truth a).pre → (a, l) ∈ W

end Spec

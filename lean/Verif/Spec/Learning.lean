import Verif.Spec.Strips
import Verif.Model.Core

/-! What a learning problem is: a partial domain, the unknown true action model, and data produced by
it. Uses only the data types of the model (`Domain`, `Component`), none of its functions. -/
namespace Spec
open Model

/-- The partial domain handed to the learner: distinct action names, distinct parameter and constant
names, actions still without preconditions and effects. -/
structure WFDomain (D : Domain) : Prop where
  names : D.names.Nodup
  sigs : ∀ a ∈ D.names, WFSig D.consts (D.act a).sig
  empty : ∀ a ∈ D.names, (D.act a).pre = ∅ ∧ (D.act a).eff = ∅ ∧ (D.act a).ineq = ∅

/-- The unknown true actions have the signatures of the domain and are well formed. -/
structure WFTruth (D : Domain) (truth : String → Schema) : Prop where
  params : ∀ a ∈ D.names, (truth a).params = (D.act a).sig
  wf : ∀ a ∈ D.names, WFSchema D.preds D.consts (truth a)

/-- The substitution of the call of a component under the true action. -/
def substOf (truth : String → Schema) (c : Component) : String → String :=
  subst (Sig.names (truth c.call.name).params) c.call.params

/-- The component is a real transition of the true action. -/
structure Explained (truth : String → Schema) (c : Component) : Prop where
  arity : c.call.params.length = (truth c.call.name).params.length
  app : applicable (truth c.call.name).pre (substOf truth c) c.prev
  next : c.next = successor (truth c.call.name).eff (substOf truth c) c.prev

/-- The observations: every successful transition is real, and no transition with distinct objects
binds a parameter to a constant of the domain. -/
structure GoodData (D : Domain) (truth : String → Schema) (obs : List (List Component)) : Prop where
  explained : ∀ c ∈ obs.flatten, c.success = true → Explained truth c
  noConst : ∀ c ∈ obs.flatten, c.success = true → c.call.params.Nodup →
    ∀ o ∈ c.call.params, o ∉ Sig.names D.consts

/-- Substitution that sends different parameters/constants to different objects. -/
def Injective (consts sig : Sig) (ρ : String → String) : Prop :=
  ∀ x ∈ Sig.names (sig ++ consts), ∀ y ∈ Sig.names (sig ++ consts), ρ x = ρ y → x = y

/-- The action was observed: some successful transition without repeated objects is labelled with it. -/
def Observed (obs : List (List Component)) (a : String) : Prop :=
  ∃ c ∈ obs.flatten, c.success = true ∧ c.call.name = a ∧ c.call.params.Nodup

/-- Real transitions only (also of components flagged as failed), each with distinct objects that are
neither constants nor named like a parameter of the action. -/
structure DistinctData (D : Domain) (truth : String → Schema) (hs : List Component) : Prop where
  explained : ∀ c ∈ hs, Explained truth c
  nodup : ∀ c ∈ hs, c.call.params.Nodup
  noConst : ∀ c ∈ hs, ∀ o ∈ c.call.params, o ∉ Sig.names D.consts
  fresh : ∀ c ∈ hs, ∀ o ∈ c.call.params, o ∉ Sig.names (D.act c.call.name).sig

end Spec

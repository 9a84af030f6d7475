import Verif.Spec.Learning
import Verif.Model.MaSam

/-! What multi-agent data is. Uses only the data type `JointComponent` of the model. -/
namespace Spec
open Model

/-- The substitution of a call under the true action. -/
def callSubst (truth : String → Schema) (c : Call) : String → String :=
  subst (Sig.names (truth c.name).params) c.params

/-- A real, non-conflicting joint transition: every executed action is applicable, all its effects hold
afterwards, and nothing else changed. -/
structure JointExplained (truth : String → Schema) (c : JointComponent) : Prop where
  arity : ∀ k ∈ c.calls, k.params.length = (truth k.name).params.length
  app : ∀ k ∈ c.calls, applicable (truth k.name).pre (callSubst truth k) c.prev
  effects : ∀ k ∈ c.calls, ∀ e ∈ (truth k.name).eff, holds c.next (ground (callSubst truth k) e)
  frame : ∀ g : Lit, holds c.next g → ¬ holds c.prev g →
    ∃ k ∈ c.calls, ∃ e ∈ (truth k.name).eff, ground (callSubst truth k) e = g

/-- No call of the joint action repeats an object (other joint actions are skipped by the learner). -/
def JointComponent.NoDup (c : JointComponent) : Prop := ∀ k ∈ c.calls, k.params.Nodup

/-- The visible effects of all executed actions are well-typed atoms over the objects of the last
executed action. -/
def LastCovers (D : Domain) (truth : String → Schema) (c : JointComponent) : Prop :=
  ∀ last, c.calls.getLast? = some last → ∀ k ∈ c.calls, ∀ e ∈ (truth k.name).eff,
    ¬ holds c.prev (ground (callSubst truth k) e) →
    TypedLit D.preds (last.params.zip ((truth last.name).params.map Prod.snd) ++ D.consts) (ground (callSubst truth k) e)

/-- The executed actions have different names. -/
def DistinctActions (c : JointComponent) : Prop := (c.calls.map Call.name).Nodup

end Spec

namespace Spec
open Model

/-- Good multi-agent data: every joint transition the learner uses is real, has at most one call per
action, and (if it has several calls) its last call covers the visible effects. -/
structure GoodJointData (D : Domain) (truth : String → Schema) (obs : List (List JointComponent)) : Prop where
  explained : ∀ c ∈ obs.flatten, JointComponent.NoDup c → JointExplained truth c
  distinct : ∀ c ∈ obs.flatten, JointComponent.NoDup c → DistinctActions c
  covered : ∀ c ∈ obs.flatten, JointComponent.NoDup c → c.calls.length ≠ 1 → LastCovers D truth c

/-- A faithful enumeration of sets. -/
def GoodOrd (ord : Finset Lit → List Lit) : Prop := ∀ s l, l ∈ ord s ↔ l ∈ s

end Spec

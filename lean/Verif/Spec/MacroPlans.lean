import Verif.Spec.Plans
import Verif.Spec.MacroAct
import Verif.Model.Macro

/-! What a plan with macro actions stands for: the plan in which every call of a macro is replaced by the calls of its actions, in
some order. -/
namespace Spec
namespace MacroPlans
open Model

/-- What the parameters of the actions of a macro called with these objects are bound to. -/
def parts (M : MacroAct) (objs : List String) (a : String) : String → String :=
  partSubst M.binding (subst (Sig.names M.model.sig) objs) a

/-- The call of one action of a macro. -/
def partCall (D : Domain) (M : MacroAct) (objs : List String) (a : String) : Call := ⟨a, (Sig.names (D.act a).sig).map (parts M objs a)⟩

/-- A call of a macro stands for calls of its actions, in some order; other calls stand for themselves. -/
def StandsFor (D : Domain) (Ms : List MacroAct) (c : Call) (ds : List Call) : Prop :=
  (∃ M ∈ Ms, M.name = c.name ∧ ∃ order : List String, order.Perm M.acts ∧ ds = order.map (partCall D M c.params)) ∨
  (c.name ∉ Ms.map (·.name) ∧ ds = [c])

/-- `out` is the plan with all macros replaced. -/
def Decoded (D : Domain) (Ms : List MacroAct) : List Call → List Call → Prop
  | [], out => out = []
  | c :: plan, out => ∃ ds rest, StandsFor D Ms c ds ∧ Decoded D Ms plan rest ∧ out = ds ++ rest

/-- No ground effect of `a` is the opposite of a ground precondition of `b`. -/
def Harmless (truth : String → Schema) (ρ : String → String → String) (a b : String) : Prop :=
  ∀ e ∈ (truth a).eff, ∀ l ∈ (truth b).pre, ground (ρ a) e ≠ (ground (ρ b) l).neg

instance (truth : String → Schema) (ρ : String → String → String) (a b : String) : Decidable (Harmless truth ρ a b) := by
  unfold Harmless; infer_instance

/-- The calls that may occur in a plan. A call of a single action does not repeat an object. A call of a macro repeats no object within
one of its actions; the effects of its actions do not contradict one another, and none destroys a precondition of another action. -/
structure Allowed (D : Domain) (truth : String → Schema) (Ms : List MacroAct) (c : Call) : Prop where
  single : c.name ∉ Ms.map (·.name) → c.params.Nodup
  distinct : ∀ M ∈ Ms, M.name = c.name → ∀ a ∈ M.acts, (partCall D M c.params a).params.Nodup
  consistent : ∀ M ∈ Ms, M.name = c.name → NoConflict (jointEffects truth M.acts (parts M c.params))
  harmless : ∀ M ∈ Ms, M.name = c.name → ∀ a ∈ M.acts, ∀ b ∈ M.acts, a ≠ b → Harmless truth (parts M c.params) a b

end MacroPlans
end Spec

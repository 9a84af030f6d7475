import Verif.Spec.Online
import Verif.Spec.Explore

/-! The true environment of an online learner: conjunctive discrete preconditions, a region of points for each action, STRIPS
effects and any numeric update. -/
namespace Spec

/-- The calls of actions: name and objects; `ρ` and `pt` give the substitution and the numeric point of a call. -/
structure TrueDomain (C N X : Type) where
  name : C → String
  objs : C → List String
  schema : String → Schema
  region : String → X → Prop
  pt : C → N → X
  upd : C → N → N
  goal : State × N → Bool

variable {C N X : Type}

/-- The substitution of a call. -/
def TrueDomain.ρ (T : TrueDomain C N X) (c : C) : String → String := subst (Sig.names (T.schema (T.name c)).params) (T.objs c)

open Classical in
/-- An action is applicable when its discrete precondition holds and its point lies in the region. -/
noncomputable def TrueDomain.env (T : TrueDomain C N X) : Env (State × N) C where
  step s c :=
    if applicable (T.schema (T.name c)).pre (T.ρ c) s.1 ∧ T.region (T.name c) (T.pt c s.2) then
      some (successor (T.schema (T.name c)).eff (T.ρ c) s.1, T.upd c s.2)
    else none
  goal := T.goal

/-- A call with as many objects as parameters and no repeated object. -/
def TrueDomain.Proper (T : TrueDomain C N X) (c : C) : Prop :=
  (T.objs c).length = (T.schema (T.name c)).params.length ∧ (T.objs c).Nodup

end Spec

import Verif.Spec.Plans
import Verif.Spec.Universal

/-! Plans over domains whose actions have conditional or universal effects. -/
namespace Spec
namespace CondPlans
open Model Spec.Plans

/-- A domain as a planner reads it, in a world whose objects are fixed: the actions it has, their parameters, when they are applicable and what state
they lead to, under a binding of the parameters. -/
structure Actions where
  names : List String
  params : String → Sig
  accepts : String → (String → String) → State → Prop
  next : String → (String → String) → State → State

/-- The binding of a call. -/
def Actions.binding (A : Actions) (c : Call) : String → String := subst (Sig.names (A.params c.name)) c.params

/-- One step: a call of an action of the domain with the right number of objects, where it is applicable, leads to the next state. -/
def Actions.step (A : Actions) (s : State) (c : Call) (s' : State) : Prop :=
  c.name ∈ A.names ∧ c.params.length = (A.params c.name).length ∧ A.accepts c.name (A.binding c) s ∧ s' = A.next c.name (A.binding c) s

/-- The plan solves the problem in the domain. -/
def Actions.Solves (A : Actions) (P : Problem) (plan : List Call) : Prop := ∃ s, Leads A.step P.init plan s ∧ P.goal s

/-- A domain returned by the learner of conditional effects: its learned actions. -/
def learned (D : Domain) (act : String → LearnedAction) : Actions :=
  ⟨D.names, fun a => (D.act a).sig, fun a ρ s => (act a).accepts ρ s, fun a ρ s => (act a).next ρ s⟩

/-- The true domain with conditional effects. -/
def realCond (D : Domain) (truth : String → CondSchema) : Actions :=
  ⟨D.names, fun a => (truth a).params, fun a ρ s => applicable (truth a).pre ρ s, fun a ρ s => condSuccessor (truth a).effs ρ s⟩

/-- A domain returned by the learner of universal effects, in a world with the given objects. -/
def learnedUni (objs : Sig) (D : Domain) (act : String → UniAction) : Actions :=
  ⟨D.names, fun a => (D.act a).sig, fun a ρ s => (act a).accepts objs ρ s, fun a ρ s => (act a).next objs ρ s⟩

/-- The true domain with universal effects, in a world with the given objects. -/
def realUni (objs : Sig) (D : Domain) (truth : String → UniSchema) : Actions :=
  ⟨D.names, fun a => (truth a).params, fun a ρ s => applicable (truth a).pre ρ s, fun a ρ s => (truth a).next objs ρ s⟩

/-- The objects have different names and every call of the plan has distinct objects of exactly the types of the parameters. -/
structure ExactCalls (D : Domain) (objs : Sig) (plan : List Call) : Prop where
  names : (Sig.names objs).Nodup
  exact : ∀ c ∈ plan, List.Forall₂ (fun o (p : String × PType) => (o, p.2) ∈ objs) c.params (D.act c.name).sig ∧ c.params.Nodup

/-- The data settle what the action `a` does: at most one literal has several possible antecedents, none of the effects seen to happen has several
while another has one, and every true result was seen to become true or never seen to become false. -/
structure Settled (D : Domain) (cs : List Component) (n : Nat) (truth : String → CondSchema) (a : String) : Prop where
  one : ∀ l l', Ambiguous D cs a n l → Ambiguous D cs a n l' → l = l'
  apart : ∀ l l', Became D cs a l → Ambiguous D cs a n l → Became D cs a l' → ¬ Determined D cs a n l'
  seen : ∀ e ∈ (truth a).effs, ∀ l ∈ e.res, Became D cs a l ∨ NeverUndone D cs a l

/-- The transitions without their objects. -/
def transitions (obs : List UniObs) : List Component := obs.flatMap Prod.snd

/-- The data settle what the action `a` with universal effects does, where `var T` stands for an additional object of type `T`:
no literal over the parameters has several possible antecedents; every true result about the
parameters, and every one about an additional object, was seen to become true or never seen to become false. -/
structure SettledUni (D : Domain) (types : List PType) (obs : List UniObs) (n : Nat) (var : PType → String) (truth : String → UniSchema) (a : String) :
    Prop where
  none : ∀ l, ¬ Ambiguous D (transitions obs) a n l
  seen : ∀ e ∈ (truth a).onParams.effs, ∀ l ∈ e.res, Became D (transitions obs) a l ∨ NeverUndone D (transitions obs) a l
  seenAt : ∀ T ∈ types, ∀ e ∈ ((truth a).withObject (var T) T).effs, ∀ l ∈ e.res, var T ∈ l.args →
    Became (extend D a (var T) T) (withObjects a T obs) a l ∨ NeverUndone (extend D a (var T) T) (withObjects a T obs) a l

/-- The returned action quantifies over the type of every object of the world to which a true universal effect applies, and the subtype relation is
transitive here. -/
structure Covers (objs : Sig) (types : List PType) (A : UniSchema) (quantified : List PType) : Prop where
  covered : ∀ u ∈ A.foralls, ∀ o ∈ objs, o.2.isSub u.type = true → o.2 ∈ quantified
  sub : ∀ o ∈ objs, ∀ T ∈ types, ∀ u ∈ A.foralls, o.2.isSub T = true → T.isSub u.type = true → o.2.isSub u.type = true

end CondPlans
end Spec

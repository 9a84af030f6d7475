import Verif.Spec.CondLearning

/-! Actions with universally quantified conditional effects: meaning, lifted views, and the data they produce. -/
namespace Spec
open Model

/-- An observation: its objects and its components. -/
abbrev UniObs := Sig × List Component

/-- `forall (?var - type)` over conditional effects. -/
structure Forall where
  var : String
  type : PType
  effs : List CondEff

/-- An action schema with conditional and universal effects. -/
structure UniSchema where
  params : Sig
  pre : Finset Lit
  effs : List CondEff
  foralls : List Forall

/-- The substitution with one more variable bound. -/
abbrev bindVar (ρ : String → String) (v o : String) : String → String := Function.update ρ v o

/-- The ground literals made true for one object by one quantified block. -/
def firedAt (effs : List CondEff) (v o : String) (ρ : String → String) (s : State) : Finset Lit :=
  (fired effs (bindVar ρ v o) s).image (ground (bindVar ρ v o))

/-- ... for all objects of the type (or a subtype). -/
def firedForall (effs : List CondEff) (v : String) (T : PType) (objs : Sig) (ρ : String → String) (s : State) : Finset Lit :=
  (objs.filter fun o => o.2.isSub T).foldr (fun o acc => firedAt effs v o.1 ρ s ∪ acc) ∅

/-- All ground literals the action makes true in a world with the objects `objs`. -/
def UniSchema.makes (A : UniSchema) (objs : Sig) (ρ : String → String) (s : State) : Finset Lit :=
  (fired A.effs ρ s).image (ground ρ) ∪ A.foralls.foldr (fun u acc => firedForall u.effs u.var u.type objs ρ s ∪ acc) ∅

/-- The next state: everything takes effect simultaneously. -/
def UniSchema.next (A : UniSchema) (objs : Sig) (ρ : String → String) (s : State) : State :=
  successor (A.makes objs ρ s) id s

/-- A conditional effect with the variable `v` renamed to `x`. -/
def CondEff.rename (v x : String) (e : CondEff) : CondEff :=
  ⟨e.ante.image (ground (bindVar id v x)), e.res.image (ground (bindVar id v x))⟩

/-- What the action does to atoms over its parameters: the plain effects, and the quantified ones for each parameter of the type. -/
def UniSchema.onParams (A : UniSchema) : CondSchema :=
  ⟨A.params, A.pre, A.effs ++ A.foralls.flatMap fun u =>
    (A.params.filter fun p => p.2.isSub u.type).flatMap fun p => u.effs.map (CondEff.rename u.var p.1)⟩

/-- What the action does to atoms over its parameters and one more object of type `T`, called `v`. -/
def UniSchema.withObject (A : UniSchema) (v : String) (T : PType) : CondSchema :=
  ⟨A.params ++ [(v, T)], A.pre, A.onParams.effs ++ (A.foralls.filter fun u => T.isSub u.type).flatMap fun u =>
    u.effs.map (CondEff.rename u.var v)⟩

/-- Well-typed literals, antecedents of bounded size, one antecedent per result. -/
structure Regular (preds : List PredDecl) (maxAnte : Nat) (A : CondSchema) : Prop where
  pre : ∀ l ∈ A.pre, TypedLit preds A.params l
  ante : ∀ e ∈ A.effs, ∀ l ∈ e.ante, TypedLit preds A.params l
  res : ∀ e ∈ A.effs, ∀ l ∈ e.res, TypedLit preds A.params l
  bounded : ∀ e ∈ A.effs, e.ante.card ≤ maxAnte
  uniq : ∀ e ∈ A.effs, ∀ e' ∈ A.effs, ∀ l, l ∈ e.res → l ∈ e'.res → e.ante = e'.ante

/-- The parameters are bound to different objects, each of exactly the type of the parameter; objects have different names. -/
structure World (params objs : Sig) (ρ : String → String) : Prop where
  names : (Sig.names objs).Nodup
  typed : ∀ p ∈ params, (ρ p.1, p.2) ∈ objs
  inj : ∀ x ∈ Sig.names params, ∀ y ∈ Sig.names params, ρ x = ρ y → x = y

/-- A well-formed true action with universal effects. `vars` gives, for each type of the list, the name that stands for an additional object. -/
structure WFUni (preds : List PredDecl) (maxAnte : Nat) (vars : List (String × PType)) (A : UniSchema) : Prop where
  /-- quantified variables are not parameters -/
  fresh : ∀ u ∈ A.foralls, u.var ∉ Sig.names A.params
  /-- the effects mention parameters only, the quantified ones also their variable -/
  effsOver : ∀ e ∈ A.effs, ∀ l ∈ e.ante ∪ e.res, ∀ x ∈ l.args, x ∈ Sig.names A.params
  over : ∀ u ∈ A.foralls, ∀ e ∈ u.effs, ∀ l ∈ e.ante ∪ e.res, ∀ x ∈ l.args, x = u.var ∨ x ∈ Sig.names A.params
  /-- every quantified result is about the variable -/
  about : ∀ u ∈ A.foralls, ∀ e ∈ u.effs, ∀ l ∈ e.res, u.var ∈ l.args
  base : Regular preds maxAnte A.onParams
  quant : ∀ p ∈ vars, Regular preds maxAnte (A.withObject p.1 p.2)
  /-- the effects never contradict each other -/
  consistent : ∀ objs ρ s, World A.params objs ρ → applicable A.pre ρ s → ∀ g ∈ A.makes objs ρ s, g.neg ∉ A.makes objs ρ s

/-- The subtype relation is transitive among the types that occur. -/
def SubTrans (ts : List PType) : Prop := ∀ t ∈ ts, ∀ u ∈ ts, ∀ w ∈ ts, t.isSub u = true → u.isSub w = true → t.isSub w = true

/-- An observed transition of an action of the domain, without the truth: distinct objects of exactly the types of the parameters. -/
structure ExactCall (D : Domain) (objs : Sig) (c : Component) : Prop where
  names : (Sig.names (objs ++ D.consts)).Nodup
  exact : List.Forall₂ (fun o (p : String × PType) => (o, p.2) ∈ objs) c.call.params (D.act c.call.name).sig
  distinct : c.call.params.Nodup

/-- A real transition of the true action. -/
structure RealUni (D : Domain) (truth : String → UniSchema) (objs : Sig) (c : Component) : Prop extends ExactCall D objs c where
  app : applicable (truth c.call.name).pre (objSubst D c) c.prev
  next : c.next = (truth c.call.name).next objs (objSubst D c) c.prev

/-- The true actions have the signatures of the domain and are well formed; `var a T` stands for an additional object of type `T`. -/
structure WFUniTruth (D : Domain) (maxAnte : Nat) (types : List PType) (var : String → PType → String) (truth : String → UniSchema) : Prop where
  params : ∀ a ∈ D.names, (truth a).params = (D.act a).sig
  wf : ∀ a ∈ D.names, WFUni D.preds maxAnte (types.map fun T => (var a T, T)) (truth a)

/-- Calls of exact objects; a type name stands for one type; no constants. -/
structure UniCalls (D : Domain) (types : List PType) (obs : List UniObs) : Prop where
  noConsts : D.consts = []
  typeNames : (types.map PType.name).Nodup
  known : ∀ ob ∈ obs, ob.2 ≠ [] → ∀ o ∈ ob.1, ∀ t ∈ types, o.2.name = t.name → o.2 = t
  exact : ∀ ob ∈ obs, ∀ c ∈ ob.2, ExactCall D ob.1 c

/-- ... of real transitions. -/
structure UniData (D : Domain) (types : List PType) (truth : String → UniSchema) (obs : List UniObs) : Prop extends
    UniCalls D types obs where
  real : ∀ ob ∈ obs, ∀ c ∈ ob.2, RealUni D truth ob.1 c

/-- The domain in which the action `a` has one more parameter. -/
def extend (D : Domain) (a v : String) (T : PType) : Domain :=
  { D with names := [a], act := Function.update D.act a (ActModel.fresh ((D.act a).sig ++ [(v, T)])) }

/-- The transitions of `a`, once for each object of exactly the type that is not in the call; the call gets that object as an additional
argument. -/
def withObjects (a : String) (T : PType) (obs : List UniObs) : List Component :=
  obs.flatMap fun ob => (ob.2.filter fun c => c.call.name = a).flatMap fun c =>
    (ob.1.filter fun o => o.2.name == T.name && !c.call.params.contains o.1).map fun o =>
      { c with call := ⟨a, c.call.params ++ [o.1]⟩ }

/-- What the transition changes, among the objects of the call and those of the listed types `ts`: each changed literal has at most one object
outside the call, and the type of that object is one of `types` other than `object`. -/
def OneExtra (D : Domain) (types : List PType) (ts : List String) (objs : Sig) (c : Component) : Prop :=
  ∀ g, TypedLit D.preds (objs.filter fun o => c.call.params.contains o.1 || ts.contains o.2.name) g → holds c.next g → ¬ holds c.prev g →
    (∀ o ∈ g.args, ∀ o' ∈ g.args, o ∉ c.call.params → o' ∉ c.call.params → o = o') ∧
    ∀ o ∈ g.args, o ∉ c.call.params → ∃ T ∈ types, T.name ≠ "object" ∧ (o, T) ∈ objs

/-- A learned action with universal effects and preconditions. -/
structure UniAction where
  core : LearnedAction
  /-- variable, type, condition -/
  pres : List (String × PType × Cond)
  foralls : List Forall

/-- Its preconditions hold in a world with the objects `objs`. -/
def UniAction.accepts (A : UniAction) (objs : Sig) (ρ : String → String) (s : State) : Prop :=
  A.core.accepts ρ s ∧ ∀ p ∈ A.pres, ∀ o ∈ objs, o.2.isSub p.2.1 = true →
    Cond.eval (fun l => holds s (ground (bindVar ρ p.1 o.1) l)) p.2.2

/-- Everything it makes true. -/
def UniAction.makes (A : UniAction) (objs : Sig) (ρ : String → String) (s : State) : Finset Lit :=
  (A.core.makes ρ s).image (ground ρ) ∪ A.foralls.foldr (fun u acc => firedForall u.effs u.var u.type objs ρ s ∪ acc) ∅

/-- Its next state. -/
def UniAction.next (A : UniAction) (objs : Sig) (ρ : String → String) (s : State) : State :=
  successor (A.makes objs ρ s) id s

end Spec

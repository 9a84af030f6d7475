import Verif.Spec.Cond
import Verif.Spec.Learning

/-! Actions with conditional effects: meaning, well-formedness, and the data they produce. -/
namespace Spec
open Model

/-- The results of the conditional effects whose antecedent holds. -/
def fired (effs : List CondEff) (ρ : String → String) (s : State) : Finset Lit :=
  effs.foldr (fun e acc => if applicable e.ante ρ s then e.res ∪ acc else acc) ∅

/-- The next state: the fired results take effect simultaneously. -/
def condSuccessor (effs : List CondEff) (ρ : String → String) (s : State) : State :=
  successor (fired effs ρ s) ρ s

/-- A well-formed true action: well-typed literals, antecedents of bounded size, one antecedent per
result literal, and never contradictory results. -/
structure WFCondSchema (preds : List PredDecl) (consts : Sig) (maxAnte : Nat) (A : CondSchema) : Prop where
  pre : ∀ l ∈ A.pre, TypedLit preds (A.params ++ consts) l
  ante : ∀ e ∈ A.effs, ∀ l ∈ e.ante, TypedLit preds (A.params ++ consts) l
  res : ∀ e ∈ A.effs, ∀ l ∈ e.res, TypedLit preds (A.params ++ consts) l
  bounded : ∀ e ∈ A.effs, e.ante.card ≤ maxAnte
  uniq : ∀ e ∈ A.effs, ∀ e' ∈ A.effs, ∀ l, l ∈ e.res → l ∈ e'.res → e.ante = e'.ante
  consistent : ∀ ρ s, Injective consts A.params ρ → applicable A.pre ρ s →
    ∀ l ∈ fired A.effs ρ s, l.neg ∉ fired A.effs ρ s

/-- The true actions have the signatures of the domain and are well formed. -/
structure WFCondTruth (D : Domain) (maxAnte : Nat) (truth : String → CondSchema) : Prop where
  params : ∀ a ∈ D.names, (truth a).params = (D.act a).sig
  wf : ∀ a ∈ D.names, WFCondSchema D.preds D.consts maxAnte (truth a)

/-- The substitution of the call of a component. -/
def objSubst (D : Domain) (c : Component) : String → String :=
  subst (Sig.names (D.act c.call.name).sig) c.call.params

/-- Data for a learner of conditional effects: every transition is real, of a call of distinct objects that
are not constants. -/
structure CondData (D : Domain) (truth : String → CondSchema) (cs : List Component) : Prop where
  arity : ∀ c ∈ cs, c.call.params.length = (D.act c.call.name).sig.length
  app : ∀ c ∈ cs, applicable (truth c.call.name).pre (objSubst D c) c.prev
  next : ∀ c ∈ cs, c.next = condSuccessor (truth c.call.name).effs (objSubst D c) c.prev
  distinct : ∀ c ∈ cs, c.call.params.Nodup
  noConst : ∀ c ∈ cs, ∀ o ∈ c.call.params, o ∉ Sig.names D.consts

/-- The literal holds before (after) the transition. -/
def before (D : Domain) (c : Component) (l : Lit) : Prop := holds c.prev (ground (objSubst D c) l)
def after (D : Domain) (c : Component) (l : Lit) : Prop := holds c.next (ground (objSubst D c) l)

instance (D c l) : Decidable (before D c l) := by unfold before; infer_instance
instance (D c l) : Decidable (after D c l) := by unfold after; infer_instance

/-- The conjunction `A` could be the antecedent of the result `l` as far as the data of the action go:
when it held, the result held afterwards; when the result became true, it had held. -/
def Explains (D : Domain) (cs : List Component) (a : String) (A : Finset Lit) (l : Lit) : Prop :=
  ∀ c ∈ cs, c.call.name = a →
    ((∀ x ∈ A, before D c x) → after D c l) ∧ (¬ before D c l → after D c l → ∀ x ∈ A, before D c x)

/-- The literal was seen to become true. -/
def Became (D : Domain) (cs : List Component) (a : String) (l : Lit) : Prop :=
  ∃ c ∈ cs, c.call.name = a ∧ ¬ before D c l ∧ after D c l

/-- The literal was true in every state in which the action was applied. -/
def AlwaysBefore (D : Domain) (cs : List Component) (a : String) (l : Lit) : Prop :=
  ∀ c ∈ cs, c.call.name = a → before D c l

/-- A possible antecedent for `l`: non-empty, of bounded size, well typed, without literals that were
always true, and not refuted by the data. -/
structure Possible (D : Domain) (cs : List Component) (a : String) (maxAnte : Nat) (l : Lit) (A : Finset Lit) : Prop where
  ne : A ≠ ∅
  card : A.card ≤ maxAnte
  typed : ∀ x ∈ A, TypedLit D.preds ((D.act a).sig ++ D.consts) x
  fresh : ∀ x ∈ A, ¬ AlwaysBefore D cs a x
  explains : Explains D cs a A l

end Spec

namespace Spec
open Model

/-- The data leave at least two antecedents possible for the literal. -/
def Ambiguous (D : Domain) (cs : List Component) (a : String) (n : Nat) (l : Lit) : Prop :=
  TypedLit D.preds ((D.act a).sig ++ D.consts) l ∧ ¬ AlwaysBefore D cs a l ∧
    ∃ A B, A ≠ B ∧ Possible D cs a n l A ∧ Possible D cs a n l B

/-- Exactly one antecedent is possible for the literal. -/
def Determined (D : Domain) (cs : List Component) (a : String) (n : Nat) (l : Lit) : Prop :=
  ¬ AlwaysBefore D cs a l ∧ ∃ A, Possible D cs a n l A ∧ ∀ B, Possible D cs a n l B → B = A

/-- The literal was never seen to become false. -/
def NeverUndone (D : Domain) (cs : List Component) (a : String) (l : Lit) : Prop :=
  ∀ c ∈ cs, c.call.name = a → before D c l → after D c l

/-- A learned action with conditional effects: precondition literals, inequalities, further conditions,
plain effects and conditional effects. -/
structure LearnedAction where
  pre : Finset Lit
  ineq : Finset (String × String)
  conds : List Cond
  eff : Finset Lit
  condEffs : List CondEff

/-- All its preconditions hold. -/
def LearnedAction.accepts (A : LearnedAction) (ρ : String → String) (s : State) : Prop :=
  applicable A.pre ρ s ∧ ineqHolds A.ineq ρ ∧ ∀ c ∈ A.conds, Cond.eval (fun l => holds s (ground ρ l)) c

/-- Everything it makes true: the plain effects and the results of the fired conditional effects. -/
def LearnedAction.makes (A : LearnedAction) (ρ : String → String) (s : State) : Finset Lit :=
  A.eff ∪ fired A.condEffs ρ s

/-- Its next state. -/
def LearnedAction.next (A : LearnedAction) (ρ : String → String) (s : State) : State :=
  successor (A.makes ρ s) ρ s

end Spec

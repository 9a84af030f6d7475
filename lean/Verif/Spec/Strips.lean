import Verif.Pddl

/-!
Specification vocabulary: textbook STRIPS semantics with negative preconditions.
Nothing here refers to the model of the code.
-/
namespace Spec

/-- The substitution of an action call: the i-th parameter goes to the i-th object; every other
name (a constant) stands for itself. -/
def subst (params call : List String) (x : String) : String :=
  ((params.zip call).lookup x).getD x

/-- Grounding a lifted literal. -/
def ground (ρ : String → String) (l : Lit) : Lit := { l with args := l.args.map ρ }

/-- A ground literal holds in a state. -/
def holds (s : State) (g : Lit) : Prop := (g.pos = true ↔ g.atom ∈ s)

instance (s : State) (g : Lit) : Decidable (holds s g) := by unfold holds; infer_instance

/-- All (conjunctive) precondition literals hold under the substitution. -/
def applicable (pre : Finset Lit) (ρ : String → String) (s : State) : Prop :=
  ∀ l ∈ pre, holds s (ground ρ l)

/-- All inequality preconditions hold under the substitution. -/
def ineqHolds (ineq : Finset (String × String)) (ρ : String → String) : Prop :=
  ∀ p ∈ ineq, ρ p.1 ≠ ρ p.2

instance (pre : Finset Lit) (ρ : String → String) (s : State) : Decidable (applicable pre ρ s) := by
  unfold applicable; infer_instance
instance (i : Finset (String × String)) (ρ : String → String) : Decidable (ineqHolds i ρ) := by
  unfold ineqHolds; infer_instance

/-- STRIPS successor: remove the delete effects, then add the add effects. -/
def successor (eff : Finset Lit) (ρ : String → String) (s : State) : State :=
  (s \ ((eff.filter (fun l => l.pos = false)).image (fun l => (ground ρ l).atom)))
    ∪ ((eff.filter (fun l => l.pos = true)).image (fun l => (ground ρ l).atom))

/-- A conjunctive action schema. -/
structure Schema where
  params : Sig
  pre : Finset Lit
  eff : Finset Lit

/-- A literal is well typed over a table of typed names: a declared predicate, the right number of
arguments, each argument in the table with a subtype of the declared parameter type, and no
argument repeated (SAM's standing assumption). -/
structure TypedLit (preds : List PredDecl) (table : Sig) (l : Lit) : Prop where
  nodup : l.args.Nodup
  decl : ∃ pd ∈ preds, pd.name = l.name ∧
    List.Forall₂ (fun x (d : String × PType) => ∃ t, (x, t) ∈ table ∧ t.isSub d.2 = true) l.args pd.sig

/-- A well-formed true action over the given predicates and constants. -/
structure WFSchema (preds : List PredDecl) (consts : Sig) (A : Schema) : Prop where
  pre : ∀ l ∈ A.pre, TypedLit preds (A.params ++ consts) l
  eff : ∀ l ∈ A.eff, TypedLit preds (A.params ++ consts) l
  consistent : ∀ l ∈ A.eff, l.neg ∉ A.eff

end Spec

namespace Spec

/-- The names of a signature and of the constants are pairwise distinct. -/
def WFSig (consts sig : Sig) : Prop := (Sig.names (sig ++ consts)).Nodup

instance (consts sig : Sig) : Decidable (WFSig consts sig) := by unfold WFSig; infer_instance

/-- A call with the right number of objects, none repeated and none a constant. -/
structure GoodCall (consts sig : Sig) (call : List String) : Prop where
  len : call.length = sig.length
  nodup : call.Nodup
  fresh : ∀ o ∈ call, o ∉ Sig.names consts

end Spec

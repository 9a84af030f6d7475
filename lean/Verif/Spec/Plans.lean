import Verif.Spec.Learning
import Verif.Spec.Hybrid
import Verif.Spec.NumLearning
import Verif.Spec.Validation

/-! Plans over a STRIPS domain, planning problems, and what it means that planners and the plan validator do their work. -/
namespace Spec
namespace Plans
open Model

/-- A domain as a planner reads it: the actions it has, their parameters, literals, inequalities between parameters, effects. -/
structure Strips where
  names : List String
  params : String → Sig
  pre : String → Finset Lit
  ineq : String → Finset (String × String)
  eff : String → Finset Lit

/-- The binding of a call. -/
def Strips.binding (A : Strips) (c : Call) : String → String := subst (Sig.names (A.params c.name)) c.params

/-- One step: a call of an action of the domain with the right number of objects, in a state that satisfies its literals and inequalities,
leads to the successor state. -/
def Strips.step (A : Strips) (s : State) (c : Call) (s' : State) : Prop :=
  c.name ∈ A.names ∧ c.params.length = (A.params c.name).length ∧ applicable (A.pre c.name) (A.binding c) s ∧
  ineqHolds (A.ineq c.name) (A.binding c) ∧ s' = successor (A.eff c.name) (A.binding c) s

/-- The domain a learner returned. -/
def returned (D : Domain) : Strips :=
  ⟨D.names, fun a => (D.act a).sig, fun a => (D.act a).pre, fun a => (D.act a).ineq, fun a => (D.act a).eff⟩

/-- The true domain: the actions of the partial domain with their true preconditions and effects. -/
def real (D : Domain) (truth : String → Schema) : Strips :=
  ⟨D.names, fun a => (truth a).params, fun a => (truth a).pre, fun _ => ∅, fun a => (truth a).eff⟩

/-- A planning problem. -/
structure Problem where
  init : State
  goal : State → Prop

/-- The plan solves the problem in the domain. -/
def Strips.Solves (A : Strips) (P : Problem) (plan : List Call) : Prop := ∃ s, Leads A.step P.init plan s ∧ P.goal s

/-- Every call has distinct objects, none of them a constant. -/
def Distinct (consts : Sig) (plan : List Call) : Prop := ∀ c ∈ plan, c.params.Nodup ∧ ∀ o ∈ c.params, o ∉ Sig.names consts

/-- The plan is that of a recorded trajectory from a state to another: its transitions follow one another. -/
def Recorded (t : List Component) (s : State) (plan : List Call) (s' : State) : Prop :=
  plan = t.map Component.call ∧ Leads (fun s c s' => c.prev = s ∧ c.next = s') s t s'

/-- Everything that was evaluated for a test problem fits: a planner answers with one of its four outcomes and claims only plans that solve the
problem in the tested domain (with calls `allowed`), VAL accepts a plan against a domain exactly when it solves the problem there. `tested` and
`reference`: the plans that solve the problem in the tested and in the reference domain. -/
structure Evaluated {π : Type} (tested reference allowed : π → Prop) (expert : π) (t : TestCase) : Prop where
  answers : ∀ a ∈ t.answers, a.1 = .ok ∨ a.1 = .noSolution ∨ a.1 = .timeout ∨ a.1 = .solverError
  sound : ∀ a ∈ t.answers, a.1 = .ok → ∃ plan, allowed plan ∧ tested plan ∧ (a.2.valid = true ↔ reference plan)
  expert : t.expert.valid = true ↔ tested expert

/-! ### Domains with numeric fluents -/

section
variable {K : Type}

/-- The true atoms and the values of the ground fluents. -/
abbrev NState (K : Type) := State × (Atom → K)

/-- What a call sees of the values: the value of each of its functions, by the text of the function. -/
noncomputable def seen [Zero K] (txt : Atom → String) (fns : Atom → Prop) (ρ : String → String) (σ : Atom → K) : String → K :=
  open Classical in fun n => if h : ∃ f, fns f ∧ txt f = n then σ (groundFn ρ h.choose) else 0

/-- A domain with numeric conditions and effects: `fns a` are the functions of the action, `new a x f` is the value of `f` after it. -/
structure NumStrips (K : Type) extends Strips where
  fns : String → Atom → Prop
  cond : String → (String → K) → Prop
  new : String → (String → K) → Atom → K

/-- One step: the boolean part as before; the numeric condition holds of what the call sees, its functions get their new values and no other ground fluent
changes. -/
def NumStrips.step [Zero K] (A : NumStrips K) (txt : Atom → String) (s : NState K) (c : Call) (s' : NState K) : Prop :=
  A.toStrips.step s.1 c s'.1 ∧
  A.cond c.name (seen txt (A.fns c.name) (A.toStrips.binding c) s.2) ∧
  (∀ f, A.fns c.name f → s'.2 (groundFn (A.toStrips.binding c) f) = A.new c.name (seen txt (A.fns c.name) (A.toStrips.binding c) s.2) f) ∧
  ∀ g, (∀ f, A.fns c.name f → groundFn (A.toStrips.binding c) f ≠ g) → s'.2 g = s.2 g

/-- A planning problem with numeric fluents, and its plans. -/
structure NumProblem (K : Type) where
  init : NState K
  goal : NState K → Prop

def NumStrips.Solves [Zero K] (A : NumStrips K) (txt : Atom → String) (P : NumProblem K) (plan : List Call) : Prop :=
  ∃ s, Leads (A.step txt) P.init plan s ∧ P.goal s

variable [Field K] [LinearOrder K]

/-- The domain N-SAM returned. -/
def returnedNum (txt : Atom → String) (decls : List PredDecl) (consts : Sig) (N : NumLearner K) : NumStrips K where
  toStrips := returned N.base.dom
  fns a := InScope decls consts (N.base.dom.act a).sig
  cond a x := ∀ q ∈ (N.num a).pre, q.holds x
  new a x f := applyNumeric (N.num a).eff x (txt f)

/-- The true domain. -/
def realNum (decls : List PredDecl) (D : Domain) (truth : String → Schema) (num : String → NumSchema K) : NumStrips K where
  toStrips := real D truth
  fns a := InScope decls D.consts (truth a).params
  cond a x := (num a).pre (monoVal x)
  new a x f := ((num a).eff f).value (monoVal x)

/-- The values of a recorded state; absent fluents count as zero. -/
def valuesOf (σ : List (Atom × K)) : Atom → K := fun g => (σ.lookup g).getD 0

/-- The plan is that of a recorded trajectory of transitions that follow one another. -/
def RecordedNum (t : List (NumComponent K)) (s : NState K) (plan : List Call) (s' : NState K) : Prop :=
  plan = t.map (fun c => c.comp.call) ∧
  Leads (fun s c s' => s = (c.comp.prev, valuesOf c.prevN) ∧ s' = (c.comp.next, valuesOf c.nextN)) s t s'

end
end Plans
end Spec

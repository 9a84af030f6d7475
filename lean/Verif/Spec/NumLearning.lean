import Verif.Spec.Learning
import Verif.Spec.Regression
import Verif.Model.NumSam

/-!
What a numeric learning problem is: the unknown true action with its numeric precondition and
effects, and data produced by it. Of the model only the data types are used.

A lifted function term is an `Atom`; `txt` gives its text. A numeric state of a call, seen from the
action, is a valuation of the texts of the lifted functions. Preconditions and effects speak about the
values of monomials (lists of texts; with degree zero just the single functions).
-/
namespace Spec
open Model

/-- A numeric function over the parameters of an action and the constants, well typed. -/
def InScope (fns : List PredDecl) (consts sig : Sig) (f : Atom) : Prop :=
  TypedLit fns (sig ++ consts) ⟨f.name, f.args, true⟩

/-- A declared function applied to the right number of parameters and constants of the action. -/
def Liftable (fns : List PredDecl) (consts sig : Sig) (f : Atom) : Prop :=
  (∃ d ∈ fns, d.name = f.name ∧ d.sig.length = f.args.length) ∧ ∀ a ∈ f.args, a ∈ Sig.names (sig ++ consts)

/-- The function a lifted function stands for under a substitution. -/
def groundFn (ρ : String → String) (f : Atom) : Atom := ⟨f.name, f.args.map ρ⟩

variable {K : Type} [Field K]

/-- The valuation of the lifted functions that a numeric state and a substitution give. -/
def Lifts (txt : Atom → String) (fns : List PredDecl) (consts sig : Sig) (ρ : String → String) (σ : Atom → K) (x : String → K) : Prop :=
  ∀ f, InScope fns consts sig f → x (txt f) = σ (groundFn ρ f)

/-- The values of monomials. -/
def monoVal (x : String → K) : List String → K := fun m => (m.map x).prod

/-- The row of a data frame with the given columns for a valuation. -/
def frameRow (cols : List (List String)) (x : String → K) : List String → K := fun m => if m ∈ cols then monoVal x m else 0

/-- The valuation of the texts of some lifted functions in a numeric state. -/
def stateVal (txt : Atom → String) (fs : List Atom) (ρ : String → String) (σ : List (Atom × K)) : String → K :=
  fun n => ((fs.find? fun f => txt f == n).bind fun f => σ.lookup (groundFn ρ f)).getD 0

/-- The numeric part of a true action: a condition on the values of the monomials, and for each lifted
function its new value, an affine function of the monomials. -/
structure NumSchema (K : Type) where
  pre : (List String → K) → Prop
  eff : Atom → Affine K (List String)

/-- The texts of the functions determine them, and none is the internal name of the constant term. -/
structure TextOK (txt : Atom → String) (fns : List PredDecl) (consts sig : Sig) : Prop where
  inj : ∀ f g, Liftable fns consts sig f → Liftable fns consts sig g → txt f = txt g → f = g
  notDummy : ∀ f, InScope fns consts sig f → txt f ≠ "(dummy)"

/-- The numeric states of a component are explained by the true action: states are dictionaries of
function terms without repeated arguments, all functions in scope have a value, the precondition held
and the next values are those of the effects. -/
structure NumExplained (txt : Atom → String) (fns : List PredDecl) (consts sig : Sig) (A : NumSchema K) (c : NumComponent K) : Prop where
  prevKeys : (c.prevN.map Prod.fst).Nodup
  nextKeys : (c.nextN.map Prod.fst).Nodup
  prevArgs : ∀ p ∈ c.prevN, p.1.args.Nodup
  nextArgs : ∀ p ∈ c.nextN, p.1.args.Nodup
  prevDef : ∀ f, InScope fns consts sig f → ∃ v, c.prevN.lookup (groundFn (subst (Sig.names sig) c.comp.call.params) f) = some v
  pre : ∀ x, Lifts txt fns consts sig (subst (Sig.names sig) c.comp.call.params) (fun g => (c.prevN.lookup g).getD 0) x → A.pre (monoVal x)
  next : ∀ x, Lifts txt fns consts sig (subst (Sig.names sig) c.comp.call.params) (fun g => (c.prevN.lookup g).getD 0) x →
    ∀ f, InScope fns consts sig f →
      c.nextN.lookup (groundFn (subst (Sig.names sig) c.comp.call.params) f) = some ((A.eff f).value (monoVal x))

/-- The true numeric part speaks only about the used monomials: the states it allows are convex in
them, effects on used functions depend only on them, and other functions do not change. -/
structure NumConvex [LinearOrder K] (txt : Atom → String) (fns : List PredDecl) (consts sig : Sig) (used : List (List String))
    (A : NumSchema K) : Prop where
  convex : ∀ (pts : List (List String → K)) (v : List String → K), (∀ r ∈ pts, A.pre r) → InHull used pts v → A.pre v
  effUsed : ∀ f, InScope fns consts sig f → [txt f] ∈ used → ∀ c ∈ (A.eff f).cols, c ∈ used
  effFrame : ∀ f, InScope fns consts sig f → [txt f] ∉ used → ∀ v, (A.eff f).value v = v [txt f]

end Spec

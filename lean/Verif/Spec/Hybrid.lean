import Verif.Spec.Strips
import Verif.Spec.NumLearning

/-! True actions with a discrete and a numeric part, and plans over ground states with named fluents. -/
namespace Spec

/-- A true action: literals required and made true, a condition on the values of the monomials of its functions, and the new value of each
of its functions, affine in the monomials. -/
structure HybridAction (K : Type) where
  pre : Finset Lit
  eff : Finset Lit
  functions : List String
  region : (List String → K) → Prop
  num : String → Affine K (List String)

/-- The call of an action: the objects for its parameters and the ground fluents for its functions. -/
structure HybridCall where
  name : String
  ρ : String → String
  fluent : String → String

/-- A state: the true atoms and the values of the ground fluents. -/
abbrev HybridState (K : Type) := State × (String → K)

/-- The new values of ground fluents: those of the listed functions are replaced. -/
def assignAll {K : Type} (fs : List String) (fluent : String → String) (new : String → K) (w : String → K) : String → K :=
  fun g => match fs.find? (fun f => fluent f == g) with
    | some f => new f
    | none => w g

variable {K : Type} [Field K]

/-- One step of the true domain. -/
def trueStep (D : String → HybridAction K) (s : HybridState K) (c : HybridCall) (s' : HybridState K) : Prop :=
  applicable (D c.name).pre c.ρ s.1 ∧ (D c.name).region (monoVal fun f => s.2 (c.fluent f)) ∧
  s' = (successor (D c.name).eff c.ρ s.1,
    assignAll (D c.name).functions c.fluent (fun f => ((D c.name).num f).value (monoVal fun f => s.2 (c.fluent f))) s.2)

/-- A plan leads from one state to another by steps of a domain. -/
def Leads {S A : Type} (step : S → A → S → Prop) : S → List A → S → Prop
  | s, [], s' => s = s'
  | s, a :: as, s' => ∃ m, step s a m ∧ Leads step m as s'

end Spec

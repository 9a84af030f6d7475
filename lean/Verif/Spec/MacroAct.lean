import Verif.Spec.Strips

/-! What a macro action stands for: a set of actions executed at once. -/
namespace Spec

/-- The parameter of the macro that stands for a parameter of one of its actions. -/
def boundTo (binding : List ((String × String) × String)) (a x : String) : String := (binding.lookup (a, x)).getD x

/-- The objects an action of the macro is called with, if the macro is called with `σ`. -/
def partSubst (binding : List ((String × String) × String)) (σ : String → String) (a : String) : String → String :=
  fun x => σ (boundTo binding a x)

/-- All ground effects of actions executed at once. -/
def jointEffects (truth : String → Schema) (acts : List String) (ρ : String → String → String) : Finset Lit :=
  acts.toFinset.biUnion fun a => (truth a).eff.image (ground (ρ a))

/-- No atom is both added and deleted. -/
def NoConflict (E : Finset Lit) : Prop := ∀ g ∈ E, g.neg ∉ E

instance (E : Finset Lit) : Decidable (NoConflict E) := by unfold NoConflict; infer_instance

end Spec

import Verif.Spec.Strips

/-! Vocabulary for proxy actions: an action some of whose parameters were merged. -/
namespace Spec

/-- The representative of a parameter. -/
def rep (d : List (String × String)) (x : String) : String := (d.lookup x).getD x

/-- The call of the original action a binding of the representatives stands for. -/
def unmerge (d : List (String × String)) (σ : String → String) (x : String) : String := σ (rep d x)

/-- No two arguments of the literal are merged. -/
def Keeps (d : List (String × String)) (l : Lit) : Prop := (l.args.map (rep d)).Nodup

/-- The literal after merging. -/
def mergedLit (d : List (String × String)) (l : Lit) : Lit := { l with args := l.args.map (rep d) }

instance (d : List (String × String)) (l : Lit) : Decidable (Keeps d l) := by unfold Keeps; infer_instance

end Spec

import Verif.Model.MaSam

/-! Histories of a `LiteralCNF` object, for C21. -/
namespace Spec
open Model

/-- The two mutating operations of the class. -/
inductive CnfOp where
  | notEffect (a : String) (l : Lit)
  | possible (joint : List (String × Lit))

/-- An operation tells the truth about the (action, effect) pairs `T`. -/
def CnfOp.Truthful (T : String → Lit → Prop) : CnfOp → Prop
  | .notEffect a l => ¬ T a l
  | .possible j => ∃ p ∈ j, T p.1 p.2

/-- Recorded clauses do not repeat a pair. -/
def CnfOp.Simple : CnfOp → Prop
  | .notEffect _ _ => True
  | .possible j => j.Nodup

/-- The effect of one operation on the object. -/
def CnfOp.apply (F : Cnf) : CnfOp → Cnf
  | .notEffect a l => F.addNotEffect a l
  | .possible j => F.addPossible j

/-- A history of a fresh object. -/
def runCnf (ops : List CnfOp) : Cnf := ops.foldl CnfOp.apply Cnf.empty

end Spec

import Verif.Spec.Numeric
import Mathlib.Algebra.BigOperators.Group.List.Basic

/-! Linear forms on columns. -/
namespace Spec

/-- The value of a linear form on the given columns. -/
def linForm {K C : Type} [Field K] (coef : C → K) (cols : List C) (v : C → K) : K := (cols.map fun c => coef c * v c).sum

end Spec

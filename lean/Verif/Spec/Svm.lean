import Verif.Spec.Hull

/-!
The linear classifier used by the optimistic numeric learner, as a parameter, with its contract.
-/
namespace Spec

variable {K C : Type}

/-- A point with the label of the observation: `true` for a success. -/
abbrev Labeled (K C : Type) := (C → K) × Bool

/-- The value of the linear form `a` on the columns. -/
def form [Field K] (a : List K) (cols : List C) (x : C → K) : K := (List.zipWith (fun k c => k * x c) a cols).sum

/-- `sklearn.svm.LinearSVC(...).fit(X, y)`: the coefficients and the bound (minus the intercept); `none`: a `ValueError`. -/
abbrev SvmFit (K C : Type) := List C → List (Labeled K C) → Option (List K × K)

variable [Field K] [LinearOrder K]

/-- A hyperplane with the failure strictly on one side and the successes strictly on the other. -/
def Separates (cols : List C) (pos : List (C → K)) (x : C → K) (a : List K) (b : K) : Prop :=
  a.length = cols.length ∧ form a cols x < b ∧ ∀ p ∈ pos, b < form a cols p

/-- Contract: one failure that can be separated from the successes is separated. -/
def SvmContract (fit : SvmFit K C) (cols : List C) : Prop :=
  ∀ (data : List (Labeled K C)) (x : C → K), (∃ pre post, data = pre ++ (x, false) :: post ∧ (∀ r ∈ pre ++ post, r.2 = true)) →
    (∃ a b, Separates cols ((data.filter (·.2)).map Prod.fst) x a b) →
      ∃ a b, fit cols data = some (a, b) ∧ Separates cols ((data.filter (·.2)).map Prod.fst) x a b

end Spec

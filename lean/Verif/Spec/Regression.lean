import Verif.Spec.Numeric

/-!
Linear regression of a label on features, as an external library with its contract in exact
arithmetic, and affine functions of data columns.
-/
namespace Spec

/-- An affine function of some columns: coefficients by column, and a constant. -/
structure Affine (K C : Type) where
  cols : List C
  coef : C → K
  const : K

variable {K C : Type} [Field K]

/-- Its value at a point. -/
def Affine.value (a : Affine K C) (v : C → K) : K := (a.cols.map fun c => a.coef c * v c).sum + a.const

/-- `sklearn.linear_model.LinearRegression`: coefficients (one per feature), intercept, and whether the
score is one. -/
structure RegLib (K C : Type) where
  solve : List C → List ((C → K) × K) → (List K × K) × Bool

/-- Contract: one coefficient per feature; a score of one exactly when the fitted function gives all
labels; and the best score is found, so that an exact affine function is not missed. -/
structure RegContract (R : RegLib K C) : Prop where
  length : ∀ feats data, (R.solve feats data).1.1.length = feats.length
  sound : ∀ feats data, (R.solve feats data).2 = true → ∀ p ∈ data,
    p.2 = (List.zipWith (fun a f => a * p.1 f) (R.solve feats data).1.1 feats).sum + (R.solve feats data).1.2
  complete : ∀ feats data (a : Affine K C), a.cols = feats → (∀ p ∈ data, p.2 = a.value p.1) → (R.solve feats data).2 = true

end Spec

import Verif.Spec.Numeric
import Mathlib.Data.Matrix.Mul

/-!
The external numeric libraries used by the numeric learner, with their contracts in exact
arithmetic: Qhull (facets of a convex hull), linear regression, and the Euclidean norm.
-/
namespace Spec

/-- What `scipy.spatial.ConvexHull` returns: the facets (normal, bound) read as
`normal · y ≤ bound`, the indices of the vertices, and the facets as lists of point indices. -/
structure HullResult (K : Type) (k : Nat) where
  facets : List ((Fin k → K) × K)
  vertices : List Nat
  simplices : List (List Nat)

/-- The external numeric libraries. `qhull` fails with `none` (`QhullError`); `fit feats label rows`
is the linear regression of a column on others, `some` when the score is exactly one; `norm` is
`numpy.linalg.norm`. -/
structure NumLib (K C : Type) where
  qhull : (k : Nat) → List (Fin k → K) → Option (HullResult K k)
  fit : List C → C → List (C → K) → Option (List K × K)
  norm : {n : Nat} → (Fin n → K) → K

variable {K C : Type} [Field K] [LinearOrder K]

/-- Contract of Qhull: when it succeeds, a point satisfies all facets exactly when it is a convex
combination of the given points; vertices and simplices are lists of positions of points. -/
structure QhullContract (L : NumLib K C) : Prop where
  facets : ∀ {k : Nat} {pts : List (Fin k → K)} {h : HullResult K k}, L.qhull k pts = some h →
    ∀ y : Fin k → K, (∀ f ∈ h.facets, f.1 ⬝ᵥ y ≤ f.2) ↔ InHull (List.finRange k) pts y
  vertices : ∀ {k : Nat} {pts : List (Fin k → K)} {h : HullResult K k}, L.qhull k pts = some h →
    h.vertices ≠ [] ∧ ∀ i ∈ h.vertices, i < pts.length

/-- Contract of the regression: a score of exactly one means that the fitted affine function gives
exactly the observed values. -/
def FitContract (L : NumLib K C) : Prop :=
  ∀ {feats : List C} {c : C} {rows : List (C → K)} {cs : List K} {b : K}, L.fit feats c rows = some (cs, b) →
    cs.length = feats.length ∧ ∀ r ∈ rows, r c = (List.zipWith (fun a f => a * r f) cs feats).sum + b

/-- Completeness of the regression on the given rows: an exact affine dependency of a column on
others is found. -/
def FitComplete (L : NumLib K C) (rows : List (C → K)) : Prop :=
  ∀ {feats : List C} {c : C} (a : C → K) (b : K), feats ≠ [] → c ∉ feats →
    (∀ r ∈ rows, r c = (feats.map fun f => a f * r f).sum + b) → L.fit feats c rows ≠ none

/-- `x` is, on the given columns, an affine combination of the rows. -/
def InAffine (cols : List C) (rows : List (C → K)) (x : C → K) : Prop :=
  ∃ w : List K, w.length = rows.length ∧ w.sum = 1 ∧
    ∀ c ∈ cols, x c = (List.zipWith (fun k r => k * r c) w rows).sum

/-- The data is well separated: a row that is not an affine combination of some rows differs from
every affine combination of them by more than the tolerance in some column. -/
def Separated (eps : K) (cols : List C) (rows : List (C → K)) : Prop :=
  ∀ r ∈ rows, ∀ s : List (C → K), (∀ r' ∈ s, r' ∈ rows) → InAffine cols s r ∨
    ∀ q, InAffine cols s q → ∃ c ∈ cols, eps < |r c - q c|

/-- Contract of the norm: a vector that is not zero has a norm that is not zero. -/
def NormContract (L : NumLib K C) : Prop := ∀ {n : Nat} (v : Fin n → K), v ≠ 0 → L.norm v ≠ 0

end Spec

import Verif.Model.NumericUtils
import Verif.Spec.Hull
import Mathlib.Data.Matrix.Mul

/-!
Model of `sam_learning/core/numeric_learning/convex_hull_learner.py` and of the parts of
`numeric_utils.py` it uses (Gram-Schmidt, removal of linear dependencies).

A data frame is a list of columns and a list of rows (functions from columns to values). Qhull and
scikit-learn's `LinearRegression` are external: parameters of the model, with their contracts stated
in `Spec/Hull.lean`. Arithmetic is exact.
-/
namespace Model
open Spec

variable {K : Type} [Field K] [LinearOrder K]

/-! ### Gram-Schmidt -/

/-- numeric_utils.py:320: the projection of `v` on the vectors collected so far
(`np.linalg.norm(b) ** 2` is the dot product of `b` with itself). -/
def projOn {n : Nat} (bs : List (Fin n → K)) (v : Fin n → K) : Fin n → K :=
  (bs.map fun b => ((v ⬝ᵥ b) / (b ⬝ᵥ b)) • b).sum

/-- numeric_utils.py:318-325: one round of the loop. -/
def gsStep {n : Nat} (eps : K) (norm : (Fin n → K) → K)
    (st : List (Fin n → K) × List (Fin n → K)) (v : Fin n → K) : List (Fin n → K) × List (Fin n → K) :=
  let p := v - projOn st.1 v
  if ∃ i, eps < |p i| then (st.1 ++ [p], st.2 ++ [(norm p)⁻¹ • p]) else st

/-- numeric_utils.py:305-327 `extended_gram_schmidt`. -/
def gramSchmidt {n : Nat} (eps : K) (norm : (Fin n → K) → K) (vs eig : List (Fin n → K)) : List (Fin n → K) :=
  (vs.foldl (gsStep eps norm) (eig, [])).2

/-! ### Points -/

variable {C : Type} [DecidableEq C]

/-- The row of a data frame as a vector in the order of the columns (`to_numpy`). -/
def rowVec (cols : List C) (r : C → K) : Fin cols.length → K := fun i => r (cols.get i)

/-- The standard basis, convex_hull_learner.py:159 `np.eye`. -/
def eyeVecs (n : Nat) : List (Fin n → K) := (List.finRange n).map fun i => fun j => if i = j then 1 else 0

/-- The result of the learner: conditions, the action declared unsafe (`NotSafeActionError`), or an
exception that is not caught (a condition with a missing side does not parse). -/
inductive HullOut (K : Type) where
  | conds (cs : List (NCond K))
  | notSafe
  | crash
deriving DecidableEq, Repr

/-- numeric_utils.py:257-282 `construct_numeric_conditions`, conjunctive. Conditions that do not
parse are not caught by the learner. -/
def parseConds (cs : List (NCond K)) : HullOut K :=
  if cs.all NCond.wellFormed then .conds cs else .crash

/-- convex_hull_learner.py:75-107 `_epsilon_approximate_hull`; `plain` when no margin and no Qhull
options are given. -/
def approxHull {k : Nat} (qhull : List (Fin k → K) → Option (HullResult K k)) (margin : K) (plain : Bool)
    (pts : List (Fin k → K)) : Option (HullResult K k) := do
  let hull ← qhull pts
  if plain then pure hull else
  let vs := hull.vertices.filterMap (fun i => pts[i]?)
  let centroid : Fin k → K := (vs.length : K)⁻¹ • vs.sum
  let expanded := hull.simplices.flatMap fun s =>
    (s.filterMap (fun i => pts[i]?)).map fun p => centroid + (1 + margin) • (p - centroid)
  qhull (pts ++ expanded)

variable [IsStrictOrderedRing K] [FloorRing K]

/-- convex_hull_learner.py:109-124 `_execute_convex_hull`: prettified facets. `np.unique` only
reorders and removes repetitions. -/
def executeHull {k : Nat} (d : Nat) (qhull : List (Fin k → K) → Option (HullResult K k)) (margin : K) (plain : Bool)
    (pts : List (Fin k → K)) : Option (List (List K) × List K) :=
  (approxHull qhull margin plain pts).map fun h =>
    (h.facets.map fun f => prettifyCoefs d (List.ofFn f.1), prettifyCoefs d (h.facets.map Prod.snd))

/-- Python `min` and `max` of a non-empty list of numbers. -/
def listMin : List K → K
  | [] => 0
  | x :: xs => xs.foldl min x
def listMax : List K → K
  | [] => 0
  | x :: xs => xs.foldl max x

/-- convex_hull_learner.py:167-176 `_construct_single_dimension_convex_hull`. -/
def singleDim (d : Nat) (vals : List K) : List (List K) × List K :=
  ([[-1], [1]], prettifyCoefs d [-listMin vals, listMax vals])

/-- convex_hull_learner.py:126-165 `_create_convex_hull_linear_inequalities`: the inequalities, their
headers and the equalities of the span; `none`: `QhullError` or `ValueError` (an empty basis). -/
def hullInequalities (L : NumLib K C) (d : Nat) (margin : K) (plain : Bool) (colExp : C → NExp K)
    (cols : List C) (rows : List (C → K)) : Option ((List (List K) × List K) × List (NExp K) × List (NCond K)) :=
  let pts := rows.map (rowVec cols)
  let shift := (pts.head?).getD 0
  let shifted := pts.map (· - shift)
  let headers := cols.map colExp
  let basis := gramSchmidt (epsOf K d) L.norm shifted []
  if cols.length < shifted.length ∧ cols.length ≤ basis.length then
    (executeHull d (L.qhull cols.length) margin plain pts).map fun ab => (ab, headers, [])
  else if basis.length = 0 then none
  else
    let projected : List (Fin basis.length → K) := shifted.map fun p => fun i => p ⬝ᵥ basis.get i
    let ab := if h : basis.length = 1 then some (singleDim d (projected.map fun p => p ⟨0, by omega⟩))
      else executeHull d (L.qhull basis.length) margin plain projected
    let vars := projectedVars d headers (List.ofFn shift) (basis.map List.ofFn)
    match divideSpan ((gramSchmidt (epsOf K d) L.norm (eyeVecs cols.length) basis).map List.ofFn) with
    | none => none
    | some span =>
      let eyeVars := projectedVars d headers (List.ofFn shift) ((eyeVecs cols.length).map List.ofFn)
      ab.map fun ab => (ab, vars, pddlScheme d .eq span (span.map fun _ => 0) eyeVars)

/-- numeric_utils.py:514-540: the loop of `remove_complex_linear_dependencies`. `todo` are the
columns still to check, `cols` all columns, `removed` those removed so far. -/
def removeLoop (L : NumLib K C) (d : Nat) (colExp : C → NExp K) (cols : List C) (rows : List (C → K)) :
    List C → List C → List (NCond K) → List C × List (NCond K)
  | [], removed, conds => (removed, conds)
  | c :: todo, removed, conds =>
    let feats := cols.filter (fun f => f ≠ c ∧ f ∉ removed)
    if feats = [] then (removed, conds)
    else match L.fit feats c rows with
      | none => removeLoop L d colExp cols rows todo removed conds
      | some (cs, b) =>
        let coefs := prettifyCoefs d (cs ++ [b])
        let cond : NCond K :=
          if coefs.all (· = 0) then ⟨.eq, colExp c, .num 0⟩
          else ⟨.eq, colExp c, linExp (mulTerms d coefs (feats.map colExp ++ [dummy]))⟩
        removeLoop L d colExp cols rows todo (removed ++ [c]) (conds ++ [cond])

/-- numeric_utils.py:508 `data.nunique() == 1`. -/
def isConst (rows : List (C → K)) (c : C) : Bool :=
  match rows with
  | [] => false
  | r :: rs => rs.all fun r' => r' c = r c

/-- numeric_utils.py:500-542 `remove_complex_linear_dependencies`: the remaining columns (`none`: the
empty data frame of line 512) and the conditions. -/
def removeDependencies (L : NumLib K C) (d : Nat) (colExp : C → NExp K) (cols : List C) (rows : List (C → K)) :
    Option (List C) × List (NCond K) :=
  if rows = [] ∨ cols.length = 1 then (some cols, [])
  else
    let consts := cols.filter (isConst rows)
    let conds : List (NCond K) := consts.map fun c => ⟨.eq, colExp c, .num (((rows.head?).map (· c)).getD 0)⟩
    if cols.length = consts.length then (none, conds)
    else
      let r := removeLoop L d colExp cols rows (cols.filter (· ∉ consts)) consts conds
      (some (cols.filter (· ∉ r.1)), r.2)

/-- convex_hull_learner.py:210-224 `_construct_single_dimension_inequalities`. -/
def singleColumn (colExp : C → NExp K) (c : C) (rows : List (C → K)) : List (NCond K) :=
  let lo := listMin (rows.map (· c))
  let hi := listMax (rows.map (· c))
  if lo = hi then [⟨.eq, colExp c, .num lo⟩]
  else [⟨.ge, colExp c, .num lo⟩, ⟨.le, colExp c, .num hi⟩]

/-- convex_hull_learner.py:226-276 `construct_safe_linear_inequalities`. `relevant`: the names of
the relevant fluents; a single relevant fluent that is no column is a `KeyError`. -/
def safeInequalities (L : NumLib K C) (d : Nat) (margin : K) (plain : Bool) (colExp : C → NExp K)
    (relevant : Option (List C)) (cols : List C) (rows : List (C → K)) : HullOut K :=
  let used := match relevant with
    | none => cols
    | some fs => cols.filter (· ∈ fs)
  if (relevant.map List.length = some 1) ∨ used.length = 1 then
    match (match relevant with | none => used | some fs => fs) with
    | [] => .crash
    | f :: _ => if f ∈ used then parseConds (singleColumn colExp f rows) else .crash
  else
    match removeDependencies L d colExp used rows with
    | (none, conds) => parseConds conds
    | (some left, conds) =>
      if rows = [] then parseConds conds
      else if left.length = 1 then
        let ab := singleDim d (rows.map fun r => (left.head?.map r).getD 0)
        parseConds (pddlScheme d .le ab.1 ab.2 (left.map colExp) ++ conds)
      else match hullInequalities L d margin plain colExp left rows with
        | none => .notSafe
        | some (ab, vars, spanConds) =>
          parseConds (pddlScheme d .le ab.1 ab.2 vars ++ conds ++ spanConds)

end Model

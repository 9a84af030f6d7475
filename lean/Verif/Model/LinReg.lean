import Verif.Model.ConvexHull
import Verif.Spec.Regression

/-!
Model of `sam_learning/core/numeric_learning/linear_regression_learner.py` and of the functions of
`numeric_utils.py` it uses. scikit-learn's `LinearRegression` is a parameter. Arithmetic is exact.

Observations are pairs of rows (functions from columns to values): the features before the action
(all monomials) and the fluents after it. `fname` is the name of the fluent of a column.
-/
namespace Model
open Spec

variable {K : Type} [Field K] [LinearOrder K]
variable {C : Type} [DecidableEq C]

/-- Exceptions: `NotSafeActionError` (caught by the learner), scikit-learn's `ValueError` for no
features, and `KeyError`. -/
inductive LinErr where
  | notSafe
  | valueError
  | keyError
deriving DecidableEq, Repr

/-- numeric_utils.py:186-216 `filter_constant_features`: the columns with non-zero variance (none if
all are constant). -/
def nonConstant (rows : List (C → K)) (cols : List C) : List C := cols.filter fun c => !isConst rows c

/-- numeric_utils.py:243-246: the two columns have rank below two. -/
def proportional (rows : List (C → K)) (c1 c2 : C) : Bool :=
  rows.all fun r => rows.all fun r' => r c1 * r' c2 = r' c1 * r c2

variable [IsStrictOrderedRing K] [FloorRing K]

/-- numeric_utils.py:167-183 `extract_numeric_linear_coefficient`. -/
def linCoeff (d : Nat) (rows : List (C → K)) (c2 c1 : C) : K :=
  prettify d (rnd d (((rows.map fun r => r c2 / (if r c1 = 0 then 1 / 10 ^ 9 else r c1)).find?
    (fun v => 1 / 100 < |v|)).getD 0))

/-- numeric_utils.py:242-255: the columns found to be a multiple of an earlier column. -/
def dependentCols (d : Nat) (rows : List (C → K)) (cols : List C) : List C :=
  (Py.combs 2 cols).filterMap fun p =>
    match p with
    | [c1, c2] => if proportional rows c1 c2 ∧ linCoeff d rows c2 c1 ≠ 0 then some c2 else none
    | _ => none

/-- numeric_utils.py:219-258 `detect_linear_dependent_features`, the filtered columns. -/
def regressionCols (d : Nat) (rows : List (C → K)) (cols : List C) : List C :=
  cols.filter (· ∉ dependentCols d rows cols)

/-- linear_regression_learner.py:113-139 `_calculate_scale_factor`. The vector has one more entry, the
intercept, at the place of the label column. -/
def scaleFactor (feats : List C) (cv : List K) (f : C) : Option K :=
  let i := feats.idxOf f
  if f ∈ feats ∧ cv.getD i 0 ≠ 0 ∧ (∀ j ∈ List.range cv.length, j ≠ i → cv.getD j 0 = 0) then
    some (rnd 10 (cv.getD i 0))
  else none

/-- linear_regression_learner.py:141-160 `_extract_non_zero_change`: (next, previous). -/
def nonZeroChange (f : C) : List ((C → K) × K) → K × K
  | [] => (0, 0)
  | [p] => (p.2, p.1 f)
  | p :: ps => if p.1 f ≠ p.2 then (p.2, p.1 f) else nonZeroChange f ps

/-- linear_regression_learner.py:162-209 `_solve_linear_equations` with 86-111
`_solve_regression_problem`. -/
def solveLinear (R : RegLib K C) (d : Nat) (allowUnsafe : Bool) (colExp : C → NExp K) (fname : C → String) (f : C)
    (feats : List C) (data : List ((C → K) × K)) : Except LinErr (Option (NEffect K)) :=
  let sol := R.solve feats data
  if sol.2 = false ∧ allowUnsafe = false then .error .notSafe
  else
    let cv := prettifyCoefs d (sol.1.1 ++ [sol.1.2])
    let label0 := ((data.head?).map Prod.snd).getD 0
    if cv.all (· = 0) ∧ data.all (fun p => p.2 = label0) then .ok (some ⟨.assign, fname f, .num label0⟩)
    else match scaleFactor feats cv f with
      | some k => if k = 1 then .ok none
          else .ok (some ⟨if 1 < k then .scaleUp else .scaleDown, fname f, .num k⟩)
      | none =>
        if f ∈ feats ∧ cv.getD (feats.idxOf f) 0 ≠ 0 then
          let ch := nonZeroChange f data
          match nonCircular d (fname f) ((feats.map colExp ++ [dummy]).zip cv) ch.2 ch.1 with
          | some e => .ok (some e)
          | none => .error .keyError
        else
          let ts := mulTerms d cv (feats.map colExp ++ [dummy])
          if ts = [] then .ok none else .ok (some ⟨.assign, fname f, linExp ts⟩)

/-- pandas `drop_duplicates` by the values of a key: first occurrences. -/
def dedupBy {α β : Type} [DecidableEq β] (key : α → β) : List α → List α
  | [] => []
  | a :: l => a :: (dedupBy key l).filter fun b => key b ≠ key a

/-- linear_regression_learner.py:238-257 `_construct_effect_from_single_sample`. -/
def singleSample (fname : C → String) (prevCols nextCols : List C) (o : (C → K) × (C → K)) : List (NEffect K) :=
  nextCols.filterMap fun f =>
    if f ∈ prevCols ∧ o.1 f = o.2 f then none else some ⟨.assign, fname f, .num (o.2 f)⟩

/-- Python list comprehension collecting the effects that are not `None`; the first exception ends it. -/
def collectEffects (g : C → Except LinErr (Option (NEffect K))) : List C → Except LinErr (List (NEffect K))
  | [] => .ok []
  | f :: fs => do
    let e ← g f
    let es ← collectEffects g fs
    pure (e.toList ++ es)

/-- linear_regression_learner.py:52-57: the columns that are kept. -/
def keptCols (relevant : Option (List C)) (cols : List C) : List C :=
  match relevant with
  | none => cols
  | some fs => cols.filter (· ∈ fs)

/-- linear_regression_learner.py:59-64: the distinct observations (on the kept columns). -/
def regData (pc nc : List C) (obs : List ((C → K) × (C → K))) : List ((C → K) × (C → K)) :=
  dedupBy (fun o : (C → K) × (C → K) => (pc.map o.1, nc.map o.2)) obs

/-- linear_regression_learner.py:303-310: the features of the regression. -/
def regFeats (d : Nat) (pc nc : List C) (obs : List ((C → K) × (C → K))) : List C :=
  let rows := (regData pc nc obs).map Prod.fst
  regressionCols d rows (nonConstant rows pc)

/-- linear_regression_learner.py:313-314: the labelled rows for a fluent. -/
def regLabels (pc nc : List C) (obs : List ((C → K) × (C → K))) (f : C) : List ((C → K) × K) :=
  (regData pc nc obs).map fun o => (o.1, o.2 f)

/-- linear_regression_learner.py:279-334 `construct_assignment_equations` (the effects) with 46-64
`_combine_states_data`. The flag and the extra conditions it also returns are not used by the
learners. -/
def constructEffects (R : RegLib K C) (d : Nat) (allowUnsafe : Bool) (colExp : C → NExp K) (fname : C → String)
    (relevant : Option (List C)) (prevCols nextCols : List C) (obs : List ((C → K) × (C → K))) :
    Except LinErr (List (NEffect K)) :=
  if relevant = some [] then .ok []
  else if obs = [] then .ok []
  else
    let pc := keptCols relevant prevCols
    let nc := keptCols relevant nextCols
    if (regData pc nc obs).length = 1 then .ok (singleSample fname pc nc (obs.head?.getD (0, 0)))
    else
      let feats := regFeats d pc nc obs
      collectEffects (fun f =>
        if f ∉ pc then .error .keyError
        else if obs.all (fun o => o.1 f = o.2 f) then .ok none
        else if feats = [] then .error .valueError
        else solveLinear R d allowUnsafe colExp fname f feats (regLabels pc nc obs f)) nc

end Model

import Verif.Model.LinReg
import Mathlib.LinearAlgebra.Matrix.Rank

/-! Model of what `construct_assignment_equations` returns besides the effects: the flag `learned_perfectly` and the extra conditions
(`sam_learning/core/numeric_learning/linear_regression_learner.py:66-84, 303-334`, `numeric_utils.py:26-37, 186-258`). -/
namespace Model
namespace Certificate
open Spec

variable {K : Type} [Field K] [LinearOrder K]
variable {C : Type} [DecidableEq C]

/-- numeric_utils.py:32-34: the values of the features, and a column of ones. -/
def biased (feats : List C) (rows : List (C → K)) : Matrix (Fin rows.length) (Fin (feats.length + 1)) K :=
  Matrix.of fun i j => if h : j.val < feats.length then rows[i] feats[j.val] else 1

/-- numeric_utils.py:26-37 `get_num_independent_equations`. Simplification: the number of pivots of sympy's `rref` is the rank. -/
noncomputable def independentEquations (feats : List C) (rows : List (C → K)) : Nat := (biased feats rows).rank

/-- linear_regression_learner.py:66-84 `_validate_legal_equations`. Without features the data frame has no rows (numeric_utils.py:211-216) and no equations. -/
noncomputable def legalEquations (feats : List C) (rows : List (C → K)) : Bool :=
  decide (feats ≠ [] ∧ rows.length ≠ 1 ∧ feats.length + 1 ≤ independentEquations feats rows)

/-- numeric_utils.py:204-206: the conditions for the constant columns. -/
def constConds (colExp : C → NExp K) (rows : List (C → K)) (cols : List C) : List (NCond K) :=
  (cols.filter (isConst rows)).map fun c => ⟨.eq, colExp c, .num (((rows.head?).map (· c)).getD 0)⟩

variable [IsStrictOrderedRing K] [FloorRing K]

/-- numeric_utils.py:242-255: the conditions for the columns that are multiples of others. -/
def depConds (d : Nat) (colExp : C → NExp K) (rows : List (C → K)) (cols : List C) : List (NCond K) :=
  (Py.combs 2 cols).filterMap fun p =>
    match p with
    | [c1, c2] => if proportional rows c1 c2 ∧ linCoeff d rows c2 c1 ≠ 0 then
        some ⟨.eq, colExp c2, .mul (.num (linCoeff d rows c2 c1)) (colExp c1)⟩ else none
    | _ => none

/-- linear_regression_learner.py:308: all extra conditions. -/
def extraConds (d : Nat) (colExp : C → NExp K) (rows : List (C → K)) (cols : List C) : List (NCond K) :=
  depConds d colExp rows (nonConstant rows cols) ++ constConds colExp rows cols

/-- linear_regression_learner.py:279-334 `construct_assignment_equations`: effects, conditions (`none`: no conditions) and the flag. Simplification: the conditions,
made of columns and numbers, can always be parsed. -/
noncomputable def constructAll (R : RegLib K C) (d : Nat) (allowUnsafe : Bool) (colExp : C → NExp K) (fname : C → String)
    (relevant : Option (List C)) (prevCols nextCols : List C) (obs : List ((C → K) × (C → K))) :
    Except LinErr (List (NEffect K) × Option (List (NCond K)) × Bool) :=
  let pc := keptCols relevant prevCols
  let nc := keptCols relevant nextCols
  let rows := (regData pc nc obs).map Prod.fst
  match constructEffects R d allowUnsafe colExp fname relevant prevCols nextCols obs with
  | .error e => .error e
  | .ok effs =>
    if relevant = some [] ∨ obs = [] ∨ (regData pc nc obs).length = 1 then .ok (effs, none, false)
    else if legalEquations (regFeats d pc nc obs) rows then
      .ok (effs, if extraConds d colExp rows pc = [] then none else some (extraConds d colExp rows pc), true)
    else .ok (effs, none, false)

end Certificate
end Model

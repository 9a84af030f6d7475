import Verif.Model.ConvexHull
import Verif.Model.IncHull
import Verif.Spec.Svm

/-!
Model of `sam_learning/core/online_learning/incremental_svm_learner.py` (without the plots) and of
`sam_learning/core/online_learning/online_numeric_models_learner.py`.
-/
namespace Model
open Spec

variable {K : Type} [Field K] [LinearOrder K] [IsStrictOrderedRing K] [FloorRing K]
variable {C : Type} [DecidableEq C]

/-- The labelled data; a missing value (`NaN`) is `none`. The column of the labels is always the last one and is not listed. -/
structure SvmData (K C : Type) where
  cols : List C
  rows : List ((C → Option K) × Bool)

/-- incremental_svm_learner.py:84-99 `__init__`. -/
def SvmData.init (cols : List C) : SvmData K C := ⟨cols, []⟩

/-- The columns with a value in every row (`dropna(axis=1)`). -/
def fullCols (cols : List C) (rows : List ((C → Option K) × Bool)) : List C := cols.filter fun c => rows.all fun r => (r.1 c).isSome

/-- incremental_svm_learner.py:101-114 `add_new_point`: the columns with missing values are dropped after a success only. -/
def SvmData.add (st : SvmData K C) (x : C → Option K) (ok : Bool) : SvmData K C :=
  let rows := st.rows ++ [(x, ok)]
  ⟨if ok then fullCols st.cols rows else st.cols, rows⟩

/-- The values of a row on columns without missing values. -/
def rowOf (r : (C → Option K) × Bool) : Labeled K C := (fun c => (r.1 c).getD 0, r.2)

/-- The square of the Euclidean distance. -/
def dist2 (cols : List C) (x y : C → K) : K := (cols.map fun c => (x c - y c) ^ 2).sum

/-- The first smallest entry of a list: its position and the entry. -/
def argMin : List K → Nat
  | [] => 0
  | x :: xs => (xs.foldl (fun (s : Nat × Nat × K) y => if y < s.2.2 then (s.1 + 1, s.1, y) else (s.1 + 1, s.2.1, s.2.2)) (1, 0, x)).2.1

/-- incremental_svm_learner.py:130-138: the position, among the failures, of the one closest to a success. Distances are compared by
their squares. -/
def closestNeg (cols : List C) (pos neg : List (C → K)) : Nat :=
  argMin (pos.flatMap fun p => neg.map fun q => dist2 cols p q) % neg.length

/-- A plane: the prettified coefficients and bound, and which of all observations the classifier predicts to fail. -/
structure SvmPlane (K : Type) where
  coefs : List K
  bound : K
  pred : List Bool

/-- The position, in the data, of the `j`-th failure (`np.where(neg_mask)[0][j]`). -/
def negPos : List (Labeled K C) → Nat → Nat
  | [], _ => 0
  | r :: rs, j => if r.2 then negPos rs j + 1 else match j with
    | 0 => 0
    | j + 1 => negPos rs j + 1

/-- incremental_svm_learner.py:116-188: the loop of `_incremental_create_svm_linear_conditions` on the remaining data; `none`: the
classifier raised. A point is predicted to fail when the linear form is not above the bound. -/
def svmLoop (fit : SvmFit K C) (d : Nat) (cols : List C) (all : List (Labeled K C)) : Nat → List (Labeled K C) → Option (List (SvmPlane K))
  | 0, _ => some []
  | n + 1, rem =>
    if rem.all (·.2) || rem.all (!·.2) then some []
    else
      let pos := (rem.filter (·.2)).map Prod.fst
      let neg := (rem.filter (!·.2)).map Prod.fst
      let g := negPos rem (closestNeg cols pos neg)
      let train := rem.zipIdx.filterMap fun p => if p.1.2 || p.2 == g then some p.1 else none
      match fit cols train with
      | none => none
      | some (a, b) =>
        let fails := fun x : C → K => decide (form a cols x ≤ b)
        let keep := rem.filter fun r => !(!r.2 && fails r.1)
        if keep.length = rem.length then svmLoop fit d cols all n (rem.eraseIdx g)
        else (svmLoop fit d cols all n keep).map fun ps =>
          ⟨prettifyCoefs d a, (prettifyCoefs d [b]).headD 0, all.map fun r => fails r.1⟩ :: ps

/-- incremental_svm_learner.py:190-206: a plane is removed when a later one predicts the failure of at least the same observations. -/
def filterPlanes : List (SvmPlane K) → List (SvmPlane K)
  | [] => []
  | p :: ps => if ps.any (fun q => (List.zip p.pred q.pred).all fun b => !b.1 || b.2) then filterPlanes ps else p :: filterPlanes ps

/-- incremental_svm_learner.py:116-214 `_incremental_create_svm_linear_conditions`, with at most 100 rounds. -/
def svmPlanes (fit : SvmFit K C) (d : Nat) (st : SvmData K C) : Option (List (SvmPlane K)) :=
  (svmLoop fit d (fullCols st.cols st.rows) (st.rows.map rowOf) 100 (st.rows.map rowOf)).map filterPlanes

/-- incremental_svm_learner.py:216-250 `construct_linear_inequalities`. The headers are all columns, also those with missing values;
the last one, of the labels, never gets a coefficient because there are at most as many coefficients as other columns. -/
def svmInequalities (fit : SvmFit K C) (d : Nat) (colExp : C → NExp K) (st : SvmData K C) : HullOut K :=
  if st.rows = [] then .conds []
  else match svmPlanes fit d st with
    | none => .notSafe
    | some ps => parseConds (pddlScheme d .ge (ps.map (·.coefs)) (ps.map (·.bound)) (st.cols.map colExp))

end Model

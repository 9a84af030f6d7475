import Verif.Model.NumSam
import Verif.Model.Svm

/-!
Model of `sam_learning/core/online_learning/online_numeric_models_learner.py`: the numeric learner of one action, made of the incremental
convex hull (`IncHull`), the support vector machines (`SvmData`) and the linear regression (the two data frames `prev` and `next`).
-/
namespace Model
open Spec

/-- The value of a column in a dictionary, if it has the column. -/
def pointOpt {C K : Type} [DecidableEq C] (pt : List (C × K)) : C → Option K := fun c => pt.lookup c

/-- The external libraries and the settings. -/
structure ONumCfg (K : Type) where
  lib : NumLib K (List String)
  reg : RegLib K (List String)
  svm : SvmFit K (List String)
  digits : Nat
  margin : K
  plain : Bool

/-- online_numeric_models_learner.py:38-68: the fields. -/
structure ONum (K : Type) where
  functions : List String
  monomials : List (List String)
  hull : IncHull K (List String)
  svm : SvmData K (List String)
  prev : Frame (List String) K
  next : Frame (List String) K

/-- An attempt to execute the action: the values of the functions before, after, and whether it succeeded. -/
structure Transition (K : Type) where
  pre : List (String × K)
  post : List (String × K)
  ok : Bool

section
variable {K : Type} [Field K] [LinearOrder K] [IsStrictOrderedRing K] [FloorRing K]

/-- online_numeric_models_learner.py:38-68 `__init__`. -/
def ONum.new (functions : List String) (degree : Nat) : ONum K :=
  let ms := createMonomials functions degree
  ⟨functions, ms, IncHull.init ms none, SvmData.init ms, ⟨ms, []⟩, ⟨functions.map ([·]), []⟩⟩

/-- online_numeric_models_learner.py:86-148 `add_transition_data` and the three methods it calls. The flag tells that Qhull raised; then
the remaining learners do not get the transition. -/
def ONum.add (cfg : ONumCfg K) (st : ONum K) (t : Transition K) : ONum K × Bool :=
  let pt := groundMonomials st.monomials t.pre
  if t.ok then
    let h := st.hull.add cfg.lib cfg.digits cfg.margin cfg.plain polyExp (pt.map Prod.fst) (pointFn pt)
    if h.2 then ({ st with hull := h.1 }, true)
    else ({ st with
      hull := h.1
      prev := addObs st.prev (sampleFrame pt)
      svm := st.svm.add (pointOpt pt) true
      next := addObs st.next (nextSample (st.functions.map ([·])) (t.post.map fun p => ([p.1], p.2))) }, false)
  else ({ st with svm := st.svm.add (pointOpt pt) false }, false)

/-- A series of transitions; the flag tells that one of them raised. -/
def ONum.run (cfg : ONumCfg K) (st : ONum K) (ts : List (Transition K)) : ONum K × Bool :=
  ts.foldl (fun s t => let r := s.1.add cfg t; (r.1, s.2 || r.2)) (st, false)

/-- The effects of the regression learner. Data frames of different lengths are joined with missing values, on which the regression
raises `ValueError`. -/
def ONum.effects (cfg : ONumCfg K) (allowUnsafe : Bool) (st : ONum K) : Except NumErr (List (NEffect K)) :=
  if st.next.rows ≠ [] ∧ st.prev.rows.length ≠ st.next.rows.length then .error (.py .valueError)
  else match constructEffects cfg.reg cfg.digits allowUnsafe polyExp (fun c => c.headD "") none
      st.prev.cols st.next.cols (st.prev.rows.zip st.next.rows) with
    | .ok es => .ok es
    | .error .notSafe => .error (.notSafe .noSolutionFound)
    | .error .valueError => .error (.py .valueError)
    | .error .keyError => .error (.py .keyError)

/-- The precondition of a learner and the effects. The solution types `svm_failed_to_train` and `convex_hull_not_found` of the
`NotSafeActionError` are not distinguished. -/
def withEffects (pre : HullOut K) (eff : Except NumErr (List (NEffect K))) : Except NumErr (NumPart K) :=
  match pre with
  | .notSafe => .error (.notSafe .convexHullNotFound)
  | .crash => .error .parse
  | .conds cs => eff.map fun es => ⟨cs, es⟩

/-- online_numeric_models_learner.py:150-159 `get_safe_model`. -/
def ONum.safeModel (cfg : ONumCfg K) (st : ONum K) : Except NumErr (NumPart K) :=
  withEffects (st.hull.safeInequalities cfg.digits polyExp) (st.effects cfg false)

/-- online_numeric_models_learner.py:161-170 `get_optimistic_model`. -/
def ONum.optimisticModel (cfg : ONumCfg K) (st : ONum K) : Except NumErr (NumPart K) :=
  withEffects (svmInequalities cfg.svm cfg.digits polyExp st.svm) (st.effects cfg true)

/-- online_numeric_models_learner.py:172-179 `is_state_in_safe_model`. -/
def ONum.inSafe (cfg : ONumCfg K) (st : ONum K) (state : List (String × K)) : Except Err Bool :=
  let pt := groundMonomials st.monomials state
  st.hull.contains cfg.lib cfg.digits (pt.map Prod.fst) (pointFn pt)

end
end Model

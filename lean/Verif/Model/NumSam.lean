import Verif.Model.Sam
import Verif.Model.NumMatch
import Verif.Model.LinReg

/-!
Model of `sam_learning/learners/numeric_sam.py`, of
`core/numeric_learning/numeric_fluent_learner_algorithm.py` and of the storage of samples:
`ConvexHullLearner.add_new_point` and `LinearRegressionLearner.add_new_observation`.

Columns of the data frames are monomials (lists of the texts of functions); their text is `polyExp`.
`txt` is the text of a function term (`untyped_representation` of `pddl_plus_parser`).
-/
namespace Model
open Spec

/-- A pandas data frame without missing values: columns and rows (rows give values to the columns). -/
structure Frame (C K : Type) where
  cols : List C
  rows : List (C → K)

/-- A dictionary from columns to values as a row. -/
def pointFn {C K : Type} [DecidableEq C] [Zero K] (pt : List (C × K)) : C → K := fun c => (pt.lookup c).getD 0

/-- `DataFrame.from_dict({key: [value] ...})`: without keys there is no row. -/
def sampleFrame {C K : Type} [DecidableEq C] [Zero K] (pt : List (C × K)) : Frame C K :=
  ⟨pt.map Prod.fst, if pt = [] then [] else [pointFn pt]⟩

/-- `pd.concat([data, sample]).dropna(axis=1)`: only the columns with a value in every row stay. A
sample without rows has no columns and changes nothing. -/
def concatFrame {C K : Type} [DecidableEq C] (F G : Frame C K) : Frame C K :=
  if G.rows = [] then F else ⟨F.cols.filter (· ∈ G.cols), F.rows ++ G.rows⟩

section
variable {C K : Type} [DecidableEq C] [DecidableEq K] [Zero K]

/-- convex_hull_learner.py:51-73 `add_new_point`. (`drop_duplicates` of a frame without columns
returns it unchanged.) -/
def storePoint (F : Frame C K) (pt : List (C × K)) : Frame C K :=
  if F.rows = [] then sampleFrame pt
  else
    let G := concatFrame F (sampleFrame pt)
    if (if G.cols = [] then G.rows.length else (dedupBy (fun r : C → K => G.cols.map r) G.rows).length) = F.rows.length then F
    else G

/-- linear_regression_learner.py:259-281 `add_new_observation`: a frame that is empty (no rows or no
columns) is replaced. -/
def addObs (F : Frame C K) (sample : Frame C K) : Frame C K :=
  if F.rows = [] ∨ F.cols = [] then sample else concatFrame F sample

/-- linear_regression_learner.py:268-270: a sample of the next state, restricted to the functions of
the action. -/
def nextSample (functions : List C) (pt : List (C × K)) : Frame C K :=
  let F := sampleFrame pt
  ⟨F.cols.filter (· ∈ functions), F.rows⟩

end

/-- numeric_fluent_learner_algorithm.py:17-50: the storage of one action. -/
structure NStore (K : Type) where
  functions : List String
  monomials : List (List String)
  hull : Frame (List String) K
  prev : Frame (List String) K
  next : Frame (List String) K

/-- numeric_fluent_learner_algorithm.py:24-50 `__init__`, with the `__init__` of the two learners:
empty data frames. -/
def NStore.new {K : Type} (functions : List String) (degree : Nat) : NStore K :=
  let ms := createMonomials functions degree
  ⟨functions, ms, ⟨ms, []⟩, ⟨ms, []⟩, ⟨functions.map ([·]), []⟩⟩

section
variable {K : Type} [Field K] [DecidableEq K]

/-- numeric_fluent_learner_algorithm.py:52-60 `add_to_previous_state_storage`. -/
def NStore.addPrev (st : NStore K) (fluents : List (String × K)) : NStore K :=
  let pt := groundMonomials st.monomials fluents
  { st with hull := storePoint st.hull pt, prev := addObs st.prev (sampleFrame pt) }

/-- numeric_fluent_learner_algorithm.py:62-68 `add_to_next_state_storage`. -/
def NStore.addNext (st : NStore K) (fluents : List (String × K)) : NStore K :=
  { st with next := addObs st.next (nextSample (st.functions.map ([·])) (fluents.map fun p => ([p.1], p.2))) }

end

/-- `EquationSolutionType` and the other outcomes in the learning metadata. -/
inductive NumStatus where
  | base (s : Status)
  | ok
  | noSolutionFound
  | convexHullNotFound
deriving DecidableEq, Repr

/-- Exceptions of the numeric learner: `NotSafeActionError` (caught) with its solution type, and
uncaught ones; `parse`: a condition that cannot be parsed (or no such column). -/
inductive NumErr where
  | notSafe (s : NumStatus)
  | py (e : Err)
  | parse
deriving DecidableEq, Repr

/-- The settings of the learner (numeric_sam.py:22-43) and the external libraries. `plain`: epsilon is
zero and no Qhull options are given. `relevant`: the relevant fluents of each action. -/
structure NumCfg (K : Type) where
  lib : NumLib K (List String)
  reg : RegLib K (List String)
  digits : Nat
  margin : K
  plain : Bool
  allowUnsafe : Bool
  degree : Nat
  relevant : Option (List (String × List (List String)))
  txt : Atom → String
  fns : List PredDecl

/-- The numeric part of an action. -/
structure NumPart (K : Type) where
  pre : List (NCond K)
  eff : List (NEffect K)

/-- numeric_sam.py:16-43: the SAM learner with the storage; `num` is the numeric part of the actions
of the domain. -/
structure NumLearner (K : Type) where
  base : Learner
  store : List (String × NStore K)
  num : String → NumPart K

/-- numeric_sam.py:22-43 `__init__`. -/
def NumLearner.init {K : Type} (D : Domain) (policy : Policy := .noRemove) : NumLearner K :=
  ⟨Learner.init D policy, [], fun _ => ⟨[], []⟩⟩

/-- An observed transition with the values of the numeric functions before and after. -/
structure NumComponent (K : Type) where
  comp : Component
  prevN : List (Atom × K)
  nextN : List (Atom × K)

section
variable {K : Type} [Field K] [LinearOrder K]

/-- numeric_sam.py:117-121, 149-153: the lifted functions of a state with their values, by text. -/
def liftedFluents (cfg : NumCfg K) (D : Domain) (call : Call) (state : List (Atom × K)) : Except NumErr (List (String × K)) :=
  match matchFunctions cfg.fns (Sig.names D.consts) (Sig.names (D.act call.name).sig) call.params
      (numericSnapshot state (call.params ++ Sig.names D.consts)) with
  | .ok m => .ok (m.map fun p => (cfg.txt p.1, p.2))
  | .error e => .error (.py e)

/-- numeric_sam.py:106-157 `add_new_action` and `update_action`, called through
sam_learning.py:233-257. -/
def NumLearner.handle (cfg : NumCfg K) (N : NumLearner K) (c : NumComponent K) : Except NumErr (NumLearner K) :=
  match N.base.handleComponent c.comp with
  | .error e => .error (.py e)
  | .ok base =>
    if containsDuplicates c.comp.call.params then .ok { N with base := base }
    else do
      let prev ← liftedFluents cfg N.base.dom c.comp.call c.prevN
      let next ← liftedFluents cfg N.base.dom c.comp.call c.nextN
      let a := c.comp.call.name
      let st ← if a ∉ N.base.observed then
          .ok (NStore.new ((functionVocab cfg.fns N.base.dom.consts (N.base.dom.act a).sig).map cfg.txt) cfg.degree)
        else match N.store.lookup a with
          | some st => .ok st
          | none => .error (.py .keyError)
      .ok { N with base := base, store := Py.dictSet N.store a ((st.addPrev prev).addNext next) }

/-- numeric_sam.py:211-218: the loop over the components. -/
def NumLearner.process (cfg : NumCfg K) (N : NumLearner K) (cs : List (NumComponent K)) : Except NumErr (NumLearner K) :=
  cs.foldlM (fun N c => if c.comp.success then N.handle cfg c else .ok N) N

/-- `self.relevant_fluents[action_name]` if relevant fluents are given. -/
def relevantOf (cfg : NumCfg K) (a : String) : Except NumErr (Option (List (List String))) :=
  match cfg.relevant with
  | none => .ok none
  | some m => match m.lookup a with
    | some fs => .ok (some fs)
    | none => .error (.py .keyError)

variable [IsStrictOrderedRing K] [FloorRing K]

/-- numeric_sam.py:57-85 `_construct_safe_numeric_preconditions`: the numeric conditions. Without any
condition `construct_numeric_conditions` returns `None`, which is an `AttributeError` if no relevant
fluents were given. -/
def numericPre (cfg : NumCfg K) (relevant : Option (List (List String))) (st : NStore K) : Except NumErr (List (NCond K)) :=
  if relevant = some [] then .ok []
  else match safeInequalities cfg.lib cfg.digits cfg.margin cfg.plain polyExp relevant st.hull.cols st.hull.rows with
    | .notSafe => .error (.notSafe .convexHullNotFound)
    | .crash => .error .parse
    | .conds cs => if relevant = none ∧ cs = [] then .error (.py .attributeError) else .ok cs

/-- numeric_sam.py:87-109 `_construct_safe_numeric_effects`. Previous and next data of different
lengths are joined with missing values, on which the regression raises `ValueError`. -/
def numericEff (cfg : NumCfg K) (relevant : Option (List (List String))) (st : NStore K) : Except NumErr (List (NEffect K)) :=
  if relevant = some [] then .ok []
  else if st.next.rows ≠ [] ∧ st.prev.rows.length ≠ st.next.rows.length then .error (.py .valueError)
  else match constructEffects cfg.reg cfg.digits cfg.allowUnsafe polyExp (fun c => c.headD "") relevant
      st.prev.cols st.next.cols (st.prev.rows.zip st.next.rows) with
    | .ok es => .ok es
    | .error .notSafe => .error (.notSafe .noSolutionFound)
    | .error .valueError => .error (.py .valueError)
    | .error .keyError => .error (.py .keyError)

/-- numeric_sam.py:159-169 `_create_safe_action`: the numeric part. -/
def safeAction (cfg : NumCfg K) (a : String) (st : NStore K) : Except NumErr (NumPart K) := do
  let relevant ← relevantOf cfg a
  let pre ← numericPre cfg relevant st
  let eff ← numericEff cfg relevant st
  .ok ⟨pre, eff⟩

/-- numeric_sam.py:178-193: the loop over the actions of the domain: the allowed actions and the
metadata. -/
def safeModel (cfg : NumCfg K) (store : List (String × NStore K)) :
    List String → Except NumErr (List (String × NumPart K) × List (String × NumStatus))
  | [] => .ok ([], [])
  | a :: rest =>
    match store.lookup a with
    | none => safeModel cfg store rest
    | some st =>
      match safeAction cfg a st with
      | .ok m => (safeModel cfg store rest).map fun r => ((a, m) :: r.1, (a, .ok) :: r.2)
      | .error (.notSafe s) => (safeModel cfg store rest).map fun r => (r.1, (a, s) :: r.2)
      | .error e => .error e

/-- numeric_sam.py:171-196 `_create_safe_action_model`. The new root precondition built in lines 49-54
has the literals of the old one but not its inequality preconditions. -/
def NumLearner.createModel (cfg : NumCfg K) (N : NumLearner K) :
    Except NumErr (NumLearner K × List (String × NumStatus)) :=
  (safeModel cfg N.store N.base.dom.names).map fun r =>
    ({ N with
        base := { N.base with dom :=
          { N.base.dom with
            names := r.1.map Prod.fst
            act := fun a => if a ∈ r.1.map Prod.fst then { N.base.dom.act a with ineq := ∅ } else N.base.dom.act a } }
        num := fun a => (r.1.lookup a).getD ⟨[], []⟩ }, r.2)

/-- numeric_sam.py:198-225 `learn_action_model`. -/
def NumLearner.learn (cfg : NumCfg K) (N : NumLearner K) (obs : List (List (NumComponent K))) :
    Except NumErr (NumLearner K × List (String × NumStatus)) :=
  if cfg.fns = [] then
    match N.base.learn (obs.map fun o => o.map NumComponent.comp) with
    | .ok r => .ok ({ N with base := r.1 }, r.2.map fun p => (p.1, .base p.2))
    | .error e => .error (.py e)
  else do
    let N : NumLearner K := { N with base := N.base.deduceIneq.completeMissing }
    let N ← N.process cfg obs.flatten
    { N with base := N.base.applyPolicy }.createModel cfg

end
end Model

import Verif.Model.NumSam
import Verif.Model.IncHull

/-!
Model of `sam_learning/learners/incremental_numeric_sam.py`: N-SAM whose storages use the incremental convex hull learner
(`numeric_fluent_learner_algorithm.py:24-50` with `incremental=True`). Bases and hulls are computed while observations are added, so an
exception there leaves `learn_action_model`; in N-SAM it is caught when the model is created.
-/
namespace Model
namespace IncNumSam
open Spec

/-- Exceptions: one of Qhull (or of the computation of a base) while a point is added, or one of N-SAM. -/
inductive IncErr where
  | hull
  | num (e : NumErr)
deriving DecidableEq, Repr

/-- numeric_fluent_learner_algorithm.py:17-50: the storage of one action, with the incremental learner. -/
structure IncStore (K : Type) where
  functions : List String
  monomials : List (List String)
  hull : IncHull K (List String)
  prev : Frame (List String) K
  next : Frame (List String) K

/-- numeric_fluent_learner_algorithm.py:24-50 `__init__`; no relevant fluents are passed to the incremental learner. -/
def IncStore.new {K : Type} (functions : List String) (degree : Nat) : IncStore K :=
  let ms := createMonomials functions degree
  ⟨functions, ms, IncHull.init ms none, ⟨ms, []⟩, ⟨functions.map ([·]), []⟩⟩

/-- incremental_numeric_sam.py:13-40, numeric_sam.py:16-43. -/
structure IncLearner (K : Type) where
  base : Learner
  store : List (String × IncStore K)
  num : String → NumPart K

/-- incremental_numeric_sam.py:20-38 `__init__`: the default policy is not the one of N-SAM. -/
def IncLearner.init {K : Type} (D : Domain) (policy : Policy := .soft) : IncLearner K :=
  ⟨Learner.init D policy, [], fun _ => ⟨[], []⟩⟩

variable {K : Type} [Field K] [LinearOrder K] [IsStrictOrderedRing K] [FloorRing K]

/-- numeric_fluent_learner_algorithm.py:52-60 `add_to_previous_state_storage`. A point without any column is no row. -/
def IncStore.addPrev (cfg : NumCfg K) (st : IncStore K) (fluents : List (String × K)) : Except IncErr (IncStore K) :=
  let pt := groundMonomials st.monomials fluents
  let h := if pt = [] then (st.hull, false)
    else st.hull.add cfg.lib cfg.digits cfg.margin cfg.plain polyExp (pt.map Prod.fst) (pointFn pt)
  if h.2 then .error .hull else .ok { st with hull := h.1, prev := addObs st.prev (sampleFrame pt) }

/-- numeric_fluent_learner_algorithm.py:62-68 `add_to_next_state_storage`. -/
def IncStore.addNext (st : IncStore K) (fluents : List (String × K)) : IncStore K :=
  { st with next := addObs st.next (nextSample (st.functions.map ([·])) (fluents.map fun p => ([p.1], p.2))) }

/-- An exception of N-SAM. -/
def lift {α : Type} : Except NumErr α → Except IncErr α
  | .ok x => .ok x
  | .error e => .error (.num e)

/-- incremental_numeric_sam.py:40-47 `add_new_action`, numeric_sam.py:106-157: the storage of an observation; it is called through
sam_learning.py:233-257. -/
def IncLearner.handle (cfg : NumCfg K) (N : IncLearner K) (c : NumComponent K) : Except IncErr (IncLearner K) :=
  match N.base.handleComponent c.comp with
  | .error e => .error (.num (.py e))
  | .ok base =>
    if containsDuplicates c.comp.call.params then .ok { N with base := base }
    else
      let a := c.comp.call.name
      match lift (liftedFluents cfg N.base.dom c.comp.call c.prevN) with
      | .error e => .error e
      | .ok prev =>
        match lift (liftedFluents cfg N.base.dom c.comp.call c.nextN) with
        | .error e => .error e
        | .ok next =>
          match (if a ∉ N.base.observed then some (IncStore.new ((functionVocab cfg.fns N.base.dom.consts (N.base.dom.act a).sig).map cfg.txt) cfg.degree)
              else N.store.lookup a : Option (IncStore K)) with
          | none => .error (.num (.py .keyError))
          | some st =>
            match st.addPrev cfg prev with
            | .error e => .error e
            | .ok st' => .ok { N with base := base, store := Py.dictSet N.store a (st'.addNext next) }

/-- numeric_sam.py:211-218: the loop over the components. -/
def IncLearner.process (cfg : NumCfg K) : IncLearner K → List (NumComponent K) → Except IncErr (IncLearner K)
  | N, [] => .ok N
  | N, c :: cs =>
    if c.comp.success then
      match N.handle cfg c with
      | .error e => .error e
      | .ok N' => IncLearner.process cfg N' cs
    else IncLearner.process cfg N cs

/-- numeric_sam.py:57-85 `_construct_safe_numeric_preconditions`. The incremental learner ignores the relevant fluents it is given
(incremental_convex_hull_learner.py:262); without data or columns it returns an empty conjunction (268-270), otherwise
`construct_numeric_conditions` returns `None` for no conditions, which is an `AttributeError` if no relevant fluents were given. -/
def numericPre (relevant : Option (List (List String))) (cfg : NumCfg K) (st : IncStore K) : Except NumErr (List (NCond K)) :=
  if relevant = some [] then .ok []
  else if st.hull.rows = [] ∨ st.hull.relevant = [] then .ok []
  else match st.hull.safeInequalities cfg.digits polyExp with
    | .notSafe => .error (.notSafe .convexHullNotFound)
    | .crash => .error .parse
    | .conds cs => if relevant = none ∧ cs = [] then .error (.py .attributeError) else .ok cs

/-- numeric_sam.py:159-169 `_create_safe_action`; the effects are those of N-SAM, which do not use the hull. -/
def safeAction (cfg : NumCfg K) (a : String) (st : IncStore K) : Except NumErr (NumPart K) :=
  match relevantOf cfg a with
  | .error e => .error e
  | .ok relevant =>
    match numericPre relevant cfg st with
    | .error e => .error e
    | .ok pre =>
      match numericEff cfg relevant ⟨st.functions, st.monomials, ⟨[], []⟩, st.prev, st.next⟩ with
      | .error e => .error e
      | .ok eff => .ok ⟨pre, eff⟩

/-- numeric_sam.py:178-193: the loop over the actions of the domain: the allowed actions and the metadata. -/
def safeModel (cfg : NumCfg K) (store : List (String × IncStore K)) :
    List String → Except NumErr (List (String × NumPart K) × List (String × NumStatus))
  | [] => .ok ([], [])
  | a :: rest =>
    match store.lookup a with
    | none => safeModel cfg store rest
    | some st =>
      match safeAction cfg a st with
      | .ok m => (safeModel cfg store rest).map fun r => ((a, m) :: r.1, (a, .ok) :: r.2)
      | .error (.notSafe s) => (safeModel cfg store rest).map fun r => (r.1, (a, s) :: r.2)
      | .error e => .error e

/-- numeric_sam.py:171-196 `_create_safe_action_model`, as in N-SAM. -/
def IncLearner.createModel (cfg : NumCfg K) (N : IncLearner K) : Except NumErr (IncLearner K × List (String × NumStatus)) :=
  (safeModel cfg N.store N.base.dom.names).map fun r =>
    ({ N with
        base := { N.base with dom :=
          { N.base.dom with
            names := r.1.map Prod.fst
            act := fun a => if a ∈ r.1.map Prod.fst then { N.base.dom.act a with ineq := ∅ } else N.base.dom.act a } }
        num := fun a => (r.1.lookup a).getD ⟨[], []⟩ }, r.2)

/-- numeric_sam.py:198-225 `learn_action_model`. -/
def IncLearner.learn (cfg : NumCfg K) (N : IncLearner K) (obs : List (List (NumComponent K))) :
    Except IncErr (IncLearner K × List (String × NumStatus)) :=
  if cfg.fns = [] then
    match N.base.learn (obs.map fun o => o.map NumComponent.comp) with
    | .ok r => .ok ({ N with base := r.1 }, r.2.map fun p => (p.1, .base p.2))
    | .error e => .error (.num (.py e))
  else
    match IncLearner.process cfg { N with base := N.base.deduceIneq.completeMissing } obs.flatten with
    | .error e => .error e
    | .ok N' => lift (IncLearner.createModel cfg { N' with base := N'.base.applyPolicy })

end IncNumSam
end Model

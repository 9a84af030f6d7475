import Verif.Model.CondSam
import Verif.Spec.Universal

/-!
Model of `sam_learning/learners/universaly_conditional_sam.py` and of the parts of `core` used only there.
`Domain` has no table of types, so the learner has one (`types`). A universal precondition is kept apart from the other conjuncts of the
root precondition (`uconds`); the universal effect of a type is the list of its conditional effects (`ueffs`), its variable is in `addl`.
-/
namespace Model
open Spec




/-- environment_snapshot.py:106-130 `create_triplet_snapshot_for_universal_variables`, discrete part: the objects of the call, the constants,
and the objects whose type is one of `ts`, all with their own types. -/
def uniObjects (D : Domain) (objs : Sig) (ts : List String) (call : Call) : Sig :=
  (Py.dictOf (objs ++ D.consts)).filter fun o =>
    (call.params ++ Sig.names D.consts).contains o.1 || ts.contains o.2.name

def uniSnapshot (D : Domain) (objs : Sig) (ts : List String) (c : Component) : Finset Lit × Finset Lit :=
  (stateSnapshot D c.prev (uniObjects D objs ts c.call), stateSnapshot D c.next (uniObjects D objs ts c.call))

/-- The names tried by `create_additional_parameter_name`: `?t`, `?t1`, `?t2`, ... (type names are not empty). -/
def nameCand (t : PType) (i : Nat) : String :=
  let b := String.ofList ['?', t.name.toList.headD '?']
  if i = 0 then b else b ++ toString i

/-- discrete_utilities.py:45-59 `create_additional_parameter_name`: the first one that is not a parameter. Among `n + 1` different names one
is not among `n` parameters, so the `while` loop ends within that many rounds. -/
def additionalName (sig : Sig) (t : PType) : String :=
  (((List.range (sig.length + 1)).map (nameCand t)).find? fun x => !(Sig.names sig).contains x).getD (nameCand t 0)

/-- discrete_utilities.py:62-78 `find_unique_objects_by_type`: the objects of one type that are not excluded. -/
def objectsOfType (objs : Sig) (exclude : List String) (t : String) : List String :=
  Sig.names (objs.filter fun o => !exclude.contains o.1 && o.2.name == t)

/-- A `UniversalPrecondition` added to an action. -/
structure UPre where
  var : String
  type : String
  cond : Option Cond

/-- universaly_conditional_sam.py:38-59: the fields. `q a t` is `quantified_antecedents[a][t]`; it and `additional_parameters[a]` get their
keys at the same time, so `addl a` gives the order of both. -/
structure UniLearner where
  base : CondLearner
  types : List PType
  umap : List (String × List String)
  q : String → String → Option DepSet
  addl : String → List (String × String)
  obsU : String → String → Finset Lit
  ueffs : String → String → List CondEff
  uconds : String → List UPre

/-- universaly_conditional_sam.py:44-59 `__init__`. (`universals_map=None` is the empty map.) -/
def UniLearner.init (D : Domain) (types : List PType) (umap : List (String × List String)) (maxAnte : Nat := 1)
    (policy : Policy := .noRemove) : UniLearner :=
  { base := CondLearner.init D maxAnte policy, types := types, umap := umap, q := fun _ _ => none, addl := fun _ => [],
    obsU := fun _ _ => ∅, ueffs := fun _ _ => [], uconds := fun _ => [] }

/-- Update of a two-level dictionary. -/
def update2 {β : Type} (f : String → String → β) (a t : String) (b : β) : String → String → β :=
  Function.update f a (Function.update (f a) t b)

/-- universaly_conditional_sam.py:89-100: the body of the loop over the types, for a type that is not skipped, and 61-78
`_create_antecedents_and_results_dicts`. -/
def UniLearner.initType (ord : LitOrd) (a : String) (U : UniLearner) (t : PType) : UniLearner :=
  let D := U.base.base.dom
  let sig := (D.act a).sig
  let v := additionalName sig t
  let ext := Py.dictSet sig v t
  let results := liftedVocab D ext (some v)
  let antecedents := liftedVocab D ext
  { U with
    q := update2 U.q a t.name (some ((DepSet.new U.base.maxAnte).initialize ord results (some antecedents)))
    addl := Function.update U.addl a (Py.dictSet (U.addl a) t.name v) }

/-- universaly_conditional_sam.py:80-100 `_initialize_universal_dependencies` for an action with the types `ts`. -/
def UniLearner.initU (ord : LitOrd) (a : String) (ts : List String) (U : UniLearner) : UniLearner :=
  (U.types.filter fun t => !(t.name == "object") && ts.contains t.name).foldl (UniLearner.initType ord a) U

/-- universaly_conditional_sam.py:111-121 and 191-200: the changed literals with an object that is neither in the call nor a constant. -/
def uniEffectsOf (D : Domain) (call : Call) (prev next : Finset Lit) : Finset Lit :=
  let e := extractEffects prev next
  (e.1 ∪ e.2).filter fun g => ∃ o ∈ g.args, o ∉ Sig.names D.consts ∧ o ∉ call.params

/-- One changed literal: the type of its additional object, the object, the parameter standing for it, the lifted literal. -/
structure UniEff where
  type : String
  obj : String
  var : String
  lit : Lit

/-- universaly_conditional_sam.py:122-131 and 202-210: the first object outside the call is the additional one; `table` is the dictionary
in which it is looked up. -/
def liftUni (D : Domain) (addl : List (String × String)) (table : Sig) (call : Call) (g : Lit) : Except Err UniEff :=
  match g.args.filter fun o => !call.params.contains o with
  | [] => .error .indexError
  | o :: _ =>
    match table.lookup o with
    | none => .error .keyError
    | some t =>
      match addl.lookup t.name with
      | none => .error .keyError
      | some v =>
        match matchLits D.consts (D.act call.name).sig call.params (some (o, v)) g with
        | [] => .error .indexError
        | l :: _ => .ok ⟨t.name, o, v, l⟩

/-- universaly_conditional_sam.py:102-132 `_update_observed_effects`, the universal part. An exception ends the run, so all literals may be
lifted before the first is stored. -/
def UniLearner.updateObserved (ord : LitOrd) (U : UniLearner) (objs : Sig) (call : Call) (prev next : Finset Lit) :
    Except Err UniLearner := do
  let D := U.base.base.dom
  let es ← (ord (uniEffectsOf D call prev next)).mapM
    (liftUni D (U.addl call.name) (Py.dictOf (objs ++ D.consts)) call)
  .ok { U with obsU := es.foldl (fun f e => update2 f call.name e.type (f call.name e.type ∪ {e.lit})) U.obsU }

/-- universaly_conditional_sam.py:134-149 `_reduce_state_predicates_based_on_types`. -/
def reduceState (S : Finset Lit) (legal : List String) : Finset Lit := S.filter fun g => ∀ o ∈ g.args, o ∈ legal

/-- conditional_sam.py:85-157 `_find_literals` and its two callers, with the additional object `o` lifted to `v`. -/
def findLiteralsExtra (D : Domain) (call : Call) (lits : Finset Lit) (o v : String) (inState : Bool) : Finset Lit :=
  let ms := possibleMatches D.consts (D.act call.name).sig call.params lits (some (o, v))
  if inState then ms else ms.image Lit.neg

/-- universaly_conditional_sam.py:162-180: the removals for one object. (The second test at 177 compares a literal with action names and is
never true.) -/
def removeExistingObj (ord : LitOrd) (D : Domain) (call : Call) (prev next : Finset Lit) (v : String) (d : DepSet) (o : String) : DepSet :=
  let legal := call.params ++ [o]
  let notResults := findLiteralsExtra D call (reduceState next legal) o v false
  let antecedents := findLiteralsExtra D call (reduceState prev legal) o v true
  (ord notResults).foldl (fun d l => if d.possible.lookup l = none then d else d.remove ord l antecedents) d

/-- universaly_conditional_sam.py:151-182 `_remove_existing_previous_state_quantified_dependencies`. -/
def UniLearner.removeExistingU (ord : LitOrd) (U : UniLearner) (objs : Sig) (call : Call) (prev next : Finset Lit) : UniLearner :=
  (U.addl call.name).foldl (fun U tv =>
    match U.q call.name tv.1 with
    | none => U
    | some d =>
      { U with q := update2 U.q call.name tv.1 (some ((objectsOfType objs call.params tv.1).foldl
          (removeExistingObj ord U.base.base.dom call prev next tv.2) d)) }) U

/-- universaly_conditional_sam.py:184-219 `_remove_non_existing_previous_state_quantified_dependencies`. The object is looked up among the
objects of the trajectory only. -/
def UniLearner.removeNonExistingU (ord : LitOrd) (U : UniLearner) (objs : Sig) (call : Call) (prev next : Finset Lit) :
    Except Err UniLearner := do
  let D := U.base.base.dom
  let es ← (ord (uniEffectsOf D call prev next)).mapM (liftUni D (U.addl call.name) objs call)
  .ok (es.foldl (fun U e =>
    match U.q call.name e.type with
    | none => U
    | some d =>
      let missing := findLiteralsExtra D call (reduceState prev (call.params ++ [e.obj])) e.obj e.var false
      { U with q := update2 U.q call.name e.type (some (d.remove ord e.lit missing true)) }) U)

/-- universaly_conditional_sam.py:341-353 `_apply_inductive_rules`, 221-230 `_remove_not_antecedents`: what is added to the rules of
`ConditionalSAM`. With no types for the action no literal of the snapshot has an additional object and there is no quantified variable. -/
def UniLearner.applyRulesU (ord : LitOrd) (U : UniLearner) (objs : Sig) (call : Call) (prev next : Finset Lit) :
    Except Err UniLearner := do
  let U ← U.updateObserved ord objs call prev next
  (U.removeExistingU ord objs call prev next).removeNonExistingU ord objs call prev next

/-- universaly_conditional_sam.py:390-418 `handle_single_trajectory_component`, 355-371 `add_new_action`, 373-388 `update_action`. An
action that is not in `universals_map` raises `KeyError`: at line 88, or at line 348 if `object` is the only type. For an action with no
types the preconditions are added (updated) twice. -/
def UniLearner.handleComponent (ord : LitOrd) (objs : Sig) (U : UniLearner) (c : Component) : Except Err UniLearner :=
  let a := c.call.name
  if a ∉ U.base.base.dom.names then .error .keyError
  else match U.umap.lookup a with
  | none => .error .keyError
  | some ts =>
    let snap := uniSnapshot U.base.base.dom objs ts c
    if a ∉ U.base.base.observed then do
      let U := { U with base := U.base.initDeps ord a }.initU ord a ts
      let K := U.base
      let K := if ts = [] then { K with base := { K.base with dom := addNewPre K.base.dom c.call snap.1 } } else K
      let K ← K.addNewAction ord c.call snap.1 snap.2
      { U with base := K }.applyRulesU ord objs c.call snap.1 snap.2
    else do
      let K := U.base
      let K := if ts = [] then { K with base := { K.base with dom := updatePre K.base.dom c.call snap.1 } } else K
      let K ← K.updateAction ord c.call snap.1 snap.2
      { U with base := K }.applyRulesU ord objs c.call snap.1 snap.2

/-- universaly_conditional_sam.py:446-449: all observations. -/
def UniLearner.process (ord : LitOrd) (U : UniLearner) (obs : List UniObs) : Except Err UniLearner :=
  obs.foldlM (fun U o => o.2.foldlM (UniLearner.handleComponent ord o.1) U) U

/-- The literals nested in universal preconditions. -/
def upreLits (us : List UPre) : Finset Lit := (Cond.litsAll (us.filterMap UPre.cond)).toFinset

/-- The literals found when iterating over `action.preconditions` (universaly_conditional_sam.py:292, 312). `deep` tells whether the
iteration descends into universal preconditions as it does into other nested formulas. -/
def UniLearner.preLits (deep : Bool) (U : UniLearner) (a : String) : Finset Lit :=
  U.base.preLits a ∪ if deep then upreLits (U.uconds a) else ∅

/-- universaly_conditional_sam.py:284-293 `_remove_preconditions_from_antecedents`. -/
def UniLearner.removePreU (deep : Bool) (ord : LitOrd) (U : UniLearner) (a : String) : UniLearner :=
  let pre := U.preLits deep a
  { U with q := Function.update U.q a fun t => (U.q a t).map fun d => d.removePre ord pre }

/-- universaly_conditional_sam.py:327-335: the body of the loops over the types and the literals; 295-322
`_construct_restrictive_preconditions` (the universal precondition is added even if it is empty), 232-251
`_construct_restrictive_universal_effect`, 253-282 `_construct_universal_effects_from_dependency_set`. -/
def UniLearner.verifyU (add : Cond → Cond → Cond) (deep : Bool) (ord : LitOrd) (a t v : String) (d : DepSet) (U : UniLearner) (l : Lit) :
    Except Err UniLearner := do
  let observed := decide (l ∈ U.obsU a t)
  if !(← d.isSafe l) then
    let r ← d.restrictive add ord (U.preLits deep a) l observed
    let U := { U with uconds := Function.update U.uconds a (U.uconds a ++ [⟨v, t, r⟩]) }
    if observed then
      let e ← restrictiveEffect d l
      .ok { U with ueffs := update2 U.ueffs a t (U.ueffs a t ++ [e]) }
    else .ok U
  else if observed then
    let e ← condEffectData d l
    .ok { U with ueffs := update2 U.ueffs a t (U.ueffs a t ++ [e]) }
  else .ok U

/-- universaly_conditional_sam.py:328-335 for one type. -/
def UniLearner.verifyType (add : Cond → Cond → Cond) (deep : Bool) (ord : LitOrd) (a : String) (U : UniLearner) (tv : String × String) :
    Except Err UniLearner :=
  match U.q a tv.1 with
  | none => .error .keyError
  | some d => (d.possible.map Prod.fst).foldlM (UniLearner.verifyU add deep ord a tv.1 tv.2 d) U

/-- universaly_conditional_sam.py:324-339 `_verify_and_construct_safe_universal_effects`. -/
def UniLearner.constructU (add : Cond → Cond → Cond) (deep : Bool) (ord : LitOrd) (U : UniLearner) (a : String) : Except Err UniLearner := do
  let U ← (U.addl a).foldlM (UniLearner.verifyType add deep ord a) U
  .ok { U with ueffs := Function.update U.ueffs a fun t => compress (U.ueffs a t) }

/-- universaly_conditional_sam.py:424-434: the body of the loop of `construct_safe_actions`. -/
def UniLearner.constructAction (add : Cond → Cond → Cond) (deep : Bool) (ord : LitOrd) (U : UniLearner) (a : String) : Except Err UniLearner := do
  let K ← U.base.constructAction add ord a
  let U := { U with base := K }
  match U.umap.lookup a with
  | none => .ok U
  | some [] => .ok U
  | some (_ :: _) => (U.removePreU deep ord a).constructU add deep ord a

/-- universaly_conditional_sam.py:420-434 `construct_safe_actions`. -/
def UniLearner.constructSafe (add : Cond → Cond → Cond) (deep : Bool) (ord : LitOrd) (U : UniLearner) : Except Err UniLearner :=
  let K := U.base
  let U := { U with base := { K with base := { K.base with dom := { K.base.dom with names := K.base.observed } } } }
  U.base.base.dom.names.foldlM (UniLearner.constructAction add deep ord) U

/-- universaly_conditional_sam.py:436-454 `learn_action_model`. -/
def UniLearner.learn (add : Cond → Cond → Cond) (deep : Bool) (ord : LitOrd) (U : UniLearner) (obs : List UniObs) :
    Except Err (UniLearner × List (String × Status)) := do
  let U := { U with base := { U.base with base := U.base.base.deduceIneq } }
  let U ← U.process ord obs
  let U ← U.constructSafe add deep ord
  .ok (U, U.base.base.report)

end Model

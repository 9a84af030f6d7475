import Verif.Model.Sam
import Verif.Model.Dependency

/-!
Model of `sam_learning/learners/conditional_sam.py`.
The root precondition of an action is split into its literals (`ActModel.pre`), its inequalities
(`ActModel.ineq`) and the formulas added while constructing the safe actions (`conds`); all are
conjuncts. A conditional effect is a conjunctive antecedent with a set of results (`Spec.CondEff`).
-/
namespace Model
open Spec

/-- conditional_sam.py:31-55: the fields of `ConditionalSAM` on top of `SAMLearner`.
`obsEff` is `observed_effects`, `deps` is `conditional_antecedents`. -/
structure CondLearner where
  base : Learner
  maxAnte : Nat
  deps : String → Option DepSet
  obsEff : String → Finset Lit
  conds : String → List Cond
  condEffs : String → List CondEff

/-- conditional_sam.py:40-55 `__init__`. (`preconditions_fluent_map` is never read.) -/
def CondLearner.init (D : Domain) (maxAnte : Nat := 1) (policy : Policy := .noRemove) : CondLearner :=
  { base := Learner.init D policy, maxAnte := maxAnte, deps := fun _ => none, obsEff := fun _ => ∅,
    conds := fun _ => [], condEffs := fun _ => [] }

/-- conditional_sam.py:56-70 `_initialize_actions_dependencies`. -/
def CondLearner.initDeps (ord : LitOrd) (K : CondLearner) (a : String) : CondLearner :=
  let vocab := liftedVocab K.base.dom (K.base.dom.act a).sig
  { K with deps := Function.update K.deps a (some ((DepSet.new K.maxAnte).initialize ord vocab)) }

/-- conditional_sam.py:72-83 `_extract_lifted_conditional_effects`. -/
def liftedEffects (D : Domain) (call : Call) (prev next : Finset Lit) : Finset Lit :=
  let e := extractEffects prev next
  liftCall D call (e.1 ∪ e.2)

/-- conditional_sam.py:85-157 `_find_literals` and its two callers; without extra objects. -/
def findLiterals (D : Domain) (call : Call) (lits : Finset Lit) (inState : Bool) : Finset Lit :=
  let ms := liftCall D call lits
  if inState then ms else ms.image Lit.neg

/-- conditional_sam.py:159-173 `_remove_existing_previous_state_dependencies`. -/
def removeExisting (ord : LitOrd) (D : Domain) (call : Call) (prev next : Finset Lit) (d : DepSet) : DepSet :=
  let missing := findLiterals D call next false
  let existing := findLiterals D call prev true
  (ord missing).foldl (fun d l => d.remove ord l existing) d

/-- conditional_sam.py:175-188 `_remove_non_existing_previous_state_dependencies`. -/
def removeNonExisting (ord : LitOrd) (D : Domain) (call : Call) (prev next : Finset Lit) (d : DepSet) : DepSet :=
  let effects := liftedEffects D call prev next
  let missing := findLiterals D call prev false
  (ord effects).foldl (fun d l => d.remove ord l missing true) d

/-- conditional_sam.py:190-198 `_update_observed_effects`, 200-208 `_remove_not_antecedents`,
210-218 `_apply_inductive_rules`. -/
def CondLearner.applyRules (ord : LitOrd) (K : CondLearner) (call : Call) (prev next : Finset Lit) :
    Except Err CondLearner :=
  let a := call.name
  let D := K.base.dom
  match K.deps a with
  | none => .error .keyError
  | some d =>
    let d := removeExisting ord D call prev next d
    let d := removeNonExisting ord D call prev next d
    .ok { K with
      obsEff := Function.update K.obsEff a (K.obsEff a ∪ liftedEffects D call prev next)
      deps := Function.update K.deps a (some d) }

/-- conditional_sam.py:445-457 `add_new_action`. -/
def CondLearner.addNewAction (ord : LitOrd) (K : CondLearner) (call : Call) (prev next : Finset Lit) :
    Except Err CondLearner := do
  let K := { K with base := { K.base with dom := addNewPre K.base.dom call prev } }
  let K ← K.applyRules ord call prev next
  .ok { K with base := { K.base with observed := K.base.observed ++ [call.name] } }

/-- conditional_sam.py:459-469 `update_action`. -/
def CondLearner.updateAction (ord : LitOrd) (K : CondLearner) (call : Call) (prev next : Finset Lit) :
    Except Err CondLearner :=
  let K := { K with base := { K.base with dom := updatePre K.base.dom call prev } }
  K.applyRules ord call prev next

/-- conditional_sam.py:471-491 `handle_single_trajectory_component`. An action outside the domain raises
`KeyError` (environment_snapshot.py:96). Failed transitions are not filtered out, and calls with repeated
objects are not either. -/
def CondLearner.handleComponent (ord : LitOrd) (K : CondLearner) (c : Component) : Except Err CondLearner :=
  if c.call.name ∉ K.base.dom.names then .error .keyError
  else
    let snap := tripletSnapshot K.base.dom c
    if c.call.name ∉ K.base.observed then
      (K.initDeps ord c.call.name).addNewAction ord c.call snap.1 snap.2
    else K.updateAction ord c.call snap.1 snap.2

/-- The literals found when iterating over `action.preconditions` (conditional_sam.py:230, 499): the
iteration descends into nested formulas (see `Spec.Cond.lits`). -/
def CondLearner.preLits (K : CondLearner) (a : String) : Finset Lit :=
  (K.base.dom.act a).pre ∪ (Cond.litsAll (K.conds a)).toFinset

/-- conditional_sam.py:220-235 `_construct_restrictive_preconditions`; the root precondition gets the
formula as one more conjunct. -/
def CondLearner.addRestrictive (add : Cond → Cond → Cond) (ord : LitOrd) (K : CondLearner) (a : String)
    (d : DepSet) (l : Lit) : Except Err CondLearner := do
  let r ← d.restrictive add ord (K.preLits a) l (decide (l ∈ K.obsEff a))
  match r with
  | none => .ok K
  | some c => .ok { K with conds := Function.update K.conds a (K.conds a ++ [c]) }

/-- conditional_sam.py:237-278 `_construct_antecedents`, 280-300 `_construct_result`, 302-322
`_construct_conditional_effect_data`: the single remaining candidate becomes the antecedent.
(`extract_safe_antecedents` never returns a list, so the disjunctive branch is dead code.) -/
def condEffectData (d : DepSet) (l : Lit) : Except Err CondEff := do
  let a ← d.safeAntecedents l
  .ok ⟨a, {l}⟩

/-- conditional_sam.py:324-349 `_construct_restrictive_effect`: all candidates together. -/
def restrictiveEffect (d : DepSet) (l : Lit) : Except Err CondEff :=
  match d.possible.lookup l with
  | none => .error .keyError
  | some cands => condEffectData ⟨[(l, [unionAll cands])], d.maxAnte⟩ l

/-- conditional_sam.py:351-363 `_construct_simple_effect`. -/
def CondLearner.addSimple (K : CondLearner) (a : String) (l : Lit) : CondLearner :=
  if l ∈ K.base.cannotBe a then K
  else
    let m := K.base.dom.act a
    { K with base := { K.base with dom := K.base.dom.setAct a { m with eff := m.eff ∪ {l} } } }

/-- conditional_sam.py:409-443 `verify_single_possible_conditional_effect`. -/
def CondLearner.verify (add : Cond → Cond → Cond) (ord : LitOrd) (K : CondLearner) (a : String) (d : DepSet)
    (l : Lit) : Except Err (CondLearner × Option CondEff) := do
  if !(← d.isSafe l) then
    let K ← K.addRestrictive add ord a d l
    if l ∉ K.obsEff a then .ok (K, none)
    else
      let e ← restrictiveEffect d l
      .ok ({ K with condEffs := Function.update K.condEffs a (K.condEffs a ++ [e]) }, none)
  else if l ∉ K.obsEff a then .ok (K, none)
  else if !(← d.isSafeCond l) then .ok (K.addSimple a l, none)
  else
    let e ← condEffectData d l
    .ok (K, some e)

/-- conditional_sam.py:365-388 `_compress_conditional_effects`: the first effect of each antecedent takes
the results of the others. -/
def compress : List CondEff → List CondEff
  | [] => []
  | e :: es =>
    ⟨e.ante, e.res ∪ unionAll ((es.filter fun o => o.ante = e.ante).map CondEff.res)⟩ ::
      compress (es.filter fun o => ¬ o.ante = e.ante)
termination_by l => l.length
decreasing_by
  simp only [List.length_cons, List.length_unattach]
  exact Nat.lt_succ_of_le ((List.length_filter_le _ _).trans (by simp))

/-- One iteration of the loop at conditional_sam.py:398-401. -/
def CondLearner.verifyStep (add : Cond → Cond → Cond) (ord : LitOrd) (a : String) (d : DepSet)
    (s : CondLearner × List CondEff) (l : Lit) : Except Err (CondLearner × List CondEff) := do
  let r ← s.1.verify add ord a d l
  .ok (r.1, s.2 ++ r.2.toList)

/-- conditional_sam.py:390-407 `_verify_and_construct_safe_conditional_effects`. The collected effects
replace `action.conditional_effects`. -/
def CondLearner.constructEffects (add : Cond → Cond → Cond) (ord : LitOrd) (K : CondLearner) (a : String)
    (d : DepSet) : Except Err CondLearner := do
  let r ← (d.possible.map Prod.fst).foldlM (CondLearner.verifyStep add ord a d) (K, [])
  if r.2.length = 0 then .ok r.1
  else .ok { r.1 with condEffs := Function.update r.1.condEffs a (compress r.2) }

/-- Body of the loop at conditional_sam.py:497-502. -/
def CondLearner.constructAction (add : Cond → Cond → Cond) (ord : LitOrd) (K : CondLearner) (a : String) :
    Except Err CondLearner :=
  match K.deps a with
  | none => .error .keyError
  | some d =>
    let d := d.removePre ord (K.preLits a)
    { K with deps := Function.update K.deps a (some d) }.constructEffects add ord a d

/-- conditional_sam.py:493-502 `construct_safe_actions`. -/
def CondLearner.constructSafe (add : Cond → Cond → Cond) (ord : LitOrd) (K : CondLearner) : Except Err CondLearner :=
  let K := { K with base := { K.base with dom := { K.base.dom with names := K.base.observed } } }
  K.base.dom.names.foldlM (CondLearner.constructAction add ord) K

/-- conditional_sam.py:514-517: every component of every observation, successful or not. -/
def CondLearner.process (ord : LitOrd) (K : CondLearner) (cs : List Component) : Except Err CondLearner :=
  cs.foldlM (CondLearner.handleComponent ord) K

/-- conditional_sam.py:504-522 `learn_action_model`. -/
def CondLearner.learn (add : Cond → Cond → Cond) (ord : LitOrd) (K : CondLearner)
    (observations : List (List Component)) : Except Err (CondLearner × List (String × Status)) := do
  let K := { K with base := K.base.deduceIneq }
  let K ← K.process ord observations.flatten
  let K ← K.constructSafe add ord
  .ok (K, K.base.report)

end Model

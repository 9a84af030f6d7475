import Verif.Model.Core
import Mathlib.Logic.Function.Basic

/-! Model of `sam_learning/learners/sam_learning.py`. -/
namespace Model

/-- utilities/util_types.py `NegativePreconditionPolicy`. -/
inductive Policy where
  | noRemove | soft | hard
deriving DecidableEq, Repr

/-- sam_learning.py:31-69: the fields of `SAMLearner`. The triplet snapshot, rewritten before each use,
is passed as an argument instead; timing and logging fields are left out. -/
structure Learner where
  dom : Domain
  observed : List String
  safe : List String
  cannotBe : String → Finset Lit
  sigs : List (String × Sig)
  policy : Policy
  injective : Bool

/-- sam_learning.py:48-69 `__init__`. -/
def Learner.init (D : Domain) (policy : Policy := .noRemove) (injective : Bool := true) : Learner :=
  { dom := D, observed := [], safe := [], cannotBe := fun _ => ∅,
    sigs := D.names.map fun a => (a, (D.act a).sig), policy := policy, injective := injective }

/-- sam_learning.py:71-80 `_handle_unobserved_actions`. -/
def Learner.handleUnobserved (L : Learner) : Learner :=
  let unobserved := L.dom.names.filter fun a => !(L.observed.contains a)
  { L with dom := unobserved.foldl (fun D a =>
      let m := D.act a
      D.setAct a { m with pre := m.pre ∪ liftedVocab D m.sig }) L.dom }

/-- The lifted literals of a set of grounded literals for a call of a domain action. -/
def liftCall (D : Domain) (call : Call) (lits : Finset Lit) : Finset Lit :=
  possibleMatches D.consts (D.act call.name).sig call.params lits

/-- sam_learning.py:82-99 `_handle_consts_in_effects`; `next` is
`triplet_snapshot.next_state_predicates`. Literals are compared by `untyped_representation`, which is
the name, the arguments and the sign. -/
def Learner.handleConstsInEffects (L : Learner) (call : Call) (next : Finset Lit) : Learner :=
  let a := call.name
  let m := L.dom.act a
  let vocab := liftedVocab L.dom m.sig
  let lifted := liftCall L.dom call next
  let cb := L.cannotBe a ∪ vocab.filter (fun l => l ∉ lifted)
  { L with cannotBe := Function.update L.cannotBe a cb
           dom := L.dom.setAct a { m with eff := m.eff \ cb } }

/-- sam_learning.py:101-114 `_handle_action_effects`. -/
def actionEffects (D : Domain) (call : Call) (prev next : Finset Lit) : Finset Lit × Finset Lit :=
  let e := extractEffects prev next
  (liftCall D call e.1, liftCall D call e.2)

/-- sam_learning.py:116-133 `_update_action_preconditions`. -/
def updatePre (D : Domain) (call : Call) (prev : Finset Lit) : Domain :=
  let m := D.act call.name
  let lifted := liftCall D call prev
  D.setAct call.name { m with pre := m.pre.filter (fun l => l ∈ lifted) }

/-- sam_learning.py:135-147 `_add_new_action_preconditions`. -/
def addNewPre (D : Domain) (call : Call) (prev : Finset Lit) : Domain :=
  let m := D.act call.name
  D.setAct call.name { m with pre := m.pre ∪ liftCall D call prev }

/-- `observed_action.discrete_effects.update(...)`, sam_learning.py:179, 195. -/
def addEffects (D : Domain) (call : Call) (prev next : Finset Lit) : Domain :=
  let m := D.act call.name
  let e := actionEffects D call prev next
  D.setAct call.name { m with eff := m.eff ∪ (e.1 ∪ e.2) }

/-- sam_learning.py:165-181 `add_new_action`. -/
def Learner.addNewAction (L : Learner) (call : Call) (prev next : Finset Lit) : Learner :=
  let D := addNewPre L.dom call prev
  let D := addEffects D call prev next
  { L with dom := D, observed := L.observed ++ [call.name] }

/-- sam_learning.py:183-200 `update_action`. -/
def Learner.updateAction (L : Learner) (call : Call) (prev next : Finset Lit) : Learner :=
  let D := updatePre L.dom call prev
  let D := addEffects D call prev next
  let L := { L with dom := D }
  if L.dom.consts.length > 0 then L.handleConstsInEffects call next else L

/-- sam_learning.py:211-217: the pairs of lifted parameters, in
signature order, bound to one object. (`grounded_signature_map` groups the parameters by object; the
pairs of a group are the combinations of size two.) -/
def duplicatePairs (sig : Sig) (call : List String) : List (String × String) :=
  let bound := call.zip (Sig.names sig)
  let groups := (call.zip (Sig.names sig)).map fun p =>
    (bound.filter fun q => q.1 = p.1).map Prod.snd
  groups.flatMap fun g => (Py.combs 2 g).filterMap fun
    | [x, y] => some (x, y)
    | _ => none

/-- sam_learning.py:202-219 `_verify_parameter_duplication`. -/
def Learner.verifyDuplication (L : Learner) (call : Call) : Learner × Bool :=
  if containsDuplicates call.params then
    let m := L.dom.act call.name
    let m' := { m with ineq := m.ineq \ (duplicatePairs m.sig call.params).toFinset }
    ({ L with dom := L.dom.setAct call.name m' }, true)
  else (L, false)

/-- sam_learning.py:221-231 `_complete_possibly_missing_actions`. -/
def Learner.completeMissing (L : Learner) : Learner :=
  { L with dom := L.sigs.foldl (fun D p =>
      if D.names.contains p.1 then D
      else { (D.setAct p.1 (ActModel.fresh p.2)) with names := D.names ++ [p.1] }) L.dom }

/-- sam_learning.py:233-257 `handle_single_trajectory_component`. An action that is not in the domain
raises `KeyError` (first use of `partial_domain.actions[...]`, line 211 or environment_snapshot.py:96). -/
def Learner.handleComponent (L : Learner) (c : Component) : Except Err Learner :=
  if c.call.name ∉ L.dom.names then .error .keyError
  else
    let r := L.verifyDuplication c.call
    if r.2 then .ok r.1
    else
      let L := r.1
      let snap := tripletSnapshot L.dom c
      if c.call.name ∉ L.observed then .ok (L.addNewAction c.call snap.1 snap.2)
      else .ok (L.updateAction c.call snap.1 snap.2)

/-- sam_learning.py:266-268: pairs of parameters of one type, in signature order. -/
def sameTypePairs (sig : Sig) : Finset (String × String) :=
  ((Py.combs 2 sig).filterMap fun
    | [x, y] => if x.2.name = y.2.name then some (x.1, y.1) else none
    | _ => none).toFinset

/-- sam_learning.py:259-268 `deduce_initial_inequality_preconditions`. -/
def Learner.deduceIneq (L : Learner) : Learner :=
  if !L.injective then L
  else { L with dom := L.dom.names.foldl (fun D a =>
      let m := D.act a
      D.setAct a { m with ineq := m.ineq ∪ sameTypePairs m.sig }) L.dom }

/-- sam_learning.py:272-284: which preconditions survive. -/
def keepPre (policy : Policy) (eff : Finset Lit) (l : Lit) : Bool :=
  if l.pos then true
  else !(policy != .soft || (l.neg ∈ eff.filter (fun e => e.pos = true)))

/-- sam_learning.py:270-286 `remove_negative_preconditions`. -/
def Learner.removeNegative (L : Learner) : Learner :=
  { L with dom := L.dom.names.foldl (fun D a =>
      let m := D.act a
      D.setAct a { m with pre := m.pre.filter (fun l => keepPre L.policy m.eff l = true) }) L.dom }

/-- sam_learning.py:288-290 `handle_negative_preconditions_policy`. -/
def Learner.applyPolicy (L : Learner) : Learner :=
  if L.policy ≠ .noRemove then L.removeNegative else L

/-- The status strings of the learning report. -/
inductive Status where
  | ok | notSafe | unobserved
deriving DecidableEq, Repr

/-- sam_learning.py:149-163 `_construct_learning_report`, without the `learning_time` entry: a
dictionary built by successive updates. -/
def Learner.report (L : Learner) : List (String × Status) :=
  let unsafeActs := L.observed.toFinset \ L.safe.toFinset
  let unobserved := L.dom.names.toFinset \ L.observed.toFinset
  Py.dictOf (L.safe.map (·, Status.ok)
    ++ (L.dom.names.filter (· ∈ unsafeActs)).map (·, Status.notSafe)
    ++ (L.dom.names.filter (· ∈ unobserved)).map (·, Status.unobserved))

/-- sam_learning.py:318-325: the loop over observations and components. Observations are lists of
components; the objects of an observation are not used by this learner. -/
def Learner.processComponents (L : Learner) (cs : List Component) : Except Err Learner :=
  cs.foldlM (fun L c => if c.success then L.handleComponent c else .ok L) L

/-- sam_learning.py:292-294 `construct_safe_actions` does nothing; 306-330 `learn_action_model`.
Returns the learner after the call (its `dom` is the returned domain) and the report. -/
def Learner.learn (L : Learner) (observations : List (List Component)) :
    Except Err (Learner × List (String × Status)) := do
  let L := L.deduceIneq.completeMissing
  let L ← L.processComponents observations.flatten
  let L := L.handleUnobserved.applyPolicy
  .ok (L, L.report)

/-- A user calling `learn_action_model` several times on one learner (the use announced in
sam_learning.py:224-226). -/
def learnMany (L : Learner) : List (List (List Component)) → Except Err Learner
  | [] => .ok L
  | obs :: rest => do
    let r ← L.learn obs
    learnMany r.1 rest

end Model

import Verif.Model.Sam

/-! Model of `core/propositional_operations/literals_cnf.py` (class `LiteralCNF`) and of
`learners/multi_agent_sam.py`. -/
namespace Model

/-- literals_cnf.py:65-74: `possible_lifted_effects` and `not_effects`. Lifted literals are represented
by themselves instead of by `untyped_representation` (see C25). `not_effects` has all actions of the
domain as keys; names of other actions raise `KeyError` earlier in MA-SAM. -/
structure Cnf where
  clauses : List (List (String × Lit))
  notEff : String → Finset Lit

/-- literals_cnf.py:71-74 `__init__`. -/
def Cnf.empty : Cnf := ⟨[], fun _ => ∅⟩

/-- literals_cnf.py:76-92 `add_not_effect`: `list.remove` removes the first occurrence; clauses that
become empty are dropped. -/
def Cnf.addNotEffect (F : Cnf) (a : String) (l : Lit) : Cnf :=
  { notEff := Function.update F.notEff a (insert l (F.notEff a))
    clauses := F.clauses.filterMap fun c =>
      if (a, l) ∈ c then
        let c' := c.erase (a, l)
        if c'.length = 0 then none else some c'
      else some c }

/-- literals_cnf.py:94-109 `add_possible_effect`. -/
def Cnf.addPossible (F : Cnf) (joint : List (String × Lit)) : Cnf :=
  let filtered := joint.filter fun p => p.2 ∉ F.notEff p.1
  if filtered ∈ F.clauses then F else { F with clauses := F.clauses ++ [filtered] }

/-- literals_cnf.py:120-129: the unit clauses of an action. -/
def Cnf.units (F : Cnf) (a : String) : List (String × Lit) :=
  F.clauses.filterMap fun c => if a ∈ c.map Prod.fst then (match c with | [p] => some p | _ => none) else none

/-- literals_cnf.py:120-129: the other clauses that mention the action. -/
def Cnf.nonUnits (F : Cnf) (a : String) : List (List (String × Lit)) :=
  F.clauses.filter fun c => decide (a ∈ c.map Prod.fst) && !(c.length == 1)

/-- literals_cnf.py:111-138 `is_action_safe`. -/
def Cnf.isActionSafe (F : Cnf) (a : String) (pre : Finset Lit) : Bool :=
  if (F.nonUnits a).length = 0 then true
  else (F.nonUnits a).all fun c =>
    (F.units a).any (fun u => decide (u ∈ c)) || c.all fun p => !(p.1 == a && decide (p.2 ∉ pre))

/-- literals_cnf.py:140-153 `is_action_acting_in_cnf`. -/
def Cnf.isActing (F : Cnf) (a : String) : Bool :=
  F.clauses.any (fun c => decide (a ∈ c.map Prod.fst)) || decide ((F.notEff a).card > 0)

/-- literals_cnf.py:155-169 `extract_action_effects`. -/
def Cnf.extractEffects (F : Cnf) (a : String) (pre : Finset Lit) : List Lit :=
  F.clauses.filterMap fun c =>
    match c with
    | [p] => if a ∈ c.map Prod.fst then (if p.2 ∉ pre then some p.2 else none) else none
    | _ => none

/-! ### multi_agent_sam.py -/

/-- `MultiAgentComponent`: `calls` are the operational (non-nop) actions of the joint action. -/
structure JointComponent where
  prev : State
  calls : List Call
  next : State

/-- multi_agent_sam.py:23-42: `MultiAgentSAM` extends `SAMLearner`; `snap` is the triplet snapshot, which
survives from one component to the next. The CNFs are keyed by predicate and sign
(`lifted_untyped_representation`). -/
structure MaLearner where
  base : Learner
  cnf : String × Bool → Cnf
  snap : Finset Lit × Finset Lit
  unsafeActs : List String

/-- multi_agent_sam.py:30-42 `__init__`. -/
def MaLearner.init (D : Domain) (policy : Policy := .noRemove) : MaLearner :=
  { base := Learner.init D policy true, cnf := fun _ => .empty, snap := (∅, ∅), unsafeActs := [] }

/-- The key of the CNF of a ground literal. -/
def keyOf (g : Lit) : String × Bool := (g.name, g.pos)

/-- multi_agent_sam.py:134-154 `compute_interacting_actions`. The code extends `action.parameters` *in
place* by the constants at each call; the first component of the result are the changed calls, the
second those that interact. -/
def computeInteracting (consts : Sig) (g : Lit) (calls : List Call) : List Call × List Call :=
  let calls' := calls.map fun c => { c with params := c.params ++ Sig.names consts }
  (calls', calls'.filter fun c => g.args.all fun o => c.params.contains o)

/-- multi_agent_sam.py:52-84 `_extract_relevant_not_effects` with `executing_actions = [call]` (its only
use): the changed call and the literals. `lits` are the next-state literals in iteration order. -/
def relevantNotEffects (consts : Sig) (call : Call) (lits : List Lit) : Call × List Lit :=
  lits.foldl (fun st g =>
    let r := computeInteracting consts g.neg [st.1]
    let call' := r.1.headD st.1
    if call' ∈ r.2 then (call', st.2 ++ [g.neg]) else (call', st.2)) (call, [])

/-- One CNF is replaced. -/
def MaLearner.updCnf (L : MaLearner) (k : String × Bool) (f : Cnf → Cnf) : MaLearner :=
  { L with cnf := Function.update L.cnf k (f (L.cnf k)) }

/-- The injective match with the matcher's domain. -/
def MaLearner.matchOf (L : MaLearner) (call : Call) (g : Lit) : Option Lit :=
  injectiveMatch L.base.dom.consts (L.base.dom.act call.name).sig call.params g

/-- multi_agent_sam.py:104-116 `add_not_effect_to_cnf`. -/
def MaLearner.addNotEffects (L : MaLearner) (call : Call) (gs : List Lit) : MaLearner :=
  gs.foldl (fun L g =>
    match L.matchOf call g with
    | none => L
    | some l => L.updCnf (keyOf g) (·.addNotEffect call.name l)) L

/-- multi_agent_sam.py:118-132 `add_must_be_effect_to_cnf`. -/
def MaLearner.addMustBe (L : MaLearner) (call : Call) (gs : List Lit) : MaLearner :=
  gs.foldl (fun L g =>
    match L.matchOf call g with
    | none => L
    | some l => L.updCnf (keyOf g) (·.addPossible [(call.name, l)])) L

/-- multi_agent_sam.py:180-183: `lifted_match.untyped_representation`, an `AttributeError` when there is no match. -/
def MaLearner.jointClause (L : MaLearner) (calls : List Call) (g : Lit) : Except Err (List (String × Lit)) :=
  calls.mapM fun c => match L.matchOf c g with
    | none => .error .attributeError
    | some l => .ok (c.name, l)

/-- multi_agent_sam.py:169-186 `handle_concurrent_execution`; also returns the changed calls. -/
def MaLearner.handleConcurrent (L : MaLearner) (g : Lit) (calls : List Call) : Except Err (MaLearner × List Call) :=
  let r := computeInteracting L.base.dom.consts g calls
  match r.2 with
  | [c] => .ok (L.addMustBe c [g], r.1)
  | cs => do
    let clause ← L.jointClause cs g
    .ok (L.updCnf (keyOf g) (·.addPossible clause), r.1)

/-- multi_agent_sam.py:196-202, 230-235: preconditions of one executed action from the snapshot. -/
def MaLearner.updatePreconds (L : MaLearner) (call : Call) : MaLearner :=
  if call.name ∉ L.base.observed then
    { L with base := { L.base with dom := addNewPre L.base.dom call L.snap.1,
                                   observed := L.base.observed ++ [call.name] } }
  else { L with base := { L.base with dom := updatePre L.base.dom call L.snap.1 } }

/-- environment_snapshot.py:81-104 for the joint component and one of its calls. -/
def MaLearner.takeSnapshot (L : MaLearner) (c : JointComponent) (call : Call) : MaLearner :=
  { L with snap := tripletSnapshot L.base.dom ⟨c.prev, call, c.next, true⟩ }

section
-- The unspecified order in which Python iterates over a set.
variable (ord : Finset Lit → List Lit)

/-- multi_agent_sam.py:188-211 `update_single_agent_executed_action`. -/
def MaLearner.updateSingle (L : MaLearner) (call : Call) : MaLearner :=
  let L := L.updatePreconds call
  let e := extractEffects L.snap.1 L.snap.2
  let L := L.addMustBe call (ord (e.1 ∪ e.2))
  let r := relevantNotEffects L.base.dom.consts call (ord L.snap.2)
  L.addNotEffects r.1 r.2

/-- multi_agent_sam.py:236-242: not-effects of all executed actions, threading the changed calls. -/
def MaLearner.notEffectsOfAll (L : MaLearner) : List Call → MaLearner × List Call
  | [] => (L, [])
  | c :: cs =>
    let r := relevantNotEffects L.base.dom.consts c (ord L.snap.2)
    let L := L.addNotEffects r.1 r.2
    let rest := MaLearner.notEffectsOfAll L cs
    (rest.1, r.1 :: rest.2)

/-- multi_agent_sam.py:244-245: the loop over the effects. -/
def MaLearner.concurrentAll (L : MaLearner) (calls : List Call) : List Lit → Except Err MaLearner
  | [] => .ok L
  | g :: gs => do
    let r ← L.handleConcurrent g calls
    MaLearner.concurrentAll r.1 r.2 gs

/-- multi_agent_sam.py:213-245 `update_multiple_executed_actions`. The snapshot is overwritten for each
executed action, so after the first loop it covers the objects of the *last* one only. -/
def MaLearner.updateMultiple (L : MaLearner) (c : JointComponent) : Except Err MaLearner :=
  let L := c.calls.foldl (fun L call => (L.takeSnapshot c call).updatePreconds call) L
  let e := extractEffects L.snap.1 L.snap.2
  let r := L.notEffectsOfAll ord c.calls
  r.1.concurrentAll r.2 (ord (e.1 ∪ e.2))

/-- multi_agent_sam.py:256-258: `_verify_parameter_duplication` for every operational action. -/
def MaLearner.verifyAll (L : MaLearner) : List Call → Except Err (MaLearner × Bool)
  | [] => .ok (L, false)
  | call :: cs =>
    if call.name ∉ L.base.dom.names ∧ containsDuplicates call.params then .error .keyError
    else do
      let r := L.base.verifyDuplication call
      let rest ← MaLearner.verifyAll { L with base := r.1 } cs
      .ok (rest.1, r.2 || rest.2)

/-- multi_agent_sam.py:247-271 `handle_multi_agent_trajectory_component`. An action that is not in the
domain raises `KeyError`. -/
def MaLearner.handleComponent (L : MaLearner) (c : JointComponent) : Except Err MaLearner := do
  let r ← L.verifyAll c.calls
  if r.2 then .ok r.1
  else if ∃ call ∈ c.calls, call.name ∉ r.1.base.dom.names then .error .keyError
  else match c.calls with
    | [call] => .ok ((r.1.takeSnapshot c call).updateSingle ord call)
    | _ => r.1.updateMultiple ord c

end

/-- multi_agent_sam.py:86-102 `_is_action_safe`: over all CNFs, i.e. the two signs of every predicate. -/
def MaLearner.isActionSafe (L : MaLearner) (a : String) (pre : Finset Lit) : Bool :=
  L.base.dom.preds.all fun pd => [true, false].all fun b =>
    !((L.cnf (pd.name, b)).isActing a) || (L.cnf (pd.name, b)).isActionSafe a pre

/-- multi_agent_sam.py:156-167 `extract_effects_from_cnf`: the effects that are added. -/
def MaLearner.cnfEffects (L : MaLearner) (a : String) (pre : Finset Lit) : Finset Lit :=
  (L.base.dom.preds.flatMap fun pd => [true, false].flatMap fun b =>
    (L.cnf (pd.name, b)).extractEffects a pre).toFinset

/-- multi_agent_sam.py:280-291: one round of the loop of `construct_safe_actions`. -/
def MaLearner.constructOne (L : MaLearner) (a : String) : MaLearner :=
  let m := L.base.dom.act a
  if L.isActionSafe a m.pre then
    let D := L.base.dom.setAct a { m with eff := m.eff ∪ L.cnfEffects a m.pre }
    { L with base := { L.base with safe := L.base.safe ++ [a], dom := D } }
  else { L with unsafeActs := L.unsafeActs ++ [a] }

/-- multi_agent_sam.py:273-295 `construct_safe_actions(should_remove_actions=True)`. -/
def MaLearner.constructSafe (L : MaLearner) : MaLearner :=
  let L := { L with base := L.base.handleUnobserved }
  let L := L.base.dom.names.foldl MaLearner.constructOne L
  let D := { L.base.dom with names := L.base.dom.names.filter fun a => !(L.unsafeActs.contains a) }
  { L with base := { L.base with dom := D } }

/-- multi_agent_sam.py:297-320 `learn_combined_action_model` (`_initialize_cnfs` 44-50 gives every
literal a fresh CNF). The returned learner's `base.dom` is the returned domain. -/
def MaLearner.learn (ord : Finset Lit → List Lit) (L : MaLearner) (obs : List (List JointComponent)) :
    Except Err (MaLearner × List (String × Status)) := do
  let L := { L with cnf := fun _ => Cnf.empty, base := L.base.deduceIneq }
  let L ← obs.flatten.foldlM (fun L c => L.handleComponent ord c) L
  let L := L.constructSafe
  let L := { L with base := L.base.applyPolicy }
  .ok (L, L.base.report)

end Model

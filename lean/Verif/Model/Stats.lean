import Verif.Model.Core
import Verif.Spec.Strips
import Mathlib.Data.Rat.Floor

/-!
Model of `statistics/`: the syntactic and the semantic evaluation of learned models.
Floats are rationals. `untyped_representation`, the string by which literals are compared, is the
literal itself.
-/
namespace Model
open Spec (applicable ineqHolds successor subst)

/-! ### discrete_precision_recall_calculator.py -/

/-- discrete_precision_recall_calculator.py:7-14. -/
def numTP (L T : Finset Lit) : ℕ := (L ∩ T).card
/-- discrete_precision_recall_calculator.py:17-24. -/
def numFP (L T : Finset Lit) : ℕ := (L \ T).card
/-- discrete_precision_recall_calculator.py:27-34. -/
def numFN (L T : Finset Lit) : ℕ := (T \ L).card

/-- discrete_precision_recall_calculator.py:37-53 `calculate_syntactic_recall`. -/
def synRecall (L T : Finset Lit) : ℚ :=
  if T.card = 0 then 1
  else if L.card = 0 then 0
  else (numTP L T : ℚ) / (numTP L T + numFN L T)

/-- discrete_precision_recall_calculator.py:56-71 `calculate_syntactic_precision`. -/
def synPrecision (L T : Finset Lit) : ℚ :=
  if L.card = 0 then (if T.card = 0 then 1 else 0)
  else (numTP L T : ℚ) / (numTP L T + numFP L T)

/-- discrete_precision_recall_calculator.py:74-89, the fields of `PrecisionRecallCalculator`; the
default dictionaries are functions with default `∅`. -/
structure SynCalc where
  pre : String → Finset Lit
  gtPre : String → Finset Lit
  eff : String → Finset Lit
  gtEff : String → Finset Lit
  learned : List String

/-- discrete_precision_recall_calculator.py:83-89 `__init__`. -/
def SynCalc.init : SynCalc := ⟨fun _ => ∅, fun _ => ∅, fun _ => ∅, fun _ => ∅, []⟩

/-- discrete_precision_recall_calculator.py:91-105 `add_action_data`; `ln`, `mn` are the names of the
two actions. -/
def SynCalc.addAction (C : SynCalc) (ln : String) (l : ActModel) (mn : String) (m : ActModel) : SynCalc :=
  { pre := Function.update C.pre ln l.pre
    gtPre := Function.update C.gtPre mn m.pre
    eff := Function.update C.eff ln l.eff
    gtEff := Function.update C.gtEff mn m.eff
    learned := C.learned ++ [ln] }

/-- The sums over `_compared_tuples` for one action. -/
def SynCalc.tp (C : SynCalc) (a : String) : ℕ := numTP (C.pre a) (C.gtPre a) + numTP (C.eff a) (C.gtEff a)
def SynCalc.fp (C : SynCalc) (a : String) : ℕ := numFP (C.pre a) (C.gtPre a) + numFP (C.eff a) (C.gtEff a)
def SynCalc.fn (C : SynCalc) (a : String) : ℕ := numFN (C.pre a) (C.gtPre a) + numFN (C.eff a) (C.gtEff a)

/-- discrete_precision_recall_calculator.py:115-118, 127-131, 155-158, 177-180: the quotient. -/
def quotient (t f : ℕ) : ℚ := if t = 0 ∧ f = 0 then 1 else (t : ℚ) / (t + f)

/-- discrete_precision_recall_calculator.py:107-118. -/
def SynCalc.actionPrecision (C : SynCalc) (a : String) : ℚ := quotient (C.tp a) (C.fp a)
/-- discrete_precision_recall_calculator.py:120-132. -/
def SynCalc.actionRecall (C : SynCalc) (a : String) : ℚ := quotient (C.tp a) (C.fn a)
/-- discrete_precision_recall_calculator.py:134-154. -/
def SynCalc.domPrecision (C : SynCalc) : ℚ :=
  quotient (C.learned.map C.tp).sum (C.learned.map C.fp).sum
/-- discrete_precision_recall_calculator.py:156-176. -/
def SynCalc.domRecall (C : SynCalc) : ℚ :=
  quotient (C.learned.map C.tp).sum (C.learned.map C.fn).sum

/-- The dictionary returned by `export_action_syntactic_statistics`. -/
structure SynStats where
  prePrecision : ℚ
  effPrecision : ℚ
  preRecall : ℚ
  effRecall : ℚ
  actPrecision : ℚ
  actRecall : ℚ
  f1 : ℚ
deriving DecidableEq

/-- discrete_precision_recall_calculator.py:178-197 `export_action_syntactic_statistics`. -/
def SynCalc.export (C : SynCalc) (a : String) : SynStats :=
  let p := C.actionPrecision a
  let r := C.actionRecall a
  { prePrecision := synPrecision (C.pre a) (C.gtPre a)
    effPrecision := synPrecision (C.eff a) (C.gtEff a)
    preRecall := synRecall (C.pre a) (C.gtPre a)
    effRecall := synRecall (C.eff a) (C.gtEff a)
    actPrecision := p
    actRecall := r
    f1 := if p = 0 ∧ r = 0 then 0 else 2 * (p * r) / (p + r) }

/-! ### learning_statistics_manager.py -/

/-- learning_statistics_manager.py:166-186: the constants reported for an action that is not in the
learned domain. -/
def unlearnedStats : SynStats := ⟨0, 1, 1, 0, 0, 1, 0⟩

/-- One row of `action_learning_stats`: the fields that depend on the learned model and on the
observations (the other columns are constants of the run). -/
structure StatRow where
  action : String
  numTrajectories : ℕ
  numTriplets : ℕ
  appeared : ℕ
  learnedPre : Finset Lit
  learnedEff : Finset Lit
  numAdd : ℕ
  numDelete : ℕ
  stats : SynStats

/-- learning_statistics_manager.py:81-98 `_update_action_appearances`: the names of the executed
actions of one component (one for a single agent, several for a joint action) are counted. -/
def appearances (obs : List (List (List String))) : String → ℕ :=
  obs.foldl (fun k o => o.foldl (fun k comp => comp.foldl (fun k a => Function.update k a (k a + 1)) k) k)
    (fun _ => 0)

/-- learning_statistics_manager.py:166-209: the row of one action. The observations are given by the
names of the actions in each component. -/
def statRow (Dm : Domain) (obs : List (List (List String))) (a : String) (pre eff : Finset Lit) (st : SynStats) : StatRow :=
  { action := a, numTrajectories := obs.length, numTriplets := (obs.map List.length).sum,
    appeared := appearances obs a, learnedPre := pre, learnedEff := eff,
    numAdd := (eff.filter (fun l => l.pos = true)).card, numDelete := (eff.filter (fun l => l.pos = false)).card,
    stats := st }

/-- learning_statistics_manager.py:150-209 `add_to_action_stats`: one pass over the actions of the
model domain; a fresh calculator is filled on the way. -/
def statRows (Dm Dl : Domain) (obs : List (List (List String))) : List StatRow :=
  (Dm.names.foldl (fun (acc : SynCalc × List StatRow) a =>
    if a ∉ Dl.names then (acc.1, acc.2 ++ [statRow Dm obs a ∅ ∅ unlearnedStats])
    else
      let C := acc.1.addAction a (Dl.act a) a (Dm.act a)
      (C, acc.2 ++ [statRow Dm obs a (Dl.act a).pre (Dl.act a).eff (C.export a)])) (SynCalc.init, [])).2

/-- The two lists of `LearningStatisticsManager` that hold action rows. -/
structure StatManager where
  current : List StatRow
  merged : List StatRow

/-- What a client can do with the manager. -/
inductive StatOp where
  | add (Dl : Domain) (obs : List (List (List String)))
  | clear

/-- learning_statistics_manager.py:150-209 and 247-252 `clear_statistics`. -/
def StatManager.step (Dm : Domain) (M : StatManager) : StatOp → StatManager
  | .add Dl obs => { M with current := M.current ++ statRows Dm Dl obs }
  | .clear => ⟨[], M.merged ++ M.current⟩

def StatManager.run (Dm : Domain) (ops : List StatOp) : StatManager :=
  ops.foldl (StatManager.step Dm) ⟨[], []⟩

/-! ### semantic_performance_calculator.py -/

/-- The three counters: `num_true_positives` with its keys, the other two default dictionaries. -/
structure Counts where
  tp : String → Option ℕ
  fp : String → ℕ
  fn : String → ℕ

def Counts.zero : Counts := ⟨fun _ => none, fun _ => 0, fun _ => 0⟩

/-- `num_true_positives[a] += t; num_false_positives[a] += p; num_false_negatives[a] += n`. -/
def Counts.add (k : Counts) (a : String) (t p n : ℕ) : Counts :=
  { tp := Function.update k.tp a (some ((k.tp a).getD 0 + t))
    fp := Function.update k.fp a (k.fp a + p)
    fn := Function.update k.fn a (k.fn a + n) }

/-- semantic_performance_calculator.py:36-59 `_calculate_precision_recall`, one key. -/
def Counts.precision (k : Counts) (a : String) : Option ℚ :=
  (k.tp a).map fun (t : ℕ) => if t = 0 then (if k.fp a = 0 then 1 else 0) else (t : ℚ) / (t + k.fp a)
def Counts.recall (k : Counts) (a : String) : Option ℚ :=
  (k.tp a).map fun (t : ℕ) => if t = 0 then 0 else (t : ℚ) / (t + k.fn a)

/-- semantic_performance_calculator.py:93-134 and 244-261, ma_performance_calculator.py:57-69: one
executed action. `appL`, `appM` say whether VAL accepts the one-step plan under the learned and the
model domain file (external program). -/
def preAppStep (names : List String) (appL appM : State → Call → Bool) (k : Counts) (x : State × Call) : Counts :=
  if x.2.name ∉ names then k
  else
    let l := appL x.1 x.2
    let m := appM x.1 x.2
    k.add x.2.name (decide (l = m ∧ l = true)).toNat (l && !m).toNat (!l && m).toNat

/-- semantic_performance_calculator.py:230-263 `calculate_preconditions_semantic_performance`, before
the quotients; the executed actions of all observations in order. The multi-agent version
(ma_performance_calculator.py:41-71) visits each action of each joint action in the same way. -/
def preCounts (names : List String) (appL appM : State → Call → Bool) (xs : List (State × Call)) : Counts :=
  xs.foldl (preAppStep names appL appM) .zero

/-- What `Operator.apply` (external) does with an action that is not applicable. The default of its
flag is not part of this repository, so all three behaviours are kept. -/
inductive Mode where
  | raises | unchanged | applies
deriving DecidableEq

/-- `Operator(action, domain, call, objects).apply(state)`. -/
def opApply (mode : Mode) (m : ActModel) (call : List String) (s : State) : Except Err State :=
  let ρ := subst (Sig.names m.sig) call
  if applicable m.pre ρ s ∧ ineqHolds m.ineq ρ then .ok (successor m.eff ρ s)
  else match mode with
    | .raises => .error .valueError
    | .unchanged => .ok s
    | .applies => .ok (successor m.eff ρ s)

/-- semantic_performance_calculator.py:175-228, one component. The model operator is applied to the
state reached by the learned operator (lines 202-203). -/
def effDiffStep (mode : Mode) (Dm Dl : Domain) (objs : Sig) (k : Counts) (c : Component) : Except Err Counts :=
  let so := objs ++ Dm.consts
  let pre := stateSnapshot Dm c.prev so
  if c.call.name ∉ Dl.names then .ok k
  else if c.call.name ∉ Dm.names then .error .keyError
  else match opApply mode (Dl.act c.call.name) c.call.params c.prev with
    | .error _ => .ok k
    | .ok lnext => match opApply mode (Dm.act c.call.name) c.call.params lnext with
      | .error _ => .ok k
      | .ok mnext =>
        let me := stateSnapshot Dm mnext so \ pre
        let le := stateSnapshot Dl lnext so \ pre
        if me.card = 0 ∧ le.card = 0 then .ok (k.add c.call.name 1 0 0)
        else .ok (k.add c.call.name (me ∩ le).card (le \ me).card (me \ le).card)

/-- semantic_performance_calculator.py:149-228 `_calculate_effects_difference_rate`. -/
def effObs (mode : Mode) (Dm Dl : Domain) (k : Counts) (o : Sig × List Component) : Except Err Counts :=
  o.2.foldlM (effDiffStep mode Dm Dl o.1) k

/-- semantic_performance_calculator.py:265-288 `calculate_effects_semantic_performance`: precision and
recall as dictionaries. -/
def effPerf (mode : Mode) (Dm Dl : Domain) (obs : List (Sig × List Component)) :
    Except Err ((String → Option ℚ) × (String → Option ℚ)) :=
  if Dm.preds.length = 0 then
    .ok (fun a => if a ∈ Dm.names then some 1 else none, fun a => if a ∈ Dm.names then some 1 else none)
  else do
    let k ← obs.foldlM (effObs mode Dm Dl) .zero
    pure (k.precision, k.recall)

/-- A row of `combined_stats`; `mse` is the column that the numeric calculator fills in later. -/
structure PerfRow where
  action : String
  numTraj : ℕ
  policy : String
  prePrec : ℚ
  preRec : ℚ
  effPrec : ℚ
  effRec : ℚ
  mse : Option ℚ
deriving DecidableEq

/-- semantic_performance_calculator.py:290-318 `calculate_performance` (also
ma_performance_calculator.py:148-176): the rows appended for one learned domain. -/
def perfRows (Dm : Domain) (n : ℕ) (policy : String) (pre eff : (String → Option ℚ) × (String → Option ℚ)) : List PerfRow :=
  Dm.names.map fun a =>
    { action := a, numTraj := n, policy := policy
      prePrec := (pre.1 a).getD 1, preRec := (pre.2 a).getD 0
      effPrec := (eff.1 a).getD 1, effRec := (eff.2 a).getD 1, mse := none }

/-! ### ma_performance_calculator.py -/

/-- ma_performance_calculator.py:92-128, one component: `exec` is the joint successor under the learned
domain, `none` when the exporter raises ValueError. The complete next states are compared, and every
action of the joint action gets the same numbers. -/
def maEffStep (names : List String) (exec : State → List Call → Option State) (k : Counts)
    (c : State × List Call × State) : Counts :=
  if c.2.1.any (fun a => a.name ∉ names) then k
  else match exec c.1 c.2.1 with
    | none => k
    | some s => c.2.1.foldl (fun k a => k.add a.name (c.2.2 ∩ s).card (s \ c.2.2).card (c.2.2 \ s).card) k

/-- ma_performance_calculator.py:130-158. -/
def maEffCounts (names : List String) (exec : State → List Call → Option State)
    (cs : List (State × List Call × State)) : Counts :=
  cs.foldl (maEffStep names exec) .zero

/-- `csv.DictWriter(file, fieldnames).writerow` for all rows: a key outside the field names is a
ValueError. Rows are given by their keys. -/
def writeRows (fields : List String) (rows : List (List String)) : Except Err Unit :=
  rows.forM fun r => if r.all (fun x => fields.contains x) then .ok () else .error .valueError

/-- semantic_performance_calculator.py:25-34. -/
def semFields : List String :=
  ["action_name", "policy", "learning_algorithm", "num_trajectories", "precondition_precision",
   "precondition_recall", "effects_precision", "effects_recall"]
/-- ma_performance_calculator.py:18-26. -/
def maFields : List String :=
  ["fold", "learning_algorithm", "policy", "action_name", "num_trajectories", "precondition_precision",
   "precondition_recall"]
/-- numeric_performance_calculator.py:19-30. -/
def numFields : List String :=
  ["learning_algorithm", "policy", "action_name", "epsilon_precision", "num_trajectories",
   "precondition_precision", "precondition_recall", "effects_precision", "effects_recall", "effects_mse"]
/-- The keys of a row of `combined_stats`: semantic_performance_calculator.py:307-316, and with the
numeric columns numeric_performance_calculator.py:113-114. -/
def PerfRow.keys (r : PerfRow) : List String :=
  ["learning_algorithm", "policy", "action_name", "num_trajectories", "precondition_precision",
   "precondition_recall", "effects_precision", "effects_recall"] ++
  (if r.mse.isSome then ["effects_mse", "epsilon_precision"] else [])

/-! ### numeric_performance_calculator.py -/

/-- What applying a grounded operator with `allow_inapplicable_actions=False` gives. -/
inductive NumOutcome where
  | next (fluents : List (String × ℚ))
  | inapplicable
  | zeroDivision

/-- `sklearn.metrics.mean_squared_error` (external) on two lists of equal length. -/
def meanSq (ps : List (ℚ × ℚ)) : ℚ := ((ps.map fun p => (p.1 - p.2) ^ 2).sum) / ps.length

/-- numeric_performance_calculator.py:57-91, one component of an action of the learned domain:
`learned` and `model` are the outcomes of the two operators, `prev` the fluents of the previous state.
`none` would be a skipped component, which does not happen. -/
def stateMse (prev : List (String × ℚ)) (learned model : NumOutcome) : Except Err ℚ := do
  let compare (l m : List (String × ℚ)) : Except Err ℚ := do
    let values ← l.mapM fun p => match m.lookup p.1 with
      | none => Except.error Err.keyError
      | some v => pure (p.2, v)
    -- `actual_values, expected_values = zip(*values)`
    if values.isEmpty then .error .valueError else pure (meanSq values)
  match learned with
  | .inapplicable => compare prev prev
  | .zeroDivision => pure (10 ^ 6)
  | .next l => match model with
    | .inapplicable => compare prev prev
    | .zeroDivision => pure (10 ^ 6)
    | .next m => compare l m

/-- numeric_performance_calculator.py:48-93 `calculate_effects_mse`: `cs` lists the executed actions with
the fluents of the previous state and the two outcomes. The result maps the actions of the learned
domain, with 0 for those never executed. -/
def effectsMse (names : List String) (cs : List (String × List (String × ℚ) × NumOutcome × NumOutcome)) :
    Except Err (String → Option ℚ) := do
  let errs ← cs.foldlM (fun (acc : String → List ℚ) c =>
    if c.1 ∉ names then .ok acc
    else do
      let e ← stateMse c.2.1 c.2.2.1 c.2.2.2
      pure (Function.update acc c.1 (acc c.1 ++ [e]))) (fun _ => [])
  pure fun a => if errs a = [] then (if a ∈ names then some 0 else none)
    else some ((errs a).sum / (errs a).length)

/-- numeric_performance_calculator.py:105-115: the first row that matches gets the value. -/
def setMse (a : String) (n : ℕ) (policy : String) (v : ℚ) : List PerfRow → List PerfRow
  | [] => []
  | r :: rs => if r.action = a ∧ r.numTraj = n ∧ r.policy = policy then { r with mse := some v } :: rs
    else r :: setMse a n policy v rs

/-- numeric_performance_calculator.py:95-117 `calculate_performance` after the call of the base class. -/
def fillMse (names : List String) (n : ℕ) (policy : String) (mse : String → Option ℚ) (rows : List PerfRow) : List PerfRow :=
  names.foldl (fun rs a => setMse a n policy ((mse a).getD 0) rs) rows

end Model

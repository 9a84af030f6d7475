import Verif.Model.Logic
import Verif.Spec.Cond

/-!
Model of `sam_learning/core/propositional_operations/dependency_set.py`.
Literals are structured (`litOps`); Lemmas/Strings.lean shows that the string primitives of the code
behave the same on printed literals, and Props (C25) that `extract_predicate_data` gives the literal back,
so `extract_predicate_data` is the identity here. `Precondition.add_condition` of pddl_plus_parser is the
parameter `add`.
-/
namespace Model

/-- dependency_set.py:21-35: the fields used. `possible` is the dictionary `possible_antecedents`. -/
structure DepSet where
  possible : List (Lit × List (Finset Lit))
  maxAnte : Nat

/-- dependency_set.py:29-35 `__init__`. -/
def DepSet.new (maxAnte : Nat) : DepSet := ⟨[], maxAnte⟩

/-- The iteration orders of the sets of literals. -/
abbrev LitOrd := Finset Lit → List Lit

/-- dependency_set.py:207-218 `initialize_dependencies`. -/
def DepSet.initialize (ord : LitOrd) (d : DepSet) (lifted : Finset Lit) (antecedents : Option (Finset Lit) := none) :
    DepSet :=
  { d with possible := (ord lifted).foldl (fun p l =>
      Py.dictSet p l (createCnf ord (antecedents.getD lifted) d.maxAnte)) d.possible }

/-- dependency_set.py:37-51 `_extract_superset_dependencies`. -/
def supersetDependencies (ord : LitOrd) (cands : List (Finset Lit)) (toRemove : Finset Lit) : List (Finset Lit) :=
  cands.flatMap fun conj => (ord toRemove).filterMap fun x => if x ∈ conj then some conj else none

/-- dependency_set.py:231-238: what is removed from the candidates of one literal. -/
def removeCands (ord : LitOrd) (maxAnte : Nat) (cands : List (Finset Lit)) (toRemove : Finset Lit)
    (supersets : Bool) : List (Finset Lit) :=
  let rm := if supersets then supersetDependencies ord cands toRemove else createCnf ord toRemove maxAnte
  rm.foldl (fun cs c => if c ∈ cs then cs.erase c else cs) cands

/-- dependency_set.py:220-238 `remove_dependencies`. -/
def DepSet.remove (ord : LitOrd) (d : DepSet) (literal : Lit) (toRemove : Finset Lit)
    (supersets : Bool := false) : DepSet :=
  match d.possible.lookup literal with
  | none => d
  | some cands =>
    let rest := removeCands ord d.maxAnte cands toRemove supersets
    ⟨Py.dictSet d.possible literal rest, d.maxAnte⟩

/-- dependency_set.py:240-249 `remove_preconditions_literals`. -/
def DepSet.removePre (ord : LitOrd) (d : DepSet) (pre : Finset Lit) : DepSet :=
  let d := { d with possible := d.possible.filter fun p => p.1 ∉ pre }
  (d.possible.map Prod.fst).foldl (fun d l => d.remove ord l pre true) d

/-- dependency_set.py:251-261 `is_safe_literal` without preconditions (the form the learners call). -/
def DepSet.isSafe (d : DepSet) (l : Lit) : Except Err Bool :=
  match d.possible.lookup l with
  | none => .error .keyError
  | some cs => .ok (decide (cs.length ≤ 1))

/-- dependency_set.py:263-270 `is_safe_conditional_effect`. -/
def DepSet.isSafeCond (d : DepSet) (l : Lit) : Except Err Bool :=
  match d.possible.lookup l with
  | none => .error .keyError
  | some cs => .ok (decide (cs.length = 1))

/-- dependency_set.py:280-294 `extract_safe_antecedents`. -/
def DepSet.safeAntecedents (d : DepSet) (l : Lit) : Except Err (Finset Lit) :=
  match d.possible.lookup l with
  | none => .error .keyError
  | some [] => .ok ∅
  | some [a] => .ok a
  | some _ => .error .valueError

/-- `sum([len(clause) for clause in clauses])`. -/
def totalSize (cl : List (Finset Lit)) : Nat := (cl.map Finset.card).sum

/-- Outcome of `_extract_negated_minimized_antecedents`: `True`, `False` or a list of clauses. -/
inductive NegResult where
  | always
  | never
  | clauses (cl : List (Finset Lit))
deriving DecidableEq

/-- dependency_set.py:66-76: the `while` loop; `prev = none` is `math.inf`. Exceptions other than those
of `minimize_cnf_clauses` do not occur. -/
def minimizeLoop (ord : LitOrd) (pre : Finset Lit) (prev : Option Nat) (cl : List (Finset Lit)) :
    Except Err NegResult :=
  if h : prev.all (totalSize cl < ·) = true then
    match minimizeCnf litOps ord cl pre with
    | .error e => .error e
    | .ok cl' => if cl'.length = 0 then .ok .always else minimizeLoop ord pre (some (totalSize cl)) cl'
  else .ok (.clauses cl)
termination_by match prev with
  | none => totalSize cl + 1
  | some p => p
decreasing_by
  cases prev with
  | none => simp
  | some p => simpa using h

/-- dependency_set.py:53-80 `_extract_negated_minimized_antecedents`. -/
def negatedMinimized (ord : LitOrd) (cands : List (Finset Lit)) (pre : Finset Lit) : Except Err NegResult :=
  match minimizeLoop ord pre none (cands.map fun c => c.image Lit.neg) with
  | .ok r => .ok r
  | .error .valueError => .ok .never
  | .error e => .error e

/-- A `Precondition("or")` (`"and"`) to which the literals of a set are added one by one. -/
def nodeOf (add : Cond → Cond → Cond) (op : BoolOp) (ls : List Lit) : Cond :=
  ls.foldl (fun c l => add c (.lit l)) (.node op [])

/-- One disjunction: a single literal stays a `Predicate`, dependency_set.py:104-118 and 120-136. -/
def clauseCond (add : Cond → Cond → Cond) (ord : LitOrd) (c : Finset Lit) : Cond :=
  match ord c with
  | [l] => .lit l
  | ls => nodeOf add .or ls

/-- dependency_set.py:96-138 `_create_negated_antecedent_preconditions`. -/
def negatedCond (add : Cond → Cond → Cond) (ord : LitOrd) (cl : List (Finset Lit)) : Cond :=
  match cl with
  | [c] => clauseCond add ord c
  | cl => cl.foldl (fun acc c => add acc (clauseCond add ord c)) (.node .and [])

/-- The `Predicate` operands of a node. -/
def litOperands : List Cond → List Lit
  | [] => []
  | .lit l :: ks => l :: litOperands ks
  | .node _ _ :: ks => litOperands ks

/-- dependency_set.py:82-94 `_post_process_preconditions`: is the disjunction found to be a tautology? -/
def postProcessTrue : Cond → Except Err Bool
  | .node .or ks => checkCompl litOps (litOperands ks)
  | _ => .ok false

/-- dependency_set.py:140-169 `_handle_contradicting_antecedents`. -/
def handleContradicting (add : Cond → Cond → Cond) (ord : LitOrd) (isEffect : Bool) (literal : Lit)
    (positive : Finset Lit) : Except Err Cond := do
  if !isEffect then .ok (.lit literal)
  else if ← checkCompl litOps (ord positive) then .ok (.lit literal)
  else
    let pos := nodeOf add .and (ord positive)
    .ok (add (add (.node .or []) (.lit literal)) pos)

/-- dependency_set.py:171-205 `_handle_effect_literal`. -/
def handleEffect (add : Cond → Cond → Cond) (ord : LitOrd) (literal : Lit) (negated : Cond)
    (positive pre : Finset Lit) : Except Err (Option Cond) := do
  let c := add (add (.node .or []) (nodeOf add .and (ord positive))) negated
  let c := if literal.neg ∈ pre then c else add c (.lit literal)
  if ← postProcessTrue c then .ok none else .ok (some c)

/-- dependency_set.py:296-346 `construct_restrictive_preconditions`. -/
def DepSet.restrictive (add : Cond → Cond → Cond) (ord : LitOrd) (d : DepSet) (pre : Finset Lit) (literal : Lit)
    (isEffect : Bool := false) : Except Err (Option Cond) :=
  if literal ∈ pre then .ok none
  else match d.possible.lookup literal with
  | none => .error .keyError
  | some cands => do
    let positive := unionAll cands
    match ← negatedMinimized ord cands pre with
    | .always => .ok none
    | .never => do
      let c ← handleContradicting add ord isEffect literal positive
      .ok (some c)
    | .clauses cl =>
      let negated := negatedCond add ord cl
      if isEffect then handleEffect add ord literal negated positive pre
      else if literal.neg ∈ pre then .ok (some negated)
      else do
        let c := add (add (.node .or []) (.lit literal)) negated
        if ← postProcessTrue c then .ok none else .ok (some c)

end Model

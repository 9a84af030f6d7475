import Verif.Model.Sam
import Mathlib.Data.Finset.Powerset

/-!
Model of `sam_learning/learners/esam.py`. The library `nnf` is modelled by what its functions mean
on formulas without negation, the only ones built here (`forget` of a variable of such a formula
makes it true; `implicates` keeps the minimal clauses; `models` lists the satisfying assignments of
the variables that are left). `parse_predicate_from_string` is taken to be the inverse of
`untyped_representation`, so a variable is a literal.
-/
namespace Model

/-- esam.py:39-54: the fields. `cannotBe` holds the representations of GROUNDED literals
(lines 109-111). `decoders`/`encoders`: the names with an entry. -/
structure Esam where
  base : Learner
  clauses : String → Finset (Finset Lit)
  cannotBe : String → Finset Lit

/-- esam.py:46-54 `__init__`. -/
def Esam.init (D : Domain) (policy : Policy := .hard) : Esam :=
  ⟨Learner.init D policy, fun _ => ∅, fun _ => ∅⟩

/-- esam.py:74-92 `_get_is_eff_clause_for_predicate`: the variables of the clause. -/
def effClause (D : Domain) (call : Call) (g : Lit) : Finset Lit :=
  (matchLits D.consts (D.act call.name).sig call.params none g).toFinset

/-- esam.py:94-112 `handle_effects`. `prev`, `next`: the snapshot. -/
def Esam.handleEffects (E : Esam) (call : Call) (prev next : Finset Lit) : Esam :=
  let e := extractEffects prev next
  { E with
    clauses := Function.update E.clauses call.name
      (E.clauses call.name ∪ (e.1 ∪ e.2).image (effClause E.base.dom call))
    cannotBe := Function.update E.cannotBe call.name (E.cannotBe call.name ∪ extractNotEffects next) }

/-- esam.py:114-126 `add_new_action`, the state it leaves: line 126 passes three arguments to a
method that takes one and raises `TypeError`. -/
def Esam.addNewAction (E : Esam) (call : Call) (prev : Finset Lit) : Esam × Except Err Unit :=
  ({ E with base := { E.base with
      dom := addNewPre E.base.dom call prev, observed := E.base.observed ++ [call.name] } },
   .error .typeError)

/-- esam.py:128-140 `update_action`. -/
def Esam.updateAction (E : Esam) (call : Call) (prev next : Finset Lit) : Esam :=
  let E : Esam := { E with base := { E.base with dom := updatePre E.base.dom call prev } }
  E.handleEffects call prev next

/-- esam.py:142-163 `handle_single_trajectory_component`: the keyword `observation_objects`
(line 156) is not a parameter of `create_triplet_snapshot` (environment_snapshot.py:81-86). -/
def Esam.handleComponent (_ : Esam) (_ : Component) : Except Err Esam := .error .typeError

/-- esam.py:142-163 with the two ill-formed calls (lines 126 and 152-157) passing the arguments the
callees take. Not reachable in the pinned commit; it is the algorithm the file describes. -/
def Esam.handleFixed (E : Esam) (c : Component) : Except Err Esam :=
  if c.call.name ∉ E.base.dom.names then .error .keyError
  else
    let snap := tripletSnapshot E.base.dom c
    if c.call.name ∈ E.base.observed then .ok (E.updateAction c.call snap.1 snap.2)
    else .ok ((E.addNewAction c.call snap.1).1.handleEffects c.call snap.1 snap.2)

/-- `implicates` on a formula without negation: the clauses that contain no other clause. -/
def minimalClauses (C : Finset (Finset Lit)) : Finset (Finset Lit) :=
  C.filter fun c => ∀ d ∈ C, d ⊆ c → d = c

/-- esam.py:165-178 `build_cnf_formulas`, for one action. -/
def effFormula (C : Finset (Finset Lit)) (forgotten : Finset Lit) : Finset (Finset Lit) :=
  minimalClauses (C.filter fun c => Disjoint c forgotten)

/-- The variables of a formula. -/
def formulaVars (M : Finset (Finset Lit)) : Finset Lit := M.biUnion id

/-- `models()`: each model as the set of variables assigned true. -/
def formulaModels (M : Finset (Finset Lit)) : Finset (Finset Lit) :=
  (formulaVars M).powerset.filter fun P => ∀ c ∈ M, ¬ Disjoint c P

/-- esam.py:180-197 `is_proxy_contradiction`. -/
def isContradiction (pre : Finset Lit) (negative : Finset Lit) : Bool :=
  decide (∃ l ∈ negative, l.neg ∈ pre)

/-- esam.py:341-367: the models that give a proxy. -/
def proxyModels (pre : Finset Lit) (M : Finset (Finset Lit)) : Finset (Finset Lit) :=
  (formulaModels M).filter fun P => isContradiction pre (formulaVars M \ P) = false

/-- esam.py:341-380 `construct_safe_actions`, one action. More than one proxy: registering the
first encoder (line 326, `self.encoders` is empty) raises `KeyError`. -/
def Esam.constructAction (E : Esam) (a : String) : Except Err Esam :=
  let m := E.base.dom.act a
  let M := effFormula (E.clauses a) (E.cannotBe a)
  match (proxyModels m.pre M).card with
  | 0 => .error .valueError
  | 1 =>
    let P := (proxyModels m.pre M).biUnion id
    .ok { E with base := { E.base with
      dom := E.base.dom.setAct a { m with pre := m.pre ∪ (formulaVars M \ P), eff := P } } }
  | _ + 2 => .error .keyError

/-- esam.py:334-380 `construct_safe_actions`. -/
def Esam.construct (E : Esam) : Except Err Esam :=
  E.base.observed.foldlM (fun E a => E.constructAction a) E

/-- esam.py:382-400 `learn_action_model`, with the handler of a component as a parameter. -/
def Esam.learnWith (handle : Esam → Component → Except Err Esam) (E : Esam)
    (observations : List (List Component)) : Except Err (Esam × List (String × Status)) := do
  let E : Esam := { E with base := E.base.completeMissing }
  let E ← observations.flatten.foldlM handle E
  let E : Esam := { E with base := E.base.applyPolicy.handleUnobserved }
  let E ← E.construct
  .ok (E, E.base.report)

/-- esam.py:382-400 `learn_action_model` of the pinned commit. -/
def Esam.learn (E : Esam) (obs : List (List Component)) := Esam.learnWith Esam.handleComponent E obs

/-- esam.py:382-400 with the repaired calls. -/
def Esam.learnFixed (E : Esam) (obs : List (List Component)) := Esam.learnWith Esam.handleFixed E obs

/-! ### minimize_parameters_equality_dict (esam.py:403-453) -/

/-- scipy's `DisjointSet` over the parameters: the root of every element (`ds[x]`). -/
abbrev Roots := String → String

/-- Number of elements whose root is `r`. -/
def Roots.size (sig : List String) (R : Roots) (r : String) : Nat := (sig.filter fun p => R p = r).length

/-- scipy `DisjointSet.merge(x, y)`: the larger set keeps its root; on a tie the root that was
added first. -/
def Roots.merge (sig : List String) (R : Roots) (x y : String) : Roots :=
  let xr := R x
  let yr := R y
  if xr = yr then R
  else
    let swap := decide (R.size sig xr < R.size sig yr) ||
      (decide (R.size sig xr = R.size sig yr) && decide (sig.idxOf yr < sig.idxOf xr))
    let w := if swap then yr else xr
    let l := if swap then xr else yr
    fun z => if R z = l then w else R z

/-- esam.py:430-433: parameters of unselected literals. -/
def notMinimized (model : List (Lit × Bool)) : List String :=
  (model.filter fun p => !p.2).flatMap fun p => p.1.args

/-- esam.py:426-428, 437-440: the table `param_occ` as the list of its sets, each restricted to the
action's parameters and in their order (line 447). Literals of one predicate name have one arity, so
the rows of a name are those of its arity. -/
def occSets (sig : List String) (model : List (Lit × Bool)) : List (List String) :=
  ((model.map fun p => (p.1.name, p.1.args.length)).dedup).flatMap fun na =>
    (List.range na.2).map fun i =>
      sig.filter fun p => decide (p ∉ notMinimized model) &&
        model.any fun q => decide (q.1.name = na.1) && decide (q.1.args[i]? = some p)

/-- esam.py:442-449: the merges (line 444 is never true). -/
def mergeAll (sig : List String) (sets : List (List String)) (R : Roots) : Roots :=
  sets.foldl (fun R s => s.foldl (fun R p => R.merge sig (s.headD p) p) R) R

/-- esam.py:403-453 `minimize_parameters_equality_dict`. -/
def minimizeParams (sig : List String) (model : List (Lit × Bool)) : List (String × String) :=
  if model.length = 0 then []
  else
    let R := mergeAll sig (occSets sig model) id
    sig.map fun p => (p, R p)

/-- esam.py:456-466: `param_dict[param]`. -/
def repArg (d : List (String × String)) (x : String) : Except Err String :=
  match d.lookup x with
  | some y => .ok y
  | none => .error .keyError

/-- esam.py:456-466 `modify_predicate_signature` on one literal: a dictionary, so collapsed names
appear once. -/
def rewriteLit (d : List (String × String)) (l : Lit) : Except Err Lit := do
  let args ← l.args.mapM (repArg d)
  .ok { l with args := (Py.dictOf (args.map fun x => (x, ()))).map Prod.fst }

end Model

import Verif.Pddl
import Verif.Py.Iter
import Verif.Py.Dict
import Mathlib.Data.Finset.Card

/-!
Model of `sam_learning/core`: domains, vocabulary creator, predicates matcher, matching utilities,
environment snapshot.
-/
namespace Model

/-- Python exceptions that the modelled code can raise. -/
inductive Err where
  | keyError | valueError | indexError | attributeError | stopIteration | typeError
deriving DecidableEq, Repr

/-- `pddl_plus_parser.models.Action` as far as the discrete learners use it: ordered signature,
literal operands of the root precondition, its inequality preconditions, discrete effects. -/
structure ActModel where
  sig : Sig
  pre : Finset Lit
  ineq : Finset (String × String)
  eff : Finset Lit

/-- `Action(name=..., signature=...)`: no preconditions, no effects. -/
def ActModel.fresh (sig : Sig) : ActModel := ⟨sig, ∅, ∅, ∅⟩

/-- `pddl_plus_parser.models.Domain`. The dictionary `actions` is its key list `names` together with
the value `act a` of each key (`act` is irrelevant outside `names`). -/
structure Domain where
  preds : List PredDecl
  consts : Sig
  names : List String
  act : String → ActModel

/-- `domain.actions[a] = m` for an existing key. -/
def Domain.setAct (D : Domain) (a : String) (m : ActModel) : Domain :=
  { D with act := Function.update D.act a m }

/-- `ActionCall`. -/
structure Call where
  name : String
  params : List String
deriving DecidableEq, Repr

/-- `ObservedComponent` (single agent). -/
structure Component where
  prev : State
  call : Call
  next : State
  success : Bool
deriving DecidableEq

/-! ### vocabulary_creator.py -/

/-- vocabulary_creator.py:36-59 `_validate_type_matching`. -/
def validateTypes (gs decl : Sig) : Bool :=
  if gs.length ≠ decl.length then false
  else (gs.zip decl).all fun p => p.1.2.isSub p.2.2

/-- vocabulary_creator.py:62-93 `create_grounded_predicate_vocabulary`, as the set of atoms
(the dictionary by predicate is flattened; predicates have distinct names in a domain). -/
def groundedVocab (D : Domain) (objs : Sig) : Finset Atom :=
  (D.preds.flatMap fun pd =>
    (Py.perms pd.sig.length (objs ++ D.consts)).filterMap fun perm =>
      let gs := Py.dictOf perm
      if validateTypes gs pd.sig then some ⟨pd.name, Sig.names gs⟩ else none).toFinset

/-- `must_be_parameter and must_be_parameter not in signature`, vocabulary_creator.py:115-117, 152-153. -/
def mustReject (must : Option String) (keys : List String) : Bool :=
  match must with
  | none => false
  | some m => !(m == "") && !(keys.contains m)

/-- vocabulary_creator.py:126-160 `create_lifted_vocabulary`. The type of a name is the one at its
first index in parameters followed by constants; `must` is `must_be_parameter`. -/
def liftedVocab (D : Domain) (params : Sig) (must : Option String := none) : Finset Lit :=
  (D.preds.flatMap fun pd =>
    (Py.perms pd.sig.length (Sig.names params ++ Sig.names D.consts)).flatMap fun perm =>
      let bs : Sig := Py.dictOf (perm.filterMap fun x => ((params ++ D.consts).lookup x).map (x, ·))
      if validateTypes bs pd.sig = false then []
      else if mustReject must (Sig.names bs) = true then []
      else [⟨pd.name, Sig.names bs, true⟩, ⟨pd.name, Sig.names bs, false⟩]).toFinset

/-- vocabulary_creator.py:162-182 `create_grounded_actions_vocabulary`. -/
def groundedActions (D : Domain) (objs : Sig) : Finset (String × List String) :=
  (D.names.flatMap fun a =>
    (Py.prod ((D.act a).sig.map fun p => (objs ++ D.consts).filter fun o => o.2.isSub p.2)).map
      fun opt => (a, Sig.names opt)).toFinset

/-! ### matching_utils.py -/

/-- matching_utils.py:22-28 `contains_duplicates`. -/
def containsDuplicates (l : List String) : Bool := decide (l.toFinset.card ≠ l.length)

/-- matching_utils.py:9-19 `create_signature_permutations`. -/
def signaturePerms (call lifted : List String) (n : Nat) : List (List (String × String)) :=
  Py.perms n (call.zip lifted)

/-- matching_utils.py:31-42 `extract_discrete_effects`. -/
def extractEffects (prev next : Finset Lit) : Finset Lit × Finset Lit :=
  ((next \ prev).filter (fun g => g.pos = true),
   ((prev \ next).filter (fun g => g.pos = true)).image Lit.neg)

/-- matching_utils.py:45-51 `extract_not_effects`. -/
def extractNotEffects (next : Finset Lit) : Finset Lit := next.image Lit.neg

/-! ### predicates_matcher.py -/

/-- predicates_matcher.py:64-136 `match_predicate_to_action_literals` (with
`_extract_combinations_data` 24-37 and `_filter_out_impossible_combinations` 39-62), for an action
with signature `sig`. `extra` is the pair (`extra_grounded_object`, `extra_lifted_object`).
The grounded predicate is compared by its list of objects, the zip with its own signature keys being
a bijection. -/
def matchLits (consts : Sig) (sig : Sig) (call : List String) (extra : Option (String × String))
    (g : Lit) : List Lit :=
  if g.args.length = 0 then [⟨g.name, [], g.pos⟩]
  else
    let cip := g.args.filter fun o => (Sig.names consts).contains o
    let objs := match extra with
      | none => call ++ cip
      | some e => call ++ [e.1]
    let lifted := match extra with
      | none => Sig.names sig ++ cip
      | some e => Sig.names sig ++ [e.2]
    let cands := (signaturePerms objs lifted g.args.length).filter fun ps =>
      decide ((ps.map Prod.fst).toFinset = g.args.toFinset)
    (cands.filter fun ps => decide (ps.map Prod.fst = g.args)).map fun ps =>
      ⟨g.name, (Py.dictOf (ps.map fun p => (p.2, ()))).map Prod.fst, g.pos⟩

/-- predicates_matcher.py:138-151 `get_injective_match`. -/
def injectiveMatch (consts sig : Sig) (call : List String) (g : Lit) : Option Lit :=
  match matchLits consts sig call none g with
  | [l] => some { l with pos := g.pos }
  | _ => none

/-- predicates_matcher.py:153-183 `get_possible_literal_matches`, as a set (every caller modelled here
converts the returned list to a set). Line 170-171, a syntax error that computes an unused value, is
left out. -/
def possibleMatches (consts sig : Sig) (call : List String) (lits : Finset Lit)
    (extra : Option (String × String) := none) : Finset Lit :=
  lits.biUnion fun g =>
    (match extra with
     | none => matchLits consts sig call none g
     | some e => if e.1 ∈ g.args then matchLits consts sig call (some e) g
                 else matchLits consts sig call none g).toFinset

/-! ### environment_snapshot.py -/

/-- environment_snapshot.py:31-63 `create_discrete_state_snapshot`: vocabulary atoms true in the state
stay positive, all the others are negated. (`state.state_predicates`, grouped by lifted predicate, is
the flat set of true atoms.) -/
def stateSnapshot (D : Domain) (s : State) (objs : Sig) : Finset Lit :=
  let vocab := groundedVocab D objs
  let positive := vocab.filter (· ∈ s)
  positive.image (fun a => ⟨a.name, a.args, true⟩) ∪
    (vocab \ positive).image (fun a => ⟨a.name, a.args, false⟩)

/-- environment_snapshot.py:96-100: the objects of the call typed by the lifted signature, followed by
the constants. -/
def callObjects (D : Domain) (sig : Sig) (call : List String) : Sig :=
  (call.zip (sig.map Prod.snd)) ++ D.consts

/-- environment_snapshot.py:81-104 `create_triplet_snapshot`, discrete part. -/
def tripletSnapshot (D : Domain) (c : Component) : Finset Lit × Finset Lit :=
  let objs := callObjects D (D.act c.call.name).sig c.call.params
  (stateSnapshot D c.prev objs, stateSnapshot D c.next objs)

end Model

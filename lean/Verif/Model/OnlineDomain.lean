import Verif.Model.Online
import Verif.Model.OnlineNumeric

/-! Model of the construction of the safe and of the optimistic domain: `sam_learning/core/online_learning/online_utilities.py:13-69`. The
learners are the dictionaries by action name. -/
namespace Model
namespace OnlineDomain
open Spec

variable {K : Type} [Field K] [LinearOrder K] [IsStrictOrderedRing K] [FloorRing K]

/-- An action of the constructed domain. The operands of its precondition are kept in two lists: the discrete formula and the numeric
conditions; adding both to one conjunction (lines 29-36, 57-65) is the conjunction of the two. -/
structure OAction (K : Type) where
  pre : Cond
  num : List (NCond K)
  eff : Finset Lit
  numEff : List (NEffect K)

/-- `Precondition.operands`. -/
def operands : Cond → List Cond
  | .lit _ => []
  | .node _ ks => ks

/-- online_utilities.py:26-36, 54-66: one action; the operands of the discrete precondition are added to a new conjunction. -/
def buildAction (add : Cond → Cond → Cond) (d : Cond × Finset Lit) (n : NumPart K) : OAction K :=
  ⟨(operands d.1).foldl add (.node .and []), n.pre, d.2, n.eff⟩

/-- The body of the loop; a missing learner is a `KeyError`. -/
def buildOne (add : Cond → Cond → Cond) (md : DiscreteOnline → Cond × Finset Lit) (mn : ONum K → Except NumErr (NumPart K))
    (Ds : List (String × DiscreteOnline)) (Ns : List (String × ONum K)) (a : String) : Except NumErr (OAction K) :=
  match Ds.lookup a with
  | none => .error (.py .keyError)
  | some L =>
    match Ns.lookup a with
    | none => .error (.py .keyError)
    | some N =>
      match mn N with
      | .error e => .error e
      | .ok n => .ok (buildAction add (md L) n)

/-- The loop over the actions of the copied domain. -/
def build (one : String → Except NumErr (OAction K)) : List String → Except NumErr (List (String × OAction K))
  | [] => .ok []
  | a :: as =>
    match one a with
    | .error e => .error e
    | .ok A =>
      match build one as with
      | .error e => .error e
      | .ok r => .ok ((a, A) :: r)

/-- online_discrete_models_learner.py:110-120 `get_safe_model` with the precondition as a formula. -/
def safeDiscrete (add : Cond → Cond → Cond) (ord : LitOrd) (L : DiscreteOnline) : Cond × Finset Lit :=
  (nodeOf add .and (ord L.safeModel.1), L.safeModel.2)

/-- online_utilities.py:13-38 `construct_safe_action_model`; `names` are the actions of the partial domain. -/
def constructSafe (cfg : ONumCfg K) (add : Cond → Cond → Cond) (ord : LitOrd) (names : List String) (Ds : List (String × DiscreteOnline))
    (Ns : List (String × ONum K)) : Except NumErr (List (String × OAction K)) :=
  build (buildOne add (safeDiscrete add ord) (ONum.safeModel cfg) Ds Ns) names

/-- online_utilities.py:40-69 `construct_optimistic_action_model`; the added requirement is not modelled. -/
def constructOptimistic (cfg : ONumCfg K) (add : Cond → Cond → Cond) (ord : LitOrd) (names : List String) (Ds : List (String × DiscreteOnline))
    (Ns : List (String × ONum K)) : Except NumErr (List (String × OAction K)) :=
  build (buildOne add (DiscreteOnline.optimisticModel add ord) (ONum.optimisticModel cfg) Ds Ns) names

end OnlineDomain
end Model

import Verif.Spec.Online
import Verif.Model.Dependency

/-! Model of `sam_learning/core/online_learning/online_discrete_models_learner.py`. -/
namespace Model
open Spec

/-- online_discrete_models_learner.py:11-30: the fields of `OnlineDiscreteModelLearner`. -/
structure DiscreteOnline where
  superset : Finset Lit
  cannotPre : Finset Lit
  mustPre : List (Finset Lit)
  cannotEff : Finset Lit
  mustEff : Finset Lit

/-- online_discrete_models_learner.py:23-30 `__init__`. -/
def DiscreteOnline.init (preds : Finset Lit) : DiscreteOnline := ⟨preds, ∅, [], ∅, ∅⟩

/-- online_discrete_models_learner.py:32-46 `_add_positive_pre_state_observation`. -/
def DiscreteOnline.posPre (L : DiscreteOnline) (pre : Finset Lit) : DiscreteOnline :=
  let notPre := L.superset \ pre
  let cannot := if L.cannotPre.card = 0 then notPre else L.cannotPre ∪ notPre
  { L with cannotPre := cannot, mustPre := L.mustPre.map (· \ cannot) }

/-- online_discrete_models_learner.py:48-58 `_add_positive_post_state_observation`. -/
def DiscreteOnline.posPost (L : DiscreteOnline) (pre post : Finset Lit) : DiscreteOnline :=
  let cannot := L.cannotEff ∪ post.image Lit.neg
  { L with cannotEff := cannot, mustEff := (L.mustEff ∪ (post \ pre)) \ cannot }

/-- online_discrete_models_learner.py:60-77 `_apply_unit_propagation`. -/
def unitPropagation (cl : List (Finset Lit)) : List (Finset Lit) :=
  let units := cl.filter fun c => c.card = 1
  units ++ cl.filter fun c => ¬ c.card = 1 ∧ ¬ 0 < (c ∩ unionAll units).card

/-- online_discrete_models_learner.py:79-88 `_add_negative_pre_state_observation`. -/
def DiscreteOnline.neg (L : DiscreteOnline) (pre : Finset Lit) : DiscreteOnline :=
  let missing := L.superset \ pre
  if missing ∉ L.mustPre then { L with mustPre := unitPropagation (L.mustPre ++ [missing \ L.cannotPre]) }
  else L

/-- online_discrete_models_learner.py:90-108 `add_transition_data`. -/
def DiscreteOnline.add (L : DiscreteOnline) (pre post : Finset Lit) (ok : Bool) : DiscreteOnline :=
  if ok then (L.posPre pre).posPost pre post else L.neg pre

/-- online_discrete_models_learner.py:110-120 `get_safe_model`: the conjuncts of the precondition and the effects. -/
def DiscreteOnline.safeModel (L : DiscreteOnline) : Finset Lit × Finset Lit :=
  (L.superset \ L.cannotPre, L.mustEff)

/-- One conjunct of the optimistic precondition (lines 131-144); `none` for a skipped clause. Taking the only element out of
a unit clause and putting it back (135-137) leaves the clause as it is. -/
def optimisticClause (add : Cond → Cond → Cond) (ord : LitOrd) (c : Finset Lit) : Option Cond :=
  if c.card = 0 then none
  else if c.card = 1 then (ord c).head?.map .lit
  else some (nodeOf add .or (ord c))

/-- online_discrete_models_learner.py:122-150 `get_optimistic_model`. -/
def DiscreteOnline.optimisticModel (add : Cond → Cond → Cond) (ord : LitOrd) (L : DiscreteOnline) : Cond × Finset Lit :=
  ((L.mustPre.filterMap (optimisticClause add ord)).foldl add (.node .and []),
    if L.cannotEff.card = 0 then L.superset.filter fun l => l.pos = true else L.superset \ L.cannotEff)

/-- online_discrete_models_learner.py:152-159 `is_state_in_safe_model`. -/
def DiscreteOnline.inSafe (L : DiscreteOnline) (state : Finset Lit) : Bool :=
  decide (L.superset \ L.cannotPre ⊆ state)

/-- online_discrete_models_learner.py:161-173 `is_state_not_applicable_in_safe_discrete_model`. -/
def DiscreteOnline.notApplicable (L : DiscreteOnline) (state : Finset Lit) : Bool :=
  decide (0 < L.mustPre.length) && L.mustPre.any fun c => decide ((state ∩ c).card = 0)

/-- A history of attempts fed to the learner: for each, the literals of the vocabulary seen before and after. -/
def DiscreteOnline.feed (L : DiscreteOnline) (h : List Attempt) : DiscreteOnline :=
  h.foldl (fun L a => L.add (seen L.superset a.ρ a.before) (seen L.superset a.ρ a.after) a.ok) L

end Model

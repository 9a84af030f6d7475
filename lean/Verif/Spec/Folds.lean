import Mathlib.Data.Finset.Basic
import Mathlib.Data.Finset.Image
import Mathlib.Data.List.Perm.Basic

/-! Specification vocabulary for cross validation: folds and the files of a fold. -/
namespace Spec

/-- The kinds of files handled. -/
inductive FileKind where
  | domain
  | problem
  | trajectory
deriving DecidableEq, Repr

/-- A file of the working directory: its stem and its kind. -/
structure File where
  stem : String
  kind : FileKind
deriving DecidableEq, Repr

/-- One split of `0 .. n-1`. -/
structure Split where
  train : List Nat
  test : List Nat
deriving DecidableEq, Repr

/-- The split divides the indices `0 .. n-1`: every index exactly once, in train or in test
(the contract of scikit-learn's `KFold.split` and `train_test_split`). -/
def Split.Divides (n : Nat) (s : Split) : Prop := (s.train ++ s.test).Perm (List.range n)

instance instDecidableDivides (n : Nat) (s : Split) : Decidable (s.Divides n) := by unfold Split.Divides; infer_instance

/-- The items at the given indices. -/
def itemsAt (items : List String) (idx : List Nat) : Finset String :=
  ((idx.filterMap (fun i => items[i]?))).toFinset

/-- What the training directory of a fold should hold: the domain, and problem and trajectory of
every training item. -/
def trainFiles (items : List String) (s : Split) (domain : String) : Finset File :=
  insert ⟨domain, .domain⟩ ((itemsAt items s.train).image (fun n => ⟨n, .problem⟩) ∪
    (itemsAt items s.train).image (fun n => ⟨n, .trajectory⟩))

/-- What the test directory of a fold should hold: problem and trajectory of every test item. -/
def testFiles (items : List String) (s : Split) : Finset File :=
  (itemsAt items s.test).image (fun n => ⟨n, .problem⟩) ∪
    (itemsAt items s.test).image (fun n => ⟨n, .trajectory⟩)

end Spec

import Verif.Model.Core
import Verif.Py.Iter
import Mathlib.Data.Finset.Basic

/-! Model of `sam_learning/core/online_learning/bfs_feature_selection.py`. -/
namespace Model

/-- One row of the observation table (bfs_feature_selection.py:76-79, 82-84): the values of the predicate columns, those of the
other columns (`V`) and the label `is_successful`. A row is what `add_new_observation` gets as a data frame of one row with the
default index; all rows have the same columns. -/
structure BfsRow (V : Type) where
  truePreds : Finset String
  values : V
  ok : Bool
deriving DecidableEq

/-- bfs_feature_selection.py:20-33: the fields of `BFSFeatureSelector`; `observations = []` is `None`. -/
structure Bfs (V : Type) where
  monomials : List String
  openList : List (List String)
  observations : List (BfsRow V)

/-- bfs_feature_selection.py:26-33 `__init__`. -/
def Bfs.init {V : Type} (monomials : List String) : Bfs V := ⟨monomials, [], []⟩

/-- Stable insertion by length; `sorted(…, key=len)` is insertion sort from the right (any stable sort gives the same list). -/
def insertLen (x : List String) : List (List String) → List (List String)
  | [] => [x]
  | y :: ys => if x.length ≤ y.length then x :: y :: ys else y :: insertLen x ys

/-- `sorted(combinations, key=len)`. -/
def sortLen (l : List (List String)) : List (List String) := l.foldr insertLen []

/-- bfs_feature_selection.py:57-67 `initialize_open_list`. -/
def Bfs.initOpen {V : Type} (b : Bfs V) : Bfs V :=
  { b with openList := sortLen ((List.range (b.monomials.length + 1)).flatMap fun r => Py.combs r b.monomials) }

/-- bfs_feature_selection.py:35-55 `_find_matching_successful_transition_row`. -/
def hasMatch {V : Type} (rows : List (BfsRow V)) (new : BfsRow V) : Bool :=
  rows.any fun r => decide (r.truePreds ⊆ new.truePreds) && r.ok

/-- Line 87, `((self._observations == new).all(axis=1)).any()`: pandas compares data frames only when their indexes agree, and a
table of several rows never has the index of a single row. -/
def pandasEq {V : Type} [DecidableEq V] (rows : List (BfsRow V)) (new : BfsRow V) : Except Err Bool :=
  match rows with
  | [r] => .ok (decide (r = new))
  | _ => .error .valueError

/-- What the comment of line 86 asks for: is the row in the table? -/
def intendedEq {V : Type} [DecidableEq V] (rows : List (BfsRow V)) (new : BfsRow V) : Except Err Bool := .ok (decide (new ∈ rows))

/-- `self.open_list[0]`. -/
def Bfs.selected {V : Type} (b : Bfs V) : Except Err (List String) :=
  match b.openList with
  | [] => .error .indexError
  | x :: _ => .ok x

/-- bfs_feature_selection.py:69-101 `add_new_observation`: the answer and the new state, which is kept when an exception is raised.
The comparison of line 87 is a parameter. -/
def Bfs.add {V : Type} (eq : List (BfsRow V) → BfsRow V → Except Err Bool) (b : Bfs V) (new : BfsRow V) : Except Err (List String) × Bfs V :=
  match b.observations with
  | [] => let b' := { b with observations := [new] }; (b'.selected, b')
  | _ =>
    match eq b.observations new with
    | .error e => (.error e, b)
    | .ok true => (b.selected, b)
    | .ok false =>
      let b' := { b with observations := b.observations ++ [new] }
      if !new.ok && hasMatch b.observations new then
        match b'.openList with
        | [] => (.error .indexError, b')
        | _ :: rest => let b'' := { b' with openList := rest }; (b''.selected, b'')
      else (b'.selected, b')

/-- A run: the answers and the final state. -/
def Bfs.run {V : Type} (eq : List (BfsRow V) → BfsRow V → Except Err Bool) (b : Bfs V) : List (BfsRow V) → List (Except Err (List String)) × Bfs V
  | [] => ([], b)
  | r :: rs => let p := b.add eq r; let q := p.2.run eq rs; (p.1 :: q.1, q.2)

end Model

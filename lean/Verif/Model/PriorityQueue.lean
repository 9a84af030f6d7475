import Verif.Model.Core
import Verif.Py.Dict
import Mathlib.Algebra.Order.Ring.Rat
import Mathlib.Data.Rat.Defs

/-! Model of `sam_learning/core/online_learning/priority_queue.py`.
Priorities come in any type `P` and are rounded by `rnd` (line 65: `round(priority, 2)`) to a linearly ordered type `K` (floats
that are not NaN). The randomness of `random.choices` is an argument: the number `u` that `random()` returned, with rational
arithmetic instead of floats. -/
namespace Model

/-- priority_queue.py:11-16: the dictionary from rounded priorities to lists of (item, probability). -/
abbrev PQ (K I : Type) := List (K × List (I × Rat))

/-- `itertools.accumulate`. -/
def accumulate (acc : Rat) : List Rat → List Rat
  | [] => []
  | w :: ws => (acc + w) :: accumulate (acc + w) ws

/-- `random.choices(population, weights=…, k=1)[0]` (lines 33, 48): `ValueError` when the total weight is not positive, otherwise
the index found by bisection in the cumulative weights, at most the last one (non-negative weights, so that they are sorted). -/
def chooseIndex (ws : List Rat) (u : Rat) : Except Err Nat :=
  if ws.sum ≤ 0 then .error .valueError
  else .ok (((accumulate 0 ws).dropLast).countP fun c => c ≤ u * ws.sum)

variable {P K I : Type} [LinearOrder K] [DecidableEq I]

/-- priority_queue.py:58-66 `insert`. -/
def PQ.insert (rnd : P → K) (q : PQ K I) (item : I) (priority : P) (w : Rat) : PQ K I :=
  Py.dictSet q (rnd priority) ((q.lookup (rnd priority)).getD [] ++ [(item, w)])

/-- priority_queue.py:18-36 `get_item`: the item and the remaining queue. -/
def PQ.getItem (q : PQ K I) (u : Rat) : Except Err (I × PQ K I) :=
  match (q.map Prod.fst).max? with
  | none => .error .valueError
  | some k =>
    let bucket := (q.lookup k).getD []
    match bucket with
    | [e] => .ok (e.1, q.filter fun b => b.1 ≠ k)
    | _ => do
      let i ← chooseIndex (bucket.map Prod.snd) u
      match bucket[i]? with
      | none => .error .indexError
      | some e => .ok (e.1, Py.dictSet q k (bucket.erase e))

/-- priority_queue.py:38-56 `get_queue_item_data`: item, priority, probability, and the remaining queue. -/
def PQ.getData (q : PQ K I) (u : Rat) : Except Err ((I × K × Rat) × PQ K I) :=
  match (q.map Prod.fst).max? with
  | none => .error .valueError
  | some k => do
    let bucket := (q.lookup k).getD []
    let i ← chooseIndex (bucket.map Prod.snd) u
    match bucket[i]? with
    | none => .error .indexError
    | some e =>
      if bucket.length = 1 then .ok ((e.1, k, e.2), q.filter fun b => b.1 ≠ k)
      else .ok ((e.1, k, e.2), Py.dictSet q k (bucket.erase e))

/-- priority_queue.py:68-73 `__len__`. -/
def PQ.len (q : PQ K I) : Nat := (q.map fun b => b.2.length).sum

/-- priority_queue.py:75-77 `clear`. -/
def PQ.clear (_ : PQ K I) : PQ K I := []

end Model

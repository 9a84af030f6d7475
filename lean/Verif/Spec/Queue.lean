import Mathlib.Data.Multiset.Basic
import Mathlib.Data.Multiset.Filter
import Mathlib.Algebra.BigOperators.Group.Multiset.Basic
import Mathlib.Algebra.Order.Ring.Rat

/-! A priority queue as a bag of entries (priority, item, weight). -/
namespace Spec

/-- The calls a user makes; `u` is the random number drawn during the call. -/
inductive QOp (P I : Type) where
  | insert (item : I) (priority : P) (weight : Rat)
  | getItem (u : Rat)
  | getData (u : Rat)
  | len
  | clear

/-- What a call answers. -/
inductive QAns (K I : Type) where
  | unit
  | item (i : I)
  | data (i : I) (k : K) (w : Rat)
  | size (n : Nat)
  | valueError
deriving DecidableEq

section
variable {P K I : Type} [LinearOrder K] [DecidableEq I]

/-- `e` is an entry of maximal priority. -/
def Top (m : Multiset (K × I × Rat)) (e : K × I × Rat) : Prop := e ∈ m ∧ ∀ x ∈ m, x.1 ≤ e.1

/-- The bag has entries of maximal priority whose weights do not add up to a positive number. -/
def NoWeight (m : Multiset (K × I × Rat)) : Prop :=
  ∃ e, Top m e ∧ ((m.filter fun x => x.1 = e.1).map fun x => x.2.2).sum ≤ 0

/-- One call on the bag: answer and remaining bag. -/
inductive QStep (rnd : P → K) : Multiset (K × I × Rat) → QOp P I → QAns K I → Multiset (K × I × Rat) → Prop
  | insert {m i p w} : QStep rnd m (.insert i p w) .unit ((rnd p, i, w) ::ₘ m)
  | getItem {m u e} : Top m e → QStep rnd m (.getItem u) (.item e.2.1) (m.erase e)
  | getData {m u e} : Top m e → QStep rnd m (.getData u) (.data e.2.1 e.1 e.2.2) (m.erase e)
  | itemFails {m u} : m = 0 ∨ NoWeight m ∧ (∀ e, Top m e → (m.filter fun x => x.1 = e.1).card ≠ 1) →
      QStep rnd m (.getItem u) .valueError m
  | dataFails {m u} : m = 0 ∨ NoWeight m → QStep rnd m (.getData u) .valueError m
  | len {m} : QStep rnd m .len (.size m.card) m
  | clear {m} : QStep rnd m .clear .unit 0

/-- A sequence of calls with their answers. -/
inductive QRun (rnd : P → K) : Multiset (K × I × Rat) → List (QOp P I × QAns K I) → Multiset (K × I × Rat) → Prop
  | nil {m} : QRun rnd m [] m
  | cons {m m' m'' o a l} : QStep rnd m o a m' → QRun rnd m' l m'' → QRun rnd m ((o, a) :: l) m''

end

end Spec

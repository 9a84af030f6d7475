import Mathlib.Algebra.Order.Field.Basic
import Mathlib.Algebra.BigOperators.Group.List.Basic
import Mathlib.Algebra.Order.AbsoluteValue.Basic

/-!
Specification vocabulary for numeric fluents: arithmetic expressions and conditions with their
value in a state, numeric effects, and convex combinations of data rows.
Nothing here refers to the model of the code.

`K` is any linearly ordered field (the rationals, the reals): exact arithmetic.
-/
namespace Spec

/-- A PDDL arithmetic expression. `nil` stands for the empty text (no expression at all). -/
inductive NExp (K : Type) where
  | nil
  | num (k : K)
  | var (f : String)
  | add (a b : NExp K)
  | sub (a b : NExp K)
  | mul (a b : NExp K)
deriving DecidableEq, Repr

/-- Comparison operators. -/
inductive Cmp where
  | le
  | ge
  | eq
deriving DecidableEq, Repr

/-- A numeric condition. -/
structure NCond (K : Type) where
  cmp : Cmp
  lhs : NExp K
  rhs : NExp K
deriving DecidableEq, Repr

/-- Assignment operators of PDDL 2.1. -/
inductive AssignOp where
  | assign
  | increase
  | decrease
  | scaleUp
  | scaleDown
deriving DecidableEq, Repr

/-- A numeric effect on a fluent. -/
structure NEffect (K : Type) where
  op : AssignOp
  target : String
  arg : NExp K
deriving DecidableEq, Repr

section
variable {K : Type} [Field K]

/-- The value of an expression in a numeric state. -/
def NExp.eval (x : String → K) : NExp K → K
  | .nil => 0
  | .num k => k
  | .var f => x f
  | .add a b => a.eval x + b.eval x
  | .sub a b => a.eval x - b.eval x
  | .mul a b => a.eval x * b.eval x

/-- No part of the expression is missing. -/
def NExp.wellFormed : NExp K → Bool
  | .nil => false
  | .num _ => true
  | .var _ => true
  | .add a b => a.wellFormed && b.wellFormed
  | .sub a b => a.wellFormed && b.wellFormed
  | .mul a b => a.wellFormed && b.wellFormed

/-- Both sides are really there. -/
def NCond.wellFormed (c : NCond K) : Bool := c.lhs.wellFormed && c.rhs.wellFormed

/-- The new value of the target of an effect, PDDL 2.1: scale-up multiplies, scale-down divides. -/
def NEffect.newValue (e : NEffect K) (x : String → K) : K :=
  match e.op with
  | .assign => e.arg.eval x
  | .increase => x e.target + e.arg.eval x
  | .decrease => x e.target - e.arg.eval x
  | .scaleUp => x e.target * e.arg.eval x
  | .scaleDown => x e.target / e.arg.eval x

/-- A fluent after the action: changed by the effect that targets it, else unchanged. -/
def applyNumeric (effs : List (NEffect K)) (x : String → K) (f : String) : K :=
  match effs.find? (fun e => e.target == f) with
  | some e => e.newValue x
  | none => x f

/-- The value of a linear combination of expressions. -/
def linearValue (x : String → K) (cs : List K) (fs : List (NExp K)) : K :=
  (List.zipWith (fun c f => c * f.eval x) cs fs).sum

/-- A multiple of `10^-d`: a number with at most `d` decimal digits. -/
def OnGrid (d : Nat) (x : K) : Prop := ∃ n : Int, x * 10 ^ d = n

variable [LinearOrder K]

/-- The number survives printing with `d` digits: it is zero, or it has at most `d` decimal digits
and is larger than `10^-d` in absolute value. -/
def Printable (d : Nat) (c : K) : Prop := c = 0 ∨ (OnGrid d c ∧ 1 / 10 ^ d < |c|)

/-- The condition is true in the numeric state. -/
def NCond.holds (x : String → K) (c : NCond K) : Prop :=
  match c.cmp with
  | .le => c.lhs.eval x ≤ c.rhs.eval x
  | .ge => c.rhs.eval x ≤ c.lhs.eval x
  | .eq => c.lhs.eval x = c.rhs.eval x

instance instDecidableNCondHolds (x : String → K) (c : NCond K) : Decidable (c.holds x) := by
  unfold NCond.holds; cases c.cmp <;> infer_instance

/-- `x` is, on the given columns, a convex combination of the rows. -/
def InHull {C : Type} (cols : List C) (rows : List (C → K)) (x : C → K) : Prop :=
  ∃ w : List K, w.length = rows.length ∧ (∀ k ∈ w, 0 ≤ k) ∧ w.sum = 1 ∧
    ∀ c ∈ cols, x c = (List.zipWith (fun k r => k * r c) w rows).sum

end
end Spec

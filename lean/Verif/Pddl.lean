import Mathlib.Data.Finset.Basic
import Mathlib.Data.Finset.Union
import Mathlib.Data.Finset.Image

/-!
Plain PDDL data, shared by the model and by the specification.
The classes come from the external package `pddl_plus_parser` (see DESIGN.md, trusted base).
-/

/-- `PDDLType`: a name and the names met when walking up the parent chain. -/
structure PType where
  name : String
  ancestors : List String
deriving DecidableEq, Repr

/-- `PDDLType.is_sub_type`: the type itself or one of its ancestors. -/
def PType.isSub (t u : PType) : Bool := t.name == u.name || t.ancestors.contains u.name

/-- `SignatureType`: an ordered dictionary from names to types. Also used for the constants table
(`Domain.constants : Dict[str, PDDLObject]`) and for lists of typed objects. -/
abbrev Sig := List (String × PType)

/-- The keys, in order. -/
def Sig.names (s : Sig) : List String := s.map Prod.fst

@[simp] theorem Sig.length_names (s : Sig) : s.names.length = s.length := by simp [Sig.names]

/-- A ground atom. -/
structure Atom where
  name : String
  args : List String
deriving DecidableEq, Repr

/-- `Predicate` / `GroundedPredicate`: name, ordered arguments, sign.
Lifted literals have parameter and constant names as arguments, grounded ones object names. -/
structure Lit where
  name : String
  args : List String
  pos : Bool
deriving DecidableEq, Repr

/-- `predicate.copy(is_negated=True)`. -/
def Lit.neg (l : Lit) : Lit := { l with pos := !l.pos }

def Lit.atom (l : Lit) : Atom := ⟨l.name, l.args⟩

@[simp] theorem Lit.neg_neg (l : Lit) : l.neg.neg = l := by cases l; simp [Lit.neg]
@[simp] theorem Lit.neg_name (l : Lit) : l.neg.name = l.name := rfl
@[simp] theorem Lit.neg_args (l : Lit) : l.neg.args = l.args := rfl
@[simp] theorem Lit.neg_pos (l : Lit) : l.neg.pos = !l.pos := rfl
@[simp] theorem Lit.atom_neg (l : Lit) : l.neg.atom = l.atom := rfl
theorem Lit.neg_ne (l : Lit) : l.neg ≠ l := by
  intro h; have := congrArg Lit.pos h; simp at this
theorem Lit.neg_injective : Function.Injective Lit.neg := fun a b h => by
  rw [← a.neg_neg, h, b.neg_neg]

/-- A predicate declaration of the domain. -/
structure PredDecl where
  name : String
  sig : Sig
deriving DecidableEq, Repr

/-- A PDDL state: the finite set of true ground atoms (closed world). -/
abbrev State := Finset Atom

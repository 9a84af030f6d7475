import Verif.Model.Logic
import Verif.Spec.Dnf
import Mathlib.Data.List.Sort
import Mathlib.Data.List.Lex
import Mathlib.Data.Char
import Mathlib.Data.Prod.Lex

/-!
Model of the disjunctive part of `logical_expression_operations.py`: `create_dnf_combinations` and
`minimize_dnf_clauses`. sympy's `simplify_logic` and printer and the Lark parser are external: an argument gives the
formula whose text the parser reads, and the transformer turns it into PDDL text.
-/
namespace Model
open Spec

/-- `sorted(l)`. -/
def sortedBy {β : Type} [LinearOrder β] (l : List β) : List β := l.insertionSort (· ≤ ·)

/-- logical_expression_operations.py:108-109: the conjunctions, each sorted. -/
def conjunctions (ord : Finset Str → List Str) (ants : Finset Str) (n : Nat) : List (List Str) :=
  (createCnf ord ants n).map fun s => sortedBy (ord s)

/-- logical_expression_operations.py:110-113. -/
def allDisjunctions (ord : Finset Str → List Str) (ants : Finset Str) (n : Nat) : List (List (List Str)) :=
  (List.range' 2 (n - 1)).flatMap fun i => (Py.combs i (conjunctions ord ants n)).map sortedBy

/-- logical_expression_operations.py:117-118: neither too large nor with a literal twice. -/
def keepDisjunction (n : Nat) (X : List (List Str)) : Bool :=
  !(decide ((X.map List.length).sum > n) || decide ((X.map List.length).sum ≠ X.flatten.toFinset.card))

/-- logical_expression_operations.py:123-124: size, number of conjunctions, the text of all literals. -/
def dnfKey (X : List (List Str)) : ℕ ×ₗ ℕ ×ₗ Str :=
  toLex ((X.map List.length).sum, toLex (X.length, X.flatten.flatten))

/-- logical_expression_operations.py:95-124 `create_dnf_combinations`. -/
def createDnf (ord : Finset Str → List Str) (ants : Finset Str) (n : Nat) : List (List (List Str)) :=
  ((allDisjunctions ord ants n).filter (keepDisjunction n)).insertionSort fun x y => dnfKey x ≤ dnfKey y

/-- What a literal becomes: `true`, `Not(true)`, a symbol or its negation. -/
inductive Leaf where
  | const (b : Bool)
  | sym (s : Str) (pos : Bool)
deriving DecidableEq

/-- logical_expression_operations.py:217-236: one literal. -/
def compileLit (A : Finset Str) (l : Str) : Leaf :=
  if l ∈ A then .const true
  else if startsWith "(not".toList l && decide ((l.drop 5).dropLast ∈ A) then .const false
  else .sym (if !startsWith "(not".toList l then l else (l.drop 5).dropLast) (!startsWith "(not".toList l)

/-- logical_expression_operations.py:210-242: the expression, a conjunction of disjunctions of conjunctions. -/
def compileDnf (A : Finset Str) (E : List (List (List Str))) : List (List (List Leaf)) :=
  E.map fun D => D.map fun C => C.map (compileLit A)

mutual
/-- logical_expression_operations.py:33-60: the transformer, rule by rule. -/
def transform : Form → Str
  | .atom s => s
  | .neg f => "(not ".toList ++ (transform f ++ [')'])
  | .conj fs => match transformAll fs with
    | [x] => x
    | xs => "(and ".toList ++ (joinSp xs ++ [')'])
  | .disj fs => match transformAll fs with
    | [x] => x
    | xs => "(or ".toList ++ (joinSp xs ++ [')'])
/-- The arguments of a rule. -/
def transformAll : List Form → List Str
  | [] => []
  | f :: fs => transform f :: transformAll fs
end

/-- logical_expression_operations.py:199-245 `minimize_dnf_clauses`. `simplify` gives a constant, printed `True` or `False`, which the grammar
cannot read (`none`), or a formula. -/
def minimizeDnf (simplify : List (List (List Leaf)) → Bool ⊕ Form) (E : List (List (List Str))) (A : Finset Str) : Option Str :=
  match simplify (compileDnf A E) with
  | .inl _ => none
  | .inr F => some (transform F)

end Model

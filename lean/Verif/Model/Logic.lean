import Verif.Model.Core
import Mathlib.Data.Finset.Lattice.Fold

/-!
Model of `sam_learning/core/propositional_operations/logical_expression_operations.py` and of the
parser in `discrete_utilities.py`.

The code handles literals as strings. The functions are modelled once, over a record of the string
primitives they use (`LitOps`); the record `strOps` gives the primitives on character lists exactly as
the code computes them, the record `litOps` gives the same primitives on structured literals.
Lemmas/Logic.lean proves that the two agree on printed literals.
-/
namespace Model

abbrev Str := List Char

/-! ### Printing (external: `Predicate.untyped_representation` of pddl_plus_parser) -/

/-- `" ".join(args)`. -/
def joinSp : List Str → Str
  | [] => []
  | [a] => a
  | a :: as => a ++ ' ' :: joinSp as

/-- `Predicate.untyped_representation`: `(name a b)`, `(name )` without arguments (see
tests/conditional_learning_tests/dependecy_set_test.py:166), `(not (name a b))` for a negative one. -/
def showLit (name : Str) (args : List Str) (pos : Bool) : Str :=
  let base := '(' :: (name ++ ' ' :: (joinSp args ++ [')']))
  if pos then base else "(not ".toList ++ (base ++ [')'])

/-! ### String primitives -/

/-- `s.startswith(p)`. -/
def startsWith (p s : Str) : Bool := p.isPrefixOf s

/-- logical_expression_operations.py:63-72 `_flip_single_predicate`: `s[5:-1]` when the string starts
with `(not` (no space), else `(not s)`. -/
def flipStr (s : Str) : Str :=
  if startsWith "(not".toList s then (s.drop 5).dropLast else "(not ".toList ++ (s ++ [')'])

/-- The regular-expression class `\w` (ASCII part). -/
def isWord (c : Char) : Bool := c.isAlphanum || c == '_'

/-- logical_expression_operations.py:12, first class `[\?w+[\-?_?\w]`. -/
def classA (c : Char) : Bool := c == '?' || c == '+' || c == '[' || c == '-' || isWord c

/-- The regular-expression class `\s` (ASCII part). -/
def isSpaceC (c : Char) : Bool := c == ' ' || c == '\t' || c == '\n' || c == '\r'

/-- logical_expression_operations.py:12, second class `[?\w+\s?]`. -/
def classB (c : Char) : Bool := c == '?' || c == '+' || isWord c || isSpaceC c

/-- The regular expression of line 12 anchored at the first character: `(`, characters of the first
class, an optional white space, characters of the second class, `)`. Neither class contains a bracket, so
the closing bracket is the first one; white space belongs to the second class, so the body matches
exactly when what follows its longest first-class prefix is in the second class. -/
def matchHere : Str → Option Str
  | '(' :: rest =>
    let body := rest.takeWhile (· != ')')
    if rest.contains ')' && (body.dropWhile classA).all classB then some ('(' :: (body ++ [')'])) else none
  | _ => none

/-- `regex.search(s).group()`: leftmost match; `None.group()` raises `AttributeError`. -/
def regexSearch : Str → Except Err Str
  | [] => .error .attributeError
  | c :: cs => match matchHere (c :: cs) with
    | some m => .ok m
    | none => regexSearch cs

/-! ### Operations on clauses -/

/-- The primitives on literals used by the clause functions: `core` is the extracted atom text
(`regex.search(...).group()`), `isNeg` is `startswith("(not")`, `flip` is `_flip_single_predicate`. -/
structure LitOps (α κ : Type) where
  core : α → Except Err κ
  isNeg : α → Bool
  flip : α → α

/-- The primitives as the code has them. -/
def strOps : LitOps Str Str := ⟨regexSearch, startsWith "(not".toList, flipStr⟩

/-- The primitives on structured literals. -/
def litOps : LitOps Lit Atom := ⟨fun l => .ok l.atom, fun l => !l.pos, Lit.neg⟩

section
variable {α κ : Type} [DecidableEq α] [DecidableEq κ]

/-- Loop body of `check_complementary_literals`, over the list of pairs. -/
def complPairs (ops : LitOps α κ) : List (List α) → Except Err Bool
  | [] => .ok false
  | [x, y] :: rest => do
    let ex ← ops.core x
    let ey ← ops.core y
    if ex = ey ∧ ([x, y].filter ops.isNeg).length = 1 then .ok true else complPairs ops rest
  | _ :: rest => complPairs ops rest

/-- logical_expression_operations.py:127-142 `check_complementary_literals`; the argument is the set in
iteration order. -/
def checkCompl (ops : LitOps α κ) (clause : List α) : Except Err Bool :=
  complPairs ops (Py.combs 2 clause)

/-- logical_expression_operations.py:75-92 `create_cnf_combination` without `exclude_literals` (never
passed); `ord` is the iteration order of sets. -/
def createCnf (ord : Finset α → List α) (lits : Finset α) (maxSize : Nat) : List (Finset α) :=
  (List.range' 1 maxSize).flatMap fun k => (Py.combs k (ord lits)).map List.toFinset

/-- logical_expression_operations.py:169-173, the loop removing negated assumptions from a clause.
`set.remove` of an absent element raises `KeyError`. -/
def removeAssumptions (ops : LitOps α κ) (ord : Finset α → List α) : List α → Finset α →
    Except Err (Finset α)
  | [], c => .ok c
  | a :: as, c => do
    if ← checkCompl ops (ord (c ∪ {a})) then
      if ops.flip a ∈ c then removeAssumptions ops ord as (c.erase (ops.flip a)) else .error .keyError
    else removeAssumptions ops ord as c

/-- logical_expression_operations.py:163-181, one iteration of the loop over non-unit clauses. -/
def minimizeStep (ops : LitOps α κ) (ord : Finset α → List α) (used : Finset α)
    (acc : List (Finset α)) (clause : Finset α) : Except Err (List (Finset α)) := do
  if ← checkCompl ops (ord clause) then .ok acc
  else if (ord used).any (· ∈ clause) then .ok acc
  else
    let c ← removeAssumptions ops ord (ord used) clause
    if c.card = 0 then .error .valueError else .ok (acc ++ [c])

/-- logical_expression_operations.py:155-157: the unit clauses that are kept. -/
def keptUnits (clauses : List (Finset α)) (assumptions : Finset α) : List (Finset α) :=
  clauses.filter fun c => c.card = 1 && c ∩ assumptions = ∅

/-- The union of a list of sets. -/
def unionAll (l : List (Finset α)) : Finset α := l.foldr (· ∪ ·) ∅

/-- logical_expression_operations.py:145-183 `minimize_cnf_clauses`. The clauses are distinct set
objects (as in every caller); the in-place updates of the argument sets are not modelled. -/
def minimizeCnf (ops : LitOps α κ) (ord : Finset α → List α) (clauses : List (Finset α))
    (assumptions : Finset α) : Except Err (List (Finset α)) := do
  let units := keptUnits clauses assumptions
  let unitLits := unionAll units
  if ← checkCompl ops (ord unitLits) then .error .valueError
  else
    (clauses.filter fun c => 1 < c.card).foldlM (minimizeStep ops ord (assumptions ∪ unitLits)) units

/-- logical_expression_operations.py:186-196 `negate_and_convert_to_cnf`. -/
def negateToCnf (ops : LitOps α κ) (dnfs : List (List (List α))) : List (Finset α) :=
  dnfs.flatMap fun clause => clause.map fun conj => (conj.map ops.flip).toFinset

end

/-! ### discrete_utilities.py: parsing a literal -/

/-- `s.replace("(not (", "")` : remove every (non-overlapping) occurrence, left to right. -/
def removeAll (p : Str) : Str → Str
  | [] => []
  | c :: cs => if p ≠ [] ∧ p.isPrefixOf (c :: cs) then removeAll p ((c :: cs).drop p.length)
               else c :: removeAll p cs
termination_by s => s.length
decreasing_by
  · rename_i h; simp only [List.length_drop, List.length_cons]
    have : 0 < p.length := List.length_pos_iff.mpr h.1
    omega
  · simp

/-- `s.strip(")")`. -/
def stripClose (s : Str) : Str := ((s.dropWhile (· == ')')).reverse.dropWhile (· == ')')).reverse

/-- `s.split(" ")`. -/
def splitSp : Str → List Str
  | [] => [[]]
  | c :: cs => if c == ' ' then [] :: splitSp cs else
    match splitSp cs with
    | [] => [[c]]
    | w :: ws => (c :: w) :: ws

/-- The result of the parser: name, ordered signature keys with types, sign. -/
structure ParsedLit where
  name : Str
  args : List (Str × PType)
  pos : Bool
deriving DecidableEq

/-- discrete_utilities.py:44 `combined_signature[parameter]`, `KeyError` for an unknown name. -/
def bindArg (table : List (Str × PType)) (a : Str) : Except Err (Str × PType) :=
  match table.lookup a with
  | some t => .ok (a, t)
  | none => .error .keyError

/-- discrete_utilities.py:11-45 `extract_predicate_data` without the additional parameter.
`table` is the combined signature dictionary: first key wins in the list order given. An unknown name
raises `KeyError`, an empty text `IndexError`. -/
def parseLit (table : List (Str × PType)) (s : Str) : Except Err ParsedLit :=
  let isPos := !startsWith "(not ".toList s
  let data := if isPos then splitSp ((s.filter (· != '(')).filter (· != ')'))
    else splitSp (stripClose (removeAll "(not (".toList s))
  match data.filter (· ≠ []) with
  | [] => .error .indexError
  | name :: args => do
    let bound ← args.mapM (bindArg table)
    .ok ⟨name, Py.dictOf bound, isPos⟩

end Model

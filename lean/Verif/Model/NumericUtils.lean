import Mathlib.Algebra.Order.Floor.Ring
import Verif.Spec.Numeric
import Verif.Py.Iter
import Verif.Py.Dict
import Mathlib.Data.List.Sort

/-!
Model of `sam_learning/core/numeric_learning/numeric_utils.py`.
Floats are elements of an ordered field (exact arithmetic). PDDL text is modelled by expression
trees (`Spec.NExp`), the empty text by `NExp.nil`; printing and parsing of numbers is assumed exact.
-/
namespace Model
open Spec

section
variable {K : Type} [Field K] [LinearOrder K]

/-- numeric_utils.py:22 `EPSILON = 10 ** (-DECIMAL_DIGITS)`; the number of digits is read from the
environment (line 21), so it is a parameter. -/
def epsOf (K : Type) [Field K] (d : Nat) : K := 1 / 10 ^ d

/-- numeric_utils.py:460-469 `_first_non_zero_index`, `none` for `-1`. -/
def firstNonZero : List K → Option Nat
  | [] => none
  | x :: xs => if x ≠ 0 then some 0 else (firstNonZero xs).map (· + 1)

/-- numeric_utils.py:486-495: one elimination step of the loop, on one row: add
`row[i] * (-1 / v[i]) * v` and set the column `i` to zero. -/
def reduceRow (v : List K) (i : Nat) (row : List K) : List K :=
  (List.zipWith (fun r c => r + (-1 / (v.getD i 0) * c) * row.getD i 0) row v).set i 0

/-- numeric_utils.py:472-497 `reduce_complementary_conditions_from_convex_hull`. -/
def reduceComplementary (hull : List (List K)) (basis : List (List K)) : List (List K) :=
  basis.foldl (fun rows v =>
    match firstNonZero v with
    | none => rows
    | some i => rows.map (reduceRow v i)) hull

/-- numeric_utils.py:446-457 `divide_span_by_common_denominator`; a zero equation raises an
`IndexError` (here `none`). -/
def divideSpan (eqs : List (List K)) : Option (List (List K)) :=
  eqs.mapM fun e => (e.find? (· ≠ 0)).map fun c => e.map (· / c)

variable [IsStrictOrderedRing K] [FloorRing K]

/-- Python `round(x, d)`: to the nearest multiple of `10^-d`, ties to even. -/
def rnd (d : Nat) (x : K) : K :=
  let y := x * 10 ^ d
  let f := ⌊y⌋
  let r := y - f
  (if r < 1 / 2 then (f : K) else if 1 / 2 < r then ((f + 1 : Int) : K)
    else if f % 2 = 0 then (f : K) else ((f + 1 : Int) : K)) / 10 ^ d

/-- Python `int(x)` on a float: truncation towards zero. -/
def trunc (x : K) : K := if 0 ≤ x then (⌊x⌋ : K) else (⌈x⌉ : K)

/-- numeric_utils.py:39-45 `prettify_floating_point_number`. -/
def prettify (d : Nat) (x : K) : K := if |x - trunc x| < epsOf K d then trunc x else x

/-- numeric_utils.py:72-80 `prettify_coefficients`. -/
def prettifyCoefs (d : Nat) (cs : List K) : List K :=
  (cs.map fun c => if epsOf K d < |c| then c else 0).map (rnd d)

/-- The placeholder feature of the constant term, numeric_utils.py:60. -/
def dummy : NExp K := .var "(dummy)"

/-- numeric_utils.py:48-69 `construct_multiplication_strings`. -/
def mulTerms (d : Nat) (cs : List K) (fs : List (NExp K)) : List (NExp K) :=
  (fs.zip cs).filterMap fun p =>
    if |rnd d p.2| ≤ epsOf K d then none
    else if p.1 = dummy then some (.num (prettify d (rnd d p.2)))
    else if p.2 = 1 then some p.1
    else some (.mul p.1 (.num (prettify d (rnd d p.2))))

/-- numeric_utils.py:120-133 `construct_linear_equation_string`. -/
def linExp : List (NExp K) → NExp K
  | [] => .nil
  | [t] => t
  | t :: ts => .add t (linExp ts)

/-- numeric_utils.py:83-117 `construct_projected_variable_strings`. -/
def projectedVars (d : Nat) (fs : List (NExp K)) (shift : List K) (basis : List (List K)) : List (NExp K) :=
  let shifted := List.zipWith (fun f s => if s = 0 then f else NExp.sub f (.num (prettify d (rnd d s)))) fs shift
  basis.map fun row => linExp ((shifted.zip row).filterMap fun p =>
    if |rnd d p.2| ≤ epsOf K d then none
    else if p.2 = 1 then some p.1
    else some (.mul p.1 (.num (prettify d (rnd d p.2)))))

/-- Dictionary update in place, for a key that is present; `none` is the `KeyError` of reading a
missing key. -/
def bumpKey (k : NExp K) (δ : K) (m : List (NExp K × K)) : Option (List (NExp K × K)) :=
  if k ∈ m.map Prod.fst then some (m.map fun p => if p.1 = k then (p.1, p.2 + δ) else p) else none

/-- numeric_utils.py:136-164 `construct_non_circular_assignment`. The coefficient map is an
ordered dictionary from features to coefficients. -/
def nonCircular (d : Nat) (f : String) (m : List (NExp K × K)) (prev next : K) : Option (NEffect K) :=
  if prev < next then
    (bumpKey (.var f) (-1) m).map fun m' =>
      ⟨.increase, f, linExp (mulTerms d (m'.map Prod.snd) (m'.map Prod.fst))⟩
  else
    (bumpKey (.var f) 1 (m.map fun p => (p.1, -p.2))).map fun m' =>
      ⟨.decrease, f, linExp (mulTerms d (m'.map Prod.snd) (m'.map Prod.fst))⟩

/-- numeric_utils.py:545-570 `construct_pddl_inequality_scheme`, the case of a list of border
points (the only one used by the learners). -/
def pddlScheme (d : Nat) (op : Cmp) (A : List (List K)) (b : List K) (headers : List (NExp K)) : List (NCond K) :=
  List.zipWith (fun row c => ⟨op, linExp (mulTerms d row headers), .num c⟩) A b

end

/-- Python `sorted` on strings (insertion sort; the order of code points). -/
def pySorted (l : List String) : List String := l.insertionSort (· ≤ ·)

/-- numeric_utils.py:376-396 `create_monomials`. -/
def createMonomials (fs : List String) (degree : Nat) : List (List String) :=
  let singles := fs.map ([·])
  if degree = 0 then singles
  else if degree = 1 then singles ++ (Py.combs 2 fs).map pySorted
  else singles ++ (List.range' 2 (degree - 1)).flatMap fun r => (Py.combsRep fs r).map pySorted

/-- numeric_utils.py:425-443 `create_polynomial_string`; the empty monomial (an endless recursion
in Python) never arises and gives the empty text here. -/
def polyExp {K : Type} : List String → NExp K
  | [] => .nil
  | [f] => .var f
  | f :: fs => .mul (.var f) (polyExp fs)

/-- numeric_utils.py:399-422 `create_grounded_monomials`: a dictionary keyed by the polynomial
text, here by the monomial itself (the text determines it, `polyExp_injective`). -/
def groundMonomials {K : Type} [Field K] (ms : List (List String)) (state : List (String × K)) :
    List (List String × K) :=
  ms.foldl (fun acc m =>
    if m.any (fun c => !(state.map Prod.fst).contains c) then acc
    else Py.dictSet acc m (m.map fun c => (state.lookup c).getD 0).prod) []

end Model

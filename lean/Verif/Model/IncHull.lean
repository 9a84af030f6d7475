import Verif.Model.ConvexHull
import Verif.Model.Core

/-!
Model of `sam_learning/core/online_learning/incremental_convex_hull_learner.py`.

The data frame is a list of columns and a list of rows. A point is given with the columns it has. The stored bases are lists of
lists of numbers (as in the code), because the number of columns may change. An exception leaves the fields written so far; the
functions that may raise return the new state and a flag.
-/
namespace Model
open Spec

variable {K : Type} [Field K] [LinearOrder K] [IsStrictOrderedRing K] [FloorRing K]
variable {C : Type} [DecidableEq C]

/-- The fields of the learner. `aff = none` is the empty data frame (no columns). -/
structure IncHull (K C : Type) where
  cols : List C
  rows : List (C → K)
  relevant : List C
  aff : Option (List C)
  conds : List (NCond K)
  base : Option (List (List K))
  comp : List (List K)
  std : Bool
  hull : Option (Σ k, HullResult K k)

/-- incremental_convex_hull_learner.py:44-70 `__init__`; `cols` are the monomials. -/
def IncHull.init (cols : List C) (relevant : Option (List C)) : IncHull K C :=
  ⟨cols, [], relevant.getD cols, none, [], none, [], false, none⟩

/-- Two rows agree on the given columns (`duplicated`). -/
def agree (cols : List C) (r r' : C → K) : Bool := cols.all fun c => decide (r c = r' c)

/-- `duplicated().any()`. -/
def hasDup (cols : List C) : List (C → K) → Bool
  | [] => false
  | r :: rs => rs.any (agree cols r) || hasDup cols rs

/-- A list of numbers as a vector. -/
def toVec (n : Nat) (l : List K) : Fin n → K := fun i => l.getD i 0

/-- The first row of the affine independent data, on its columns. -/
def firstRow (left : List C) (rows : List (C → K)) : Fin left.length → K := ((rows.map (rowVec left)).head?).getD 0

/-- incremental_convex_hull_learner.py:94-107 `_shift_new_point`. -/
def IncHull.shift (st : IncHull K C) (left : List C) (x : C → K) : Fin left.length → K :=
  if left.length = 1 then rowVec left x - firstRow left st.rows
  else if st.std then rowVec left x
  else rowVec left x - firstRow left st.rows

/-- incremental_convex_hull_learner.py:109-119 `_is_spanned_in_base`. -/
def IncHull.spanned (L : NumLib K C) (d : Nat) (st : IncHull K C) (base : List (List K)) (left : List C) (x : C → K) : Bool :=
  match base with
  | [] => decide (gramSchmidt (epsOf K d) L.norm [st.shift left x] [] = [])
  | b :: bs => if left.length ≠ b.length then false
      else decide (gramSchmidt (epsOf K d) L.norm [st.shift left x] ((b :: bs).map (toVec left.length)) = [])

/-- incremental_convex_hull_learner.py:72-92, 121-133 `_learn_new_bases`. The flag tells that `divide_span_by_common_denominator`
raised. -/
def IncHull.learnBases (L : NumLib K C) (d : Nat) (st : IncHull K C) (left : List C) : IncHull K C × Bool :=
  let shifted := (st.rows.map (rowVec left)).map (· - firstRow left st.rows)
  let gsp := gramSchmidt (epsOf K d) L.norm shifted []
  let comp := (gramSchmidt (epsOf K d) L.norm (eyeVecs left.length) gsp).map List.ofFn
  match divideSpan comp with
  | none => ({ st with base := some (gsp.map List.ofFn), comp := comp }, true)
  | some comp' =>
    if 1 < gsp.length ∧ gsp.length = left.length then
      ({ st with base := some ((eyeVecs left.length).map List.ofFn), comp := comp', std := true }, false)
    else ({ st with base := some (gsp.map List.ofFn), comp := comp' }, false)

/-- incremental_convex_hull_learner.py:135-144 `_learn_new_convex_hull`. The flag tells that Qhull raised. -/
def IncHull.learnHull (L : NumLib K C) (margin : K) (plain : Bool) (st : IncHull K C) (left : List C) : IncHull K C × Bool :=
  let base := (st.base.getD []).map (toVec left.length)
  let shift : Fin left.length → K := if st.std then 0 else firstRow left st.rows
  let pts : List (Fin base.length → K) := (st.rows.map (rowVec left)).map fun p => fun i => (p - shift) ⬝ᵥ base.get i
  match approxHull (L.qhull base.length) margin plain pts with
  | none => (st, true)
  | some h => ({ st with hull := some ⟨base.length, h⟩ }, false)

/-- incremental_convex_hull_learner.py:146-176 `_calculate_basis_and_hull`. -/
def IncHull.calc (L : NumLib K C) (d : Nat) (margin : K) (plain : Bool) (colExp : C → NExp K) (fromReset : Bool)
    (st : IncHull K C) : IncHull K C × Bool :=
  let r := removeDependencies L d colExp (st.cols.filter (· ∈ st.relevant)) st.rows
  let st' : IncHull K C := { st with aff := r.1, conds := r.2 }
  match r.1 with
  | none => (st', false)
  | some left =>
    if left = [] ∨ st.rows = [] then (st', false)
    else if st.conds ≠ r.2 ∨ fromReset = true ∨ st.base = none then
      let b := st'.learnBases L d left
      if b.2 then b
      else if 2 ≤ (b.1.base.getD []).length ∧ 3 ≤ st.rows.length then b.1.learnHull L margin plain left
      else b
    else
      let b := if st'.spanned L d (st.base.getD []) left (st.rows.getLast?.getD fun _ => 0) then (st', false)
        else st'.learnBases L d left
      if b.2 then b
      else if (b.1.base.getD []).length ≤ 1 then b
      else b.1.learnHull L margin plain left

/-- incremental_convex_hull_learner.py:178-194 `add_new_point`: the point `x` has the columns `pc`. -/
def IncHull.add (L : NumLib K C) (d : Nat) (margin : K) (plain : Bool) (colExp : C → NExp K) (st : IncHull K C)
    (pc : List C) (x : C → K) : IncHull K C × Bool :=
  let cols' := if st.rows = [] then st.cols.filter (· ∈ pc) ++ pc.filter (· ∉ st.cols) else st.cols.filter (· ∈ pc)
  if hasDup cols' (st.rows ++ [x]) then (st, false)
  else ({ st with cols := cols', rows := st.rows ++ [x] } : IncHull K C).calc L d margin plain colExp false

/-- incremental_convex_hull_learner.py:196-210 `_create_ch_coefficients_data`. -/
def hullCoefs (d : Nat) (h : Σ k, HullResult K k) : List (List K) × List K :=
  (h.2.facets.map fun f => prettifyCoefs d (List.ofFn f.1), prettifyCoefs d (h.2.facets.map Prod.snd))

/-- incremental_convex_hull_learner.py:212-260 `_incremental_create_ch_inequalities`; `none`: a `ValueError`; a missing hull where
one is needed is an `AttributeError`, which is not caught (`some none`). -/
def IncHull.inequalities (d : Nat) (colExp : C → NExp K) (st : IncHull K C) (left : List C) :
    Option (Option ((List (List K) × List K) × List (NExp K) × List (NCond K))) :=
  match st.base with
  | none => none
  | some base =>
    if 1 < base.length ∧ base.length = left.length then
      some (st.hull.map fun h => (hullCoefs d h, left.map colExp, []))
    else if base = [] then none
    else
      let shift := firstRow left st.rows
      let projected := (st.rows.map (rowVec left)).map fun p => base.map fun b => (p - shift) ⬝ᵥ toVec left.length b
      let ab := match st.hull with
        | none => singleDim d projected.flatten
        | some h => hullCoefs d h
      let vars := projectedVars d (left.map colExp) (List.ofFn shift) base
      let eyeVars := projectedVars d (left.map colExp) (List.ofFn shift) ((eyeVecs left.length).map List.ofFn)
      some (some (ab, vars, pddlScheme d .eq st.comp (st.comp.map fun _ => 0) eyeVars))

/-- incremental_convex_hull_learner.py:262-302 `construct_safe_linear_inequalities`. -/
def IncHull.safeInequalities (d : Nat) (colExp : C → NExp K) (st : IncHull K C) : HullOut K :=
  if st.rows = [] ∨ st.relevant = [] then .conds []
  else if st.cols.length = 1 ∨ st.relevant.length = 1 then
    match st.cols with
    | [] => .crash
    | c :: _ => parseConds (singleColumn colExp c st.rows)
  else
    match st.aff with
    | none => parseConds st.conds
    | some left =>
      match st.inequalities d colExp left with
      | none => .notSafe
      | some none => .crash
      | some (some (ab, vars, spanConds)) => parseConds (pddlScheme d .le ab.1 ab.2 vars ++ spanConds ++ st.conds)

/-- incremental_convex_hull_learner.py:304-354 `is_point_in_convex_hull`: the point `x` has the columns `pc`. -/
def IncHull.contains (L : NumLib K C) (d : Nat) (st : IncHull K C) (pc : List C) (x : C → K) : Except Err Bool :=
  if !st.cols.all (· ∈ pc) then .ok false
  else if hasDup st.cols st.rows || (pc.all (· ∈ st.cols) && st.rows.any fun r => agree st.cols r x) then .ok true
  else
    match st.base with
    | none => .ok false
    | some base =>
      match st.aff with
      | none => .error .indexError
      | some left =>
        if !st.spanned L d base left x then .ok false
        else if base = [] then .error .valueError
        else
          let sx := st.shift left x
          let projected := base.map fun b => sx ⬝ᵥ toVec left.length b
          if st.comp.any fun e => decide (epsOf K d < |toVec left.length e ⬝ᵥ sx|) then .ok false
          else if 1 < base.length then
            match st.hull with
            | none => .error .attributeError
            | some h => .ok (h.2.facets.all fun f => decide (f.1 ⬝ᵥ toVec h.1 projected - f.2 ≤ epsOf K d))
          else
            let vals := (st.rows.map (rowVec left)).flatMap fun p => base.map fun b => (p - firstRow left st.rows) ⬝ᵥ toVec left.length b
            .ok (projected.all fun v => decide (listMin vals ≤ v ∧ v ≤ listMax vals))

/-- incremental_convex_hull_learner.py:356-366 `reset`: an `AttributeError` when there is no hull. -/
def IncHull.reset (L : NumLib K C) (d : Nat) (margin : K) (plain : Bool) (colExp : C → NExp K) (st : IncHull K C)
    (relevant : List C) : Except Err (IncHull K C × Bool) :=
  match st.hull with
  | none => .error .attributeError
  | some _ => .ok (({ st with relevant := relevant, hull := none } : IncHull K C).calc L d margin plain colExp true)

/-- incremental_convex_hull_learner.py:368-395 `copy`; `monomials` are the columns of a new learner. The flag tells that Qhull raised. -/
def IncHull.copy (L : NumLib K C) (margin : K) (plain : Bool) (monomials : List C) (st : IncHull K C) : IncHull K C × Bool :=
  if st.rows = [] ∨ st.cols = [] then (IncHull.init monomials (some st.relevant), false)
  else
    let st' : IncHull K C := { st with hull := none }
    match st.hull, st.aff with
    | some _, some left => st'.learnHull L margin plain left
    | _, _ => (st', false)

/-- A series of added points. -/
def IncHull.addAll (L : NumLib K C) (d : Nat) (margin : K) (plain : Bool) (colExp : C → NExp K) (st : IncHull K C)
    (ps : List (List C × (C → K))) : IncHull K C × Bool :=
  ps.foldl (fun s p => let r := s.1.add L d margin plain colExp p.1 p.2; (r.1, s.2 || r.2)) (st, false)

end Model

import Verif.Model.Core

/-!
Model of `sam_learning/core/numeric_learning/numeric_function_matcher.py`, of
`create_lifted_functions_vocabulary` (vocabulary_creator.py) and of `create_numeric_state_snapshot`
(environment_snapshot.py).

A function term (`PDDLFunction`, grounded or lifted) is its name with its arguments, an `Atom`. Its
signature is a Python dictionary, so the arguments of a function of the state are distinct. A
dictionary from the text of functions to functions with values is an association list from function
terms to values (the text is the name and the arguments). -/
namespace Model

/-- environment_snapshot.py:65-79 `create_numeric_state_snapshot`. -/
def numericSnapshot {K : Type} (state : List (Atom × K)) (objs : List String) : List (Atom × K) :=
  state.filter fun p => p.1.args = [] || p.1.args.all (objs.contains ·)

/-- numeric_function_matcher.py:22-41 `create_possible_function_signatures`. -/
def functionCalls (params : List String) (f : PredDecl) : List Atom :=
  (Py.perms f.sig.length params).map fun perm => ⟨f.name, perm⟩

/-- numeric_function_matcher.py:43-77 `lift_matched_parameters`: the lifted versions of a grounded
function. -/
def liftFunction (consts params call : List String) (g : Atom) : List Atom :=
  let mapping := call.zip params ++ consts.map fun c => (c, c)
  ((Py.prod (List.replicate g.args.length mapping)).filter fun p => p.map Prod.fst = g.args).map fun p =>
    ⟨g.name, (Py.dictOf (p.map fun q => (q.2, ()))).map Prod.fst⟩

/-- numeric_function_matcher.py:91-116: the entries written for one function of the domain. -/
def functionEntries {K : Type} (consts params call : List String) (state : List (Atom × K)) (f : PredDecl) :
    Except Err (List (Atom × K)) :=
  if f.sig.length > call.length ∧ consts.length = 0 then .ok []
  else if f.sig.length = 0 then
    match state.lookup ⟨f.name, []⟩ with
    | some v => .ok [(⟨f.name, []⟩, v)]
    | none => .error .keyError
  else .ok ((functionCalls (call ++ consts) f).flatMap fun g =>
    match state.lookup g with
    | some v => (liftFunction consts params call g).map fun l => (l, v)
    | none => [])

/-- numeric_function_matcher.py:79-118 `match_state_functions`. -/
def matchFunctions {K : Type} (fns : List PredDecl) (consts params call : List String) (state : List (Atom × K)) :
    Except Err (List (Atom × K)) := do
  let es ← fns.mapM (functionEntries consts params call state)
  .ok (Py.dictOf es.flatten)

/-- vocabulary_creator.py:95-124 `create_lifted_functions_vocabulary` (without
`must_be_parameter`, which no caller gives): the keys of the dictionary. -/
def functionVocab (fns : List PredDecl) (consts params : Sig) : List Atom :=
  (Py.dictOf (fns.flatMap fun f =>
    (Py.perms f.sig.length (params ++ consts)).filterMap fun perm =>
      let bs := Py.dictOf perm
      if validateTypes bs f.sig then some ((⟨f.name, Sig.names bs⟩ : Atom), ()) else none)).map Prod.fst

end Model

import Verif.Model.MaSam
import Verif.Model.Graph
import Verif.Model.Logic

/-! Model of `utilities/macro_actions_parser.py`, of the macro part of `literals_cnf.py` and of `learners/ma_sam_plus.py`. -/
namespace Model

/-! ### Strings -/

/-- What `\?\w+` finds in an argument: the question mark and the word characters after it. -/
def wordParam (s : String) : Option String :=
  match s.toList with
  | '?' :: cs => match cs.takeWhile isWord with
    | [] => none
    | w => some (String.ofList ('?' :: w))
  | _ => none

/-- `a <= b` on strings: lexicographic by code points. -/
def strLe (a b : String) : Bool := !(decide (b.toList < a.toList))

/-- Stable insertion. -/
def insertStr (x : String) : List String → List String
  | [] => [x]
  | y :: ys => if strLe x y then x :: y :: ys else y :: insertStr x ys

/-- `sorted` on strings. -/
def sortStr (l : List String) : List String := l.foldr insertStr []

/-! ### macro_actions_parser.py -/

/-- `BindingType`: the dictionary from (action, parameter) to the parameter of the macro. -/
abbrev Binding := List ((String × String) × String)

/-- An action as far as macros use it: name and signature. -/
abbrev MicroAct := String × Sig

/-- macro_actions_parser.py:14-30 `_return_sub_type` (types are never falsy). -/
def returnSub (t u : PType) : PType := if t.isSub u then t else u

/-- macro_actions_parser.py:32-45 `generate_macro_action_name`; `uuid` is what `uuid4()` returns. -/
def macroName (names others : List String) (uuid : String) : String :=
  let n := "-".intercalate names
  if n ∉ others then n else n ++ "---" ++ uuid

/-- macro_actions_parser.py:59-62: all the parameters with their types, by action name. `acts` are the actions sorted by name. -/
def allParams (acts : List MicroAct) : List ((String × String) × PType) :=
  Py.dictOf (acts.flatMap fun a => a.2.map fun p => ((a.1, p.1), p.2))

/-- macro_actions_parser.py:47-77 `generate_macro_action_signature`. -/
def macroSignature (acts : List MicroAct) (m : Binding) : Sig :=
  (allParams acts).foldl (fun sig kt =>
    match m.lookup kt.1 with
    | none => sig
    | some x => match sig.lookup x with
      | none => Py.dictSet sig x kt.2
      | some t => Py.dictSet sig x (returnSub kt.2 t)) []

/-- macro_actions_parser.py:79-90 `adapt_predicate_to_macro_mapping`: arguments that get the same name collapse. -/
def adaptLit (m : Binding) (a : String) (l : Lit) : Except Err Lit := do
  let args ← l.args.mapM fun x => match m.lookup (a, x) with
    | none => .error .keyError
    | some y => .ok y
  .ok { l with args := (Py.dictOf (args.map (·, ()))).map Prod.fst }

/-- macro_actions_parser.py:100-104: one fresh parameter per parameter; `acts` sorted by name. -/
def initialBinding (acts : List MicroAct) : Binding :=
  Py.dictOf (acts.flatMap fun a => a.2.map fun p => ((a.1, p.1), p.1 ++ "_" ++ toString ((acts.map Prod.fst).idxOf a.1)))

/-- macro_actions_parser.py:108: the name of the common parameter of a group. -/
def groupName (g : List (String × String)) : String := "?" ++ String.join (sortStr (g.map fun p => String.ofList (p.2.toList.drop 1)))

/-- macro_actions_parser.py:92-112 `generate_macro_mappings`; groups are lists in the order of iteration. -/
def macroMapping (groups : List (List (String × String))) (acts : List MicroAct) : Binding :=
  groups.foldl (fun m g => if g.length > 1 then g.foldl (fun m p => Py.dictSet m p (groupName g)) m else m) (initialBinding acts)

/-- `re.compile(r"[^\s()]+").findall`. -/
def tokenize : List Char → List Char → List (List Char)
  | cur, [] => if cur = [] then [] else [cur]
  | cur, c :: cs =>
    if c.isWhitespace || c == '(' || c == ')' then (if cur = [] then tokenize [] cs else cur :: tokenize [] cs)
    else tokenize (cur ++ [c]) cs

/-- `MappingElement`: names of the parameters of the macro and the binding. -/
abbrev Mapping := List String × Binding

/-- macro_actions_parser.py:136-144: the object of one parameter of one action, if the macro has it. -/
def paramObject (names objs : List String) (y : String) : Option String := (names.zip objs).lookup y

/-- macro_actions_parser.py:132-146: the arguments of one of the actions, in the order of the binding. -/
def microArgs (mp : Mapping) (objs : List String) (a : String) : List String :=
  mp.2.filterMap fun kv => if kv.1.1 = a then paramObject mp.1 objs kv.2 else none

/-- `f"({action}" + f" {param}"… + ")"`. -/
def showCall (name : String) (args : List String) : String :=
  String.ofList ('(' :: (name.toList ++ (args.flatMap (fun x => ' ' :: x.toList) ++ [')'])))

/-- macro_actions_parser.py:114-148 `extract_actions_from_macro_action`. A line without a token is an `IndexError`. -/
def extractMicro (line : String) (mapper : List (String × Mapping)) : Except Err (Finset String) :=
  match (tokenize [] line.toList).map String.ofList with
  | [] => .error .indexError
  | name :: objs => match mapper.lookup name with
    | none => .ok {line}
    | some mp => .ok ((mp.2.map fun kv => kv.1.1).toFinset.image fun a => showCall a (microArgs mp objs a))

/-! ### literals_cnf.py -/

/-- literals_cnf.py:52-60: one literal adds its parameters to the groups, by position. -/
def addToGroups (a : String) : List String → List (List (String × String)) → Except Err (List (List (String × String)))
  | [], gs => .ok gs
  | _ :: _, [] => .error .indexError
  | x :: xs, g :: gs => do
    let rest ← addToGroups a xs gs
    .ok ((if (a, x) ∈ g then g else g ++ [(a, x)]) :: rest)

/-- literals_cnf.py:41-62 `group_params_from_clause`. -/
def groupParams (clause : List (String × Lit)) : Except Err (List (List (String × String))) :=
  match clause with
  | [] => .error .indexError
  | p :: _ => clause.foldlM (fun gs q => addToGroups q.1 (q.2.args.filterMap wordParam) gs)
      (List.replicate (p.2.args.filterMap wordParam).length [])

/-- literals_cnf.py:12-38 `is_clause_consistent`. -/
def clauseConsistent (clause : List (String × Lit)) (acts : List String) (groups : List (Finset (String × String))) : Except Err Bool :=
  if !(clause.all fun p => acts.contains p.1) then .ok false
  else do
    let gs ← groupParams clause
    .ok (gs.all fun g => groups.any fun G => g.all fun x => decide (x ∈ G))

/-- literals_cnf.py:171-191 `extract_macro_action_effects`. -/
def Cnf.macroEffects (F : Cnf) (acts : List String) (pres : Finset Lit) (groups : List (Finset (String × String))) :
    Except Err (List (String × Lit)) := do
  let l ← F.clauses.mapM fun c => do
    let b ← clauseConsistent c acts groups
    Except.ok (if b then c.filter fun p => decide (p.2 ∉ pres) else [])
  .ok l.flatten

/-- literals_cnf.py:193-207 `extract_macro_action_preconditions`. -/
def Cnf.macroPreconditions (F : Cnf) (acts : List String) (groups : List (Finset (String × String))) : Except Err (List (String × Lit)) := do
  let l ← F.clauses.mapM fun c => do
    let b ← clauseConsistent c acts groups
    Except.ok (if b then [] else c.filter fun p => acts.contains p.1)
  .ok l.flatten

/-! ### ma_sam_plus.py -/

/-- ma_sam_plus.py:50-61 `generate_supersets_of_actions`. -/
def supersetsOf (groups : List (Finset String)) : List (Finset String) :=
  (List.range' 1 groups.length).flatMap fun r => (Py.combs r groups).map fun gs => gs.foldr (· ∪ ·) ∅

/-- The CNFs in the order of `self.literals_cnf.items()`. -/
def MaLearner.cnfs (L : MaLearner) : List Cnf := L.base.dom.preds.flatMap fun pd => [true, false].map fun b => L.cnf (pd.name, b)

/-- ma_sam_plus.py:92-117 `extract_relevant_action_groups`. -/
def MaLearner.actionGroups (L : MaLearner) : List (Finset String) :=
  supersetsOf ((L.cnfs.flatMap (·.clauses)).foldl (fun gs c =>
    if c.length > 1 ∧ ∃ p ∈ c, p.1 ∈ L.unsafeActs then
      let g := (L.base.dom.names.filter fun a => decide (a ∈ c.map Prod.fst)).toFinset
      if g ∈ gs then gs else gs ++ [g]
    else gs) [])

/-- ma_sam_plus.py:119-137 `extract_relevant_parameter_groupings`, its only grouping. -/
def MaLearner.paramGrouping (L : MaLearner) (acts : List String) : Except Err (List (Finset (String × String))) := do
  let gs ← ((L.cnfs.flatMap (·.clauses)).filter fun c => c.all fun p => acts.contains p.1).mapM groupParams
  combineGroupings gs.flatten

/-- ma_sam_plus.py:139-164 `extract_effects_for_macro_from_cnf`. Reading a literal back from its text (`extract_predicate_data`) is
the identity here (see C25). -/
def MaLearner.macroEff (L : MaLearner) (acts : List String) (groups : List (Finset (String × String))) (m : Binding) : Except Err (Finset Lit) := do
  let pres := acts.foldr (fun a s => (L.base.dom.act a).pre ∪ s) ∅
  let l ← L.cnfs.mapM fun F => F.macroEffects acts pres groups
  let lits ← l.flatten.mapM fun p => adaptLit m p.1 p.2
  .ok lits.toFinset

/-- ma_sam_plus.py:166-195 `extract_preconditions_for_macro_from_cnf`: inequality preconditions are not carried over. `ord` is the order
in which the preconditions of an action are iterated over. -/
def MaLearner.macroPre (ord : Finset Lit → List Lit) (L : MaLearner) (acts : List String) (groups : List (Finset (String × String)))
    (m : Binding) : Except Err (Finset Lit) := do
  let l ← L.cnfs.mapM fun F => F.macroPreconditions acts groups
  let lits ← l.flatten.mapM fun p => adaptLit m p.1 p.2
  let own ← (acts.flatMap fun a => (ord (L.base.dom.act a).pre).map (a, ·)).mapM fun p => adaptLit m p.1 p.2
  .ok (lits.toFinset ∪ own.toFinset)

/-- A macro action with what `self.mapping` stores about it. -/
structure MacroAct where
  name : String
  acts : List String
  model : ActModel
  binding : Binding

/-- ma_sam_plus.py:202-213: one macro action. `group` is sorted by name; `gord` enumerates a set of (action, parameter). -/
def MaLearner.buildMacro (ord : Finset Lit → List Lit) (gord : Finset (String × String) → List (String × String)) (L : MaLearner)
    (uuid : String) (others acts : List String) : Except Err MacroAct := do
  let groups ← L.paramGrouping acts
  let micro : List MicroAct := acts.map fun a => (a, (L.base.dom.act a).sig)
  let m := macroMapping (groups.map gord) micro
  let pre ← L.macroPre ord acts groups m
  let eff ← L.macroEff acts groups m
  .ok ⟨macroName acts others uuid, acts, ⟨macroSignature micro m, pre, ∅, eff⟩, m⟩

/-- ma_sam_plus.py:215-218: the macro is stored in the domain and in the lists of the learner. -/
def MaLearner.store (L : MaLearner) (M : MacroAct) : MaLearner :=
  let D := { L.base.dom with names := if M.name ∈ L.base.dom.names then L.base.dom.names else L.base.dom.names ++ [M.name] }
  { L with base := { L.base with dom := D.setAct M.name M.model, safe := L.base.safe ++ [M.name], observed := L.base.observed ++ [M.name] } }

/-- ma_sam_plus.py:199-219: the loop over the action groups. The `Action` objects of all groups are collected before the loop (line 116),
so every macro is built from the learner before the loop. `sortG` enumerates a set of names in sorted order. (If a macro takes the name
of an action of the domain, reading the literals of that action back may fail in the code; this is not modelled.) -/
def MaLearner.buildMacros (ord : Finset Lit → List Lit) (gord : Finset (String × String) → List (String × String))
    (sortG : Finset String → List String) (uuid : Nat → String) (L : MaLearner) : List MacroAct → List (Finset String) → Except Err (List MacroAct)
  | done, [] => .ok done
  | done, g :: gs => do
    let M ← L.buildMacro ord gord (uuid done.length) (done.map (·.name)) (sortG g)
    MaLearner.buildMacros ord gord sortG uuid L (done ++ [M]) gs

/-- multi_agent_sam.py:273-291 `construct_safe_actions(should_remove_actions=False)`. -/
def MaLearner.constructKeep (L : MaLearner) : MaLearner :=
  let L := { L with base := L.base.handleUnobserved }
  L.base.dom.names.foldl MaLearner.constructOne L

/-- ma_sam_plus.py:221-222: the unsafe single actions are removed. -/
def MaLearner.removeUnsafe (L : MaLearner) : MaLearner :=
  let D := { L.base.dom with names := L.base.dom.names.filter fun a => !(L.unsafeActs.contains a) }
  { L with base := { L.base with dom := D } }

/-- ma_sam_plus.py:224-248 `learn_combined_action_model_with_macro_actions`: the learner, the report, and the macros (`self.mapping`). -/
def MaLearner.learnPlus (ord : Finset Lit → List Lit) (gord : Finset (String × String) → List (String × String))
    (sortG : Finset String → List String) (uuid : Nat → String) (L : MaLearner) (obs : List (List JointComponent)) :
    Except Err (MaLearner × List (String × Status) × List MacroAct) := do
  let L := { L with cnf := fun _ => Cnf.empty, base := L.base.deduceIneq }
  let L ← obs.flatten.foldlM (fun L c => L.handleComponent ord c) L
  let L := L.constructKeep
  let Ms ← L.buildMacros ord gord sortG uuid [] L.actionGroups
  let L := (Ms.foldl MaLearner.store L).removeUnsafe
  let L := { L with base := L.base.applyPolicy }
  .ok (L, L.base.report, Ms)

end Model

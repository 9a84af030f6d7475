import Verif.Model.Macro

/-! Model of decoding a plan file with macro actions before it is validated: `validators/safe_domain_validator.py:234-254` and the
mapping of the learner it is given (`learners/ma_sam_plus.py:195-216`). -/
namespace Model

/-- ma_sam_plus.py:216 `self.mapping[macro_action.name] = (macro_action.parameter_names, mapper)`, macro after macro. -/
def mappingOf (Ms : List MacroAct) : List (String × Mapping) :=
  Ms.foldl (fun d M => Py.dictSet d M.name (Sig.names M.model.sig, M.binding)) []

/-- `line.endswith("\n")`. -/
def endsLine (s : String) : Bool := s.toList.getLast? == some '\n'

/-- safe_domain_validator.py:235-254 `adapt_solution_file`, from the lines read to the lines written. `setOrd` is the order in which the
set of extracted calls is iterated over; for strings it differs from one run of Python to the next. -/
def adaptSolution (setOrd : Finset String → List String) (mapper : List (String × Mapping)) (lines : List String) : Except Err (List String) := do
  let l ← lines.mapM fun line => do
    let s ← extractMicro line mapper
    Except.ok ((setOrd s).map fun e => if endsLine e then e else e ++ "\n")
  .ok l.flatten

/-- A line of a plan file. -/
def planLine (c : Call) : String := showCall c.name c.params ++ "\n"

end Model

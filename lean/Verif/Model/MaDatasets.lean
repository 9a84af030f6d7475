import Verif.Model.DummyActions
import Verif.Model.MaSam

/-! Model of `trajectory_creators/ma_experiments_trajectories_creator.py:46-102`: the regular and the enhanced data set. The problem and the plan are objects that
are changed in place between the exports; the converters and the execution of a plan are those of the library and are arguments, and so are the random numbers. -/
namespace Model
namespace MaDatasets
open Dummy

/-- The part of a combined problem that matters here. -/
structure MaProblem where
  init : State
  goal : List Lit
deriving DecidableEq

/-- The two data sets. -/
inductive Folder where
  | regular | enhanced
deriving DecidableEq

/-- The kinds of files. -/
inductive Kind where
  | problem | plan | trajectory
deriving DecidableEq

/-- A file; `stem` is the name of the folder of the problem. -/
structure Path where
  folder : Folder
  stem : String
  kind : Kind
deriving DecidableEq

/-- The content of a file. -/
inductive Content where
  | problem (p : MaProblem)
  | plan (p : List Joint)
  | trajectory (states : List State)
deriving DecidableEq

abbrev Disk := Path → Option Content

/-- A file replaced. -/
def put (d : Disk) (f : Folder) (s : String) (k : Kind) (c : Content) : Disk := fun q => if q = ⟨f, s, k⟩ then some c else d q

/-- The library: combining the problems of a folder, reading and checking its plan, and executing the plan of a file (the states after each joint action). -/
structure Library where
  combine : String → Except Err MaProblem
  convert : String → Except Err (List Joint)
  execute : MaProblem → List Joint → Except Err (List State)

/-- The random numbers for a problem: whether the dummy predicate is put into the goal, and those of `insertDummy`. -/
structure Random where
  coin : Bool
  pick : Nat → Nat
  draws : Nat → Draw

/-- ma_common_functions.py:15. -/
def dummyLit : Lit := ⟨"dummy-additional-predicate", [], true⟩

/-- Reading a plan file and executing it (lines 97-98, 99-100). -/
def exportTrajectory (L : Library) (P : MaProblem) (d : Disk) (f : Folder) (s : String) : Disk × Option Err :=
  match d ⟨f, s, .plan⟩ with
  | some (.plan q) =>
    match L.execute P q with
    | .error e => (d, some e)
    | .ok ts => (put d f s .trajectory (.trajectory ts), none)
  | _ => (d, some .valueError)

/-- Lines 65-100: one problem folder. The goal (line 84; ma_common_functions.py:30-42) and the plan (line 86) are changed after the exports of the regular data
set, and the regular trajectory is made with the changed problem. -/
def createOne (L : Library) (agents : List String) (r : Random) (d : Disk) (s : String) : Disk × Option Err :=
  match L.combine s with
  | .error e => (d, some e)
  | .ok P =>
    let d := put d .regular s .problem (.problem P)
    match L.convert s with
    | .error e => (d, some e)
    | .ok plan =>
      let d := put d .regular s .plan (.plan plan)
      let P' := if r.coin then { P with goal := P.goal ++ [dummyLit] } else P
      let d := put d .enhanced s .problem (.problem P')
      match insertDummy plan agents r.coin r.pick r.draws with
      | .error e => (d, some e)
      | .ok p =>
        let d := put d .enhanced s .plan (.plan p.1)
        match exportTrajectory L P' d .regular s with
        | (d, some e) => (d, some e)
        | (d, none) => exportTrajectory L P' d .enhanced s

/-- Lines 46-100 `create_domain_trajectories`, on the folders in the order of `glob`. (The domains, exported before, are left out.) -/
def createAll (L : Library) (agents : List String) (r : String → Random) : Disk → List String → Disk × Option Err
  | d, [] => (d, none)
  | d, s :: ss =>
    match createOne L agents (r s) d s with
    | (d, some e) => (d, some e)
    | (d, none) => createAll L agents r d ss

end MaDatasets
end Model

import Verif.Model.Cluster

/-! Model of the evaluation data of the folds:
`experiments/concurrent_execution/folder_creation_for_parallel_execution.py:95-135`,
`trajectory_creators/random_walk_trajectories_creator.py:170-199` and the reader `statistics/utils.py:52-64`.
Files are named by stem and kind, `C` are the contents of files; the domain file exists. A problem in a test directory has the
contents of the problem in the working directory, from where it has just been copied (distributed_k_fold_split.py:79-80). -/
namespace Model
namespace Evaluation
open Spec

/-- The exceptions. -/
inductive FileErr where
  | notADirectory | fileNotFound | creation
deriving DecidableEq

/-- The kinds of files: `.pddl`, `.solution`, `.trajectory`. -/
inductive Kind where
  | problem | solution | trajectory
deriving DecidableEq

/-- The files of a directory. -/
abbrev Dir (C : Type) := String → Kind → Option C

/-- An empty directory. -/
def Dir.empty {C : Type} : Dir C := fun _ _ => none

/-- Writing a file. -/
def Dir.write {C : Type} (d : Dir C) (p : String) (k : Kind) (c : C) : Dir C := fun q j => if q = p ∧ j = k then some c else d q j

/-- random_walk_trajectories_creator.py:183, 193, 196-197: the stem of the files of a random walk. -/
def randomName (p : String) : String := p ++ "_random_walk"

/-- `glob(f"{prefix}*.pddl")` as far as the stems are concerned (no wildcards in the prefix). -/
def matching (pre p : String) : Bool := pre.toList.isPrefixOf p.toList

/-- A walk on a problem (lines 187-191) and its export to a file (line 197); both can fail. -/
abbrev Walk (C : Type) := String → C → Except FileErr (C × Except FileErr C)

/-- random_walk_trajectories_creator.py:181-197: the loop over the problems of the test directory, with the directory it leaves and
the exception that ended it. -/
def randomLoop {C : Type} (work : Dir C) (walk : Walk C) : List String → Dir C → Dir C × Option FileErr
  | [], d => (d, none)
  | p :: ps, d =>
    if (d (randomName p) .trajectory).isSome then randomLoop work walk ps d
    else match work p .problem with
      | none => (d, some .fileNotFound)
      | some text =>
        match walk p text with
        | .error e => (d, some e)
        | .ok (plan, exported) =>
          let d' := (d.write (randomName p) .solution plan).write (randomName p) .problem text
          match exported with
          | .error e => (d', some e)
          | .ok t => randomLoop work walk ps (d'.write (randomName p) .trajectory t)

/-- `shutil.copy` of a file of the working directory. -/
def copyFile {C : Type} (work : Dir C) (p : String) (k : Kind) (d : Dir C) : Dir C × Option FileErr :=
  match work p k with
  | none => (d, some .fileNotFound)
  | some c => (d.write p k c, none)

/-- folder_creation_for_parallel_execution.py:128-131: the loop over the problems of the test directory. -/
def copyLoop {C : Type} (work : Dir C) : List String → Dir C → Dir C × Option FileErr
  | [], d => (d, none)
  | p :: ps, d =>
    match copyFile work p .problem d with
    | (d1, some e) => (d1, some e)
    | (d1, none) =>
      match copyFile work p .solution d1 with
      | (d2, some e) => (d2, some e)
      | (d2, none) =>
        match copyFile work p .trajectory d2 with
        | (d3, some e) => (d3, some e)
        | (d3, none) => copyLoop work ps d3

/-- folder_creation_for_parallel_execution.py:119-131: the files of a fold. `listing` are the stems of the `.pddl` files of the
directory in the order of `glob`, the copied domain among them. -/
def fillFold {C : Type} (work : Dir C) (walk : Walk C) (pre : String) (random : Bool) (listing : List String) (d : Dir C) :
    Dir C × Option FileErr :=
  let l := listing.filter (matching pre)
  match (if random then randomLoop work walk l d else (d, none)) with
  | (d1, some e) => (d1, some e)
  | (d1, none) => copyLoop work l d1

/-- What the creation uses: the files of the working directory, the walks of every fold, the order of `glob`. -/
structure Env (C : Type) where
  work : Dir C
  walk : Nat → Walk C
  order : Finset String → List String

/-- The stems of the `.pddl` files of a test directory. -/
def problemStems (s : Finset File) : Finset String := s.image File.stem

/-- folder_creation_for_parallel_execution.py:108-133: the folds from `fold` on; `evals f` is the directory
`performance_evaluation_trajectories/fold_{f}`. If the test directory of the fold is missing, the copy of the domain (line 118) is a
file of its name and line 133, or the parser of the domain, raises. -/
def folds {C : Type} (E : Env C) (domain pre : String) (random : Bool) (testDirOf : Nat → Option (Finset File)) :
    Nat → Nat → (Nat → Option (Dir C)) → (Nat → Option (Dir C)) × Option FileErr
  | _, 0, evals => (evals, none)
  | fold, n + 1, evals =>
    let d := (evals fold).getD Dir.empty
    match testDirOf fold with
    | none => (Function.update evals fold (some d), some .notADirectory)
    | some s =>
      let r := fillFold E.work (E.walk fold) pre random (E.order (insert domain (problemStems s))) d
      let evals' := Function.update evals fold (some r.1)
      match r.2 with
      | some e => (evals', some e)
      | none => folds E domain pre random testDirOf (fold + 1) n evals'

/-- folder_creation_for_parallel_execution.py:95-135 `create_random_performance_evaluation_trajectories`, on the directories
`disk`. -/
def create {C : Type} (E : Env C) (domain pre : String) (alg : Nat) (iters : Option (List Nat)) (random : Bool) (nSplit : Nat)
    (disk : Cluster.Disk) (evals : Nat → Option (Dir C)) : (Nat → Option (Dir C)) × Option FileErr :=
  folds E domain pre random
    (fun f => disk.test ("fold_".toList ++ Results.num f ++ '_' :: Results.num alg ++ (if iters.isSome then "_1".toList else []))) 0 nSplit evals

/-- statistics/utils.py:56-64: the observations for the listed problem files of a directory, as texts. -/
def readAll {C : Type} (d : Dir C) : List String → Except FileErr (List (C × C))
  | [] => .ok []
  | p :: ps =>
    match d p .problem, d p .trajectory with
    | some text, some t =>
      match readAll d ps with
      | .error e => .error e
      | .ok l => .ok ((text, t) :: l)
    | _, _ => .error .fileNotFound

end Evaluation
end Model

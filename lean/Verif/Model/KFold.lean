import Verif.Spec.Folds
import Verif.Py.Dict

/-!
Model of `utilities/k_fold_split.py` and of the fold construction of
`utilities/distributed_k_fold_split.py`. Index splits come from scikit-learn and the sample from
`random.sample`: both are parameters. Files are identified by stem and kind; all trajectories are
in one directory, so a stem names one trajectory. All copied files are assumed to exist.
-/
namespace Model
open Spec

/-- The two directories of `KFoldSplit`; `none`: the directory does not exist. -/
structure FoldDirs where
  train : Option (Finset File)
  test : Option (Finset File)
deriving DecidableEq

/-- k_fold_split.py:119-120 `mkdir(exist_ok=True)`: an existing directory keeps its content. -/
def mkdirKeep (d : Option (Finset File)) : Finset File := d.getD ∅

/-- k_fold_split.py:118-131 `create_directories_content`: `trajs` and `trainProblems` are zipped. -/
def createContent (fs : FoldDirs) (domain : String) (trainProblems testProblems trajs : List String) : FoldDirs :=
  let train0 := insert ⟨domain, .domain⟩ (mkdirKeep fs.train)
  let test := testProblems.foldl (fun acc p => insert ⟨p, .trajectory⟩ (insert ⟨p, .problem⟩ acc)) (mkdirKeep fs.test)
  let train := (trajs.zip trainProblems).foldl
    (fun acc tp => insert ⟨tp.2, .problem⟩ (insert ⟨tp.1, .trajectory⟩ acc)) train0
  ⟨some train, some test⟩

/-- k_fold_split.py:111-116 `remove_created_directories`. -/
def removeDirs (_ : FoldDirs) : FoldDirs := ⟨none, none⟩

/-- Python `[xs[i] for i in idx]`; the indices of a split are in range. -/
def pickAll (items : List String) (idx : List Nat) : List String := idx.filterMap (fun i => items[i]?)

/-- k_fold_split.py:170-172: the three lists of a fold. -/
def foldLists (items : List String) (s : Split) : List String × List String × List String :=
  (pickAll items s.train, pickAll items s.test,
   pickAll items ((List.range items.length).filter (fun i => !s.test.contains i)))

/-- The configuration: fold number to problems for training and for testing
(k_fold_split.py:178-181). -/
abbrev FoldConfig := List (Nat × (List String × List String))

/-- k_fold_split.py:145,167-187: the directories at every `yield`, and the configuration saved at
the end. `fs`: the directories before the first fold; `conf`: the configuration found in the
working directory (line 145), which is updated fold by fold, not replaced. -/
def foldsFromScratch (domain : String) (items : List String) :
    FoldDirs → FoldConfig → Nat → List Split → List FoldDirs × FoldConfig
  | _, conf, _, [] => ([], conf)
  | fs, conf, k, s :: ss =>
    let l := foldLists items s
    let here := createContent fs domain l.1 l.2.1 l.2.2
    let r := foldsFromScratch domain items (removeDirs here) (Py.dictSet conf k (l.1, l.2.1)) (k + 1) ss
    (here :: r.1, r.2)

/-- k_fold_split.py:146-156: the folds are read from the saved configuration. -/
def foldsFromConfig (domain : String) : FoldDirs → FoldConfig → List FoldDirs
  | _, [] => []
  | fs, (_, (tp, te)) :: conf =>
    let here := createContent fs domain tp te tp
    here :: foldsFromConfig domain (removeDirs here) conf

/-- k_fold_split.py:161 (and distributed_k_fold_split.py:109): the number of sampled items. -/
def itemsPerFold (maxItems total : Nat) : Nat := if 0 < maxItems ∧ maxItems ≤ total then maxItems else total

/-- distributed_k_fold_split.py:115-138: for one fold, the training directories made, keyed by
(number of used trajectories, triplets suffix), with their content; `none` when no internal
iterations are given. The algorithms only multiply the directories. -/
def distributedTrain (domain : String) (items : List String) (iters : Option (List Nat)) (s : Split) :
    List ((Option Nat × Bool) × Finset File) :=
  let trajs := (foldLists items s).2.2
  let content (l : List String) : Finset File :=
    l.foldl (fun acc t => insert ⟨t, .problem⟩ (insert ⟨t, .trajectory⟩ acc)) {⟨domain, .domain⟩}
  match iters with
  | none => [((none, false), content trajs)]
  | some its =>
    its.map (fun n => ((some n, false), content (trajs.take n))) ++
      (match its.getLast? with
       | none => []  -- an empty list of iterations is an `IndexError` here
       | some n => [((some n, true), content (trajs.take n))])

/-- distributed_k_fold_split.py:79-80,115: the test directory holds the test problems only. -/
def distributedTest (items : List String) (s : Split) : Finset File :=
  ((foldLists items s).2.1).foldl (fun acc p => insert ⟨p, .problem⟩ acc) ∅

end Model

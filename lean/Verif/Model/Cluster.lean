import Verif.Model.KFold
import Verif.Model.Results

/-! Model of the creation of the fold directories for the parallel experiments and of the jobs that use them:
`utilities/distributed_k_fold_split.py`, `experiments/concurrent_execution/folder_creation_for_parallel_execution.py:83-93`,
`experiments/cluster_scripts/{common,numeric_experiments_sbatch_runner,multi_agent_experiments_sbatch_runner}.py`, and the
directories the jobs read (`parallel_numeric_experiment_runner.py:244-266`,
`parallel_multi_agent_experiment_runner_with_triplets.py:123-140`, `planning_with_online_learning.py:188`).
Trajectories and problems are named by their stems; all copied files exist. -/
namespace Model
namespace Cluster
open Spec Results

/-- The directory name of a fold below `train`. distributed_k_fold_split.py:66-69. -/
def trainDir (fold alg : Nat) (sfx : Name) (it : Option Nat) : Name :=
  "fold_".toList ++ num fold ++ '_' :: num alg ++ sfx ++ (match it with | some i => '_' :: num i | none => [])

/-- The directory name of a fold below `test`: the suffix appears twice. distributed_k_fold_split.py:70-73. -/
def testDir (fold alg : Nat) (sfx : Name) (it : Option Nat) : Name :=
  "fold_".toList ++ num fold ++ '_' :: num alg ++ sfx ++ (match it with | some i => '_' :: num i ++ sfx | none => [])

/-- One call of `create_directories_content`: what is put into which directories. -/
structure Op where
  train : Name
  trainFiles : Finset File
  test : Name
  testFiles : Finset File

/-- The directories below `train` and `test`. -/
structure Disk where
  train : Name → Option (Finset File)
  test : Name → Option (Finset File)

/-- distributed_k_fold_split.py:49-55 `remove_created_directories`. -/
def Disk.empty : Disk := ⟨fun _ => none, fun _ => none⟩

/-- `mkdir(exist_ok=True)` and copying files into the directory. -/
def put (d : Name → Option (Finset File)) (n : Name) (fs : Finset File) : Name → Option (Finset File) :=
  fun m => if m = n then some ((d n).getD ∅ ∪ fs) else d m

/-- distributed_k_fold_split.py:74-86: the effect of a call. -/
def Disk.run (d : Disk) (o : Op) : Disk := ⟨put d.train o.train o.trainFiles, put d.test o.test o.testFiles⟩

/-- The domain, and every trajectory with its problem. -/
def trainContent (domain : String) (trajs : List String) : Finset File :=
  insert ⟨domain, .domain⟩ (trajs.toFinset.image (fun t => ⟨t, .trajectory⟩) ∪ trajs.toFinset.image (fun t => ⟨t, .problem⟩))

/-- The test problems. -/
def testContent (problems : List String) : Finset File := problems.toFinset.image fun p => ⟨p, .problem⟩

/-- distributed_k_fold_split.py:57-88 `create_directories_content`. -/
def content (domain : String) (test trajs : List String) (fold alg : Nat) (it : Option Nat) (sfx : Name) : Op :=
  ⟨trainDir fold alg sfx it, trainContent domain trajs, testDir fold alg sfx it, testContent test⟩

/-- distributed_k_fold_split.py:90-106 `_create_algorithms_directories`. -/
def algDirs (domain : String) (algs : List Nat) (test trajs : List String) (fold : Nat) (it : Option Nat) (sfx : Name) : List Op :=
  algs.map fun a => content domain test trajs fold a it sfx

/-- The saved training data of a fold: all trajectories, or the trajectories of every iteration. -/
inductive Training where
  | full (l : List String)
  | byIteration (l : List (Nat × List String))
deriving DecidableEq

/-- The saved settings of a fold. -/
structure FoldConf where
  train : Training
  test : List String
deriving DecidableEq

/-- `"_triplets"`. -/
def triplets : Name := "_triplets".toList

/-- distributed_k_fold_split.py:112-145: one fold; no iterations at all are an `IndexError` (line 134). The iterations are
without repetitions (they are the keys of a dictionary in the saved settings). -/
def scratchFold (domain : String) (items : List String) (algs : List Nat) (iters : Option (List Nat)) (fold : Nat) (s : Split) :
    Except Err (List Op × FoldConf) :=
  let l := foldLists items s
  match iters with
  | none => .ok (algDirs domain algs l.2.1 l.2.2 fold none [], ⟨.full l.2.2, l.2.1⟩)
  | some its =>
    match its.getLast? with
    | none => .error .indexError
    | some m => .ok (its.flatMap (fun n => algDirs domain algs l.2.1 (l.2.2.take n) fold (some n) []) ++
        algDirs domain algs l.2.1 (l.2.2.take m) fold (some m) triplets,
        ⟨.byIteration (its.map fun n => (n, l.2.2.take n)), l.2.1⟩)

/-- distributed_k_fold_split.py:108-147 `create_fold_from_scratch` on a sample `items` with the splits of scikit-learn. -/
def scratch (domain : String) (items : List String) (algs : List Nat) (iters : Option (List Nat)) :
    Nat → List Split → Except Err (List Op × List FoldConf)
  | _, [] => .ok ([], [])
  | fold, s :: ss =>
    match scratchFold domain items algs iters fold s with
    | .error e => .error e
    | .ok r =>
      match scratch domain items algs iters (fold + 1) ss with
      | .error e => .error e
      | .ok rs => .ok (r.1 ++ rs.1, r.2 :: rs.2)

/-- The largest iteration with its trajectories (distributed_k_fold_split.py:198-199). -/
def largest : List (Nat × List String) → Option (Nat × List String)
  | [] => none
  | p :: rest => match largest rest with
    | none => some p
    | some q => if q.1 ≤ p.1 then some p else some q

/-- distributed_k_fold_split.py:171-209: one saved fold. -/
def loadFold (domain : String) (algs : List Nat) (ignore trip : Bool) (fold : Nat) (c : FoldConf) : Except Err (List Op) :=
  match c.train with
  | .full l => .ok (algDirs domain algs c.test l fold none [])
  | .byIteration m =>
    let ops := m.flatMap fun p => algDirs domain algs c.test p.2 fold (if ignore then none else some p.1) []
    if trip then
      match largest m with
      | none => .error .valueError
      | some p => .ok (ops ++ algDirs domain algs c.test p.2 fold none triplets)
    else .ok ops

/-- distributed_k_fold_split.py:169-211: the saved folds. -/
def load (domain : String) (algs : List Nat) (ignore trip : Bool) : Nat → List FoldConf → Except Err (List Op)
  | _, [] => .ok []
  | fold, c :: cs =>
    match loadFold domain algs ignore trip fold c with
    | .error e => .error e
    | .ok r =>
      match load domain algs ignore trip (fold + 1) cs with
      | .error e => .error e
      | .ok rs => .ok (r ++ rs)

/-- folder_creation_for_parallel_execution.py:83-93, 146-155 `create_folds_from_cross_validation` with
distributed_k_fold_split.py:149-213 `create_k_fold`: the old directories are removed; saved settings are used if there are any. The
result: the directories and the saved settings. `create_internal_iterations` is `internal_iterations is not None`. -/
def createFolds (domain : String) (items : List String) (splits : List Split) (algs : List Nat) (iters : Option (List Nat)) (trip : Bool)
    (saved : List FoldConf) : Except Err (Disk × List FoldConf) :=
  if saved ≠ [] then
    match load domain algs iters.isNone trip 0 saved with
    | .error e => .error e
    | .ok ops => .ok (ops.foldl Disk.run .empty, saved)
  else
    match scratch domain items algs iters 0 splits with
    | .error e => .error e
    | .ok r => .ok (r.1.foldl Disk.run .empty, r.2)

/-! ### Jobs -/

/-- An option of a command line with its value (values are single words). -/
abbrev Arg := String × Name

/-- An experiment of the configuration file: the compared versions, and the other entries. -/
structure Experiment where
  versions : List Nat
  entries : List Arg

/-- common.py:110-118 `create_execution_arguments`. -/
def execArgs (e : Experiment) (fold version : Nat) : List Arg :=
  ("fold_number", num fold) :: ("learning_algorithm", num version) ::
    e.entries.filter fun p => p.1 != "compared_versions" && p.1 != "parallelization_data"

/-- numeric_experiments_sbatch_runner.py:35-57: the iterations. The argument is appended, the job is submitted until the queue
shows it (`attempts` submissions that it does not show), the argument is removed. -/
def iterLoop (attempts : Nat → Nat) : List Arg → List Nat → List (List Arg) × List Arg
  | args, [] => ([], args)
  | args, i :: is =>
    let a := args ++ [("iteration_number", num i)]
    let r := iterLoop attempts a.dropLast is
    (List.replicate (attempts i + 1) a ++ r.1, r.2)

/-- numeric_experiments_sbatch_runner.py:32-57: the versions of a fold; the name of the job needs an entry of
`learning_algorithms_map` (line 46), a missing one is a `KeyError`. The second result is the exception. -/
def numericVersions (known : List Nat) (e : Experiment) (its : List Nat) (attempts : Nat → Nat → Nat) (fold : Nat) :
    List Nat → List (List Arg) × Option Err
  | [] => ([], none)
  | v :: vs =>
    if v ∉ known ∧ its ≠ [] then ([], some .keyError)
    else
      let r := numericVersions known e its attempts fold vs
      ((iterLoop (attempts v) (execArgs e fold v) its).1 ++ r.1, r.2)

/-- numeric_experiments_sbatch_runner.py:30-59: the folds `range(num_folds)`, from `fold` on. -/
def numericFolds (known : List Nat) (e : Experiment) (its : List Nat) (attempts : Nat → Nat → Nat → Nat) :
    Nat → Nat → List (List Arg) × Option Err
  | _, 0 => ([], none)
  | fold, n + 1 =>
    match numericVersions known e its (attempts fold) fold e.versions with
    | (l, some err) => (l, some err)
    | (l, none) =>
      let r := numericFolds known e its attempts (fold + 1) n
      (l ++ r.1, r.2)

/-- multi_agent_experiments_sbatch_runner.py:38-80: the versions of a fold (versions in `learning_algorithms_map`): the iterations,
then one job over triplets, which is not checked. -/
def multiVersions (e : Experiment) (its : List Nat) (attempts : Nat → Nat → Nat) (fold : Nat) :
    List Nat → List (Bool × List Arg)
  | [] => []
  | v :: vs =>
    let r := iterLoop (attempts v) (execArgs e fold v) its
    r.1.map (fun a => (false, a)) ++ (true, r.2) :: multiVersions e its attempts fold vs

/-- What a script accepts (`argparse`): the options, which of them are required, and the algorithms. -/
structure Parser where
  accepted : List String
  required : List String
  algorithms : List Nat

/-- The value of an option: the last one given. -/
def valueOf (args : List Arg) (k : String) : Option Name := (args.reverse.lookup k)

/-- `parser.parse_args()`: unknown options, missing required ones and a wrong algorithm end the script. Abbreviated options are not
modelled. -/
def Parser.parse (P : Parser) (args : List Arg) : Option (String → Option Name) :=
  if (∀ a ∈ args, a.1 ∈ P.accepted) ∧ (∀ k ∈ P.required, k ∈ args.map Prod.fst) ∧
      (∀ v, valueOf args "learning_algorithm" = some v → v ∈ P.algorithms.map num) then some (valueOf args) else none

/-- parallel_numeric_experiment_runner.py:214-241. -/
def numericParser : Parser :=
  ⟨["working_directory_path", "domain_file_name", "learning_algorithm", "fluents_map_path", "polynom_degree", "problems_prefix",
    "fold_number", "iteration_number", "debug"],
    ["working_directory_path", "domain_file_name", "learning_algorithm", "fold_number", "iteration_number"], [3, 5, 15, 19, 20, 21]⟩

/-- parallel_multi_agent_experiment_runner.py:245-261. -/
def multiParser : Parser :=
  ⟨["working_directory_path", "domain_file_name", "learning_algorithm", "fold_number", "iteration_number", "debug", "executing_agents",
    "problems_prefix"],
    ["working_directory_path", "domain_file_name", "learning_algorithm", "fold_number", "iteration_number", "executing_agents"], [1, 7, 25]⟩

/-- parallel_multi_agent_experiment_runner_with_triplets.py:105-121. -/
def tripletsParser : Parser :=
  ⟨["working_directory_path", "domain_file_name", "learning_algorithm", "fold_number", "debug", "executing_agents", "problems_prefix"],
    ["working_directory_path", "domain_file_name", "learning_algorithm", "fold_number", "executing_agents"], [1, 7, 25]⟩

/-- folder_creation_for_parallel_execution.py:13-52 (the options only). -/
def folderParser : Parser :=
  ⟨["working_directory_path", "domain_file_name", "problem_prefix", "learning_algorithms", "internal_iterations", "triplets_experiment",
    "experiment_size", "no_random_trajectories", "num_splits"],
    ["working_directory_path", "domain_file_name", "problem_prefix", "learning_algorithms"], []⟩

/-- common.py:80-92: the command line of the job that creates the directories. -/
def folderArgs (dir domain prefixes algs iters size : Name) (createIters random : Bool) : List Arg :=
  [("working_directory_path", dir), ("domain_file_name", domain), ("learning_algorithms", algs),
    (if createIters then ("internal_iterations", iters) else ("ignore_internal_iterations", [])),
    ("problem_prefix", prefixes), ("experiment_size", size)] ++
    (if random then [] else [("no_random_trajectories", [])])

/-- The directory (below `train` and below `test`) a job reads: parallel_numeric_experiment_runner.py:263-264; over triplets:
parallel_multi_agent_experiment_runner_with_triplets.py:135-139. -/
def jobDir (p : String → Option Name) (overTriplets : Bool) : Name :=
  let v k := (p k).getD []
  "fold_".toList ++ v "fold_number" ++ '_' :: v "learning_algorithm" ++
    (if overTriplets then triplets else '_' :: v "iteration_number")

end Cluster
end Model

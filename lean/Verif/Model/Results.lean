import Verif.Model.Core
import Verif.Py.Dict

/-! Model of the result files of the experiments: their names, writing them
(`validators/safe_domain_validator.py`, `statistics/*`) and collecting them
(`experiments/concurrent_execution/{distributed,multi_agent_distributed,numeric_distributed}_results_collector.py`).
All files are in one results directory and are identified by their names. The `csv` module is assumed
to read back the cells it wrote; cells are strings. -/
namespace Model
namespace Results

/-- A file name. -/
abbrev Name := List Char
/-- A row as a Python dictionary. -/
abbrev Row := List (String × String)

/-- utilities/util_types.py:4-23 `LearningAlgorithmType`. -/
inductive Alg where
  | samLearning | esamLearning | numericSam | planMiner | maSam | conditionalSam | universalSam | noamLearning
  | informativeExplorer | goalOrientedExplorer | incrementalNsam | semiOnline | optimisticExplorer
  | informativeSvm | maSamPlus | naiveNsam | naivePolysam
deriving DecidableEq

/-- `learning_algorithm.name`. -/
def Alg.name : Alg → Name
  | .samLearning => "sam_learning".toList
  | .esamLearning => "esam_learning".toList
  | .numericSam => "numeric_sam".toList
  | .planMiner => "plan_miner".toList
  | .maSam => "ma_sam".toList
  | .conditionalSam => "conditional_sam".toList
  | .universalSam => "universal_sam".toList
  | .noamLearning => "noam_learning".toList
  | .informativeExplorer => "informative_explorer".toList
  | .goalOrientedExplorer => "goal_oriented_explorer".toList
  | .incrementalNsam => "incremental_nsam".toList
  | .semiOnline => "semi_online".toList
  | .optimisticExplorer => "optimistic_explorer".toList
  | .informativeSvm => "informative_svm".toList
  | .maSamPlus => "ma_sam_plus".toList
  | .naiveNsam => "naive_nsam".toList
  | .naivePolysam => "naive_polysam".toList

/-- The four kinds of result files. -/
inductive Kind where
  | solving | semantic | syntactic | numeric
deriving DecidableEq

/-- Python `str` of a number. -/
def num (n : Nat) : Name := Nat.toDigits 10 n

/-- The file a run writes; `it = none`: no iteration number is given.
safe_domain_validator.py:354-358; semantic_performance_calculator.py:317-321;
learning_statistics_manager.py:220-224 with the name of line 237;
numeric_performance_calculator.py:126-130. -/
def fileName (dom : Name) (k : Kind) (alg : Alg) (fold : Nat) (it : Option Nat) : Name :=
  match k with
  | .solving => alg.name ++ "_problem_solving_stats_fold_".toList ++ num fold ++
      (match it with | some i => '_' :: num i ++ "_trajectories".toList | none => []) ++ ".csv".toList
  | .semantic => alg.name ++ '_' :: dom ++ '_' :: num fold ++ '_' ::
      (match it with | some i => num i | none => []) ++ "_semantic_performance.csv".toList
  | .syntactic => alg.name ++ '_' :: dom ++ '_' :: "action_stats_fold".toList ++ '_' :: num fold ++
      (match it with | some i => '_' :: num i | none => []) ++ ".csv".toList
  | .numeric => alg.name ++ '_' :: dom ++ "_numeric_learning_performance_stats_fold_".toList ++ num fold ++
      (match it with | some i => '_' :: num i | none => []) ++ ".csv".toList

/-- The file a collector reads. distributed_results_collector.py:93-97, 113-117, 140-144, 165-169. A
template without `{iteration}` ignores the iteration, whether or not `format` is given one (71-75). -/
def template (dom : Name) (k : Kind) (triplets : Bool) (alg : Alg) (fold it : Nat) : Name :=
  match k, triplets with
  | .solving, false => alg.name ++ "_problem_solving_stats_fold_".toList ++ num fold ++ '_' :: num it ++ "_trajectories.csv".toList
  | .solving, true => alg.name ++ "_problem_solving_stats_fold_".toList ++ num fold ++ ".csv".toList
  | .semantic, false => alg.name ++ '_' :: dom ++ '_' :: num fold ++ '_' :: num it ++ "_semantic_performance.csv".toList
  | .semantic, true => alg.name ++ '_' :: dom ++ '_' :: num fold ++ "_semantic_performance.csv".toList
  | .syntactic, false => alg.name ++ '_' :: dom ++ "_action_stats_fold_".toList ++ num fold ++ '_' :: num it ++ ".csv".toList
  | .syntactic, true => alg.name ++ '_' :: dom ++ "_action_stats_fold_".toList ++ num fold ++ ".csv".toList
  | .numeric, false => alg.name ++ '_' :: dom ++ "_numeric_learning_performance_stats_fold_".toList ++ num fold ++ '_' :: num it ++ ".csv".toList
  | .numeric, true => alg.name ++ '_' :: dom ++ "_numeric_learning_performance_stats_fold_".toList ++ num fold ++ ".csv".toList

/-- The combined file. distributed_results_collector.py:87-91, 108-112, 134-138, 159-163. -/
def combinedName (k : Kind) (triplets : Bool) : Name :=
  (match k with
    | .solving => "solving_combined_statistics".toList
    | .semantic => "semantic_performance_combined_statistics".toList
    | .syntactic => "syntactic_performance_combined_statistics".toList
    | .numeric => "numeric_performance_combined_statistics".toList) ++
  (if triplets then "_with_triplets.csv".toList else ".csv".toList)

/-- A CSV file: the header and the cells. -/
structure Table where
  fields : List String
  cells : List (List String)

/-- `csv.DictReader`. -/
def Table.read (t : Table) : List Row := t.cells.map fun r => t.fields.zip r

/-- The results directory. -/
abbrev Dir := Name → Option Table

/-- Opening for writing replaces the file. -/
def Dir.put (d : Dir) (n : Name) (t : Table) : Dir := fun m => if m = n then some t else d m

/-- What can go wrong. -/
inductive IOErr where
  | fileNotFound
  | extraField
deriving DecidableEq

/-- `csv.DictWriter.writerow`: a missing key is written as the empty cell, an extra one raises. -/
def fits (fields : List String) (r : Row) : Bool := r.all fun p => fields.contains p.1

/-- `writeheader` and `writerows`: the file, and the exception if a row has an extra key; the rows before
it have been written. -/
def writeTable (fields : List String) (rows : List Row) : Table × Option IOErr :=
  (⟨fields, (rows.takeWhile (fits fields)).map fun r => fields.map fun f => (r.lookup f).getD ""⟩,
    if rows.all (fits fields) then none else some .extraField)

/-- What a run exports: rows of one kind. -/
structure Job where
  kind : Kind
  alg : Alg
  fold : Nat
  it : Option Nat
  table : Table

/-- A run's export. -/
def Dir.export (dom : Name) (d : Dir) (j : Job) : Dir := d.put (fileName dom j.kind j.alg j.fold j.it) j.table

/-- The parameters of the collector. -/
structure Config where
  algs : List Alg
  folds : Nat
  iters : List Nat

/-- distributed_results_collector.py:76-78: the rows of one file, `{FOLD_FIELD: fold, **row}`. -/
def readOne (d : Dir) (n : Name) (fold : Nat) : Except IOErr (List Row) :=
  match d n with
  | none => .error .fileNotFound
  | some t => .ok (t.read.map fun r => Py.dictOf (("fold", String.ofList (num fold)) :: r))

/-- distributed_results_collector.py:63-67. -/
def Config.algsWithout (c : Config) (exclude : Option Alg) : List Alg :=
  match exclude with
  | none => c.algs
  | some e => c.algs.filter (fun a => decide (a ≠ e))

/-- distributed_results_collector.py:48-78 `_combine_statistics_data`. -/
def combine (dom : Name) (c : Config) (k : Kind) (triplets : Bool) (exclude : Option Alg) (d : Dir) : Except IOErr (List Row) := do
  let rows ← (List.range c.folds).mapM fun f => c.iters.mapM fun i => (c.algsWithout exclude).mapM fun a =>
    readOne d (template dom k triplets a f i) f
  .ok rows.flatten.flatten.flatten

/-- distributed_results_collector.py:80-176: one `_collect_...`. `columns`: the columns of the kind. If it
raises while reading, nothing is written. -/
def collect (dom : Name) (columns : Kind → List String) (c : Config) (k : Kind) (triplets : Bool) (exclude : Option Alg) (d : Dir) :
    Dir × Option IOErr :=
  match combine dom c k triplets exclude d with
  | .error e => (d, some e)
  | .ok rows =>
    let w := writeTable ("fold" :: columns k) rows
    (d.put (combinedName k triplets) w.1, w.2)

/-- Steps one after the other; an exception ends it. -/
def steps (s : List (Dir → Dir × Option IOErr)) (d : Dir) : Dir × Option IOErr :=
  match s with
  | [] => (d, none)
  | f :: s =>
    match f d with
    | (d', none) => steps s d'
    | (d', some e) => (d', some e)

/-- multi_agent_distributed_results_collector.py:37-58 `collect_multi_agent_statistics`, without the
plots of lines 52-57. -/
def collectMultiAgent (dom : Name) (columns : Kind → List String) (c : Config) : Dir → Dir × Option IOErr :=
  steps [collect dom columns c .solving false none, collect dom columns c .solving true none,
    collect dom columns c .semantic false (some .maSamPlus), collect dom columns c .semantic true (some .maSamPlus),
    collect dom columns c .syntactic false (some .maSamPlus), collect dom columns c .syntactic true (some .maSamPlus)]

/-- numeric_distributed_results_collector.py:37-45 `collect_numeric_statistics`, without the plots. -/
def collectNumeric (dom : Name) (columns : Kind → List String) (c : Config) : Dir → Dir × Option IOErr :=
  steps [collect dom columns c .solving false none, collect dom columns c .syntactic false none,
    collect dom columns c .numeric false none]

/-- numeric_distributed_results_collector.py:47-54 `collect_numeric_statistics_with_triplets_statistics`, without the plots; the
syntactic statistics are those of the trajectories (line 53). -/
def collectNumericTriplets (dom : Name) (columns : Kind → List String) (c : Config) : Dir → Dir × Option IOErr :=
  steps [collect dom columns c .solving true none, collect dom columns c .syntactic false none,
    collect dom columns c .numeric true none]

end Results
end Model

import Verif.Model.Results
import Mathlib.Data.List.Sort

/-! Model of `experiments/concurrent_execution/online_learning_results_collector.py`. Of the columns of a statistics file only those
the collector uses are kept; the plots are left out. -/
namespace Model
namespace OnlineResults
open Model.Results

/-- A row of an exploration statistics file (episode_info_recorder.py:167-181): the columns used. -/
structure Rec where
  episode : Nat
  alg : Alg
  safe : String
  optimistic : String
  goal : Bool
deriving DecidableEq

/-- A row with the added columns. -/
structure Out where
  row : Rec
  fold : Nat
  optimisticNotApplicable : Bool
  safeSolved : Bool
  optimisticSolved : Bool
  notSolved : Bool
  aggregatedSuccess : Bool
  aggregatedSuccessSolver : Bool
deriving DecidableEq

/-- online_learning_results_collector.py:23-32. -/
def derive (fold : Nat) (r : Rec) : Out :=
  let na := r.optimistic == "not_applicable"
  let safe := r.safe == "ok"
  let opt := (r.optimistic == "ok" || r.goal) && !safe
  { row := r, fold := fold, optimisticNotApplicable := na, safeSolved := safe, optimisticSolved := opt,
    notSolved := !na && !safe && !opt, aggregatedSuccess := opt || safe || r.goal, aggregatedSuccessSolver := opt || safe }

/-- Python comparison of strings: by the first character that differs. -/
def strLe : Name → Name → Bool
  | [], _ => true
  | _ :: _, [] => false
  | a :: x, b :: y => if a = b then strLe x y else decide (a.toNat < b.toNat)

/-- `glob` with one `*` between two literals. -/
def glob (pre suf n : Name) : Bool := pre.isPrefixOf n && suf.isSuffixOf n && decide (pre.length + suf.length ≤ n.length)

/-- `sorted(glob(...))` of a directory: `files` lists it, names with contents. -/
def sortedGlob {α : Type} (pre suf : Name) (files : List (Name × α)) : List (Name × α) :=
  (files.filter fun p => glob pre suf p.1).insertionSort fun p q => strLe p.1 q.1 = true

/-- planning_with_online_learning.py:235-239: the file with the statistics of a fold. -/
def exploreName (alg : Alg) (fold : Nat) : Name := alg.name ++ "_exploration_statistics_fold_".toList ++ num fold ++ ".csv".toList

/-- online_learning_results_collector.py:12-36 `export_unified_statistics_to_csv`; `pd.concat([])` raises `ValueError`. -/
def unify (alg : Alg) (files : List (Name × List Rec)) : Except Err (List Out) :=
  let fs := sortedGlob (alg.name ++ "_exploration_statistics_fold_".toList) ".csv".toList files
  if fs = [] then .error .valueError
  else .ok (fs.zipIdx.flatMap fun p => p.1.2.map (derive p.2))

/-- online_learning_results_collector.py:43-52: the statistics of all algorithms. -/
def unifyAll (algs : List Alg) (files : List (Name × List Rec)) : Except Err (List Out) := do
  let dfs ← algs.mapM fun a => unify a files
  if dfs = [] then .error .valueError else .ok dfs.flatten

/-- online_learning_results_collector.py:53-57: a cell of `aggregated_success_by_algorithm.csv`; `none`: empty. -/
def pivot (rows : List Out) (episode : Nat) (alg : Alg) : Option Rat :=
  let sel := rows.filter fun o => decide (o.row.episode = episode ∧ o.row.alg = alg)
  if sel = [] then none else some ((sel.countP Out.aggregatedSuccess : Nat) / (sel.length : Nat) : Rat)

/-- online_learning_results_collector.py:78-94 `collect_test_set_solving_statistics`: rows `α` with the label of their file. -/
def collectSolving {α : Type} (alg : Alg) (files : List (Name × List α)) : Except Err (List (α × Nat)) :=
  let fs := sortedGlob (alg.name ++ "_problem_solving_stats_fold_".toList) ".csv".toList files
  if fs.isEmpty then .error .valueError
  else .ok (fs.zipIdx.flatMap fun p => p.1.2.map (·, p.2))

end OnlineResults
end Model

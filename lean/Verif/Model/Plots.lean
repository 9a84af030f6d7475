import Verif.Model.OnlineResults
import Mathlib.Analysis.Real.Sqrt
import Mathlib.Data.List.Dedup

/-! Model of the plots: `experiments/plotting/plot_online_learning_results.py`, `plot_nsam_results.py`, `plot_nsam_solo_results.py`, `plot_masam_results.py`, and of
the collectors with their plots. Colours, fonts and axes are left out; means are exact. -/
namespace Model
namespace Plots
open Model.Results Model.OnlineResults

/-! ### Online learning -/

/-- The numbers of the episodes, ascending (`groupby` sorts the keys). -/
def episodes (rows : List Out) : List Nat := (rows.map fun o => o.row.episode).dedup.insertionSort (· ≤ ·)

/-- plot_online_learning_results.py:18: the mean of a column over the rows of an episode. -/
def share (f : Out → Bool) (rows : List Out) (e : Nat) : ℚ :=
  let sel := rows.filter fun o => o.row.episode == e
  (sel.countP f : ℚ) / sel.length

/-- `mean` of a list. -/
def mean (l : List ℚ) : ℚ := l.sum / l.length

/-- plot_online_learning_results.py:19 `rolling(window=5, min_periods=1, center=True).mean()` at a position: the values from two positions before to two after it,
as far as there are any. -/
def smooth (l : List ℚ) (i : Nat) : ℚ := mean ((l.drop (i - 2)).take (i + 3 - (i - 2)))

/-- The height of the layer of a column at a position. -/
def height (f : Out → Bool) (rows : List Out) (i : Nat) : ℚ := smooth ((episodes rows).map (share f rows)) i

/-- plot_online_learning_results.py:23-27: the four layers from below. -/
def layers : List (Out → Bool) := [Out.notSolved, Out.optimisticNotApplicable, Out.optimisticSolved, Out.safeSolved]

/-- plot_online_learning_results.py:37-50: the borders between the layers. -/
def borders (rows : List Out) (i : Nat) : List ℚ :=
  (layers.dropLast.foldl (fun (s : List ℚ × ℚ) f => (s.1 ++ [s.2 + height f rows i], s.2 + height f rows i)) ([], 0)).1

/-! ### Offline learning -/

/-- A row of the combined solving statistics: the columns the plots use. `size`: the number of trajectories, or of triplets. -/
structure Solved where
  alg : Alg
  policy : String
  size : Nat
  ok : ℚ
deriving DecidableEq

/-- `std` squared: the sample variance; `none` (NaN) for a single row. -/
def variance (l : List ℚ) : Option ℚ :=
  if l.length < 2 then none else some ((l.map fun x => (x - mean l) ^ 2).sum / ((l.length : ℚ) - 1))

/-- A point: the size, the mean, the variance. -/
structure Point where
  size : Nat
  avg : ℚ
  var : Option ℚ
deriving DecidableEq

/-- The percentages of the rows of an algorithm with a size. -/
def values (rows : List Solved) (a : Alg) (n : Nat) : List ℚ :=
  (rows.filter fun r => decide (r.alg = a ∧ r.size = n)).map Solved.ok

/-- plot_nsam_results.py:27-28, 45: `groupby` sorts by the size first; the rows of an algorithm are its points with ascending sizes. -/
def curve (rows : List Solved) (a : Alg) : List Point :=
  (((rows.filter fun r => decide (r.alg = a)).map Solved.size).dedup.insertionSort (· ≤ ·)).map fun n =>
    ⟨n, mean (values rows a n), variance (values rows a n)⟩

/-- plot_nsam_results.py:59-64: the shaded band, `np.clip(avg ± std, 0, 100)`; nothing is drawn for NaN. -/
noncomputable def Point.band (p : Point) : Option (ℝ × ℝ) :=
  p.var.map fun v => (max 0 (min 100 ((p.avg : ℝ) - Real.sqrt (v : ℝ))), max 0 (min 100 ((p.avg : ℝ) + Real.sqrt (v : ℝ))))

/-- `unique()`: in the order of the first occurrences. -/
def unique (l : List Alg) : List Alg := l.reverse.dedup.reverse

/-- plot_nsam_results.py:29-33. -/
def nsamLabel : Alg → Option String
  | .numericSam => some "NSAM*"
  | .naiveNsam => some "NSAM"
  | .planMiner => some "Plan Miner"
  | _ => none

/-- A figure: the curves with the algorithms, and the legend: a text and the algorithm whose curve is shown with it. -/
structure Figure where
  curves : List (Alg × List Point)
  legend : List (String × Alg)
deriving DecidableEq

/-- `handles[idx] for idx in ...`. -/
def handle (l : List Alg) (i : Nat) : Except Err Alg :=
  match l[i]? with
  | some a => .ok a
  | none => .error .indexError

/-- `labels[algo]`. -/
def nsamText (a : Alg) : Except Err String :=
  match nsamLabel a with
  | some t => .ok t
  | none => .error .keyError

/-- plot_nsam_results.py:12-111 for one file: `max` of no rows raises; then the curves with their labels; then the legend in the order 0, 2, 1. -/
def plotNsam (rows : List Solved) : Except Err Figure :=
  let df := rows.filter fun r => decide (r.alg ≠ .incrementalNsam)
  let algs := unique (df.map Solved.alg)
  if df = [] then .error .valueError
  else do
    let _ ← algs.mapM nsamText
    let hs ← [0, 2, 1].mapM (handle algs)
    let ts ← hs.mapM nsamText
    .ok ⟨algs.map fun a => (a, curve df a), ts.zip hs⟩

/-- plot_nsam_solo_results.py:12-68 for one file: the legend is in the order of the curves. No algorithm is called `naive_nsam_no_dependency_removal`. -/
def plotSolo (rows : List Solved) : Except Err Figure :=
  let df := rows.filter fun r => decide (r.alg ≠ .incrementalNsam)
  let algs := unique (df.map Solved.alg)
  do
    let ts ← algs.mapM nsamText
    .ok ⟨algs.map fun a => (a, curve df a), ts.zip algs⟩

/-- plot_masam_results.py:27-28. -/
def maName : Alg → Name
  | .samLearning => "SAM".toList
  | .maSam => "MA-SAM".toList
  | .maSamPlus => "MA-SAM+".toList
  | a => a.name

/-- plot_masam_results.py:42-43: the algorithms by their names (`groupby` sorts). -/
def maAlgs (rows : List Solved) : List Alg :=
  (rows.map Solved.alg).dedup.insertionSort fun a b => strLe (maName a) (maName b) = true

/-- plot_masam_results.py:16-104: the rows with the policy `no_remove`; the legend takes the curves 2, 0 and 1 and gives them fixed names. -/
def plotMasam (rows : List Solved) : Except Err Figure :=
  let df := rows.filter fun r => decide (r.policy = "no_remove")
  do
    let hs ← [2, 0, 1].mapM (handle (maAlgs df))
    .ok ⟨(maAlgs df).map fun a => (a, curve df a), ["SAM", "MA-SAM", "MA-SAM+"].zip hs⟩

/-- What can go wrong in a collector. -/
inductive CollErr where
  | io (e : IOErr)
  | py (e : Err)
deriving DecidableEq

/-- A step that collects. -/
def collecting (f : Dir → Dir × Option IOErr) : Dir → Dir × Option CollErr := fun d => ((f d).1, (f d).2.map .io)

/-- A step that plots a combined file; `read` is `pd.read_csv`. The figures are not among the files of the model. -/
def plotting (read : Table → List Solved) (n : Name) (plot : List Solved → Except Err Figure) : Dir → Dir × Option CollErr := fun d =>
  match d n with
  | none => (d, none)
  | some t => match plot (read t) with
    | .ok _ => (d, none)
    | .error e => (d, some (.py e))

/-- One after the other; an exception ends it. -/
def inOrder : List (Dir → Dir × Option CollErr) → Dir → Dir × Option CollErr
  | [], d => (d, none)
  | f :: s, d =>
    match f d with
    | (d', none) => inOrder s d'
    | (d', some e) => (d', some e)

/-- numeric_distributed_results_collector.py:37-45 with the plots. The plots glob for `*solving_combined_statistics.csv`; the combined file is the only one. -/
def numericWithPlots (read : Table → List Solved) (dom : Name) (columns : Results.Kind → List String) (c : Config) : Dir → Dir × Option CollErr :=
  inOrder [collecting (collect dom columns c .solving false none), plotting read (combinedName .solving false) plotNsam,
    plotting read (combinedName .solving false) plotSolo, collecting (collect dom columns c .syntactic false none),
    collecting (collect dom columns c .numeric false none)]

end Plots
end Model

import Verif.Model.Cluster
import Verif.Spec.Validation

/-! What a job of the parallel experiments is meant to report: a function of the files that were there before any job
started. Nothing here mentions the order in which things happen. -/
namespace Spec
namespace Jobs
open Model.Results (Alg Kind Name num fileName)
open Model.Cluster (trainDir testDir)

/-- The content of a file. -/
abbrev Text := List Char

/-- The planners. -/
inductive Planner where
  | fastDownward | metricFF | enhsp
deriving DecidableEq

/-- A file below the working directory of the experiment. -/
inductive Path where
  | work (f : Name)
  | evaluation (fold : Nat) (f : Name)
  | train (dir f : Name)
  | test (dir f : Name)
  | result (f : Name)
  | backup (f : Name)
deriving DecidableEq

/-- The files. -/
abbrev Disk := Path → Option Text

/-- One run of a planner: a plan, or an outcome and what it left in the solution file. -/
inductive Run where
  | solved (plan : Text)
  | failed (o : Outcome) (output : Option Text)

/-- What a learner returns: the text of the domain, the number of observations, and its report. -/
structure Learned where
  domain : Text
  count : Nat
  report : Text

/-- What is recorded for a problem: the log of the validator on the plan found, or the outcome of the planners with the log of the
validator on the expert's plan. -/
inductive Event where
  | solved (p : Name) (log : Text)
  | failed (p : Name) (o : Outcome) (log : Text)

/-- The programs a job uses, as functions of the files they read. `none` is an exception. -/
structure World where
  /-- reading the evaluation trajectories of the fold and the domain -/
  init : (Name → Option Text) → Option Text → Bool
  /-- reading the training directory and learning -/
  learn : (Name → Option Text) → Option Learned
  /-- a planner on a domain and a problem; a failure is never the outcome `ok` -/
  plan : Planner → Option Text → Option Text → Run
  /-- VAL on a domain, a problem and a plan -/
  val : Option Text → Option Text → Option Text → Text
  /-- replacing the macro actions of a plan -/
  adapt : Learned → Text → Option Text
  /-- the semantic performance: evaluation trajectories, domain, learned domain -/
  semantic : (Name → Option Text) → Option Text → Option Text → Nat → Option Text
  /-- the text of a result file -/
  render : Kind → Learned → List Event → Text → Text

/-- The parts of an experiment all jobs share. -/
structure Experiment where
  domainFile : Name
  domainName : Name
  problemPrefix : Name
  abortSolving : Bool

/-- A job: an algorithm, a fold and an iteration; the machine it runs on and the order in which the file system lists its test
directory. -/
structure Job where
  alg : Alg
  fold : Nat
  it : Nat
  machine : Nat
  listing : List Name
  world : World

/-- The number of an algorithm. utilities/util_types.py:4-23. -/
def value : Alg → Nat
  | .samLearning => 1 | .esamLearning => 2 | .numericSam => 3 | .planMiner => 5 | .maSam => 7 | .conditionalSam => 9
  | .universalSam => 10 | .noamLearning => 14 | .informativeExplorer => 17 | .goalOrientedExplorer => 18
  | .incrementalNsam => 19 | .semiOnline => 20 | .optimisticExplorer => 21 | .informativeSvm => 22 | .maSamPlus => 25
  | .naiveNsam => 15 | .naivePolysam => 16

/-- The numeric algorithms. experiments_consts.py:6-12, statistics/utils.py:17-24. -/
def numeric : Alg → Bool
  | .numericSam | .planMiner | .naiveNsam | .naivePolysam | .incrementalNsam => true
  | _ => false

/-- The planners that are tried, in order. -/
def portfolio (a : Alg) : List Planner := if numeric a then [.metricFF, .enhsp] else [.fastDownward]

/-- The result files of a job. -/
def kinds (a : Alg) : List Kind :=
  if a = .maSamPlus then [.solving] else [.solving, if numeric a then .numeric else .semantic, .syntactic]

/-- The training and test directories of a job. -/
def Job.train (j : Job) : Name := trainDir j.fold (value j.alg) [] (some j.it)
def Job.test (j : Job) : Name := testDir j.fold (value j.alg) [] (some j.it)

/-- A result file of a job. -/
def Job.file (E : Experiment) (j : Job) (k : Kind) : Path := .result (fileName E.domainName k j.alg j.fold (some j.it))

/-- `"….solution"`. -/
def isSolution (f : Name) : Bool := ".solution".toList.isSuffixOf f

/-- The pattern of the problem files: the prefix and `.pddl`. -/
def isProblem (pre f : Name) : Bool := pre.isPrefixOf f && ".pddl".toList.isSuffixOf f && decide (pre.length + 5 ≤ f.length)

/-- The solution file of a problem. -/
def solutionOf (f : Name) : Name := f.dropLast.dropLast.dropLast.dropLast.dropLast ++ ".solution".toList

/-- The problems in the test directory. -/
def problems (E : Experiment) (j : Job) (d : Disk) : List Name :=
  j.listing.filter fun f => isProblem E.problemPrefix f && (d (.test j.test f)).isSome

/-- The first planner that solves a problem; otherwise the outcome of the last one. -/
def firstPlan (W : World) (domain problem : Option Text) : Outcome → List Planner → Except Outcome Text
  | o, [] => .error o
  | _, s :: rest =>
    match W.plan s domain problem with
    | .solved t => .ok t
    | .failed o _ => firstPlan W domain problem o rest

/-- What is recorded for a problem. -/
def evaluate (E : Experiment) (j : Job) (d : Disk) (L : Learned) (f : Name) : Option Event :=
  match firstPlan j.world (some L.domain) (d (.test j.test f)) .solverError (portfolio j.alg) with
  | .ok plan => (if j.alg = .maSamPlus then j.world.adapt L plan else some plan).map fun plan =>
      .solved f (j.world.val (d (.work E.domainFile)) (d (.test j.test f)) (some plan))
  | .error o => some (.failed f o (j.world.val (some L.domain) (d (.test j.test f)) (d (.work (solutionOf f)))))

/-- The semantic performance. -/
def performance (E : Experiment) (j : Job) (d : Disk) (L : Learned) : Option Text :=
  if j.alg = .maSamPlus then some []
  else j.world.semantic (fun f => d (.evaluation j.fold f)) (d (.work E.domainFile)) (some L.domain) L.count

/-- **What a job reports**, given the files: what it learned from its training directory, what is recorded for the problems of its
test directory, and the semantic performance; `none` if one of the programs raises. -/
def report (E : Experiment) (j : Job) (d : Disk) : Option (Learned × List Event × Text) := do
  guard (j.world.init (fun f => d (.evaluation j.fold f)) (d (.work E.domainFile)))
  let L ← j.world.learn fun f => d (.train j.train f)
  let events ← if E.abortSolving && decide (j.alg ≠ .maSamPlus) then some [] else (problems E j d).mapM (evaluate E j d L)
  let sem ← performance E j d L
  some (L, events, sem)

/-- The text of a result file. -/
def Job.text (j : Job) (k : Kind) (r : Learned × List Event × Text) : Text := j.world.render k r.1 r.2.1 r.2.2

end Jobs
end Spec

import Verif.Spec.Jobs

/-! Model of the jobs of the parallel experiments running at the same time on one working directory:
`parallel_basic_experiment_runner.py:219-307`, `parallel_multi_agent_experiment_runner.py:167-247`,
`validators/safe_domain_validator.py:110-117, 243-358`, `solvers/*.py`.

A job is a program with atomic steps. Every write is done character by character after the file has been emptied, so that
a job can be killed with a file partly written; a step that writes replaces the file by the longer prefix. Learners, planners, VAL
and the calculators are the programs of `World` (PlanMiner is not modelled). The logs of VAL and the SAS files have `uuid`
names and are left out. The results directory and the directory of the backups exist. -/
namespace Model
namespace Jobs
open Spec.Jobs
open Results (Alg Kind Name num fileName)

/-- The effect of a step on the files. -/
inductive Effect where
  | nothing
  | write (p : Path) (t : Text)
  | remove (p : Path)
  | clear (dir : Name)

/-- Writing a file. -/
def put (d : Disk) (p : Path) (t : Option Text) : Disk := fun q => if q = p then t else d q

/-- The files afterwards. `clear`: safe_domain_validator.py:110-117 `_clear_plans` (in one step). -/
def Effect.run (d : Disk) : Effect → Disk
  | .nothing => d
  | .write p t => put d p (some t)
  | .remove p => put d p none
  | .clear dir => fun q => match q with
    | .test dir' f => if dir' = dir && isSolution f then none else d q
    | _ => d q

/-- Where a job is. -/
inductive Pc where
  | init
  | learn
  | export
  | backup
  | list
  | next (ps : List Name)
  | launch (p : Name) (ps : List Name) (solvers : List Planner) (left : Nat)
  | running (p : Name) (ps : List Name) (s : Planner) (rest : List Planner) (left : Nat) (run : Run)
  | adapt (p : Name) (ps : List Name)
  | check (p : Name) (ps : List Name)
  | expert (p : Name) (ps : List Name) (o : Spec.Outcome)
  | clear
  | semantic
  | results (ks : List Kind)
  | done
  | raised
  | killed

/-- A write in progress: the file, its text, how much has been written. -/
structure Pending where
  path : Path
  text : Text
  written : Nat

/-- The memory of a job. `hit`: its planner has been killed by another job. -/
structure Local where
  pc : Pc
  pending : Option Pending
  learned : Learned
  events : List Event
  sem : Text
  hit : Bool

/-- A job that starts. -/
def Local.start : Local := ⟨.init, none, ⟨[], 0, []⟩, [], [], false⟩

/-- What a run writes into the solution file. -/
def output : Run → Option Text
  | .solved t => some t
  | .failed _ o => o

/-- The solution file of a problem in the test directory. safe_domain_validator.py:289; enhsp_solver.py:105; fast_downward_solver.py:63;
metric_ff_solver.py:111. -/
def solutionPath (j : Job) (p : Name) : Path := .test j.test (solutionOf p)

/-- The backup of the learned domain: named after the number of observations, not after the iteration.
parallel_basic_experiment_runner.py:174-187 (not a triplets experiment, the policy `no_remove`). -/
def backupPath (E : Experiment) (j : Job) (L : Learned) : Path :=
  .backup (j.alg.name ++ "_fold_".toList ++ num j.fold ++ '_' :: E.domainName ++ '_' :: num L.count ++
    "_trajectories_no_remove_policy.pddl".toList)

/-- Opening a file for writing. -/
def openFile (l : Local) (p : Path) (t : Text) : Local × Effect × Option Planner :=
  ({ l with pending := some ⟨p, t, 0⟩ }, .write p [], none)

/-- Starting a planner: the domain and the problem are read; its output goes to the solution file. -/
def launch (E : Experiment) (j : Job) (l : Local) (d : Disk) (p : Name) (ps : List Name) (s : Planner) (rest : List Planner) (left : Nat) :
    Local × Effect × Option Planner :=
  let run := j.world.plan s (d (.test j.test E.domainFile)) (d (.test j.test p))
  let l := { l with pc := .running p ps s rest left run, hit := false }
  match output run with
  | some t => openFile l (solutionPath j p) t
  | none => (l, .nothing, none)

/-- The end of a failed attempt: ENHSP is run again after an unknown error (enhsp_solver.py:123-126), Metric-FF removes its output
(metric_ff_solver.py:59-98); then the next planner of the portfolio, or the expert's plan (safe_domain_validator.py:276-318). -/
def failed (j : Job) (l : Local) (p : Name) (ps : List Name) (s : Planner) (rest : List Planner) (left : Nat) (o : Spec.Outcome) :
    Local × Effect :=
  if s = .enhsp ∧ o = .solverError ∧ 0 < left then ({ l with pc := .launch p ps (s :: rest) (left - 1), hit := false }, .nothing)
  else
    ({ l with pc := (if rest = [] then .expert p ps o else .launch p ps rest 3), hit := false },
      if s = .metricFF then .remove (solutionPath j p) else .nothing)

/-- The planners whose timeouts are handled by `pkill -f`: all processes of the planner on the machine are killed.
metric_ff_solver.py:56-60, enhsp_solver.py:47-53. -/
def pkill (s : Planner) (o : Spec.Outcome) : Option Planner :=
  if o = .timeout ∧ s ≠ .fastDownward then some s else none

/-- One step of a job: its memory, the effect on the files, and a planner that is killed on its machine. -/
def step (E : Experiment) (j : Job) (l : Local) (d : Disk) : Local × Effect × Option Planner :=
  match l.pending with
  | some ⟨p, t, k⟩ =>
    if k < t.length then ({ l with pending := some ⟨p, t, k + 1⟩ }, .write p (t.take (k + 1)), none)
    else ({ l with pending := none }, .nothing, none)
  | none =>
    match l.pc with
    -- parallel_basic_experiment_runner.py:268-269, parallel_multi_agent_experiment_runner.py:226
    | .init =>
      ({ l with pc := if j.world.init (fun f => d (.evaluation j.fold f)) (d (.work E.domainFile)) then .learn else .raised },
        .nothing, none)
    -- :239-247; :227-241
    | .learn =>
      match j.world.learn fun f => d (.train j.train f) with
      | none => ({ l with pc := .raised }, .nothing, none)
      | some L => ({ l with pc := .export, learned := L }, .nothing, none)
    -- :109-122
    | .export => openFile { l with pc := .backup } (.test j.test E.domainFile) l.learned.domain
    -- :182-187, 293-295
    | .backup =>
      match d (.test j.test E.domainFile) with
      | none => ({ l with pc := .raised }, .nothing, none)
      | some t =>
        openFile { l with pc := if E.abortSolving && decide (j.alg ≠ .maSamPlus) then .semantic else .list } (backupPath E j l.learned) t
    -- safe_domain_validator.py:271
    | .list => ({ l with pc := .next (problems E j d) }, .nothing, none)
    | .next [] => ({ l with pc := .clear }, .nothing, none)
    | .next (p :: ps) => ({ l with pc := .launch p ps (portfolio j.alg) 3 }, .nothing, none)
    -- :275-284
    | .launch _ _ [] _ => ({ l with pc := .raised }, .nothing, none)
    | .launch p ps (s :: rest) left => launch E j l d p ps s rest left
    | .running p ps s rest left run =>
      if l.hit then let r := failed j l p ps s rest left .solverError; (r.1, r.2, none)
      else match run with
        | .solved _ => ({ l with pc := .adapt p ps }, .nothing, none)
        | .failed o _ => let r := failed j l p ps s rest left o; (r.1, r.2, pkill s o)
    -- :220-241, 291-292
    | .adapt p ps =>
      if j.alg = .maSamPlus then
        match (d (solutionPath j p)).bind (j.world.adapt l.learned) with
        | none => ({ l with pc := .raised }, .nothing, none)
        | some t => openFile { l with pc := .check p ps } (solutionPath j p) t
      else ({ l with pc := .check p ps }, .nothing, none)
    -- :148-181
    | .check p ps =>
      ({ l with pc := .next ps, events := l.events ++ [.solved p (j.world.val (d (.work E.domainFile)) (d (.test j.test p))
        (d (solutionPath j p)))] }, .nothing, none)
    -- :119-146, 302-312
    | .expert p ps o =>
      ({ l with pc := .next ps, events := l.events ++ [.failed p o (j.world.val (d (.test j.test E.domainFile)) (d (.test j.test p))
        (d (.work (solutionOf p))))] }, .nothing, none)
    -- :340
    | .clear => ({ l with pc := .semantic }, .clear j.test, none)
    -- parallel_basic_experiment_runner.py:255-257, parallel_multi_agent_experiment_runner.py:197-199
    | .semantic =>
      if j.alg = .maSamPlus then ({ l with pc := .results (kinds j.alg), sem := [] }, .nothing, none)
      else
        match j.world.semantic (fun f => d (.evaluation j.fold f)) (d (.work E.domainFile)) (d (.test j.test E.domainFile)) l.learned.count with
        | none => ({ l with pc := .raised }, .nothing, none)
        | some s => ({ l with pc := .results (kinds j.alg), sem := s }, .nothing, none)
    -- parallel_basic_experiment_runner.py:271-273, parallel_multi_agent_experiment_runner.py:243-246
    | .results [] => ({ l with pc := .done }, .nothing, none)
    | .results (k :: ks) => openFile { l with pc := .results ks } (j.file E k) (j.world.render k l.learned l.events l.sem)
    | .done | .raised | .killed => (l, .nothing, none)

/-! ### Jobs at the same time -/

/-- All jobs and the files. -/
structure State (ι : Type) where
  disk : Disk
  locals : ι → Local

/-- What can happen: a job does a step, a job is killed (with its planner), a job that has ended is submitted again. -/
inductive Act (ι : Type) where
  | run (i : ι)
  | kill (i : ι)
  | submit (i : ι)

/-- Whether a job is waiting for the given planner. -/
def waits (s : Planner) (l : Local) : Bool :=
  match l.pc with
  | .running _ _ s' _ _ _ => decide (s' = s)
  | _ => false

/-- Whether a job has ended. -/
def ended (l : Local) : Bool :=
  match l.pc with
  | .done | .raised | .killed => true
  | _ => false

/-- `pkill -f` on the machine of job `i`. -/
def afterPkill {ι : Type} [DecidableEq ι] (jobs : ι → Job) (i : ι) (s : Option Planner) (ls : ι → Local) : ι → Local := fun k =>
  match s with
  | some s => if k ≠ i ∧ (jobs k).machine = (jobs i).machine ∧ waits s (ls k) then { ls k with hit := true, pending := none } else ls k
  | none => ls k

/-- One of the things that can happen. -/
def act {ι : Type} [DecidableEq ι] (E : Experiment) (jobs : ι → Job) (s : State ι) : Act ι → State ι
  | .run i =>
    let r := step E (jobs i) (s.locals i) s.disk
    ⟨r.2.1.run s.disk, afterPkill jobs i r.2.2 (Function.update s.locals i r.1)⟩
  | .kill i => if ended (s.locals i) then s else ⟨s.disk, Function.update s.locals i { s.locals i with pc := .killed, pending := none }⟩
  | .submit i => if ended (s.locals i) then ⟨s.disk, Function.update s.locals i .start⟩ else s

/-- A history. -/
def exec {ι : Type} [DecidableEq ι] (E : Experiment) (jobs : ι → Job) (d : Disk) (h : List (Act ι)) : State ι :=
  h.foldl (act E jobs) ⟨d, fun _ => .start⟩

end Jobs
end Model

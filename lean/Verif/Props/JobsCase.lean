import Verif.Props.Jobs

/-! C119: concrete experiments, and what goes wrong without the conditions. -/
namespace Props
namespace Jobs
namespace Case
open Spec.Jobs Model.Jobs
open Model.Results (Alg Kind Name num fileName)

/-- An experiment. -/
def E0 : Experiment := ⟨"d".toList, "m".toList, "p".toList, false⟩

/-- Text of a record. -/
def show' : Event → Text
  | .solved p log => p ++ log
  | .failed p _ log => '!' :: p ++ log

/-- Programs: the learner copies a file, the planners solve the problems but those with the text `u`; Metric-FF times out on those. -/
def w0 : World where
  init := fun _ _ => true
  learn := fun dir => (dir "t".toList).map fun t => ⟨'D' :: t, 1, []⟩
  plan := fun s _ prob =>
    if prob = some "u".toList then .failed (if s = .metricFF then .timeout else .noSolution) none
    else if s = .enhsp then .failed .noSolution none else .solved ['x', 'y']
  val := fun _ _ plan => if plan = some ['x', 'y'] then ['V'] else ['N']
  adapt := fun _ t => some ('a' :: t)
  semantic := fun _ _ dom _ => dom
  render := fun _ L evs sem => L.domain ++ evs.flatMap show' ++ sem

/-- The problem of the test directories. -/
def prob : Name := "p1.pddl".toList

/-- The files: training files `1`, `2` of the jobs, and their problems. -/
def disk (js : List (Job × Name × Text)) : Disk := fun p =>
  match p with
  | .train n f => if f = "t".toList then (js.find? fun x => decide (x.1.train = n)).map fun x => x.2.1 else none
  | .test n f => if f = prob then (js.find? fun x => decide (x.1.test = n)).map fun x => x.2.2 else none
  | _ => none

/-- Two jobs. -/
def jA : Job := ⟨.samLearning, 0, 1, 7, [prob], w0⟩
def jB : Job := ⟨.maSam, 0, 2, 7, [prob, "q.pddl".toList], w0⟩
def jobs : Bool → Job := fun b => if b then jB else jA
def d0 : Disk := disk [(jA, ['1'], ['o']), (jB, ['2'], ['u'])]

theorem setting : Setting E0 jobs where
  notProblem := by decide
  notSolution := by decide
  distinct := by decide
  quiet := by
    intro i k _ _ s hs hne
    have : portfolio (jobs i).alg = [.fastDownward] := by cases i <;> rfl
    rw [this, List.mem_singleton] at hs
    exact absurd hs hne

/-- Whether a job is done, killed. -/
def isDone (l : Local) : Bool := match l.pc with | .done => true | _ => false
theorem done_of {l : Local} (h : isDone l = true) : l.pc = .done := by
  unfold isDone at h
  split at h
  · assumption
  · cases h

/-- A history: both in turns, one is killed while it writes and submitted again. -/
def hist : List (Act Bool) :=
  ((List.replicate 30 [Act.run true, .run false]).flatten.take 45) ++ [.kill true, .run false, .submit true] ++
    (List.replicate 100 [Act.run true, .run false, .run true]).flatten

/-- Both finish with their reports. -/
example : ((exec E0 jobs d0 hist).locals true).pc = .done ∧ ((exec E0 jobs d0 hist).locals false).pc = .done := by
  constructor <;> exact done_of (by decide +kernel)

example : (exec E0 jobs d0 hist).disk (jA.file E0 .solving) = some "D1p1.pddlVD1".toList := by decide +kernel
example : (exec E0 jobs d0 hist).disk (jB.file E0 .solving) = some "D2!p1.pddlND2".toList := by decide +kernel

/-- The theorem says so too. -/
example : ∃ r, report E0 jA d0 = some r ∧ (exec E0 jobs d0 hist).disk (jA.file E0 .syntactic) = some (jA.text .syntactic r) := by
  obtain ⟨r, hr, hk⟩ := C119_finished setting d0 hist false (done_of (by decide +kernel))
  exact ⟨r, hr, hk .syntactic (by decide)⟩

example : (exec E0 jobs d0 hist).disk (.test jA.test "p1.solution".toList) = none :=
  C119_cleared setting d0 hist false (done_of (by decide +kernel)) (Or.inl rfl) _ (by decide)

/-- And a job that was killed can be submitted again. -/
example (h : List (Act Bool)) : ∃ n, (exec E0 jobs d0 (h ++ [.kill true, .submit true] ++ List.replicate n (.run true))).disk
    (jB.file E0 .solving) = some "D2!p1.pddlND2".toList := by
  obtain ⟨n, hn⟩ := C119_recovers setting d0 h true (r := (⟨['D', '2'], 1, []⟩, [.failed prob .noSolution ['N']], ['D', '2'])) rfl
  exact ⟨n, (hn .solving (by decide)).trans (by decide +kernel)⟩

/-- **A killed job leaves a beginning of its file**, which nothing marks as incomplete: when the job is killed while it writes. -/
theorem C119_killed_truncates : ∃ h, ((exec E0 jobs d0 h).locals false).pc = .killed ∧
    ∃ r, report E0 jA d0 = some r ∧ (exec E0 jobs d0 h).disk (jA.file E0 .solving) = some ((jA.text .solving r).take 2) ∧
      (jA.text .solving r).take 2 ≠ jA.text .solving r := by
  refine ⟨List.replicate 25 (.run false) ++ [.kill false], rfl, _, rfl, by decide +kernel, by decide +kernel⟩

/-! ### The same job twice -/

/-- The same job, submitted twice (the loop that submits jobs does so when the queue does not show a job at once). -/
def twice : Bool → Job := fun _ => jA

/-- **Two copies of a job disturb each other**: one removes the plan that the other is about to validate, and the finished job
reports that its plan is not valid. -/
theorem C119_same_job_unsafe : ∃ h, ((exec E0 twice d0 h).locals false).pc = .done ∧
    ∃ r, report E0 jA d0 = some r ∧ (exec E0 twice d0 h).disk (jA.file E0 .solving) ≠ some (jA.text .solving r) := by
  refine ⟨List.replicate 18 (.run false) ++ List.replicate 100 (.run true) ++ List.replicate 100 (.run false), done_of (by decide +kernel), _, rfl, ?_⟩
  decide +kernel

/-! ### Two numeric jobs on one machine -/

def nA : Job := ⟨.numericSam, 0, 1, 7, [prob], w0⟩
def nB : Job := ⟨.numericSam, 0, 2, 7, [prob], w0⟩
def numJobs : Bool → Job := fun b => if b then nB else nA
def d1 : Disk := disk [(nA, ['1'], ['o']), (nB, ['2'], ['u'])]

/-- **A timeout in one numeric job changes the results of another on the same machine**: all its planner processes are killed there.
The jobs are different, the finished job's report is not what it reports alone. -/
theorem C119_shared_machine_unsafe : (nA.alg, nA.fold, nA.it) ≠ (nB.alg, nB.fold, nB.it) ∧
    ∃ h, ((exec E0 numJobs d1 h).locals false).pc = .done ∧ ((exec E0 numJobs d1 h).locals true).pc = .done ∧
    ∃ r, report E0 nA d1 = some r ∧ (exec E0 numJobs d1 h).disk (nA.file E0 .solving) ≠ some (nA.text .solving r) := by
  refine ⟨by decide, List.replicate 14 (.run false) ++ List.replicate 100 (.run true) ++ List.replicate 100 (.run false), done_of (by decide +kernel), done_of (by decide +kernel), _, rfl, ?_⟩
  decide +kernel

/-- On different machines the theorem applies. -/
example : Setting E0 (fun b : Bool => if b then { nB with machine := 8 } else nA) where
  notProblem := by decide
  notSolution := by decide
  distinct := by decide
  quiet := by
    intro i k hik hm
    cases i <;> cases k <;> first | exact absurd rfl hik | exact absurd hm (by decide)

/-! ### Backups -/

def jC : Job := ⟨.samLearning, 0, 3, 7, [prob], w0⟩
def two : Bool → Job := fun b => if b then jC else jA
def d2 : Disk := disk [(jA, ['1'], ['o']), (jC, ['2'], ['o'])]

/-- Iterations that learned from as many observations share a file; another fold has its own. -/
example (L : Learned) : backupPath E0 jA L = backupPath E0 jC L ∧ backupPath E0 jA L ≠ backupPath E0 { jA with fold := 1 } L :=
  ⟨C119_backup_names.mpr ⟨by decide, by decide, rfl⟩, fun h => absurd (C119_backup_names.mp h).2.1 (by decide)⟩

/-- **Backups of the learned domains overwrite each other**: they are named after the number of observations, not the iteration, so
two iterations that found the same number of trajectories keep only one of the two domains. -/
theorem C119_backups_collide : ∃ h, ((exec E0 two d2 h).locals false).pc = .done ∧ ((exec E0 two d2 h).locals true).pc = .done ∧
    ∃ r r', report E0 jA d2 = some r ∧ report E0 jC d2 = some r' ∧ r.1.domain ≠ r'.1.domain ∧
      backupPath E0 jA r.1 = backupPath E0 jC r'.1 ∧ (exec E0 two d2 h).disk (backupPath E0 jA r.1) = some r'.1.domain := by
  refine ⟨List.replicate 100 (.run false) ++ List.replicate 100 (.run true), done_of (by decide +kernel), done_of (by decide +kernel), _, _, rfl, rfl, by decide, rfl, ?_⟩
  decide +kernel

end Case
end Jobs
end Props

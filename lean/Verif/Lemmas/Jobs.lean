import Verif.Model.Jobs
import Verif.Props.Cluster
import Verif.Props.Results

/-! Lemmas about the jobs of the parallel experiments: a job writes only its own files, and what it will report does not depend on
the others. -/
namespace Lemmas
namespace Jobs
open Spec.Jobs Model.Jobs
open Model.Results (Alg Kind Name num fileName)

variable {E : Experiment} {j : Job} {d0 d d' : Disk} {l : Local}

/-- The files that jobs write at all. -/
def writable (E : Experiment) : Path → Prop
  | .test _ f => f = E.domainFile ∨ isSolution f = true
  | .result _ => True
  | .backup _ => True
  | _ => False

/-- The files that a job writes. -/
def Owned (E : Experiment) (j : Job) : Path → Prop
  | .test dir f => dir = j.test ∧ (f = E.domainFile ∨ isSolution f = true)
  | .result f => ∃ k, f = fileName E.domainName k j.alg j.fold (some j.it)
  | .backup _ => True
  | _ => False

theorem Owned.writable {p : Path} (h : Owned E j p) : writable E p := by
  cases p <;> simp_all [Owned, Lemmas.Jobs.writable]

/-- All other files are as they were. -/
def Frame (E : Experiment) (d0 d : Disk) : Prop := ∀ p, ¬ writable E p → d p = d0 p

/-- The domain file is neither a problem nor a solution. -/
structure Names (E : Experiment) : Prop where
  notProblem : isProblem E.problemPrefix E.domainFile = false
  notSolution : isSolution E.domainFile = false

/-- The files an effect touches. -/
def touches : Effect → Path → Prop
  | .nothing, _ => False
  | .write q _, p => p = q
  | .remove q, p => p = q
  | .clear dir, p => ∃ f, p = .test dir f ∧ isSolution f = true

theorem run_other {e : Effect} {p : Path} (h : ¬ touches e p) : e.run d p = d p := by
  cases e with
  | nothing => rfl
  | write q t => exact if_neg h
  | remove q => exact if_neg h
  | clear dir =>
    cases p with
    | test dir' f =>
      refine if_neg fun hc => h ⟨f, ?_, ?_⟩
      · simp at hc; rw [hc.1]
      · simp at hc; exact hc.2
    | _ => rfl

theorem solution_suffix (p : Name) : isSolution (solutionOf p) = true := by
  unfold isSolution solutionOf
  rw [List.isSuffixOf_iff_suffix]
  exact List.suffix_append _ _

theorem problem_not_solution {pre f : Name} (h : isProblem pre f = true) : isSolution f = false := by
  by_contra hc
  rw [Bool.not_eq_false] at hc
  unfold isProblem at h
  unfold isSolution at hc
  simp only [Bool.and_eq_true, List.isSuffixOf_iff_suffix] at h hc
  obtain ⟨a, ha⟩ := h.1.2
  obtain ⟨b, hb⟩ := hc
  have h1 : f.getLast? = some 'l' := by rw [← ha, List.getLast?_append]; rfl
  have h2 : f.getLast? = some 'n' := by rw [← hb, List.getLast?_append]; rfl
  rw [h1] at h2
  exact absurd h2 (by decide)

theorem file_owned (k : Kind) : Owned E j (j.file E k) := ⟨k, rfl⟩

theorem solution_owned (p : Name) : Owned E j (solutionPath j p) := ⟨rfl, Or.inr (solution_suffix p)⟩

theorem domain_owned : Owned E j (.test j.test E.domainFile) := ⟨rfl, Or.inl rfl⟩

/-! ### What remains to be done -/

/-- The training directory and the start are fine. -/
def Core (E : Experiment) (j : Job) (d0 : Disk) (L : Learned) : Prop :=
  j.world.init (fun f => d0 (.evaluation j.fold f)) (d0 (.work E.domainFile)) = true ∧
    j.world.learn (fun f => d0 (.train j.train f)) = some L

/-- Whether the test problems are not solved. -/
def skips (E : Experiment) (j : Job) : Bool := E.abortSolving && decide (j.alg ≠ .maSamPlus)

/-- The end of the report. -/
def after (E : Experiment) (j : Job) (d0 : Disk) (L : Learned) (evs : List Event) : Option (Learned × List Event × Text) :=
  (performance E j d0 L).map fun s => (L, evs, s)

/-- The report from some problems on. -/
def restFrom (E : Experiment) (j : Job) (d0 : Disk) (L : Learned) (evs : List Event) (ps : List Name) : Option (Learned × List Event × Text) :=
  (ps.mapM (evaluate E j d0 L)).bind fun es => after E j d0 L (evs ++ es)

/-- The record of a plan. -/
def solvedEvent (E : Experiment) (j : Job) (d0 : Disk) (L : Learned) (p : Name) (plan : Text) : Option Event :=
  (if j.alg = .maSamPlus then j.world.adapt L plan else some plan).map fun plan =>
    .solved p (j.world.val (d0 (.work E.domainFile)) (d0 (.test j.test p)) (some plan))

/-- The record of a failure. -/
def failedEvent (j : Job) (d0 : Disk) (L : Learned) (p : Name) (o : Spec.Outcome) : Event :=
  .failed p o (j.world.val (some L.domain) (d0 (.test j.test p)) (d0 (.work (solutionOf p))))

/-- The record of a problem with some of the planners. -/
def evaluateWith (E : Experiment) (j : Job) (d0 : Disk) (L : Learned) (o : Spec.Outcome) (pf : List Planner) (p : Name) : Option Event :=
  match firstPlan j.world (some L.domain) (d0 (.test j.test p)) o pf with
  | .ok plan => solvedEvent E j d0 L p plan
  | .error o => some (failedEvent j d0 L p o)

theorem evaluate_eq (L : Learned) (p : Name) : evaluate E j d0 L p = evaluateWith E j d0 L .solverError (portfolio j.alg) p := rfl

theorem evaluateWith_solved {L : Learned} {o : Spec.Outcome} {s : Planner} {rest : List Planner} {p : Name} {t : Text}
    (h : j.world.plan s (some L.domain) (d0 (.test j.test p)) = .solved t) :
    evaluateWith E j d0 L o (s :: rest) p = solvedEvent E j d0 L p t := by
  unfold evaluateWith firstPlan
  rw [h]

theorem evaluateWith_failed {L : Learned} {o o' : Spec.Outcome} {s : Planner} {rest : List Planner} {p : Name} {t : Option Text}
    (h : j.world.plan s (some L.domain) (d0 (.test j.test p)) = .failed o' t) :
    evaluateWith E j d0 L o (s :: rest) p = evaluateWith E j d0 L o' rest p := by
  unfold evaluateWith
  rw [firstPlan, h]

theorem evaluateWith_any {L : Learned} (o o' : Spec.Outcome) {s : Planner} {rest : List Planner} {p : Name} :
    evaluateWith E j d0 L o (s :: rest) p = evaluateWith E j d0 L o' (s :: rest) p := rfl

theorem restFrom_nil (L : Learned) (evs : List Event) : restFrom E j d0 L evs [] = after E j d0 L evs := by
  unfold restFrom
  simp

theorem restFrom_cons (L : Learned) (evs : List Event) (p : Name) (ps : List Name) :
    restFrom E j d0 L evs (p :: ps) = (evaluate E j d0 L p).bind fun e => restFrom E j d0 L (evs ++ [e]) ps := by
  unfold restFrom
  rw [List.mapM_cons]
  simp only [Bind.bind, pure]
  cases evaluate E j d0 L p with
  | none => rfl
  | some e =>
    simp only [Option.bind_some]
    cases ps.mapM (evaluate E j d0 L) with
    | none => rfl
    | some es => simp

theorem report_core {L : Learned} (h : Core E j d0 L) :
    report E j d0 = if skips E j then after E j d0 L [] else restFrom E j d0 L [] (problems E j d0) := by
  unfold report skips
  rw [h.1, h.2]
  simp only [guard, if_true, Bind.bind, Option.bind, pure]
  by_cases hs : (E.abortSolving && decide (j.alg ≠ .maSamPlus)) = true
  · rw [if_pos hs, if_pos hs]
    unfold after
    cases performance E j d0 L <;> rfl
  · rw [if_neg hs, if_neg hs]
    unfold restFrom after
    cases (problems E j d0).mapM (evaluate E j d0 L) with
    | none => rfl
    | some es => cases performance E j d0 L <;> rfl

theorem report_init (h : j.world.init (fun f => d0 (.evaluation j.fold f)) (d0 (.work E.domainFile)) = false) : report E j d0 = none := by
  unfold report
  rw [h]
  rfl

theorem report_learn (h1 : j.world.init (fun f => d0 (.evaluation j.fold f)) (d0 (.work E.domainFile)) = true)
    (h2 : j.world.learn (fun f => d0 (.train j.train f)) = none) : report E j d0 = none := by
  unfold report
  rw [h1, h2]
  rfl

/-! ### The files a job relies on -/

theorem frame_work (h : Frame E d0 d) (f : Name) : d (.work f) = d0 (.work f) := h _ (fun h => h)
theorem frame_eval (h : Frame E d0 d) (n : Nat) (f : Name) : d (.evaluation n f) = d0 (.evaluation n f) := h _ (fun h => h)
theorem frame_train (h : Frame E d0 d) (n f : Name) : d (.train n f) = d0 (.train n f) := h _ (fun h => h)
theorem frame_problem (hn : Names E) (h : Frame E d0 d) (n : Name) {f : Name} (hf : isProblem E.problemPrefix f = true) :
    d (.test n f) = d0 (.test n f) := by
  refine h _ fun hw => ?_
  rcases hw with rfl | hw
  · rw [hn.notProblem] at hf; cases hf
  · rw [problem_not_solution hf] at hw; cases hw

theorem frame_problems (hn : Names E) (h : Frame E d0 d) : problems E j d = problems E j d0 := by
  unfold problems
  refine List.filter_congr fun f _ => ?_
  cases hf : isProblem E.problemPrefix f with
  | false => rfl
  | true => rw [frame_problem hn h _ hf]

/-- The content of a file when the write in progress is finished. -/
def settled (l : Local) (d : Disk) (p : Path) : Option Text :=
  match l.pending with
  | some q => if q.path = p then some q.text else d p
  | none => d p

/-- The learned domain is in the test directory. -/
def Dom (E : Experiment) (j : Job) (l : Local) (d : Disk) : Prop := settled l d (.test j.test E.domainFile) = some l.learned.domain

/-- All are problems. -/
def AllProblems (E : Experiment) (ps : List Name) : Prop := ∀ p ∈ ps, isProblem E.problemPrefix p = true

/-- The solutions have been removed (if any were made). -/
def Cleared (E : Experiment) (j : Job) (l : Local) (d : Disk) : Prop :=
  skips E j = false → ∀ f, isSolution f = true → settled l d (.test j.test f) = none

/-- What holds at each place of the program. -/
def At (E : Experiment) (j : Job) (d0 : Disk) (l : Local) (d : Disk) : Prop :=
  match l.pc with
  | .init => l.events = []
  | .learn => l.events = [] ∧ j.world.init (fun f => d0 (.evaluation j.fold f)) (d0 (.work E.domainFile)) = true
  | .export => l.events = [] ∧ Core E j d0 l.learned
  | .backup => l.events = [] ∧ Core E j d0 l.learned ∧ Dom E j l d
  | .list => l.events = [] ∧ Core E j d0 l.learned ∧ Dom E j l d ∧ skips E j = false
  | .next ps => Dom E j l d ∧ AllProblems E ps ∧ report E j d0 = restFrom E j d0 l.learned l.events ps
  | .launch p ps pf _ => Dom E j l d ∧ AllProblems E (p :: ps) ∧ (pf ≠ [] ∧ pf ⊆ portfolio j.alg) ∧
      report E j d0 = (evaluateWith E j d0 l.learned .solverError pf p).bind fun e => restFrom E j d0 l.learned (l.events ++ [e]) ps
  | .running p ps s rest _ run => Dom E j l d ∧ AllProblems E (p :: ps) ∧ (l.hit = false ∧ s :: rest ⊆ portfolio j.alg) ∧
      run = j.world.plan s (some l.learned.domain) (d0 (.test j.test p)) ∧
      (∀ t, run = .solved t → settled l d (solutionPath j p) = some t) ∧
      report E j d0 = (evaluateWith E j d0 l.learned .solverError (s :: rest) p).bind fun e =>
        restFrom E j d0 l.learned (l.events ++ [e]) ps
  | .adapt p ps => Dom E j l d ∧ AllProblems E (p :: ps) ∧ ∃ t, settled l d (solutionPath j p) = some t ∧
      report E j d0 = (solvedEvent E j d0 l.learned p t).bind fun e => restFrom E j d0 l.learned (l.events ++ [e]) ps
  | .check p ps => Dom E j l d ∧ AllProblems E (p :: ps) ∧ ∃ t, settled l d (solutionPath j p) = some t ∧
      report E j d0 = restFrom E j d0 l.learned
        (l.events ++ [.solved p (j.world.val (d0 (.work E.domainFile)) (d0 (.test j.test p)) (some t))]) ps
  | .expert p ps o => Dom E j l d ∧ AllProblems E (p :: ps) ∧
      report E j d0 = restFrom E j d0 l.learned (l.events ++ [failedEvent j d0 l.learned p o]) ps
  | .clear => Dom E j l d ∧ report E j d0 = after E j d0 l.learned l.events
  | .semantic => Dom E j l d ∧ Cleared E j l d ∧ report E j d0 = after E j d0 l.learned l.events
  | .results ks => Cleared E j l d ∧ report E j d0 = some (l.learned, l.events, l.sem) ∧
      ∃ before, kinds j.alg = before ++ ks ∧
        ∀ k ∈ before, settled l d (j.file E k) = some (j.text k (l.learned, l.events, l.sem))
  | .done => Cleared E j l d ∧ report E j d0 = some (l.learned, l.events, l.sem) ∧
      ∀ k ∈ kinds j.alg, settled l d (j.file E k) = some (j.text k (l.learned, l.events, l.sem))
  | .raised => report E j d0 = none
  | .killed => True

/-- The invariant of a job. -/
structure Inv (E : Experiment) (j : Job) (d0 : Disk) (l : Local) (d : Disk) : Prop where
  pend : ∀ q, l.pending = some q → Owned E j q.path ∧ q.written ≤ q.text.length ∧
    ((∀ f, q.path ≠ .backup f) → d q.path = some (q.text.take q.written))
  idle : (l.pc = .done ∨ l.pc = .raised ∨ l.pc = .killed) → l.pending = none
  result : ∀ q k, l.pending = some q → q.path = j.file E k → ∃ r, report E j d0 = some r ∧ q.text = j.text k r
  pc : At E j d0 l d

theorem inv_start : Inv E j d0 .start d :=
  ⟨fun _ h => (by cases h), fun _ => rfl, fun _ _ h => (by cases h), rfl⟩

/-- What holds depends on the memory and on what the job's own files will be. -/
theorem At.congr {l l' : Local} (h : At E j d0 l d) (e1 : l'.pc = l.pc) (e2 : l'.learned = l.learned) (e3 : l'.events = l.events)
    (e4 : l'.sem = l.sem) (e5 : l'.hit = l.hit)
    (hs : ∀ p, Owned E j p → (∀ f, p ≠ .backup f) → settled l' d' p = settled l d p) : At E j d0 l' d' := by
  have hdom : Dom E j l d → Dom E j l' d' := by
    intro hdm
    unfold Dom at *
    rw [hs _ domain_owned (fun f => by simp), e2]
    exact hdm
  have hsol : ∀ p, settled l' d' (solutionPath j p) = settled l d (solutionPath j p) := fun p => hs _ (solution_owned p) (fun f => by simp [solutionPath])
  have hfile : ∀ k, settled l' d' (j.file E k) = settled l d (j.file E k) := fun k => hs _ (file_owned k) (fun f => by simp [Job.file])
  have hcl : Cleared E j l d → Cleared E j l' d' := by
    intro hc hk f hf
    rw [hs (.test j.test f) ⟨rfl, Or.inr hf⟩ (fun f => by simp)]
    exact hc hk f hf
  have hpc := h
  unfold At at *
  rw [e1, e2, e3, e4, e5]
  cases hl : l.pc with
  | init => rw [hl] at hpc; exact hpc
  | learn => rw [hl] at hpc; exact hpc
  | «export» => rw [hl] at hpc; exact hpc
  | backup => rw [hl] at hpc; exact ⟨hpc.1, hpc.2.1, hdom hpc.2.2⟩
  | list => rw [hl] at hpc; exact ⟨hpc.1, hpc.2.1, hdom hpc.2.2.1, hpc.2.2.2⟩
  | next ps => rw [hl] at hpc; exact ⟨hdom hpc.1, hpc.2⟩
  | launch p ps pf left => rw [hl] at hpc; exact ⟨hdom hpc.1, hpc.2⟩
  | running p ps s rest left run =>
    rw [hl] at hpc
    obtain ⟨h1, h2, h3, h4, h5, h6⟩ := hpc
    exact ⟨hdom h1, h2, h3, h4, fun t ht => by rw [hsol]; exact h5 t ht, h6⟩
  | adapt p ps =>
    rw [hl] at hpc
    obtain ⟨h1, h2, t, h3, h4⟩ := hpc
    exact ⟨hdom h1, h2, t, by rw [hsol]; exact h3, h4⟩
  | check p ps =>
    rw [hl] at hpc
    obtain ⟨h1, h2, t, h3, h4⟩ := hpc
    exact ⟨hdom h1, h2, t, by rw [hsol]; exact h3, h4⟩
  | expert p ps o => rw [hl] at hpc; exact ⟨hdom hpc.1, hpc.2⟩
  | clear => rw [hl] at hpc; exact ⟨hdom hpc.1, hpc.2⟩
  | semantic => rw [hl] at hpc; exact ⟨hdom hpc.1, hcl hpc.2.1, hpc.2.2⟩
  | results ks =>
    rw [hl] at hpc
    obtain ⟨h0, h1, b, h2, h3⟩ := hpc
    exact ⟨hcl h0, h1, b, h2, fun k hk => by rw [hfile]; exact h3 k hk⟩
  | done => rw [hl] at hpc; exact ⟨hcl hpc.1, hpc.2.1, fun k hk => by rw [hfile]; exact hpc.2.2 k hk⟩
  | raised => rw [hl] at hpc; exact hpc
  | killed => trivial

/-- The invariant is about the job's own files. -/
theorem Inv.congr (h : Inv E j d0 l d) (hd : ∀ p, Owned E j p → (∀ f, p ≠ .backup f) → d' p = d p) : Inv E j d0 l d' := by
  refine ⟨fun q hq => ?_, h.idle, h.result, h.pc.congr rfl rfl rfl rfl rfl fun p hp hb => ?_⟩
  · obtain ⟨h1, h2, h3⟩ := h.pend q hq
    exact ⟨h1, h2, fun hb => by rw [hd _ h1 hb]; exact h3 hb⟩
  · unfold settled
    cases l.pending with
    | none => exact hd p hp hb
    | some q =>
      dsimp only
      split_ifs
      · rfl
      · exact hd p hp hb

theorem put_self (p : Path) (t : Option Text) : put d p t p = t := if_pos rfl

/-- Opening one of the job's own files. -/
theorem inv_open {l : Local} {p : Path} {t : Text} (hp : Owned E j p) (hidle : ¬ (l.pc = .done ∨ l.pc = .raised ∨ l.pc = .killed))
    (hr : ∀ k, p = j.file E k → ∃ r, report E j d0 = some r ∧ t = j.text k r)
    (hat : At E j d0 { l with pending := some ⟨p, t, 0⟩ } (put d p (some []))) :
    Inv E j d0 (openFile l p t).1 ((openFile l p t).2.1.run d) := by
  refine ⟨fun q hq => ?_, fun h => absurd h hidle, fun q k hq hk => ?_, hat⟩
  · cases hq
    exact ⟨hp, Nat.zero_le _, fun _ => put_self _ _⟩
  · cases hq
    exact hr k hk

/-- A step that writes nothing and waits for nothing. -/
theorem inv_move {l : Local} (hn : l.pending = none) (hat : At E j d0 l d) : Inv E j d0 l d :=
  ⟨fun q hq => (by rw [hn] at hq; cases hq), fun _ => hn, fun q k hq => (by rw [hn] at hq; cases hq), hat⟩

theorem settled_none (hn : l.pending = none) (p : Path) : settled l d p = d p := by
  unfold settled; rw [hn]

/-- The file that is being opened will have the text; the others stay. -/
theorem settled_open {l : Local} {p q : Path} {t : Text} :
    settled { l with pending := some ⟨p, t, 0⟩ } (put d p (some [])) q = if p = q then some t else d q := by
  unfold settled
  dsimp only
  split_ifs with h
  · rfl
  · exact if_neg (fun e => h e.symm)

theorem solution_ne_domain (hn : Names E) (p : Name) : solutionPath j p ≠ .test j.test E.domainFile := by
  intro h
  have : solutionOf p = E.domainFile := by
    unfold solutionPath at h
    injection h
  have h2 := hn.notSolution
  rw [← this, solution_suffix] at h2
  cases h2

/-- Opening a file of the solutions keeps the domain. -/
theorem dom_open {l : Local} {p : Path} {t : Text} (hne : p ≠ .test j.test E.domainFile)
    (h : d (.test j.test E.domainFile) = some l.learned.domain) : Dom E j { l with pending := some ⟨p, t, 0⟩ } (put d p (some [])) := by
  unfold Dom
  rw [settled_open, if_neg hne]
  exact h

theorem mem_problems {ps : List Name} (h : ps = problems E j d0) : AllProblems E ps := by
  intro p hp
  rw [h] at hp
  unfold problems at hp
  rw [List.mem_filter] at hp
  simp at hp
  exact hp.2.1

theorem portfolio_ne (a : Alg) : portfolio a ≠ [] := by
  unfold portfolio
  split_ifs <;> simp

theorem solution_ne_file (p : Name) (k : Kind) : solutionPath j p ≠ j.file E k := by
  simp [solutionPath, Job.file]

/-- The end of a failed attempt. -/
theorem at_failed {l : Local} {p : Name} {ps : List Name} {s : Planner} {rest : List Planner} {left : Nat} {o : Spec.Outcome} {t : Option Text}
    (hn : Names E) (hp : l.pending = none) (hdom : Dom E j l d) (hall : AllProblems E (p :: ps)) (hpf : s :: rest ⊆ portfolio j.alg)
    (hrun : j.world.plan s (some l.learned.domain) (d0 (.test j.test p)) = .failed o t)
    (hrep : report E j d0 = (evaluateWith E j d0 l.learned .solverError (s :: rest) p).bind fun e =>
        restFrom E j d0 l.learned (l.events ++ [e]) ps) :
    Inv E j d0 (failed j l p ps s rest left o).1 ((failed j l p ps s rest left o).2.run d) := by
  unfold failed
  by_cases hc : s = .enhsp ∧ o = .solverError ∧ 0 < left
  · rw [if_pos hc]
    exact inv_move hp ⟨hdom, hall, ⟨by simp, hpf⟩, hrep⟩
  · rw [if_neg hc]
    have hdom' : ∀ pc, Dom E j { l with pc := pc, hit := false } ((if s = .metricFF then Effect.remove (solutionPath j p) else .nothing).run d) := by
      intro pc
      unfold Dom at hdom ⊢
      rw [settled_none hp] at hdom
      rw [settled_none (by exact hp)]
      by_cases hs : s = .metricFF
      · rw [if_pos hs]
        exact (if_neg (fun e => solution_ne_domain hn p e.symm)).trans hdom
      · rw [if_neg hs]
        exact hdom
    by_cases hr : rest = []
    · rw [if_pos hr]
      refine inv_move hp ⟨hdom' _, hall, ?_⟩
      rw [hrep, evaluateWith_failed hrun, hr]
      rfl
    · rw [if_neg hr]
      refine inv_move hp ⟨hdom' _, hall, ⟨hr, fun x hx => hpf (by simp [hx])⟩, ?_⟩
      rw [hrep, evaluateWith_failed hrun]
      obtain ⟨s', rest', rfl⟩ := List.exists_cons_of_ne_nil hr
      rfl

/-- **A step of a job keeps its invariant.** -/
theorem inv_step (hn : Names E) (hf : Frame E d0 d) (h : Inv E j d0 l d) :
    Inv E j d0 (step E j l d).1 ((step E j l d).2.1.run d) := by
  obtain ⟨pc, pending, learned, events, sem, hit⟩ := l
  cases pending with
  | some q =>
    obtain ⟨p, t, k⟩ := q
    obtain ⟨h1, h2, h3⟩ := h.pend _ rfl
    dsimp only at h1 h2 h3
    unfold step
    dsimp only
    split_ifs with hk
    · refine ⟨fun q hq => ?_, fun hi => ?_, fun q k' hq hp => ?_, ?_⟩
      · cases hq
        exact ⟨h1, hk, fun _ => put_self _ _⟩
      · exact absurd (h.idle hi) (by simp)
      · cases hq
        exact h.result ⟨p, t, k⟩ k' rfl hp
      · refine h.pc.congr rfl rfl rfl rfl rfl fun q hq hb => ?_
        unfold settled Effect.run
        dsimp only
        split_ifs with hpq
        · rfl
        · exact if_neg (fun e => hpq e.symm)
    · refine ⟨fun q hq => (by cases hq), fun _ => rfl, fun q k' hq => (by cases hq), ?_⟩
      refine h.pc.congr rfl rfl rfl rfl rfl fun q hq hb => ?_
      unfold settled Effect.run
      dsimp only
      split_ifs with hpq
      · subst hpq
        rw [h3 hb, List.take_of_length_le (by omega)]
      · rfl
  | none =>
    have hpc := h.pc
    unfold At at hpc
    have hset : ∀ p, settled ⟨pc, none, learned, events, sem, hit⟩ d p = d p := fun p => rfl
    unfold step
    cases pc with
    | init =>
      dsimp only at hpc ⊢
      rw [frame_work hf, show (fun f => d (.evaluation j.fold f)) = fun f => d0 (.evaluation j.fold f) from
        funext fun f => frame_eval hf _ _]
      cases hi : j.world.init (fun f => d0 (.evaluation j.fold f)) (d0 (.work E.domainFile)) with
      | true => exact inv_move rfl ⟨hpc, hi⟩
      | false => exact inv_move rfl (report_init hi)
    | learn =>
      dsimp only at hpc ⊢
      rw [show (fun f => d (.train j.train f)) = fun f => d0 (.train j.train f) from funext fun f => frame_train hf _ _]
      cases hi : j.world.learn (fun f => d0 (.train j.train f)) with
      | none => exact inv_move rfl (report_learn hpc.2 hi)
      | some L => exact inv_move rfl ⟨hpc.1, hpc.2, hi⟩
    | «export» =>
      dsimp only at hpc ⊢
      refine inv_open domain_owned (by simp) (fun k hk => by simp [Job.file] at hk) ?_
      refine ⟨hpc.1, hpc.2, ?_⟩
      unfold Dom
      rw [settled_open, if_pos rfl]
    | backup =>
      dsimp only at hpc ⊢
      obtain ⟨h1, h2, h3⟩ := hpc
      unfold Dom at h3
      rw [hset] at h3
      rw [h3]
      dsimp only
      have hdom : ∀ pc p t, (∃ f, p = Path.backup f) → Dom E j ⟨pc, some ⟨p, t, 0⟩, learned, events, sem, hit⟩ (put d p (some [])) := by
        rintro pc p t ⟨f, rfl⟩
        exact dom_open (l := ⟨pc, none, learned, events, sem, hit⟩) (by simp) h3
      have hrep := report_core h2
      refine inv_open (by trivial) ?_ (fun k hk => by simp [Job.file, backupPath] at hk) ?_
      · dsimp only
        split_ifs <;> simp
      · by_cases hs : skips E j = true
        · unfold At
          rw [show (if (E.abortSolving && decide (j.alg ≠ .maSamPlus)) = true then Pc.semantic else Pc.list) = Pc.semantic from if_pos hs]
          dsimp only at h1 ⊢
          rw [if_pos hs] at hrep
          rw [h1]
          exact ⟨hdom .semantic _ _ ⟨_, rfl⟩, fun hk => (by rw [hs] at hk; cases hk), hrep⟩
        · unfold At
          rw [show (if (E.abortSolving && decide (j.alg ≠ .maSamPlus)) = true then Pc.semantic else Pc.list) = Pc.list from if_neg hs]
          dsimp only at h1 ⊢
          exact ⟨h1, h2, hdom .list _ _ ⟨_, rfl⟩, by simpa using hs⟩
    | list =>
      dsimp only at hpc ⊢
      obtain ⟨h1, h2, h3, h4⟩ := hpc
      refine inv_move rfl ⟨h3, mem_problems (frame_problems hn hf), ?_⟩
      have hrep := report_core h2
      rw [if_neg (by rw [h4]; simp)] at hrep
      dsimp only
      rw [hrep, h1, frame_problems hn hf]
    | next ps =>
      dsimp only at hpc ⊢
      cases ps with
      | nil =>
        refine inv_move rfl ⟨hpc.1, ?_⟩
        rw [hpc.2.2, restFrom_nil]
      | cons p ps =>
        refine inv_move rfl ⟨hpc.1, hpc.2.1, ⟨portfolio_ne _, fun _ h => h⟩, ?_⟩
        rw [hpc.2.2, restFrom_cons]
        rfl
    | launch p ps pf left =>
      obtain ⟨h1, h2, ⟨h3, h7⟩, h4⟩ := hpc
      obtain ⟨s, rest, rfl⟩ := List.exists_cons_of_ne_nil h3
      dsimp only at h1 h2 h4 ⊢
      unfold launch
      unfold Dom at h1
      rw [hset] at h1
      have hprob : d (.test j.test p) = d0 (.test j.test p) := frame_problem hn hf _ (h2 p (by simp))
      rw [h1, hprob]
      dsimp only at h1
      have hopen : ∀ run t, run = j.world.plan s (some learned.domain) (d0 (.test j.test p)) → output run = some t →
          Inv E j d0 (openFile ⟨.running p ps s rest left run, none, learned, events, sem, false⟩ (solutionPath j p) t).1
            ((openFile ⟨.running p ps s rest left run, none, learned, events, sem, false⟩ (solutionPath j p) t).2.1.run d) := by
        intro run t hrun ho
        refine inv_open (solution_owned p) (by simp) (fun k hk => absurd hk (solution_ne_file p k)) ?_
        refine ⟨dom_open (l := ⟨_, none, learned, events, sem, false⟩) (solution_ne_domain hn p) h1, h2, ⟨rfl, h7⟩, hrun, fun t' ht => ?_, h4⟩
        rw [settled_open, if_pos rfl]
        rw [ht] at ho
        exact ho.symm
      generalize hrun : j.world.plan s (some learned.domain) (d0 (.test j.test p)) = run at hopen
      cases run with
      | solved t => exact hopen _ t rfl rfl
      | failed o t =>
        cases t with
        | none => exact inv_move rfl ⟨h1, h2, ⟨rfl, h7⟩, hrun.symm, (fun t ht => by cases ht), h4⟩
        | some t => exact hopen _ t rfl rfl
    | running p ps s rest left run =>
      obtain ⟨h1, h2, ⟨h3, h7⟩, h4, h5, h6⟩ := hpc
      dsimp only at h1 h2 h3 h4 h5 h6 ⊢
      subst h3
      simp only [Bool.false_eq_true, if_false]
      cases hr : run with
      | solved t =>
        dsimp only
        refine inv_move rfl ⟨h1, h2, t, h5 t hr, ?_⟩
        rw [h6, evaluateWith_solved (h4 ▸ hr)]
      | failed o t =>
        dsimp only
        exact at_failed hn rfl h1 h2 h7 (h4 ▸ hr) h6
    | adapt p ps =>
      obtain ⟨h1, h2, t, h3, h4⟩ := hpc
      dsimp only at h1 h2 h3 h4 ⊢
      rw [hset] at h3
      split_ifs with hm
      · rw [h3]
        simp only [Option.bind_some]
        unfold solvedEvent at h4
        rw [if_pos hm] at h4
        cases ha : j.world.adapt learned t with
        | none =>
          refine inv_move rfl ?_
          unfold At
          dsimp only
          rw [h4, ha]
          rfl
        | some t' =>
          dsimp only
          refine inv_open (solution_owned p) (by simp) (fun k hk => absurd hk (solution_ne_file p k)) ?_
          refine ⟨dom_open (l := ⟨_, none, learned, events, sem, hit⟩) (solution_ne_domain hn p) h1, h2, t', ?_, ?_⟩
          · rw [settled_open, if_pos rfl]
          · rw [h4, ha]
            rfl
      · refine inv_move rfl ⟨h1, h2, t, h3, ?_⟩
        unfold solvedEvent at h4
        rw [if_neg hm] at h4
        exact h4
    | check p ps =>
      obtain ⟨h1, h2, t, h3, h4⟩ := hpc
      dsimp only at h1 h2 h3 h4 ⊢
      rw [hset] at h3
      rw [h3, frame_work hf, frame_problem hn hf _ (h2 p (by simp))]
      exact inv_move rfl ⟨h1, fun q hq => h2 q (by simp [hq]), h4⟩
    | expert p ps o =>
      obtain ⟨h1, h2, h4⟩ := hpc
      dsimp only at h1 h2 h4 ⊢
      have hd : d (.test j.test E.domainFile) = some learned.domain := h1
      rw [hd, frame_work hf, frame_problem hn hf _ (h2 p (by simp))]
      exact inv_move rfl ⟨h1, fun q hq => h2 q (by simp [hq]), h4⟩
    | clear =>
      obtain ⟨h1, h2⟩ := hpc
      dsimp only at h1 h2 ⊢
      refine inv_move rfl ⟨?_, fun _ f hs => ?_, h2⟩
      case refine_2 =>
        rw [settled_none rfl]
        exact if_pos (by simp [hs])
      unfold Dom
      rw [settled_none rfl, run_other]
      · exact h1
      · rintro ⟨f, hf1, hf2⟩
        cases hf1
        rw [hn.notSolution] at hf2
        cases hf2
    | semantic =>
      obtain ⟨h1, hcl, h2⟩ := hpc
      dsimp only at h1 h2 ⊢
      unfold after performance at h2
      split_ifs with hm
      · rw [if_pos hm] at h2
        exact inv_move rfl ⟨hcl, h2, [], rfl, fun k hk => by simp at hk⟩
      · rw [if_neg hm] at h2
        have hd : d (.test j.test E.domainFile) = some learned.domain := h1
        rw [hd, frame_work hf, show (fun f => d (.evaluation j.fold f)) = fun f => d0 (.evaluation j.fold f) from
          funext fun f => frame_eval hf _ _]
        cases hsm : j.world.semantic (fun f => d0 (.evaluation j.fold f)) (d0 (.work E.domainFile)) (some learned.domain) learned.count with
        | none =>
          refine inv_move rfl ?_
          unfold At
          dsimp only
          rw [h2, hsm]
          rfl
        | some x =>
          dsimp only
          refine inv_move rfl ⟨hcl, ?_, [], rfl, fun k hk => by simp at hk⟩
          rw [h2, hsm]
          rfl
    | results ks =>
      obtain ⟨h0, h1, b, h2, h3⟩ := hpc
      dsimp only at h1 h2 h3 ⊢
      cases ks with
      | nil =>
        refine inv_move rfl ⟨h0, h1, ?_⟩
        rw [List.append_nil] at h2
        rw [h2]
        exact h3
      | cons k ks =>
        dsimp only
        refine inv_open (file_owned k) (by simp) (fun k' hk => ?_) ?_
        · refine ⟨_, h1, ?_⟩
          have : k = k' := by
            unfold Job.file at hk
            injection hk with hk
            exact (Props.Results.C104_names_distinct hk).1
          rw [this]
          rfl
        · refine ⟨fun hk f hf => ?_, h1, b ++ [k], by rw [h2]; simp, fun k' hk => ?_⟩
          · rw [settled_open, if_neg (by simp [Job.file])]
            exact h0 hk f hf
          rw [settled_open]
          split_ifs with he
          · have : k = k' := by
              unfold Job.file at he
              injection he with he
              exact (Props.Results.C104_names_distinct he).1
            rw [← this]
            rfl
          · rw [List.mem_append, List.mem_singleton] at hk
            rcases hk with hk | rfl
            · exact h3 k' hk
            · exact absurd rfl he
    | done => exact h
    | raised => exact h
    | killed => exact h

/-- The shapes of a step. -/
theorem step_cases (P : Local × Effect × Option Planner → Prop) (h0 : ∀ l', P (l', .nothing, none))
    (hw : ∀ (l' : Local) p t k, P ({ l' with pending := some ⟨p, t, k⟩ }, .write p (t.take k), none))
    (hc : ∀ l', P (l', .clear j.test, none))
    (hh : ∀ p ps s rest left run, l.hit = true → l.pc = .running p ps s rest left run →
      P ((failed j l p ps s rest left .solverError).1, (failed j l p ps s rest left .solverError).2, none))
    (hf : ∀ p ps s rest left o t, l.hit = false → l.pc = .running p ps s rest left (.failed o t) →
      P ((failed j l p ps s rest left o).1, (failed j l p ps s rest left o).2, pkill s o)) : P (step E j l d) := by
  have ho : ∀ (l' : Local) p t, P (openFile l' p t) := fun l' p t => hw l' p t 0
  obtain ⟨pc, pending, learned, events, sem, hit⟩ := l
  cases pending with
  | some q =>
    obtain ⟨p, t, k⟩ := q
    unfold step
    dsimp only
    by_cases hk : k < t.length
    · rw [if_pos hk]
      exact hw ⟨pc, none, learned, events, sem, hit⟩ p t (k + 1)
    · rw [if_neg hk]
      exact h0 _
  | none =>
    unfold step
    cases pc with
    | init => exact h0 _
    | learn =>
      dsimp only
      cases j.world.learn fun f => d (.train j.train f) with
      | none => exact h0 _
      | some L => exact h0 _
    | «export» => exact ho _ _ _
    | backup =>
      dsimp only
      cases d (.test j.test E.domainFile) with
      | none => exact h0 _
      | some L => exact ho _ _ _
    | list => exact h0 _
    | next ps => cases ps <;> exact h0 _
    | launch p ps pf left =>
      cases pf with
      | nil => exact h0 _
      | cons s rest =>
        dsimp only
        unfold launch
        dsimp only
        cases output (j.world.plan s (d (.test j.test E.domainFile)) (d (.test j.test p))) with
        | none => exact h0 _
        | some t => exact ho _ _ _
    | running p ps s rest left run =>
      dsimp only
      cases hit with
      | true => exact hh p ps s rest left run rfl rfl
      | false =>
        cases run with
        | solved t => exact h0 _
        | failed o t => exact hf p ps s rest left o t rfl rfl
    | adapt p ps =>
      dsimp only
      by_cases hm : j.alg = .maSamPlus
      · rw [if_pos hm]
        cases (d (solutionPath j p)).bind (j.world.adapt learned) with
        | none => exact h0 _
        | some t => exact ho _ _ _
      · rw [if_neg hm]
        exact h0 _
    | check p ps => exact h0 _
    | expert p ps o => exact h0 _
    | clear => exact hc _
    | semantic =>
      dsimp only
      by_cases hm : j.alg = .maSamPlus
      · rw [if_pos hm]
        exact h0 _
      · rw [if_neg hm]
        cases j.world.semantic (fun f => d (.evaluation j.fold f)) (d (.work E.domainFile)) (d (.test j.test E.domainFile)) learned.count with
        | none => exact h0 _
        | some t => exact h0 _
    | results ks =>
      cases ks with
      | nil => exact h0 _
      | cons k ks => exact ho _ _ _
    | done => exact h0 _
    | raised => exact h0 _
    | killed => exact h0 _

theorem failed_effect (p : Name) (ps : List Name) (s : Planner) (rest : List Planner) (left : Nat) (o : Spec.Outcome) :
    (failed j l p ps s rest left o).2 = .nothing ∨ (failed j l p ps s rest left o).2 = .remove (solutionPath j p) := by
  unfold failed
  split_ifs <;> simp

/-- A write is a write in progress. -/
theorem step_write {p : Path} {t : Text} : (step E j l d).2.1 = .write p t → ∃ q, (step E j l d).1.pending = some q ∧ q.path = p := by
  refine step_cases (fun r => r.2.1 = .write p t → ∃ q, r.1.pending = some q ∧ q.path = p) ?_ ?_ ?_ ?_ ?_
  · intro l' h; cases h
  · intro l' p t k h; cases h; exact ⟨_, rfl, rfl⟩
  · intro l' h; cases h
  · intro p' ps s rest left run _ _ h
    rcases failed_effect (j := j) (l := l) p' ps s rest left .solverError with e | e <;> rw [e] at h <;> cases h
  · intro p' ps s rest left o t _ _ h
    rcases failed_effect (j := j) (l := l) p' ps s rest left o with e | e <;> rw [e] at h <;> cases h

/-- A removed file is a solution of the job. -/
theorem step_remove {p : Path} : (step E j l d).2.1 = .remove p → ∃ f, p = solutionPath j f := by
  refine step_cases (fun r => r.2.1 = .remove p → ∃ f, p = solutionPath j f) ?_ ?_ ?_ ?_ ?_
  · intro l' h; cases h
  · intro l' p t k h; cases h
  · intro l' h; cases h
  · intro p' ps s rest left run _ _ h
    rcases failed_effect (j := j) (l := l) p' ps s rest left .solverError with e | e <;> rw [e] at h <;> cases h
    exact ⟨_, rfl⟩
  · intro p' ps s rest left o t _ _ h
    rcases failed_effect (j := j) (l := l) p' ps s rest left o with e | e <;> rw [e] at h <;> cases h
    exact ⟨_, rfl⟩

/-- Only the job's own directory is cleared. -/
theorem step_clear {n : Name} : (step E j l d).2.1 = .clear n → n = j.test := by
  refine step_cases (fun r => r.2.1 = .clear n → n = j.test) ?_ ?_ ?_ ?_ ?_
  · intro l' h; cases h
  · intro l' p t k h; cases h
  · intro l' h; cases h; rfl
  · intro p' ps s rest left run _ _ h
    rcases failed_effect (j := j) (l := l) p' ps s rest left .solverError with e | e <;> rw [e] at h <;> cases h
  · intro p' ps s rest left o t _ _ h
    rcases failed_effect (j := j) (l := l) p' ps s rest left o with e | e <;> rw [e] at h <;> cases h

/-- A planner is killed only after a timeout of a planner of the portfolio. -/
theorem step_pkill {s : Planner} (h : Inv E j d0 l d) : (step E j l d).2.2 = some s →
    s ∈ portfolio j.alg ∧ s ≠ .fastDownward ∧ ∃ dom prob out, j.world.plan s dom prob = .failed .timeout out := by
  refine step_cases (fun r => r.2.2 = some s → s ∈ portfolio j.alg ∧ s ≠ .fastDownward ∧
    ∃ dom prob out, j.world.plan s dom prob = .failed .timeout out) ?_ ?_ ?_ ?_ ?_
  · intro l' h; cases h
  · intro l' p t k h; cases h
  · intro l' h; cases h
  · intro p' ps s rest left run _ _ h; cases h
  · intro p' ps s' rest left o t _ hpc hk
    have hat := h.pc
    unfold At at hat
    rw [hpc] at hat
    obtain ⟨h1, h2, ⟨h3, h7⟩, h4, h5, h6⟩ := hat
    dsimp only at hk
    unfold pkill at hk
    split_ifs at hk with hc
    cases hk
    exact ⟨h7 (by simp), hc.2, some l.learned.domain, d0 (.test j.test p'), t, by rw [← h4, hc.1]⟩

/-- A step touches only the job's own files. -/
theorem step_touches {p : Path} (hi : Inv E j d0 (step E j l d).1 ((step E j l d).2.1.run d)) (h : touches (step E j l d).2.1 p) :
    Owned E j p := by
  cases he : (step E j l d).2.1 with
  | nothing => rw [he] at h; exact h.elim
  | write q t =>
    rw [he] at h
    obtain ⟨x, hx, hp⟩ := step_write he
    have := (hi.pend x hx).1
    rw [hp] at this
    rw [show p = q from h]
    exact this
  | remove q =>
    rw [he] at h
    obtain ⟨f, hf⟩ := step_remove he
    rw [show p = q from h, hf]
    exact solution_owned f
  | clear n =>
    rw [he] at h
    obtain ⟨f, hf, hs⟩ := h
    rw [hf, step_clear he]
    exact ⟨rfl, Or.inr hs⟩

/-- What a step writes into a result file is a part of the report. -/
theorem step_file {k : Kind} (hi : Inv E j d0 (step E j l d).1 ((step E j l d).2.1.run d))
    (h : touches (step E j l d).2.1 (j.file E k)) :
    ∃ r, report E j d0 = some r ∧ ∃ n, ((step E j l d).2.1.run d) (j.file E k) = some ((j.text k r).take n) := by
  cases he : (step E j l d).2.1 with
  | nothing => rw [he] at h; exact h.elim
  | write q t =>
    rw [he] at h
    obtain ⟨x, hx, hp⟩ := step_write he
    have hq : x.path = j.file E k := by rw [hp]; exact h.symm
    obtain ⟨r, hr, ht⟩ := hi.result x k hx hq
    refine ⟨r, hr, x.written, ?_⟩
    have := (hi.pend x hx).2.2 (fun f => by rw [hq]; simp [Job.file])
    rw [hq, ht, he] at this
    exact this
  | remove q =>
    rw [he] at h
    obtain ⟨f, hf⟩ := step_remove he
    exact absurd (hf.symm.trans (show q = j.file E k from h.symm)) (solution_ne_file f k)
  | clear n =>
    rw [he] at h
    obtain ⟨f, hf, hs⟩ := h
    simp [Job.file] at hf

end Jobs
end Lemmas

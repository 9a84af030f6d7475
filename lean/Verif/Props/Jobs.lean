import Verif.Lemmas.Jobs

/-! C119: jobs of the parallel experiments that run at the same time, are killed and are submitted again. -/
namespace Props
namespace Jobs
open Spec.Jobs Model.Jobs Lemmas.Jobs
open Model.Results (Alg Kind Name num fileName)

/-- The jobs of an experiment: the domain file is neither a problem file nor a solution, no two jobs have the same algorithm, fold
and iteration, and no planner that kills all its processes on the machine (`pkill`) times out in a job that shares the machine. -/
structure Setting {ι : Type} (E : Experiment) (jobs : ι → Job) : Prop where
  notProblem : isProblem E.problemPrefix E.domainFile = false
  notSolution : isSolution E.domainFile = false
  distinct : ∀ i k, i ≠ k → ¬ ((jobs i).alg = (jobs k).alg ∧ (jobs i).fold = (jobs k).fold ∧ (jobs i).it = (jobs k).it)
  quiet : ∀ i k, i ≠ k → (jobs i).machine = (jobs k).machine → ∀ s ∈ portfolio (jobs i).alg, s ≠ .fastDownward →
    ∀ dom prob out, (jobs i).world.plan s dom prob ≠ .failed .timeout out

variable {ι : Type} [DecidableEq ι] {E : Experiment} {jobs : ι → Job}

theorem value_inj {a a' : Alg} (h : value a = value a') : a = a' := by
  cases a <;> cases a' <;> first | rfl | (exact absurd h (by decide))

theorem test_inj {j j' : Job} (h : j.test = j'.test) : j.alg = j'.alg ∧ j.fold = j'.fold ∧ j.it = j'.it := by
  have h' : Model.Cluster.testDir j.fold (value j.alg) (Cluster.sfx false) (some j.it) =
    Model.Cluster.testDir j'.fold (value j'.alg) (Cluster.sfx false) (some j'.it) := h
  obtain ⟨h1, h2, -, h4⟩ := Cluster.testDir_inj h'
  exact ⟨value_inj h2, h1, Option.some.inj h4⟩

theorem owned_disjoint (S : Setting E jobs) {i k : ι} (h : i ≠ k) {p : Path} (hi : Owned E (jobs i) p) (hk : Owned E (jobs k) p) :
    ∃ f, p = .backup f := by
  cases p with
  | work f => exact hi.elim
  | evaluation n f => exact hi.elim
  | train n f => exact hi.elim
  | test n f => exact absurd (test_inj (hi.1.symm.trans hk.1)) (S.distinct i k h)
  | result f =>
    obtain ⟨x, hx⟩ := hi
    obtain ⟨y, hy⟩ := hk
    obtain ⟨-, h2, h3, h4⟩ := Results.C104_names_distinct (hx.symm.trans hy)
    exact absurd ⟨h2, h3, Option.some.inj h4⟩ (S.distinct i k h)
  | backup f => exact ⟨f, rfl⟩

/-- **C119 (backups).** Two jobs write their backups of the learned domain into the same file exactly if they have the same algorithm and
fold and learned from the same number of observations; the iteration plays no part. -/
theorem C119_backup_names {E : Experiment} {j j' : Job} {L L' : Learned} :
    backupPath E j L = backupPath E j' L' ↔ j.alg = j'.alg ∧ j.fold = j'.fold ∧ L.count = L'.count := by
  constructor
  · intro h
    have e : ∀ (j : Job) (L : Learned), backupPath E j L = .backup (((((j.alg.name ++ "_fold".toList) ++ '_' :: num j.fold) ++ '_' :: E.domainName) ++
        '_' :: num L.count) ++ "_trajectories_no_remove_policy.pddl".toList) := by
      intro j L
      have : "_fold_".toList = "_fold".toList ++ ['_'] := by decide
      simp [backupPath, this]
    rw [e, e, Path.backup.injEq] at h
    obtain ⟨h1, h2⟩ := Results.split_last (Results.under_num _) (Results.under_num _) (List.append_cancel_right h)
    obtain ⟨h3, h4⟩ := Results.split_last (Results.under_num _) (Results.under_num _) (List.append_cancel_right h1)
    exact ⟨Results.alg_name_inj (List.append_cancel_right h3), Results.num_inj h4, Results.num_inj h2⟩
  · rintro ⟨h1, h2, h3⟩
    unfold backupPath
    rw [h1, h2, h3]

/-- What holds in every history. -/
structure Good (E : Experiment) (jobs : ι → Job) (d0 : Disk) (s : State ι) : Prop where
  frame : Frame E d0 s.disk
  others : ∀ f, (∀ i k, Path.result f ≠ (jobs i).file E k) → s.disk (.result f) = d0 (.result f)
  inv : ∀ i, Inv E (jobs i) d0 (s.locals i) s.disk
  files : ∀ i k, s.disk ((jobs i).file E k) = d0 ((jobs i).file E k) ∨
    ∃ r, report E (jobs i) d0 = some r ∧ ∃ n, s.disk ((jobs i).file E k) = some (((jobs i).text k r).take n)

theorem good_update {d0 : Disk} {s : State ι} (h : Good E jobs d0 s) {i : ι} {l : Local} (hl : Inv E (jobs i) d0 l s.disk) :
    Good E jobs d0 ⟨s.disk, Function.update s.locals i l⟩ := by
  refine ⟨h.frame, h.others, fun k => ?_, h.files⟩
  by_cases hk : k = i
  · subst hk
    dsimp only
    rw [Function.update_self]
    exact hl
  · dsimp only
    rw [Function.update_of_ne hk]
    exact h.inv k

theorem afterPkill_same (S : Setting E jobs) {d0 d : Disk} {i : ι} {l : Local} (h : Inv E (jobs i) d0 l d) (ls : ι → Local) :
    afterPkill jobs i (step E (jobs i) l d).2.2 ls = ls := by
  funext k
  unfold afterPkill
  cases hs : (step E (jobs i) l d).2.2 with
  | none => rfl
  | some s =>
    dsimp only
    refine if_neg fun hc => ?_
    obtain ⟨h1, h2, dom, prob, out, h3⟩ := step_pkill h hs
    exact S.quiet i k (fun e => hc.1 e.symm) hc.2.1.symm s h1 h2 dom prob out h3

theorem good_act (S : Setting E jobs) {d0 : Disk} {s : State ι} (h : Good E jobs d0 s) (a : Act ι) : Good E jobs d0 (act E jobs s a) := by
  cases a with
  | run i =>
    have hn : Names E := ⟨S.notProblem, S.notSolution⟩
    have hi := inv_step hn h.frame (h.inv i)
    unfold act
    dsimp only
    rw [afterPkill_same S (h.inv i)]
    refine ⟨fun p hp => ?_, fun f hf => ?_, fun k => ?_, fun k kd => ?_⟩
    · dsimp only
      rw [run_other fun ht => hp (step_touches hi ht).writable]
      exact h.frame p hp
    · dsimp only
      rw [run_other fun ht => ?_]
      · exact h.others f hf
      · obtain ⟨k, hk⟩ := step_touches hi ht
        exact hf i k (by rw [hk]; rfl)
    · by_cases hk : k = i
      · subst hk
        dsimp only
        rw [Function.update_self]
        exact hi
      · dsimp only
        rw [Function.update_of_ne hk]
        refine (h.inv k).congr fun p hp hb => run_other fun ht => ?_
        obtain ⟨f, hf⟩ := owned_disjoint S hk hp (step_touches hi ht)
        exact hb f hf
    · dsimp only
      by_cases ht : touches (step E (jobs i) (s.locals i) s.disk).2.1 ((jobs k).file E kd)
      · by_cases hk : k = i
        · subst hk
          exact Or.inr (step_file hi ht)
        · obtain ⟨f, hf⟩ := owned_disjoint S hk (file_owned kd) (step_touches hi ht)
          cases hf
      · rw [run_other ht]
        exact h.files k kd
  | kill i =>
    unfold act
    dsimp only
    split_ifs
    · exact h
    · exact good_update h (inv_move rfl trivial)
  | submit i =>
    unfold act
    dsimp only
    split_ifs
    · exact good_update h inv_start
    · exact h

theorem good_exec (S : Setting E jobs) (d0 : Disk) (h : List (Act ι)) : Good E jobs d0 (exec E jobs d0 h) := by
  have key : ∀ (h : List (Act ι)) (s : State ι), Good E jobs d0 s → Good E jobs d0 (h.foldl (act E jobs) s) := by
    intro h
    induction h with
    | nil => exact fun s hs => hs
    | cons a h ih => exact fun s hs => ih _ (good_act S hs a)
  exact key h _ ⟨fun _ _ => rfl, fun _ _ => rfl, fun _ => inv_start, fun _ _ => Or.inl rfl⟩

/-- **The jobs never change what they read**: in every history of steps, kills and new submissions, everything except the results,
the backups, and the domain file and solutions in the test directories is as it was. -/
theorem C119_inputs_unchanged (S : Setting E jobs) (d0 : Disk) (h : List (Act ι)) :
    (∀ f, (exec E jobs d0 h).disk (.work f) = d0 (.work f)) ∧
    (∀ n f, (exec E jobs d0 h).disk (.evaluation n f) = d0 (.evaluation n f)) ∧
    (∀ n f, (exec E jobs d0 h).disk (.train n f) = d0 (.train n f)) ∧
    (∀ n f, f ≠ E.domainFile → isSolution f = false → (exec E jobs d0 h).disk (.test n f) = d0 (.test n f)) := by
  have hf := (good_exec S d0 h).frame
  refine ⟨frame_work hf, frame_eval hf, frame_train hf, fun n f h1 h2 => hf _ fun hw => ?_⟩
  rcases hw with rfl | hw
  · exact h1 rfl
  · rw [h2] at hw; cases hw

/-- **A job that finished has written exactly what it reports when it runs alone on the original files**: in every history. -/
theorem C119_finished (S : Setting E jobs) (d0 : Disk) (h : List (Act ι)) (i : ι) (hd : ((exec E jobs d0 h).locals i).pc = .done) :
    ∃ r, report E (jobs i) d0 = some r ∧
      ∀ k ∈ kinds (jobs i).alg, (exec E jobs d0 h).disk ((jobs i).file E k) = some ((jobs i).text k r) := by
  have hi := (good_exec S d0 h).inv i
  have hp := hi.idle (Or.inl hd)
  have hat := hi.pc
  unfold At at hat
  rw [hd] at hat
  refine ⟨_, hat.2.1, fun k hk => ?_⟩
  exact (settled_none hp _).symm.trans (hat.2.2 k hk)

/-- **A finished job has removed the plans it made** from its test directory. -/
theorem C119_cleared (S : Setting E jobs) (d0 : Disk) (h : List (Act ι)) (i : ι) (hd : ((exec E jobs d0 h).locals i).pc = .done)
    (hs : E.abortSolving = false ∨ (jobs i).alg = .maSamPlus) :
    ∀ f, isSolution f = true → (exec E jobs d0 h).disk (.test (jobs i).test f) = none := by
  intro f hf
  have hi := (good_exec S d0 h).inv i
  have hp := hi.idle (Or.inl hd)
  have hat := hi.pc
  unfold At at hat
  rw [hd] at hat
  refine (settled_none hp _).symm.trans (hat.1 ?_ f hf)
  unfold skips
  rcases hs with hs | hs <;> simp [hs]

/-- **An exception in a job has its cause in the job's own files.** -/
theorem C119_raised (S : Setting E jobs) (d0 : Disk) (h : List (Act ι)) (i : ι) (hd : ((exec E jobs d0 h).locals i).pc = .raised) :
    report E (jobs i) d0 = none := by
  have hat := ((good_exec S d0 h).inv i).pc
  unfold At at hat
  rw [hd] at hat
  exact hat

/-- **Result files**: at every moment each is as it was, or a beginning of what the job reports. A job whose programs raise an
exception never touches its result files, and files that are no job's results stay as they were. -/
theorem C119_files (S : Setting E jobs) (d0 : Disk) (h : List (Act ι)) :
    (∀ i k, (exec E jobs d0 h).disk ((jobs i).file E k) = d0 ((jobs i).file E k) ∨
      ∃ r, report E (jobs i) d0 = some r ∧ ∃ n, (exec E jobs d0 h).disk ((jobs i).file E k) = some (((jobs i).text k r).take n)) ∧
    (∀ i k, report E (jobs i) d0 = none → (exec E jobs d0 h).disk ((jobs i).file E k) = d0 ((jobs i).file E k)) ∧
    (∀ f, (∀ i k, Path.result f ≠ (jobs i).file E k) → (exec E jobs d0 h).disk (.result f) = d0 (.result f)) := by
  have hg := good_exec S d0 h
  refine ⟨hg.files, fun i k hr => ?_, hg.others⟩
  rcases hg.files i k with h | ⟨r, h, -⟩
  · exact h
  · rw [hr] at h; cases h

/-- **The order does not matter**: two histories in which all jobs finished end with the same result files. -/
theorem C119_schedule_independent (S : Setting E jobs) (d0 : Disk) (h h' : List (Act ι))
    (hd : ∀ i, ((exec E jobs d0 h).locals i).pc = .done) (hd' : ∀ i, ((exec E jobs d0 h').locals i).pc = .done) :
    ∀ i, ∀ k ∈ kinds (jobs i).alg, (exec E jobs d0 h).disk ((jobs i).file E k) = (exec E jobs d0 h').disk ((jobs i).file E k) := by
  intro i k hk
  obtain ⟨r, hr, h1⟩ := C119_finished S d0 h i (hd i)
  obtain ⟨r', hr', h2⟩ := C119_finished S d0 h' i (hd' i)
  rw [hr] at hr'
  cases hr'
  rw [h1 k hk, h2 k hk]

/-- **Only jobs on the same machine that wait for the same planner are disturbed**: when a job does a step, another job is as it was, unless the step ended a planner by its
name, both are on the same machine and the other job was waiting for that planner; then its planner is gone, and nothing else has changed. -/
theorem C119_undisturbed (E : Experiment) (jobs : ι → Job) (s : State ι) (i k : ι) (hk : k ≠ i) :
    (act E jobs s (.run i)).locals k = s.locals k ∨
      (jobs k).machine = (jobs i).machine ∧
      (∃ p a b c d e, (step E (jobs i) (s.locals i) s.disk).2.2 = some p ∧ (s.locals k).pc = .running a b p c d e) ∧
      (act E jobs s (.run i)).locals k = { s.locals k with hit := true, pending := none } := by
  change afterPkill jobs i _ (Function.update s.locals i _) k = _ ∨ _ ∧ _ ∧ afterPkill jobs i _ (Function.update s.locals i _) k = _
  unfold afterPkill
  cases hp : (step E (jobs i) (s.locals i) s.disk).2.2 with
  | none =>
    dsimp only
    rw [Function.update_of_ne hk]
    exact .inl rfl
  | some p =>
    dsimp only
    rw [Function.update_of_ne hk]
    by_cases hc : k ≠ i ∧ (jobs k).machine = (jobs i).machine ∧ waits p (s.locals k) = true
    · rw [if_pos hc]
      refine .inr ⟨hc.2.1, ?_, rfl⟩
      have hw := hc.2.2
      unfold waits at hw
      split at hw
      · next h => exact ⟨p, _, _, _, _, _, rfl, by rw [h, of_decide_eq_true hw]⟩
      · cases hw
    · rw [if_neg hc]
      exact .inl rfl

/-! ### Every job ends -/

/-- Steps of one job alone. -/
def alone (E : Experiment) (j : Job) : Nat → Local → Disk → Local × Disk
  | 0, l, d => (l, d)
  | n + 1, l, d => let r := step E j l d; alone E j n r.1 (r.2.1.run d)

/-- The job comes to an end. -/
def Ends (E : Experiment) (j : Job) (l : Local) (d : Disk) : Prop := ∃ n, ended (alone E j n l d).1 = true

section Ends
variable {j : Job}

theorem ends_now {l : Local} {d : Disk} (h : ended l = true) : Ends E j l d := ⟨0, h⟩

theorem ends_step {l : Local} {d : Disk} (h : Ends E j (step E j l d).1 ((step E j l d).2.1.run d)) : Ends E j l d := by
  obtain ⟨n, hn⟩ := h
  exact ⟨n + 1, hn⟩

theorem ends_pending {l : Local} {d : Disk} (h : ∀ d', Ends E j { l with pending := none } d') : Ends E j l d := by
  obtain ⟨pc, pending, learned, events, sem, hit⟩ := l
  cases pending with
  | none => exact h d
  | some q =>
    obtain ⟨p, t, k⟩ := q
    obtain ⟨n, hn⟩ : ∃ n, t.length - k = n := ⟨_, rfl⟩
    induction n generalizing k d with
    | zero =>
      apply ends_step
      unfold step
      dsimp only
      rw [if_neg (by omega)]
      exact h _
    | succ n ih =>
      apply ends_step
      unfold step
      dsimp only
      rw [if_pos (by omega)]
      exact ih _ h (by omega)

theorem ends_open {l : Local} {d : Disk} {p : Path} {t : Text} (hn : l.pending = none) (h : ∀ d', Ends E j l d') :
    Ends E j (openFile l p t).1 ((openFile l p t).2.1.run d) := by
  refine ends_pending fun d' => ?_
  obtain ⟨pc, pending, learned, events, sem, hit⟩ := l
  cases hn
  exact h d'

theorem ends_results {ks : List Kind} : ∀ (l : Local) (d : Disk), l.pc = .results ks → l.pending = none → Ends E j l d := by
  induction ks with
  | nil =>
    rintro ⟨pc, pending, learned, events, sem, hit⟩ d rfl rfl
    exact ends_step (ends_now rfl)
  | cons k ks ih =>
    rintro ⟨pc, pending, learned, events, sem, hit⟩ d rfl rfl
    exact ends_step (ends_open rfl fun d' => ih _ _ rfl rfl)

theorem ends_semantic : ∀ (l : Local) (d : Disk), l.pc = .semantic → l.pending = none → Ends E j l d := by
  rintro ⟨pc, pending, learned, events, sem, hit⟩ d rfl rfl
  apply ends_step
  unfold step
  dsimp only
  by_cases hm : j.alg = .maSamPlus
  · rw [if_pos hm]
    exact ends_results _ _ rfl rfl
  · rw [if_neg hm]
    cases j.world.semantic (fun f => d (.evaluation j.fold f)) (d (.work E.domainFile)) (d (.test j.test E.domainFile)) learned.count with
    | none => exact ends_now rfl
    | some t => exact ends_results _ _ rfl rfl

/-- The program comes to an end from the list of problems on. -/
def NextEnds (E : Experiment) (j : Job) (ps : List Name) : Prop :=
  ∀ (l : Local) (d : Disk), l.pc = .next ps → l.pending = none → Ends E j l d

theorem ends_check {p : Name} {ps : List Name} (h : NextEnds E j ps) : ∀ (l : Local) (d : Disk), l.pc = .check p ps → l.pending = none → Ends E j l d := by
  rintro ⟨pc, pending, learned, events, sem, hit⟩ d rfl rfl
  exact ends_step (h _ _ rfl rfl)

theorem ends_expert {p : Name} {ps : List Name} {o : Spec.Outcome} (h : NextEnds E j ps) :
    ∀ (l : Local) (d : Disk), l.pc = .expert p ps o → l.pending = none → Ends E j l d := by
  rintro ⟨pc, pending, learned, events, sem, hit⟩ d rfl rfl
  exact ends_step (h _ _ rfl rfl)

theorem ends_adapt {p : Name} {ps : List Name} (h : NextEnds E j ps) : ∀ (l : Local) (d : Disk), l.pc = .adapt p ps → l.pending = none → Ends E j l d := by
  rintro ⟨pc, pending, learned, events, sem, hit⟩ d rfl rfl
  apply ends_step
  unfold step
  dsimp only
  by_cases hm : j.alg = .maSamPlus
  · rw [if_pos hm]
    cases (d (solutionPath j p)).bind (j.world.adapt learned) with
    | none => exact ends_now rfl
    | some t => exact ends_open rfl fun d' => ends_check h _ _ rfl rfl
  · rw [if_neg hm]
    exact ends_check h _ _ rfl rfl

/-- From a failed attempt on. -/
theorem ends_failed {p : Name} {ps : List Name} {s : Planner} {rest : List Planner} {left : Nat} {o : Spec.Outcome} (h : NextEnds E j ps)
    (hl : ∀ (l : Local) (d : Disk), left ≠ 0 → l.pc = .launch p ps (s :: rest) (left - 1) → l.pending = none → Ends E j l d)
    (hr : ∀ (l : Local) (d : Disk), rest ≠ [] → l.pc = .launch p ps rest 3 → l.pending = none → Ends E j l d) (l : Local) (d : Disk) (hn : l.pending = none) :
    Ends E j (failed j l p ps s rest left o).1 ((failed j l p ps s rest left o).2.run d) := by
  unfold failed
  by_cases hc : s = .enhsp ∧ o = .solverError ∧ 0 < left
  · rw [if_pos hc]
    exact hl _ _ (by omega) rfl hn
  · rw [if_neg hc]
    by_cases hre : rest = []
    · rw [if_pos hre]
      exact ends_expert h _ _ rfl hn
    · rw [if_neg hre]
      exact hr _ _ hre rfl hn

theorem ends_running {p : Name} {ps : List Name} {s : Planner} {rest : List Planner} {left : Nat} {run : Run} (h : NextEnds E j ps)
    (hl : ∀ (l : Local) (d : Disk), left ≠ 0 → l.pc = .launch p ps (s :: rest) (left - 1) → l.pending = none → Ends E j l d)
    (hr : ∀ (l : Local) (d : Disk), rest ≠ [] → l.pc = .launch p ps rest 3 → l.pending = none → Ends E j l d) :
    ∀ (l : Local) (d : Disk), l.pc = .running p ps s rest left run → l.pending = none → Ends E j l d := by
  rintro ⟨pc, pending, learned, events, sem, hit⟩ d rfl rfl
  apply ends_step
  unfold step
  dsimp only
  cases hit with
  | true => exact ends_failed h hl hr _ _ rfl
  | false =>
    cases run with
    | solved t => exact ends_adapt h _ _ rfl rfl
    | failed o t => exact ends_failed h hl hr _ _ rfl

theorem ends_launch {p : Name} {ps : List Name} (h : NextEnds E j ps) : ∀ (pf : List Planner) (left : Nat) (l : Local) (d : Disk),
    l.pc = .launch p ps pf left → l.pending = none → Ends E j l d := by
  intro pf
  induction pf with
  | nil =>
    rintro left ⟨pc, pending, learned, events, sem, hit⟩ d rfl rfl
    exact ends_step (ends_now rfl)
  | cons s rest ih =>
    intro left
    induction left with
    | zero =>
      rintro ⟨pc, pending, learned, events, sem, hit⟩ d rfl rfl
      apply ends_step
      unfold step
      dsimp only
      unfold launch
      dsimp only
      have hrun : ∀ run d', Ends E j ⟨.running p ps s rest 0 run, none, learned, events, sem, false⟩ d' := fun run d' =>
        ends_running h (fun _ _ h => absurd rfl h) (fun l d _ => ih 3 l d) _ _ rfl rfl
      cases output (j.world.plan s (d (.test j.test E.domainFile)) (d (.test j.test p))) with
      | none => exact hrun _ _
      | some t => exact ends_open rfl fun d' => hrun _ _
    | succ n ihn =>
      rintro ⟨pc, pending, learned, events, sem, hit⟩ d rfl rfl
      apply ends_step
      unfold step
      dsimp only
      unfold launch
      dsimp only
      have hrun : ∀ run d', Ends E j ⟨.running p ps s rest (n + 1) run, none, learned, events, sem, false⟩ d' := fun run d' =>
        ends_running h (fun l d _ => ihn l d) (fun l d _ => ih 3 l d) _ _ rfl rfl
      cases output (j.world.plan s (d (.test j.test E.domainFile)) (d (.test j.test p))) with
      | none => exact hrun _ _
      | some t => exact ends_open rfl fun d' => hrun _ _

theorem ends_next (ps : List Name) : NextEnds E j ps := by
  induction ps with
  | nil =>
    rintro ⟨pc, pending, learned, events, sem, hit⟩ d rfl rfl
    exact ends_step (ends_step (ends_semantic _ _ rfl rfl))
  | cons p ps ih =>
    rintro ⟨pc, pending, learned, events, sem, hit⟩ d rfl rfl
    exact ends_step (ends_launch ih _ _ _ _ rfl rfl)

theorem ends_backup : ∀ (l : Local) (d : Disk), l.pc = .backup → l.pending = none → Ends E j l d := by
  rintro ⟨pc, pending, learned, events, sem, hit⟩ d rfl rfl
  apply ends_step
  unfold step
  dsimp only
  cases d (.test j.test E.domainFile) with
  | none => exact ends_now rfl
  | some t =>
    refine ends_open rfl fun d' => ?_
    by_cases hs : (E.abortSolving && decide (j.alg ≠ .maSamPlus)) = true
    · rw [if_pos hs]
      exact ends_semantic _ _ rfl rfl
    · rw [if_neg hs]
      exact ends_step (ends_next _ _ _ rfl rfl)

theorem ends_learn : ∀ (l : Local) (d : Disk), l.pc = .learn → l.pending = none → Ends E j l d := by
  rintro ⟨pc, pending, learned, events, sem, hit⟩ d rfl rfl
  apply ends_step
  unfold step
  dsimp only
  cases j.world.learn fun f => d (.train j.train f) with
  | none => exact ends_now rfl
  | some L => exact ends_step (ends_open rfl fun d' => ends_backup _ _ rfl rfl)

theorem ends_all (l : Local) (d : Disk) : Ends E j l d := by
  refine ends_pending fun d => ?_
  obtain ⟨pc, pending, learned, events, sem, hit⟩ := l
  dsimp only
  cases pc with
  | init =>
    apply ends_step
    unfold step
    dsimp only
    by_cases hi : j.world.init (fun f => d (.evaluation j.fold f)) (d (.work E.domainFile)) = true
    · rw [if_pos hi]
      exact ends_learn _ _ rfl rfl
    · rw [if_neg hi]
      exact ends_now rfl
  | learn => exact ends_learn _ _ rfl rfl
  | «export» => exact ends_step (ends_open rfl fun d' => ends_backup _ _ rfl rfl)
  | backup => exact ends_backup _ _ rfl rfl
  | list => exact ends_step (ends_next _ _ _ rfl rfl)
  | next ps => exact ends_next ps _ _ rfl rfl
  | launch p ps pf left => exact ends_launch (ends_next ps) pf left _ _ rfl rfl
  | running p ps s rest left run =>
    exact ends_running (ends_next ps) (fun l d _ => ends_launch (ends_next ps) _ _ l d) (fun l d _ => ends_launch (ends_next ps) _ _ l d) _ _ rfl rfl
  | adapt p ps => exact ends_adapt (ends_next ps) _ _ rfl rfl
  | check p ps => exact ends_check (ends_next ps) _ _ rfl rfl
  | expert p ps o => exact ends_expert (ends_next ps) _ _ rfl rfl
  | clear => exact ends_step (ends_semantic _ _ rfl rfl)
  | semantic => exact ends_semantic _ _ rfl rfl
  | results ks => exact ends_results _ _ rfl rfl
  | done => exact ends_now rfl
  | raised => exact ends_now rfl
  | killed => exact ends_now rfl

end Ends

theorem run_alone (i : ι) : ∀ (n : Nat) (s : State ι),
    ((List.replicate n (Act.run i)).foldl (act E jobs) s).locals i = (alone E (jobs i) n (s.locals i) s.disk).1 := by
  intro n
  induction n with
  | zero => exact fun s => rfl
  | succ n ih =>
    intro s
    rw [List.replicate_succ, List.foldl_cons, ih]
    have hal : alone E (jobs i) (n + 1) (s.locals i) s.disk = alone E (jobs i) n (step E (jobs i) (s.locals i) s.disk).1
      ((step E (jobs i) (s.locals i) s.disk).2.1.run s.disk) := rfl
    rw [hal]
    unfold act
    dsimp only
    have : afterPkill jobs i (step E (jobs i) (s.locals i) s.disk).2.2 (Function.update s.locals i (step E (jobs i) (s.locals i) s.disk).1) i =
        (step E (jobs i) (s.locals i) s.disk).1 := by
      unfold afterPkill
      cases (step E (jobs i) (s.locals i) s.disk).2.2 with
      | none => exact Function.update_self ..
      | some x =>
        dsimp only
        rw [if_neg (fun h => h.1 rfl)]
        exact Function.update_self ..
    rw [this]

theorem step_not_killed {j : Job} {l : Local} {d : Disk} (h : l.pc ≠ .killed) : (step E j l d).1.pc ≠ .killed := by
  obtain ⟨pc, pending, learned, events, sem, hit⟩ := l
  cases pending with
  | some q =>
    unfold step
    dsimp only
    split_ifs <;> exact h
  | none =>
    unfold step
    cases pc <;> dsimp only [openFile, launch, failed] at h ⊢ <;> (repeat' split) <;> simp_all

theorem alone_not_killed {j : Job} : ∀ (n : Nat) (l : Local) (d : Disk), l.pc ≠ .killed → (alone E j n l d).1.pc ≠ .killed := by
  intro n
  induction n with
  | zero => exact fun l d h => h
  | succ n ih => exact fun l d h => ih _ _ (step_not_killed h)

theorem submitted (d0 : Disk) (h : List (Act ι)) (i : ι) : (exec E jobs d0 (h ++ [.kill i, .submit i])).locals i = .start := by
  unfold exec
  rw [List.foldl_append]
  generalize h.foldl (act E jobs) ⟨d0, fun _ => .start⟩ = s
  simp only [List.foldl_cons, List.foldl_nil]
  by_cases he : ended (s.locals i) = true
  · have h1 : act E jobs s (.kill i) = s := if_pos he
    have h2 : act E jobs s (.submit i) = ⟨s.disk, Function.update s.locals i .start⟩ := if_pos he
    rw [h1, h2]
    exact Function.update_self ..
  · have h1 : act E jobs s (.kill i) = ⟨s.disk, Function.update s.locals i { s.locals i with pc := .killed, pending := none }⟩ := if_neg he
    rw [h1]
    generalize hu : Function.update s.locals i { s.locals i with pc := .killed, pending := none } = ls
    have he' : ended (ls i) = true := by
      rw [← hu, Function.update_self]
      rfl
    have h2 : act E jobs ⟨s.disk, ls⟩ (.submit i) = ⟨s.disk, Function.update ls i .start⟩ := if_pos he'
    rw [h2]
    exact Function.update_self ..

/-- **Every job ends** when it is given enough steps, whatever happened before. -/
theorem C119_ends (E : Experiment) (jobs : ι → Job) (d0 : Disk) (h : List (Act ι)) (i : ι) :
    ∃ n, ended ((exec E jobs d0 (h ++ List.replicate n (.run i))).locals i) = true := by
  obtain ⟨n, hn⟩ := ends_all (E := E) (j := jobs i) ((exec E jobs d0 h).locals i) (exec E jobs d0 h).disk
  refine ⟨n, ?_⟩
  unfold exec at hn ⊢
  rw [List.foldl_append, run_alone]
  exact hn

/-- **After any crash it suffices to submit the job again**: in every history a job whose programs raise no exception can be
submitted again, and then it finishes with the report of a first run. -/
theorem C119_recovers (S : Setting E jobs) (d0 : Disk) (h : List (Act ι)) (i : ι) {r : Learned × List Event × Text}
    (hr : report E (jobs i) d0 = some r) :
    ∃ n, ∀ k ∈ kinds (jobs i).alg,
      (exec E jobs d0 (h ++ [.kill i, .submit i] ++ List.replicate n (.run i))).disk ((jobs i).file E k) = some ((jobs i).text k r) := by
  obtain ⟨n, hn⟩ := C119_ends E jobs d0 (h ++ [.kill i, .submit i]) i
  refine ⟨n, ?_⟩
  have hi := (good_exec S d0 (h ++ [.kill i, .submit i] ++ List.replicate n (.run i))).inv i
  cases hpc : ((exec E jobs d0 (h ++ [.kill i, .submit i] ++ List.replicate n (.run i))).locals i).pc with
  | done =>
    obtain ⟨r', hr', hk⟩ := C119_finished S d0 _ i hpc
    rw [hr] at hr'
    cases hr'
    exact hk
  | raised =>
    have := C119_raised S d0 _ i hpc
    rw [hr] at this
    cases this
  | killed =>
    exact absurd hpc (by
      have : exec E jobs d0 (h ++ [.kill i, .submit i] ++ List.replicate n (.run i)) =
        (List.replicate n (.run i)).foldl (act E jobs) (exec E jobs d0 (h ++ [.kill i, .submit i])) := by
        unfold exec; rw [List.foldl_append]
      rw [this, run_alone]
      exact alone_not_killed n _ _ (by rw [submitted]; simp [Local.start]))
  | _ =>
    unfold ended at hn
    rw [hpc] at hn
    cases hn

end Jobs
end Props

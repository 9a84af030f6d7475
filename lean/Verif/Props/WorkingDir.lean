import Verif.Model.WorkingDir

/-! C120: the working directory of the process while a learned domain is validated. -/
namespace Props
namespace WorkingDir
open Model.WorkingDir
open Spec.Jobs (Planner solutionOf)
open Model.Results (Name)

/-! ### What is meant -/

/-- What should be started for a problem, with the files of the test directory `test` and of the experiment `working`: each planner
on the learned domain and the problem until one solves it; then VAL with the domain of the experiment on the plan found, or VAL with
the learned domain on the expert's plan. -/
def meant (working test : Abs) (domain : Name) (solved : Planner → Name → Bool) (p : Name) : List Planner → List Call
  | [] => [.val (test ++ [domain]) (test ++ [p]) (working ++ [solutionOf p]) (test ++ [logName])]
  | a :: rest =>
    .plan a (test ++ [domain]) (test ++ [p]) (test ++ [solutionOf p]) ::
      if solved a p then
        (if a = .enhsp then [] else [.rewrite (test ++ [solutionOf p])]) ++
          [.val (working ++ [domain]) (test ++ [p]) (test ++ [solutionOf p]) (working ++ [logName])]
      else meant working test domain solved p rest

/-- The setup has absolute paths only, and the directories exist. -/
structure Absolute (S : Setup) (dirs : Abs → Bool) : Prop where
  fastDownward : S.fastDownward.absolute = true ∧ dirs S.fastDownward.parts = true
  metricFF : S.metricFF.absolute = true ∧ dirs S.metricFF.parts = true
  validator : S.validator.absolute = true ∧ dirs S.validator.parts = true
  working : S.working.absolute = true ∧ dirs S.working.parts = true
  test : S.test.absolute = true ∧ dirs S.test.parts = true

theorem at_abs {p : Path} (h : p.absolute = true) (cwd : Abs) : p.at cwd = p.parts := if_pos h

theorem child_abs {p : Path} (h : p.absolute = true) (n : Name) (cwd : Abs) : (p.child n).at cwd = p.parts ++ [n] := if_pos h

theorem problem_absolute {S : Setup} {dirs : Abs → Bool} (h : Absolute S dirs) (solved : Planner → Name → Bool) (p : Name) :
    ∀ (portfolio : List Planner) (s : Proc), s.raised = false →
      (problem S dirs solved p portfolio s).raised = false ∧
      (problem S dirs solved p portfolio s).calls = s.calls ++ meant S.working.parts S.test.parts S.domain solved p portfolio := by
  intro portfolio
  induction portfolio with
  | nil =>
    intro s hs
    unfold problem val meant
    rw [at_abs h.validator.1, at_abs h.test.1, h.validator.2, h.test.2]
    simp only [Bool.and_self, if_true, child_abs h.test.1, child_abs h.working.1]
    exact ⟨hs, rfl⟩
  | cons a rest ih =>
    intro s hs
    have hval : ∀ t : Proc, t.raised = false → val S dirs S.working p (S.test.child (solutionOf p)) t =
        t.add [.val (S.working.parts ++ [S.domain]) (S.test.parts ++ [p]) (S.test.parts ++ [solutionOf p]) (S.working.parts ++ [logName])] := by
      intro t _
      unfold val
      rw [at_abs h.validator.1, at_abs h.working.1, h.validator.2, h.working.2]
      simp only [Bool.and_self, if_true, child_abs h.test.1, child_abs h.working.1]
    obtain ⟨c, hc⟩ : ∃ c, solve S dirs (solved a p) p s a = ⟨c, s.calls ++ (.plan a (S.test.parts ++ [S.domain]) (S.test.parts ++ [p])
        (S.test.parts ++ [solutionOf p]) :: if solved a p ∧ a ≠ .enhsp then [.rewrite (S.test.parts ++ [solutionOf p])] else []), false⟩ := by
      cases a with
      | fastDownward =>
        unfold solve fastDownward
        dsimp only
        rw [at_abs h.fastDownward.1, h.fastDownward.2]
        simp only [if_true, child_abs h.test.1]
        cases solved .fastDownward p with
        | true => exact ⟨s.cwd, by simp [Proc.add, hs]⟩
        | false => exact ⟨S.fastDownward.parts, by simp [Proc.add, hs]⟩
      | metricFF =>
        unfold solve metricFF
        dsimp only
        rw [at_abs h.metricFF.1, h.metricFF.2]
        simp only [if_true, child_abs h.test.1]
        cases solved .metricFF p with
        | true => exact ⟨S.metricFF.parts, by simp [Proc.add, hs]⟩
        | false => exact ⟨S.metricFF.parts, by simp [Proc.add, hs]⟩
      | enhsp =>
        refine ⟨s.cwd, ?_⟩
        unfold solve enhsp
        simp [child_abs h.test.1, Proc.add, hs]
    unfold problem
    rw [hc]
    dsimp only
    rw [if_neg (by simp)]
    cases hsol : solved a p with
    | true =>
      simp only [if_true, true_and]
      rw [hval _ rfl]
      refine ⟨rfl, ?_⟩
      unfold meant Proc.add
      rw [hsol]
      dsimp only
      simp only [if_true]
      by_cases ha : a = .enhsp
      · rw [if_neg (by simp [ha]), if_pos ha]
        simp
      · rw [if_pos ha, if_neg ha]
        simp
    | false =>
      simp only [Bool.false_eq_true, if_false, false_and]
      obtain ⟨h1, h2⟩ := ih ⟨c, s.calls ++ [.plan a (S.test.parts ++ [S.domain]) (S.test.parts ++ [p]) (S.test.parts ++ [solutionOf p])], false⟩ rfl
      refine ⟨h1, ?_⟩
      rw [h2]
      conv => rhs; unfold meant
      rw [hsol]
      simp

/-- **With absolute paths the working directory does not matter**: wherever the process is, whatever the planners answer, for all
test sets and portfolios, every program is started on the files it is meant to work on, and nothing is raised. -/
theorem C120_absolute {S : Setup} {dirs : Abs → Bool} (h : Absolute S dirs) (solved : Planner → Name → Bool) (portfolio : List Planner)
    (problems : List Name) (cwd : Abs) :
    (validate S dirs solved portfolio problems ⟨cwd, [], false⟩).raised = false ∧
    (validate S dirs solved portfolio problems ⟨cwd, [], false⟩).calls =
      problems.flatMap fun p => meant S.working.parts S.test.parts S.domain solved p portfolio := by
  have key : ∀ (ps : List Name) (s : Proc), s.raised = false →
      (validate S dirs solved portfolio ps s).raised = false ∧
      (validate S dirs solved portfolio ps s).calls =
        s.calls ++ ps.flatMap fun p => meant S.working.parts S.test.parts S.domain solved p portfolio := by
    intro ps
    induction ps with
    | nil => exact fun s hs => ⟨hs, by simp [validate]⟩
    | cons p ps ih =>
      intro s hs
      obtain ⟨h1, h2⟩ := problem_absolute h solved p portfolio s hs
      obtain ⟨h3, h4⟩ := ih _ h1
      unfold validate
      dsimp only
      rw [h1]
      simp only [Bool.false_eq_true, if_false]
      refine ⟨h3, ?_⟩
      rw [h4, h2, List.flatMap_cons, List.append_assoc]
  obtain ⟨h1, h2⟩ := key problems ⟨cwd, [], false⟩ rfl
  exact ⟨h1, by rw [h2]; rfl⟩

/-! ### Relative paths -/

/-- What Fast Downward and VAL are started on in directory `cwd`, for problems that are solved. -/
theorem fd_solved {S : Setup} {dirs : Abs → Bool} {solved : Planner → Name → Bool} {p : Name} {s : Proc} (hs : s.raised = false)
    (hsol : solved .fastDownward p = true) (hfd : dirs (S.fastDownward.at s.cwd) = true) (hv : dirs (S.validator.at s.cwd) = true)
    (hw : dirs (S.working.at s.cwd) = true) :
    problem S dirs solved p [.fastDownward] s =
      ⟨s.cwd, s.calls ++ meant (S.working.at s.cwd) (S.test.at s.cwd) S.domain solved p [.fastDownward], false⟩ := by
  have hch : ∀ (q : Path) n, (q.child n).at s.cwd = q.at s.cwd ++ [n] := by
    intro q n
    unfold Path.at Path.child
    dsimp only
    split_ifs <;> simp
  unfold problem solve fastDownward meant
  dsimp only
  rw [hfd, hsol]
  simp only [if_true]
  unfold val Proc.add
  dsimp only
  rw [hs, hv, hw]
  simp [hch]

/-- **A relative working directory with Fast Downward**: the problems are validated correctly as long as all of them are solved, but
the first problem that is not solved ends the validation with a `FileNotFoundError` (unless the directory of Fast Downward contains a
copy of the test directory), although all files are there. -/
theorem C120_relative_aborts {S : Setup} {dirs : Abs → Bool} {solved : Planner → Name → Bool} {cwd : Abs} (ps : List Name) (p : Name) (rest : List Name)
    (hfd : S.fastDownward.absolute = true) (hfd' : dirs S.fastDownward.parts = true) (hv : S.validator.absolute = true)
    (hv' : dirs S.validator.parts = true) (hw : dirs (S.working.at cwd) = true) (ht : S.test.absolute = false)
    (hno : dirs (S.fastDownward.parts ++ S.test.parts) = false) (hps : ∀ q ∈ ps, solved .fastDownward q = true) (hp : solved .fastDownward p = false) :
    (validate S dirs solved [.fastDownward] (ps ++ p :: rest) ⟨cwd, [], false⟩).raised = true ∧
    (validate S dirs solved [.fastDownward] (ps ++ p :: rest) ⟨cwd, [], false⟩).calls =
      (ps.flatMap fun q => meant (S.working.at cwd) (S.test.at cwd) S.domain solved q [.fastDownward]) ++
        [.plan .fastDownward (S.test.at cwd ++ [S.domain]) (S.test.at cwd ++ [p]) (S.test.at cwd ++ [solutionOf p])] := by
  have key : ∀ (calls : List Call), (∀ q ∈ ps, solved .fastDownward q = true) →
      validate S dirs solved [.fastDownward] (ps ++ p :: rest) ⟨cwd, calls, false⟩ =
      ⟨S.fastDownward.parts, calls ++ (ps.flatMap fun q => meant (S.working.at cwd) (S.test.at cwd) S.domain solved q [.fastDownward]) ++
        [.plan .fastDownward (S.test.at cwd ++ [S.domain]) (S.test.at cwd ++ [p]) (S.test.at cwd ++ [solutionOf p])], true⟩ := by
    clear hps
    induction ps with
    | nil =>
      intro calls _
      rw [List.nil_append]
      have hpr : problem S dirs solved p [.fastDownward] ⟨cwd, calls, false⟩ =
          ⟨S.fastDownward.parts, calls ++ [.plan .fastDownward (S.test.at cwd ++ [S.domain]) (S.test.at cwd ++ [p]) (S.test.at cwd ++ [solutionOf p])], true⟩ := by
        unfold problem solve fastDownward
        dsimp only
        rw [at_abs hfd, hfd', hp]
        simp only [if_true, Bool.false_eq_true, if_false, Proc.add]
        unfold problem val
        dsimp only
        have : S.test.at S.fastDownward.parts = S.fastDownward.parts ++ S.test.parts := by
          unfold Path.at; rw [ht]; rfl
        rw [this, hno]
        simp [Path.at, Path.child, ht]
      unfold validate
      rw [hpr]
      simp
    | cons q ps ih =>
      intro calls hps
      rw [List.cons_append]
      have hpr := fd_solved (S := S) (dirs := dirs) (solved := solved) (p := q) (s := ⟨cwd, calls, false⟩) rfl (hps q (by simp))
        (by rw [at_abs hfd]; exact hfd') (by rw [at_abs hv]; exact hv') hw
      unfold validate
      dsimp only
      rw [hpr]
      simp only [Bool.false_eq_true, if_false]
      rw [ih _ (fun x hx => hps x (by simp [hx]))]
      simp
  rw [key [] hps]
  exact ⟨rfl, by simp⟩

/-- **The default directory of Fast Downward, `./fast-downward`**: the problem after the first one that is not solved raises a
`FileNotFoundError`, also when all other paths are absolute. -/
theorem C120_default_fast_downward {S : Setup} {dirs : Abs → Bool} {solved : Planner → Name → Bool} {cwd : Abs} {calls : List Call} (p q : Name) (rest : List Name)
    (hfd : S.fastDownward.absolute = false) (hno : dirs (cwd ++ S.fastDownward.parts ++ S.fastDownward.parts) = false)
    (hp : solved .fastDownward p = false) :
    (validate S dirs solved [.fastDownward] (p :: q :: rest) ⟨cwd, calls, false⟩).raised = true := by
  unfold validate
  dsimp only
  split_ifs with hr
  · exact hr
  · have hcwd : (problem S dirs solved p [.fastDownward] ⟨cwd, calls, false⟩).cwd = cwd ++ S.fastDownward.parts := by
      unfold problem at hr ⊢
      unfold solve fastDownward at hr ⊢
      dsimp only at hr ⊢
      rw [hp] at hr ⊢
      by_cases hd : dirs (S.fastDownward.at cwd) = true
      · rw [if_pos hd]
        simp only [Bool.false_eq_true, if_false, Proc.add]
        unfold problem val
        have : S.fastDownward.at cwd = cwd ++ S.fastDownward.parts := by unfold Path.at; rw [hfd]; rfl
        rw [this]
        split_ifs <;> rfl
      · rw [if_neg hd] at hr
        exact absurd rfl hr
    generalize problem S dirs solved p [.fastDownward] ⟨cwd, calls, false⟩ = t at hr hcwd
    have : problem S dirs solved q [.fastDownward] t = { t with raised := true } := by
      unfold problem solve fastDownward
      dsimp only
      have : S.fastDownward.at t.cwd = cwd ++ S.fastDownward.parts ++ S.fastDownward.parts := by
        unfold Path.at; rw [hfd, hcwd]; rfl
      rw [this, hno]
      simp
    unfold validate
    rw [this]
    simp

/-- **The default directory of Metric-FF, `./metric-ff`**: the second problem raises a `FileNotFoundError`, whatever the planners answer. -/
theorem C120_default_metric_ff {S : Setup} {dirs : Abs → Bool} {solved : Planner → Name → Bool} {cwd : Abs} {calls : List Call} (p q : Name) (rest : List Name)
    (hff : S.metricFF.absolute = false) (hno : dirs (cwd ++ S.metricFF.parts ++ S.metricFF.parts) = false) :
    (validate S dirs solved [.metricFF, .enhsp] (p :: q :: rest) ⟨cwd, calls, false⟩).raised = true := by
  unfold validate
  dsimp only
  split_ifs with hr
  · exact hr
  · have hval : ∀ dir p plan (t : Proc), (val S dirs dir p plan t).cwd = t.cwd := by
      intro dir p plan t
      unfold val
      split_ifs <;> rfl
    have hcwd : (problem S dirs solved p [.metricFF, .enhsp] ⟨cwd, calls, false⟩).cwd = cwd ++ S.metricFF.parts := by
      have hat : S.metricFF.at cwd = cwd ++ S.metricFF.parts := by unfold Path.at; rw [hff]; rfl
      unfold problem at hr ⊢
      dsimp only at hr ⊢
      by_cases hd : dirs (S.metricFF.at cwd) = true
      · have hc : (solve S dirs (solved .metricFF p) p ⟨cwd, calls, false⟩ .metricFF).cwd = cwd ++ S.metricFF.parts ∧
            (solve S dirs (solved .metricFF p) p ⟨cwd, calls, false⟩ .metricFF).raised = false := by
          unfold solve metricFF
          dsimp only
          rw [if_pos hd, ← hat]
          split_ifs <;> exact ⟨rfl, rfl⟩
        rw [hc.2]
        simp only [Bool.false_eq_true, if_false]
        split_ifs with h1
        · rw [hval]; exact hc.1
        · unfold problem
          dsimp only
          have he : ∀ t : Proc, (solve S dirs (solved .enhsp p) p t .enhsp).cwd = t.cwd ∧ (solve S dirs (solved .enhsp p) p t .enhsp).raised = t.raised :=
            fun t => ⟨rfl, rfl⟩
          rw [(he _).2, hc.2]
          simp only [Bool.false_eq_true, if_false]
          split_ifs with h2
          · rw [hval, (he _).1]; exact hc.1
          · unfold problem
            rw [hval, (he _).1]; exact hc.1
      · have hc : solve S dirs (solved .metricFF p) p ⟨cwd, calls, false⟩ .metricFF = ⟨cwd, calls, true⟩ := by
          unfold solve metricFF
          dsimp only
          rw [if_neg hd]
        rw [hc] at hr
        exact absurd rfl hr
    generalize problem S dirs solved p [.metricFF, .enhsp] ⟨cwd, calls, false⟩ = t at hr hcwd
    have : problem S dirs solved q [.metricFF, .enhsp] t = { t with raised := true } := by
      unfold problem solve metricFF
      dsimp only
      have : S.metricFF.at t.cwd = cwd ++ S.metricFF.parts ++ S.metricFF.parts := by
        unfold Path.at; rw [hff, hcwd]; rfl
      rw [this, hno]
      simp
    unfold validate
    rw [this]
    simp

/-- **Relative paths with Metric-FF**: already the first problem is read from a directory below that of Metric-FF, and not from the
test directory. -/
theorem C120_relative_metric_ff {S : Setup} {dirs : Abs → Bool} {solved : Planner → Name → Bool} {cwd : Abs} (p : Name) (rest : List Name)
    (ht : S.test.absolute = false) (hff : S.metricFF.absolute = true) (hff' : dirs S.metricFF.parts = true) (hne : cwd ≠ S.metricFF.parts) :
    ∃ dom sol calls, (validate S dirs solved [.metricFF, .enhsp] (p :: rest) ⟨cwd, [], false⟩).calls =
        .plan .metricFF dom (S.metricFF.parts ++ (S.test.parts ++ [p])) sol :: calls ∧
      S.metricFF.parts ++ (S.test.parts ++ [p]) ≠ S.test.at cwd ++ [p] := by
  have hgrow : ∀ (a : Planner) q (b : Bool) (s : Proc), ∃ l, (solve S dirs b q s a).calls = s.calls ++ l := by
    intro a q b s
    cases a with
    | fastDownward =>
      unfold solve fastDownward
      dsimp only
      split_ifs
      · exact ⟨_, List.append_assoc ..⟩
      · exact ⟨_, rfl⟩
      · exact ⟨[], by simp⟩
    | metricFF =>
      unfold solve metricFF
      dsimp only
      split_ifs
      · exact ⟨_, List.append_assoc ..⟩
      · exact ⟨_, rfl⟩
      · exact ⟨[], by simp⟩
    | enhsp => exact ⟨_, rfl⟩
  have hgv : ∀ dir q plan (s : Proc), ∃ l, (val S dirs dir q plan s).calls = s.calls ++ l := by
    intro dir q plan s
    unfold val
    split_ifs
    · exact ⟨_, rfl⟩
    · exact ⟨[], by simp⟩
  have hgp : ∀ (pf : List Planner) q (s : Proc), ∃ l, (problem S dirs solved q pf s).calls = s.calls ++ l := by
    intro pf q
    induction pf with
    | nil => exact fun s => hgv _ _ _ _
    | cons a pf ih =>
      intro s
      obtain ⟨l1, h1⟩ := hgrow a q (solved a q) s
      unfold problem
      dsimp only
      split_ifs
      · exact ⟨l1, h1⟩
      · obtain ⟨l2, h2⟩ := hgv S.working q (S.test.child (solutionOf q)) (solve S dirs (solved a q) q s a)
        exact ⟨l1 ++ l2, by rw [h2, h1, List.append_assoc]⟩
      · obtain ⟨l2, h2⟩ := ih (solve S dirs (solved a q) q s a)
        exact ⟨l1 ++ l2, by rw [h2, h1, List.append_assoc]⟩
  have hgall : ∀ (ps : List Name) (s : Proc), ∃ l, (validate S dirs solved [.metricFF, .enhsp] ps s).calls = s.calls ++ l := by
    intro ps
    induction ps with
    | nil => exact fun s => ⟨[], by simp [validate]⟩
    | cons q ps ih =>
      intro s
      obtain ⟨l1, h1⟩ := hgp [.metricFF, .enhsp] q s
      unfold validate
      dsimp only
      split_ifs
      · exact ⟨l1, h1⟩
      · obtain ⟨l2, h2⟩ := ih (problem S dirs solved q [.metricFF, .enhsp] s)
        exact ⟨l1 ++ l2, by rw [h2, h1, List.append_assoc]⟩
  have hfirst : ∃ l, (problem S dirs solved p [.metricFF, .enhsp] ⟨cwd, [], false⟩).calls =
      [.plan .metricFF (S.metricFF.parts ++ (S.test.parts ++ [S.domain])) (S.metricFF.parts ++ (S.test.parts ++ [p]))
        (S.metricFF.parts ++ (S.test.parts ++ [solutionOf p]))] ++ l := by
    have h1 : ∃ l, (solve S dirs (solved .metricFF p) p ⟨cwd, [], false⟩ .metricFF).calls =
        [.plan .metricFF (S.metricFF.parts ++ (S.test.parts ++ [S.domain])) (S.metricFF.parts ++ (S.test.parts ++ [p]))
          (S.metricFF.parts ++ (S.test.parts ++ [solutionOf p]))] ++ l := by
      unfold solve metricFF
      dsimp only
      rw [at_abs hff, hff']
      simp only [if_true]
      split_ifs
      · exact ⟨[_], by simp [Proc.add, Path.at, Path.child, ht]; rfl⟩
      · exact ⟨[], by simp [Proc.add, Path.at, Path.child, ht]⟩
    obtain ⟨l1, h1⟩ := h1
    unfold problem
    dsimp only
    split_ifs
    · exact ⟨l1, h1⟩
    · obtain ⟨l2, h2⟩ := hgv S.working p (S.test.child (solutionOf p)) (solve S dirs (solved .metricFF p) p ⟨cwd, [], false⟩ .metricFF)
      exact ⟨l1 ++ l2, by rw [h2, h1, List.append_assoc]⟩
    · obtain ⟨l2, h2⟩ := hgp [.enhsp] p (solve S dirs (solved .metricFF p) p ⟨cwd, [], false⟩ .metricFF)
      exact ⟨l1 ++ l2, by rw [h2, h1, List.append_assoc]⟩
  obtain ⟨l1, h1⟩ := hfirst
  have hall : ∃ l, (validate S dirs solved [.metricFF, .enhsp] (p :: rest) ⟨cwd, [], false⟩).calls =
      (problem S dirs solved p [.metricFF, .enhsp] ⟨cwd, [], false⟩).calls ++ l := by
    conv => enter [1, l]; unfold validate
    dsimp only
    split_ifs
    · exact ⟨[], by simp⟩
    · exact hgall rest _
  obtain ⟨l2, h2⟩ := hall
  refine ⟨_, _, l1 ++ l2, by rw [h2, h1]; rfl, fun he => hne ?_⟩
  have : S.test.at cwd = cwd ++ S.test.parts := by unfold Path.at; rw [ht]; rfl
  rw [this, ← List.append_assoc] at he
  exact (List.append_cancel_right (List.append_cancel_right he)).symm

/-! ### Concrete cases -/
namespace Case

/-- The files of the cases: the tools, the experiment and its test set. -/
def dirs (d : Abs) : Bool :=
  d ∈ [["fd".toList], ["ff".toList], ["val".toList], ["home".toList], ["home".toList, "exp".toList], ["home".toList, "exp".toList, "test".toList],
    ["home".toList, "fast-downward".toList], ["home".toList, "metric-ff".toList]]

/-- All paths absolute. -/
def allAbsolute : Setup where
  fastDownward := ⟨true, ["fd".toList]⟩
  metricFF := ⟨true, ["ff".toList]⟩
  validator := ⟨true, ["val".toList]⟩
  working := ⟨true, ["home".toList, "exp".toList]⟩
  test := ⟨true, ["home".toList, "exp".toList, "test".toList]⟩
  domain := "domain.pddl".toList

/-- The working directory of the experiment is given relative to the home directory. -/
def relative : Setup := { allAbsolute with working := ⟨false, ["exp".toList]⟩, test := ⟨false, ["exp".toList, "test".toList]⟩ }

/-- The default directories of the planners. -/
def defaults : Setup := { allAbsolute with fastDownward := ⟨false, ["fast-downward".toList]⟩, metricFF := ⟨false, ["metric-ff".toList]⟩ }

/-- Only the second problem cannot be solved. -/
def solved (_ : Planner) (p : Name) : Bool := p ≠ "pfile1.pddl".toList

/-- The test set. -/
def problems : List Name := ["pfile0.pddl".toList, "pfile1.pddl".toList, "pfile2.pddl".toList]

/-- The home directory. -/
def home : Abs := ["home".toList]

/-- The hypothesis of `C120_absolute`; two planners, four starts of planners for three problems, three of VAL. -/
example : Absolute allAbsolute dirs ∧
    (validate allAbsolute dirs solved [.metricFF, .enhsp] problems ⟨home, [], false⟩).calls.length = 9 :=
  ⟨⟨by decide, by decide, by decide, by decide, by decide⟩, by decide +kernel⟩

/-- The hypotheses of `C120_relative_aborts`: the first problem is validated, the second raises, the third is not reached. -/
example : relative.fastDownward.absolute = true ∧ dirs relative.fastDownward.parts = true ∧ relative.validator.absolute = true ∧
    dirs relative.validator.parts = true ∧ dirs (relative.working.at home) = true ∧ relative.test.absolute = false ∧
    dirs (relative.fastDownward.parts ++ relative.test.parts) = false ∧
    (∀ q ∈ ["pfile0.pddl".toList], solved .fastDownward q = true) ∧ solved .fastDownward "pfile1.pddl".toList = false ∧
    (validate relative dirs solved [.fastDownward] problems ⟨home, [], false⟩).calls.length = 4 := by decide +kernel

/-- The hypotheses of `C120_default_fast_downward`, and what happens: VAL still runs for the problem that was not solved. -/
example : defaults.fastDownward.absolute = false ∧ dirs (home ++ defaults.fastDownward.parts ++ defaults.fastDownward.parts) = false ∧
    solved .fastDownward "pfile1.pddl".toList = false ∧
    (validate defaults dirs solved [.fastDownward] problems ⟨home, [], false⟩).calls.length = 5 := by decide +kernel

/-- The hypotheses of `C120_default_metric_ff`, and what happens: one problem is validated. -/
example : defaults.metricFF.absolute = false ∧ dirs (home ++ defaults.metricFF.parts ++ defaults.metricFF.parts) = false ∧
    (validate defaults dirs solved [.metricFF, .enhsp] problems ⟨home, [], false⟩).calls.length = 3 := by decide +kernel

/-- The hypotheses of `C120_relative_metric_ff`. -/
example : relative.test.absolute = false ∧ relative.metricFF.absolute = true ∧ dirs relative.metricFF.parts = true ∧ home ≠ relative.metricFF.parts := by
  decide +kernel

end Case
end WorkingDir
end Props

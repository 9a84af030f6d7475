import Verif.Model.OnlineEvaluation
import Verif.Props.OnlineTraining
import Verif.Props.Plans
import Verif.Props.Results

/-! C129: the evaluation of an online learner. -/
namespace Props
namespace OnlineEvaluation
open Model Spec Model.OnlineEvaluation
open Spec.Jobs (Planner)
open Model.Results (Name Alg)

section
variable {D P S : Type}

/-- What the planners of the portfolio answer for a problem, each with VAL's log on the solution file it leaves; `c` is the solution file before. -/
def answers (T : Tools D P S) (d : D) (t : String) : List Planner → Option P → List (Outcome × ValLog)
  | [], _ => []
  | p :: ps, c => (T.outcome d p t, T.val t (T.solution d p t c)) :: answers T d t ps (T.solution d p t c)

/-- A test problem with everything that happens to it for a domain. -/
def caseOf (T : Tools D P S) (d : D) (ps : List Planner) (f : Solutions P) (t : String) : TestCase := ⟨t, answers T d t ps (f t), T.expert d t⟩

theorem ask_eq (T : Tools D P S) (d : D) (t : String) (as : List (Outcome × ValLog)) :
    ∀ (ps : List Planner) (s : SolvingStats) (f : Solutions P) (r : Option Outcome),
      (ask T d t ps s f r).1 = tryPortfolio ⟨t, as, T.expert d t⟩ s (answers T d t ps (f t)) r ∧
      ∀ u, u ≠ t → (ask T d t ps s f r).2 u = f u := by
  intro ps
  induction ps with
  | nil => intro s f r; exact ⟨rfl, fun _ _ => rfl⟩
  | cons p ps ih =>
    intro s f r
    unfold ask answers tryPortfolio
    dsimp only
    rw [Function.update_self]
    by_cases ho : T.outcome d p t = .ok
    · rw [if_pos ho, if_pos ho]
      refine ⟨?_, fun u hu => Function.update_of_ne hu _ _⟩
      have e : validateSolution ⟨t, [], T.expert d t⟩ (T.val t (T.solution d p t (f t))) s =
        validateSolution ⟨t, as, T.expert d t⟩ (T.val t (T.solution d p t (f t))) s := rfl
      rw [e]
      cases validateSolution ⟨t, as, T.expert d t⟩ (T.val t (T.solution d p t (f t))) s <;> rfl
    · rw [if_neg ho, if_neg ho]
      obtain ⟨h1, h2⟩ := ih s (Function.update f t (T.solution d p t (f t))) (some (T.outcome d p t))
      rw [Function.update_self] at h1
      exact ⟨h1, fun u hu => (h2 u hu).trans (Function.update_of_ne hu _ _)⟩

theorem problem_eq (T : Tools D P S) (d : D) (ps : List Planner) (t : String) (s : SolvingStats) (f : Solutions P) :
    (problem T d ps t s f).1 = validateProblem (caseOf T d ps f t) s ∧ ∀ u, u ≠ t → (problem T d ps t s f).2 u = f u := by
  obtain ⟨h1, h2⟩ := ask_eq T d t (answers T d t ps (f t)) ps s f none
  unfold problem validateProblem caseOf
  simp only [Bind.bind, Except.bind]
  rw [← h1]
  revert h2
  rcases ask T d t ps s f none with ⟨a, g⟩
  intro h2
  rcases a with e | x
  · exact ⟨rfl, h2⟩
  · rcases x with s' | o
    · exact ⟨rfl, h2⟩
    · rcases o with _ | o
      · exact ⟨rfl, h2⟩
      · refine ⟨?_, h2⟩
        dsimp only
        cases s.bump (.out o) t <;> rfl

theorem problems_eq (T : Tools D P S) (d : D) (ps : List Planner) : ∀ (ts : List String), ts.Nodup → ∀ (s : SolvingStats) (f : Solutions P),
    (problems T d ps ts s f).1 = (ts.map (caseOf T d ps f)).foldlM (fun s t => validateProblem t s) s := by
  intro ts
  induction ts with
  | nil => intro _ s f; rfl
  | cons t ts ih =>
    intro hn s f
    obtain ⟨hn1, hn2⟩ := List.nodup_cons.mp hn
    obtain ⟨h1, h2⟩ := problem_eq T d ps t s f
    rw [List.map_cons, List.foldlM_cons]
    unfold problems
    simp only [Bind.bind, Except.bind]
    rw [← h1]
    revert h2
    rcases problem T d ps t s f with ⟨a, g⟩
    intro h2
    cases a with
    | error e => rfl
    | ok s' =>
      dsimp only
      rw [ih hn2 s' g]
      congr 1
      refine List.map_congr_left fun u hu => ?_
      unfold caseOf
      have : u ≠ t := by rintro rfl; exact hn1 hu
      rw [show g u = f u from h2 u this]

/-- **C129, one domain.** The row of a domain is the row of the verdicts of the plans that its own planners left, and then no solution file is left. -/
theorem C129_row (T : Tools D P S) (d : D) (ps : List Planner) (used : Used) {ts : List String} (hn : ts.Nodup) (f : Solutions P) :
    (validate T d ps used ts f).1 = validateDomain (some used) (ts.map (caseOf T d ps f)) ∧
    ((∃ r, (validate T d ps used ts f).1 = .ok r) → ∀ t, (validate T d ps used ts f).2 t = none) := by
  have h := problems_eq T d ps ts hn SolvingStats.init f
  unfold validate validateDomain
  simp only [Bind.bind, Except.bind]
  rw [← h]
  rcases problems T d ps ts SolvingStats.init f with ⟨a, g⟩
  cases a with
  | error e => exact ⟨rfl, by rintro ⟨r, hr⟩; cases hr⟩
  | ok s => exact ⟨rfl, fun _ _ => rfl⟩

theorem domainFile_ne (dom : Name) : domainFile dom true ≠ domainFile dom false := by
  unfold domainFile
  intro h
  have h := List.append_cancel_right h
  have h := List.append_cancel_left h
  revert h
  simp

/-- The rows a run must report: the safe domain, then the optimistic one, on an empty set of solution files. -/
structure Reported (T : Tools D P S) (E : Setup) (used : Used) (d1 d2 : D) (f : Solutions P) (r1 r2 : SolvingRow) (m1 m2 : S) : Prop where
  safe : validateDomain (some used) (E.tests.map (caseOf T d1 [.metricFF, .enhsp] f)) = .ok r1
  optimistic : validateDomain (some used) (E.tests.map (caseOf T d2 [.metricFF, .enhsp] fun _ => none)) = .ok r2
  measured : T.measure d1 = .ok m1 ∧ T.measure d2 = .ok m2

theorem episodes_results (E : Setup) (F : Files D P S) (n : Name) (r : Result S) : episodes E (F.write n r) = episodes E F := rfl
theorem used_results (E : Setup) (F : Files D P S) (n : Name) (r : Result S) : usedPaths E (F.write n r) = usedPaths E F := rfl

theorem written (n : Name) (r : Result S) (X : Files D P S) : (X.write n r).results n = some r := Function.update_self ..

/-- The training directory with the two exported domains. -/
def exported (E : Setup) (F : Files D P S) (d1 d2 : D) : Files D P S := (F.put E.domain true d1).put E.domain false d2

theorem exported_safe (E : Setup) (F : Files D P S) (d1 d2 : D) : (exported E F d1 d2).domains (domainFile E.domain true) = some d1 := by
  unfold exported Files.put
  dsimp only
  rw [Function.update_of_ne (domainFile_ne _), Function.update_self]

theorem exported_opt (E : Setup) (F : Files D P S) (d1 d2 : D) : (exported E F d1 d2).domains (domainFile E.domain false) = some d2 := by
  unfold exported Files.put
  dsimp only
  rw [Function.update_self]

/-- **C129, the files of an evaluation.** When the job of `noam_learning` or `goal_oriented_explorer` ends without an exception, the safe and the optimistic
domain are in their files, no solution file is left in the test directory, and the results directory has exactly two new files, each with two rows: the safe
domain labelled `no_remove`, then the optimistic domain labelled `hard`. -/
theorem C129_files {T : Tools D P S} {E : Setup} (hn : E.tests.Nodup) {alg : Alg} (ha : alg = .noamLearning ∨ alg = .goalOrientedExplorer) {fold : Nat}
    {safe opt : Except NumErr D} {F G : Files D P S} (h : job T E alg fold safe opt F = (G, none)) :
    ∃ d1 d2 r1 r2 m1 m2, safe = .ok d1 ∧ opt = .ok d2 ∧
      Reported T E (usedPaths E G) d1 d2 F.sols r1 r2 m1 m2 ∧
      G.domains (domainFile E.domain true) = some d1 ∧ G.domains (domainFile E.domain false) = some d2 ∧
      (∀ t, G.sols t = none) ∧
      G.results (Results.fileName E.domain .solving alg fold (some (episodes E G))) = some (.solving [(.noRemove, r1), (.hard, r2)]) ∧
      G.results (Results.fileName E.domain .semantic alg fold (some (episodes E G))) = some (.semantic [(.noRemove, m1), (.hard, m2)]) ∧
      ∀ n, n ≠ Results.fileName E.domain .solving alg fold (some (episodes E G)) → n ≠ Results.fileName E.domain .semantic alg fold (some (episodes E G)) →
        G.results n = F.results n := by
  unfold job at h
  rw [if_neg (by rcases ha with rfl | rfl <;> decide)] at h
  cases safe with
  | error e => simp at h
  | ok d1 =>
  cases opt with
  | error e => simp at h
  | ok d2 =>
  dsimp only at h
  change (match semantic T E alg fold (exported E F d1 d2) with
    | (G, some e) => (G, some (NumErr.py e))
    | (G, none) => match solving T E alg fold G with
      | (H, some e) => (H, some (NumErr.py e))
      | (H, none) => (H, none)) = (G, none) at h
  unfold semantic at h
  rw [exported_safe, exported_opt] at h
  dsimp only at h
  cases hm1 : T.measure d1 with
  | error e => simp [hm1] at h
  | ok m1 =>
  cases hm2 : T.measure d2 with
  | error e => simp [hm1, hm2] at h
  | ok m2 =>
  rw [hm1, hm2] at h
  dsimp only at h
  generalize hF1 : (exported E F d1 d2).write (Results.fileName E.domain .semantic alg fold (some (episodes E (exported E F d1 d2))))
    (.semantic [(.noRemove, m1), (.hard, m2)]) = F1 at h
  have e1 : F1.domains (domainFile E.domain true) = some d1 := by rw [← hF1]; exact exported_safe E F d1 d2
  have e2 : F1.domains (domainFile E.domain false) = some d2 := by rw [← hF1]; exact exported_opt E F d1 d2
  have e3 : F1.sols = F.sols := by rw [← hF1]; rfl
  have e4 : episodes E (exported E F d1 d2) = episodes E F1 := by rw [← hF1]; rfl
  rw [e4] at hF1
  unfold solving at h
  rw [e1, e2, e3] at h
  dsimp only at h
  obtain ⟨a1, a2⟩ := C129_row T d1 [.metricFF, .enhsp] (usedPaths E F1) hn F.sols
  obtain ⟨b1, b2⟩ := C129_row T d2 [.metricFF, .enhsp] (usedPaths E F1) hn (cleared : Solutions P)
  rcases hv1 : validate T d1 [.metricFF, .enhsp] (usedPaths E F1) E.tests F.sols with ⟨x1, g1⟩
  rw [hv1] at h a1 a2
  cases x1 with
  | error e => simp at h
  | ok r1 =>
  dsimp only at h
  rcases hv2 : validate T d2 [.metricFF, .enhsp] (usedPaths E F1) E.tests cleared with ⟨x2, g2⟩
  rw [hv2] at h b1 b2
  cases x2 with
  | error e => simp at h
  | ok r2 =>
  simp only [Prod.mk.injEq, and_true] at h
  subst h
  refine ⟨d1, d2, r1, r2, m1, m2, rfl, rfl, ⟨a1.symm, b1.symm, hm1, hm2⟩, e1, e2, b2 ⟨r2, rfl⟩, ?_, ?_, ?_⟩
  · show Function.update F1.results _ _ _ = _
    exact Function.update_self ..
  · show Function.update F1.results _ _ _ = _
    have e5 := congrFun (congrArg Files.results hF1) (Results.fileName E.domain .semantic alg fold (some (episodes E F1)))
    rw [written] at e5
    refine (Function.update_of_ne ?_ _ _).trans e5.symm
    · intro hc
      have := (Results.C104_names_distinct hc).1
      cases this
  · intro n n1 n2
    refine (Function.update_of_ne n1 _ _).trans ?_
    rw [← hF1]
    exact Function.update_of_ne n2 _ _

/-- **C129, no statistics of a run that raised.** If the job ends with an exception then the results directory has no new solving statistics, and the file of
semantic statistics is new only if the validation with planners raised. Learners of the other kinds leave everything as it was. -/
theorem C129_raises {T : Tools D P S} {E : Setup} {alg : Alg} {fold : Nat} {safe opt : Except NumErr D} {F G : Files D P S} {e : Option NumErr}
    (h : job T E alg fold safe opt F = (G, e)) :
    (e ≠ none → ∀ n, n ≠ Results.fileName E.domain .semantic alg fold (some (episodes E G)) → G.results n = F.results n) ∧
    ((alg ≠ .noamLearning ∧ alg ≠ .goalOrientedExplorer) → G = F ∧ e = none) := by
  refine ⟨fun he n hn => ?_, fun ha => ?_⟩
  · unfold job at h
    split at h
    · cases h; rfl
    cases safe with
    | error e => cases h; rfl
    | ok d1 =>
    cases opt with
    | error e => cases h; rfl
    | ok d2 =>
    dsimp only at h
    change (match semantic T E alg fold (exported E F d1 d2) with
      | (G, some e) => (G, some (NumErr.py e))
      | (G, none) => match solving T E alg fold G with
        | (H, some e) => (H, some (NumErr.py e))
        | (H, none) => (H, none)) = (G, e) at h
    have hs : ∀ F1 x, semantic T E alg fold (exported E F d1 d2) = (F1, x) → episodes E F1 = episodes E (exported E F d1 d2) ∧
        (x ≠ none → F1.results = F.results) ∧
        ∀ n, n ≠ Results.fileName E.domain .semantic alg fold (some (episodes E F1)) → F1.results n = F.results n := by
      intro F1 x hx
      unfold semantic at hx
      rw [exported_safe, exported_opt] at hx
      dsimp only at hx
      cases hm1 : T.measure d1 with
      | error e => rw [hm1] at hx; cases hx; exact ⟨rfl, fun _ => rfl, fun _ _ => rfl⟩
      | ok m1 =>
      cases hm2 : T.measure d2 with
      | error e => rw [hm1, hm2] at hx; cases hx; exact ⟨rfl, fun _ => rfl, fun _ _ => rfl⟩
      | ok m2 =>
      rw [hm1, hm2] at hx
      cases hx
      exact ⟨rfl, fun h => absurd rfl h, fun n hn => Function.update_of_ne hn _ _⟩
    rcases hsem : semantic T E alg fold (exported E F d1 d2) with ⟨F1, x⟩
    obtain ⟨s1, s2, s3⟩ := hs F1 x hsem
    rw [hsem] at h
    cases x with
    | some e => cases h; rw [s2 (by simp)]
    | none =>
      dsimp only at h
      have hv : ∀ F2 y, solving T E alg fold F1 = (F2, some y) → F2.results = F1.results ∧ episodes E F2 = episodes E F1 := by
        intro F2 y hy
        unfold solving at hy
        split at hy
        · split at hy
          · cases hy; exact ⟨rfl, rfl⟩
          · split at hy
            · cases hy; exact ⟨rfl, rfl⟩
            · cases hy
        · cases hy
      rcases hsol : solving T E alg fold F1 with ⟨F2, y⟩
      rw [hsol] at h
      cases y with
      | none => cases h; exact absurd rfl he
      | some y =>
        cases h
        obtain ⟨v1, v2⟩ := hv _ _ hsol
        rw [v1]
        rw [v2] at hn
        exact s3 n hn
  · unfold job at h
    rw [if_pos ha] at h
    cases h
    exact ⟨rfl, rfl⟩

/-- A planner that claims a plan has written it: the solution file does not depend on the one before. -/
def Writes (T : Tools D P S) (d : D) : Prop := ∀ p t c c', T.outcome d p t = .ok → T.solution d p t c = T.solution d p t c'

theorem try_fresh {T : Tools D P S} {d : D} (hw : Writes T d) (u u' : TestCase) (hu : u.stem = u'.stem) (t : String) (s : SolvingStats) :
    ∀ (ps : List Planner) (c c' : Option P) (r : Option Outcome),
      tryPortfolio u s (answers T d t ps c) r = tryPortfolio u' s (answers T d t ps c') r := by
  intro ps
  induction ps with
  | nil => intro c c' r; rfl
  | cons p ps ih =>
    intro c c' r
    unfold answers tryPortfolio
    by_cases ho : T.outcome d p t = .ok
    · rw [if_pos ho, if_pos ho, hw p t c c' ho]
      unfold validateSolution
      rw [hu]
    · rw [if_neg ho, if_neg ho]
      exact ih _ _ _

theorem row_fresh {T : Tools D P S} {d : D} (hw : Writes T d) (ps : List Planner) (used : Option Used) (f f' : Solutions P) (ts : List String) :
    validateDomain used (ts.map (caseOf T d ps f)) = validateDomain used (ts.map (caseOf T d ps f')) := by
  have key : ∀ (ts : List String) (s : SolvingStats), (ts.map (caseOf T d ps f)).foldlM (fun s t => validateProblem t s) s =
      (ts.map (caseOf T d ps f')).foldlM (fun s t => validateProblem t s) s := by
    intro ts
    induction ts with
    | nil => intro s; rfl
    | cons t ts ih =>
      intro s
      rw [List.map_cons, List.map_cons, List.foldlM_cons, List.foldlM_cons]
      have e : validateProblem (caseOf T d ps f t) s = validateProblem (caseOf T d ps f' t) s := by
        unfold validateProblem
        rw [show (caseOf T d ps f t).answers = answers T d t ps (f t) from rfl, show (caseOf T d ps f' t).answers = answers T d t ps (f' t) from rfl,
          try_fresh hw (caseOf T d ps f t) (caseOf T d ps f' t) rfl t s ps (f t) (f' t) none]
        rfl
      rw [e]
      congr 1
      funext s'
      exact ih s'
  unfold validateDomain
  rw [key]

/-- **C129, what the rows depend on.** If planners write the plans they claim for the safe domain, then the result files do not depend on solution files that
were in the test directory before; the row of the optimistic domain never depends on the plans of the safe one (`C129_files`). -/
theorem C129_fresh {T : Tools D P S} {E : Setup} (hn : E.tests.Nodup) {alg : Alg} {fold : Nat} {safe opt : Except NumErr D}
    (hw : ∀ d, safe = .ok d → Writes T d) (F : Files D P S) (f : Solutions P) :
    (job T E alg fold safe opt { F with sols := f }).2 = (job T E alg fold safe opt F).2 ∧
    (job T E alg fold safe opt { F with sols := f }).1.results = (job T E alg fold safe opt F).1.results := by
  unfold job
  by_cases ha : alg ≠ .noamLearning ∧ alg ≠ .goalOrientedExplorer
  · rw [if_pos ha, if_pos ha]; exact ⟨rfl, rfl⟩
  rw [if_neg ha, if_neg ha]
  cases safe with
  | error e => exact ⟨rfl, rfl⟩
  | ok d1 =>
  cases opt with
  | error e => exact ⟨rfl, rfl⟩
  | ok d2 =>
  dsimp only
  have hw := hw d1 rfl
  -- measuring does not look at the solution files
  have hsem : ∀ F1 : Files D P S, semantic T E alg fold { F1 with sols := f } =
      ({ (semantic T E alg fold F1).1 with sols := f }, (semantic T E alg fold F1).2) ∧ (semantic T E alg fold F1).1.sols = F1.sols := by
    intro F1
    unfold semantic
    dsimp only
    split
    · split
      · exact ⟨rfl, rfl⟩
      · split
        · exact ⟨rfl, rfl⟩
        · exact ⟨rfl, rfl⟩
    · exact ⟨rfl, rfl⟩
  have hsemD : ∀ F1 : Files D P S, (semantic T E alg fold F1).1.domains = F1.domains := by
    intro F1
    unfold semantic
    split
    · split
      · rfl
      · split <;> rfl
    · rfl
  obtain ⟨k1, k2⟩ := hsem (exported E F d1 d2)
  have k3 := hsemD (exported E F d1 d2)
  have e : ((({ F with sols := f } : Files D P S).put E.domain true d1).put E.domain false d2) = { exported E F d1 d2 with sols := f } := rfl
  rw [e, k1]
  change _ = (match semantic T E alg fold (exported E F d1 d2) with
      | (G, some e) => (G, some (NumErr.py e))
      | (G, none) => match solving T E alg fold G with
        | (H, some e) => (H, some (NumErr.py e))
        | (H, none) => (H, none)).2 ∧ _ = (match semantic T E alg fold (exported E F d1 d2) with
      | (G, some e) => (G, some (NumErr.py e))
      | (G, none) => match solving T E alg fold G with
        | (H, some e) => (H, some (NumErr.py e))
        | (H, none) => (H, none)).1.results
  revert k2 k3
  rcases semantic T E alg fold (exported E F d1 d2) with ⟨F1, x⟩
  intro k2 k3
  dsimp only at k2 k3 ⊢
  cases x with
  | some e => exact ⟨rfl, rfl⟩
  | none =>
    dsimp only
    have g1 : F1.domains (domainFile E.domain true) = some d1 := by rw [k3]; exact exported_safe E F d1 d2
    have g2 : F1.domains (domainFile E.domain false) = some d2 := by rw [k3]; exact exported_opt E F d1 d2
    unfold solving
    dsimp only
    rw [g1, g2]
    dsimp only
    have hu : usedPaths E { F1 with sols := f } = usedPaths E F1 := rfl
    have a1 := (C129_row T d1 [.metricFF, .enhsp] (usedPaths E F1) hn f).1
    have b1 := (C129_row T d1 [.metricFF, .enhsp] (usedPaths E F1) hn F1.sols).1
    rw [row_fresh hw _ _ f F1.sols] at a1
    rw [← b1] at a1
    rw [hu]
    revert a1
    rcases validate T d1 [.metricFF, .enhsp] (usedPaths E F1) E.tests f with ⟨x1, y1⟩
    rcases validate T d1 [.metricFF, .enhsp] (usedPaths E F1) E.tests F1.sols with ⟨x2, y2⟩
    intro a1
    dsimp only at a1
    subst a1
    cases x1 with
    | error e => exact ⟨rfl, rfl⟩
    | ok r1 =>
      dsimp only
      rcases validate T d2 [.metricFF, .enhsp] (usedPaths E F1) E.tests cleared with ⟨x3, y3⟩
      cases x3 with
      | error e => exact ⟨rfl, rfl⟩
      | ok r2 => exact ⟨rfl, rfl⟩

/-! ### The numbers the files and rows are labelled with -/

theorem suffix_pddl (dom : Name) (b : Bool) : ¬ ".trajectory".toList <:+ domainFile dom b := by
  unfold domainFile
  intro h
  have h1 : ['y'] <:+ ".trajectory".toList := ⟨".trajector".toList, by decide⟩
  have h2 := h1.trans h
  have h3 : ['l'] <:+ dom ++ '_' :: (if b then "safe".toList else "optimistic".toList) ++ "_learned_domain.pddl".toList :=
    ⟨dom ++ '_' :: (if b then "safe".toList else "optimistic".toList) ++ "_learned_domain.pdd".toList, by
      rw [List.append_assoc]; rfl⟩
  have := h2.eq_of_length_le
  obtain ⟨x, hx⟩ := h2
  obtain ⟨y, hy⟩ := h3
  have := congrArg List.getLast? (hx.trans hy.symm)
  simp at this

theorem glob_iff (pre suffix n : Name) : globMatch pre suffix n = true ↔ ∃ m, n = pre ++ m ++ suffix := by
  unfold globMatch
  simp only [Bool.and_eq_true, List.isPrefixOf_iff_prefix, List.isSuffixOf_iff_suffix, decide_eq_true_eq]
  constructor
  · rintro ⟨⟨⟨a, rfl⟩, h2⟩, h3⟩
    have h4 : suffix <:+ a := List.suffix_of_suffix_length_le h2 (List.suffix_append _ _) (by simp at h3; omega)
    obtain ⟨m, rfl⟩ := h4
    exact ⟨m, by simp⟩
  · rintro ⟨m, rfl⟩
    exact ⟨⟨⟨m ++ suffix, by simp⟩, List.suffix_append _ _⟩, by simp⟩

/-- The names that the glob finds. -/
def found (pre suffix : Name) (names : Finset Name) : Finset Name := names.filter fun n => globMatch pre suffix n

theorem trajectories_same (E : Setup) (F : Files D P S) (d1 d2 : D) :
    found E.pre ".trajectory".toList (exported E F d1 d2).train = found E.pre ".trajectory".toList F.train := by
  have hno : ∀ b, globMatch E.pre ".trajectory".toList (domainFile E.domain b) = false := by
    intro b
    rw [Bool.eq_false_iff]
    intro h
    obtain ⟨m, hm⟩ := (glob_iff _ _ _).mp h
    exact suffix_pddl E.domain b ⟨_, hm.symm⟩
  unfold found exported Files.put
  dsimp only
  rw [Finset.filter_insert, if_neg (by rw [hno]; decide), Finset.filter_insert, if_neg (by rw [hno]; decide)]

theorem job_train {T : Tools D P S} {E : Setup} {alg : Alg} (ha : alg = .noamLearning ∨ alg = .goalOrientedExplorer) {fold : Nat}
    {safe opt : Except NumErr D} {F G : Files D P S} (h : job T E alg fold safe opt F = (G, none)) :
    ∃ d1 d2, safe = .ok d1 ∧ opt = .ok d2 ∧ G.train = (exported E F d1 d2).train := by
  have hs : ∀ F1 : Files D P S, (semantic T E alg fold F1).1.train = F1.train := by
    intro F1
    unfold semantic
    split
    · split
      · rfl
      · split <;> rfl
    · rfl
  have hv : ∀ F1 : Files D P S, (solving T E alg fold F1).1.train = F1.train := by
    intro F1
    unfold solving
    split
    · split
      · rfl
      · split <;> rfl
    · rfl
  unfold job at h
  rw [if_neg (by rcases ha with rfl | rfl <;> decide)] at h
  cases safe with
  | error e => simp at h
  | ok d1 =>
  cases opt with
  | error e => simp at h
  | ok d2 =>
  refine ⟨d1, d2, rfl, rfl, ?_⟩
  dsimp only at h
  have h1 := hs (exported E F d1 d2)
  change (match semantic T E alg fold (exported E F d1 d2) with
    | (G, some e) => (G, some (NumErr.py e))
    | (G, none) => match solving T E alg fold G with
      | (H, some e) => (H, some (NumErr.py e))
      | (H, none) => (H, none)) = (G, none) at h
  rw [← h1]
  revert h
  rcases semantic T E alg fold (exported E F d1 d2) with ⟨F1, x⟩
  cases x with
  | some e => intro h; cases h
  | none =>
    dsimp only
    rw [← hv F1]
    rcases solving T E alg fold F1 with ⟨F2, y⟩
    cases y with
    | some e => intro h; cases h
    | none => intro h; cases h; rfl

open Classical in
/-- The files of a directory that are called `pre*suffix`. -/
noncomputable def called (pre suffix : Name) (names : Finset Name) : Finset Name := names.filter fun n => ∃ m, n = pre ++ m ++ suffix

theorem found_eq (pre suffix : Name) (names : Finset Name) : found pre suffix names = called pre suffix names := by
  unfold found called
  ext n
  simp only [Finset.mem_filter, glob_iff]

/-- **C129, the labels.** Both rows report the number of the trajectory files that were in the training directory, whatever the learner has explored; the number
in the names of the result files is the number of training problems when no exported domain has the prefix of the problems. -/
theorem C129_labels {T : Tools D P S} {E : Setup} (hn : E.tests.Nodup) {alg : Alg} (ha : alg = .noamLearning ∨ alg = .goalOrientedExplorer) {fold : Nat}
    {safe opt : Except NumErr D} {F G : Files D P S} (h : job T E alg fold safe opt F = (G, none)) (ho : ∀ s, (E.order s).length = s.card) :
    (∀ rows, G.results (Results.fileName E.domain .solving alg fold (some (episodes E G))) = some (.solving rows) →
      ∀ x ∈ rows, x.2.numTrajectories = (called E.pre ".trajectory".toList F.train).card) ∧
    ((∀ b, ¬ E.pre <+: domainFile E.domain b) → episodes E G = (called E.pre ".pddl".toList F.train).card) := by
  obtain ⟨d1, d2, hd1, hd2, ht⟩ := job_train ha h
  constructor
  · intro rows hr x hx
    obtain ⟨d1', d2', r1, r2, m1, m2, _, _, hrep, _, _, _, hsol, _⟩ := C129_files hn ha h
    rw [hsol] at hr
    simp only [Option.some.injEq, Result.solving.injEq] at hr
    subst hr
    have hl : ∀ (tests : List TestCase) (r : SolvingRow), validateDomain (some (usedPaths E G)) tests = .ok r →
        r.numTrajectories = (usedPaths E G).len := by
      intro tests r hv
      unfold validateDomain at hv
      simp only [Bind.bind, Except.bind] at hv
      split at hv
      · cases hv
      · cases hv; rfl
    have hu : (usedPaths E G).len = (called E.pre ".trajectory".toList F.train).card := by
      rw [← found_eq, ← trajectories_same E F d1 d2, ← ht]
      unfold usedPaths Used.len
      dsimp only
      rw [List.length_map, ho]
      rfl
    rw [← hu]
    simp only [List.mem_cons, List.not_mem_nil, or_false] at hx
    rcases hx with rfl | rfl
    · exact hl _ _ hrep.safe
    · exact hl _ _ hrep.optimistic
  · intro hp
    have hno : ∀ b, globMatch E.pre ".pddl".toList (domainFile E.domain b) = false := by
      intro b
      rw [Bool.eq_false_iff]
      intro h
      obtain ⟨m, hm⟩ := (glob_iff _ _ _).mp h
      exact hp b ⟨m ++ ".pddl".toList, by rw [hm, List.append_assoc]⟩
    rw [← found_eq]
    unfold episodes
    rw [ht]
    unfold exported Files.put found
    dsimp only
    rw [Finset.filter_insert, if_neg (by rw [hno]; decide), Finset.filter_insert, if_neg (by rw [hno]; decide)]

/-- **C129, a limit.** If the name of the domain begins with the prefix of the problems, then the exported domains are counted as training problems: after a first
run the number in the file names is too large by two. -/
theorem C129_domains_counted {T : Tools D P S} {E : Setup} {alg : Alg} (ha : alg = .noamLearning ∨ alg = .goalOrientedExplorer) {fold : Nat}
    {safe opt : Except NumErr D} {F G : Files D P S} (h : job T E alg fold safe opt F = (G, none)) (hp : E.pre <+: E.domain)
    (hnew : ∀ b, domainFile E.domain b ∉ F.train) : episodes E G = (called E.pre ".pddl".toList F.train).card + 2 := by
  obtain ⟨d1, d2, hd1, hd2, ht⟩ := job_train ha h
  have hyes : ∀ b, globMatch E.pre ".pddl".toList (domainFile E.domain b) = true := by
    intro b
    obtain ⟨m, hm⟩ := hp
    refine (glob_iff _ _ _).mpr ⟨m ++ '_' :: (if b then "safe".toList else "optimistic".toList) ++ "_learned_domain".toList, ?_⟩
    unfold domainFile
    rw [← hm]
    have : "_learned_domain.pddl".toList = "_learned_domain".toList ++ ".pddl".toList := by decide
    rw [this]
    simp only [List.append_assoc]
  rw [← found_eq]
  unfold episodes
  rw [ht]
  unfold exported Files.put found
  dsimp only
  rw [Finset.filter_insert, if_pos (hyes _), Finset.filter_insert, if_pos (hyes _), Finset.card_insert_of_notMem, Finset.card_insert_of_notMem]
  · intro hc; exact hnew _ (Finset.mem_filter.mp hc).1
  · intro hc
    rcases Finset.mem_insert.mp hc with hc | hc
    · exact domainFile_ne _ hc.symm
    · exact hnew _ (Finset.mem_filter.mp hc).1

end

/-! ### The row of the safe domain -/
section
open Model.OnlineDomain Props.OnlineDomain Props.OnlineSafety Model.OnlineTraining Props.OnlineTraining Props.Plans Spec.Plans

variable {K : Type} [Field K] [LinearOrder K] [IsStrictOrderedRing K] [FloorRing K] {P S : Type}

/-- A planning problem over states with fluents. -/
structure HProblem (K : Type) where
  init : HybridState K
  goal : HybridState K → Prop

/-- The plan solves the problem with the steps of a domain. -/
def HProblem.SolvedBy (X : HProblem K) (step : HybridState K → HybridCall → HybridState K → Prop) (plan : List HybridCall) : Prop :=
  ∃ s, Leads step X.init plan s ∧ X.goal s

/-- Calls that give different objects and fluents to the parameters and functions of their action. -/
def Proper (V : String → Finset Lit) (fns : String → List String) (plan : List HybridCall) : Prop :=
  ∀ c ∈ plan, InjectiveOn (V c.name) c.ρ ∧ ∀ f ∈ fns c.name, ∀ g ∈ fns c.name, c.fluent f = c.fluent g → f = g

/-- **C129, the safe domain.** From the lessons to the statistics file: when training, construction and evaluation end without an exception, and planners and VAL
do their work, the first row of the file - the safe domain - has no inapplicable plan and no plan that misses the goal; what it counts as `ok` are the test
problems for which some planner found a plan, and every test problem is counted. -/
theorem C129_safe_row {cfg : ONumCfg K} {add : Cond → Cond → Cond} {ord : LitOrd} (hadd : AddOK add) (ho : EnumNodup ord) (hplain : cfg.plain = true)
    (hdig : cfg.digits ≤ 10) (hR : RegContract cfg.reg) {truth : String → HybridAction K} {read : Reader K} {names : List String} {V : String → Finset Lit}
    {fns : String → List String} {degree : Nat} {ls : List (Model.OnlineTraining.Lesson K)} (hS : Setting truth read names V fns degree ls)
    (hx : ∀ a ∈ names, ExactOn cfg (fns a) degree ((successesAt a (ls.flatMap shown)).map (transitionOf read)))
    {L : Class K} (htrain : learnLessons cfg read names (newClass names V fns degree) ls = .ok L)
    {T : Tools (List (String × OAction K)) P S} {E : Setup} (hn : E.tests.Nodup) {alg : Alg} (ha : alg = .noamLearning ∨ alg = .goalOrientedExplorer)
    {fold : Nat} {F G : Files (List (String × OAction K)) P S}
    (h : job T E alg fold (constructSafe cfg add ord names (discOf L) (numOf L)) (constructOptimistic cfg add ord names (discOf L) (numOf L)) F = (G, none))
    (hsd : ∀ acts, constructSafe cfg add ord names (discOf L) (numOf L) = .ok acts → ∀ a A, (a, A) ∈ acts → ∀ e ∈ A.numEff, e.op ≠ .scaleDown)
    (X : String → HProblem K) (expert : String → List HybridCall)
    (hE : ∀ acts, constructSafe cfg add ord names (discOf L) (numOf L) = .ok acts → ∀ t ∈ E.tests,
      Evaluated ((X t).SolvedBy (builtStep acts)) ((X t).SolvedBy (trueStep truth)) (Proper V fns) (expert t) (caseOf T acts [.metricFF, .enhsp] F.sols t)) :
    ∃ safe opt, G.results (Results.fileName E.domain .solving alg fold (some (episodes E G))) = some (.solving [(.noRemove, safe), (.hard, opt)]) ∧
      safe.stats.count (.out .notApplicable) = 0 ∧ safe.stats.count (.out .goalNotAchieved) = 0 ∧
      (∀ acts, constructSafe cfg add ord names (discOf L) (numOf L) = .ok acts →
        safe.stats.count (.out .ok) = E.tests.countP fun t => decide (T.outcome acts .metricFF t = .ok ∨ T.outcome acts .enhsp t = .ok)) ∧
      safe.stats.count (.out .ok) + safe.stats.count (.out .noSolution) + safe.stats.count (.out .timeout)
        + safe.stats.count (.out .solverError) = E.tests.length := by
  obtain ⟨acts, d2, r1, r2, m1, m2, hd1, hd2, hrep, _, _, _, hsol, _⟩ := C129_files hn ha h
  refine ⟨r1, r2, hsol, ?_⟩
  obtain ⟨a, b, c, d, _⟩ := row_of_safe (tested := fun t => (X t.stem).SolvedBy (builtStep acts)) (reference := fun t => (X t.stem).SolvedBy (trueStep truth))
    (allowed := fun _ => Proper V fns)
    (by
      rintro t plan hp ⟨s, hs, hg⟩
      exact ⟨s, C110_plan hadd ho hplain hdig hR hS hx htrain hd1 (hsd acts hd1) hp hs, hg⟩)
    hrep.safe (fun t => expert t.stem) (by
      intro t ht
      obtain ⟨u, hu, rfl⟩ := List.mem_map.mp ht
      exact hE acts hd1 u hu)
  refine ⟨a, b, ?_, by rw [d, List.length_map]⟩
  intro acts' hacts
  rw [hd1] at hacts
  simp only [Except.ok.injEq] at hacts
  subst hacts
  rw [c, List.countP_map]
  refine List.countP_congr fun t _ => ?_
  simp only [Function.comp, decide_eq_true_eq]
  unfold TestCase.Solved caseOf answers answers answers
  simp

end

/-! ### Concrete cases -/
namespace Case
open Model.OnlineDomain Props.OnlineDomain Props.OnlineSafety Model.OnlineTraining Props.OnlineTraining Props.Plans Spec.Plans
open OnlineCase Props.OnlineTraining.Case Props.OnlineDomain.Case Props.OnlineSafety.Case

/-- Two test problems. Metric-FF solves none; ENHSP solves `pfile1` with either domain and `pfile2` only with the optimistic one (`1`), by a plan that cannot be
executed. A planner that fails leaves the solution file as it is. -/
def tools : Tools Nat String Nat where
  outcome d p t := if p = .enhsp ∧ (t = "pfile1" ∨ d = 1) then .ok else .noSolution
  solution d p t c := if p = .enhsp ∧ (t = "pfile1" ∨ d = 1) then some (if t = "pfile1" then "(move car)" else "(fly car)") else c
  val _ c := if c = some "(move car)" then ⟨true, false, false⟩ else ⟨false, true, false⟩
  expert d _ := ⟨d = 0, d ≠ 0, false⟩
  measure d := .ok (d + 10)

def order (s : Finset Name) : List Name := if s.card = 2 then ["pfile3.trajectory".toList, "pfile4.trajectory".toList] else []

def setup : Setup := ⟨"cars".toList, "pfile".toList, ["pfile1", "pfile2"], order, fun _ => 7⟩

/-- A training directory with the domain, two problems and their trajectories; a plan of an earlier run is in the test directory. -/
def before : Files Nat String Nat where
  train := {"domain.pddl".toList, "pfile3.pddl".toList, "pfile4.pddl".toList, "pfile3.trajectory".toList, "pfile4.trajectory".toList}
  domains _ := none
  sols t := if t = "pfile2" then some "(old)" else none
  results _ := none

/-- What is checked of a row. -/
def numbers (r : SolvingRow) : List Nat := [r.stats.count (.out .ok), r.stats.count (.out .noSolution), r.stats.count (.out .notApplicable), r.stats.count .validated, r.numTrajectories]

/-- The job ends; the safe row has one solved and one unsolved problem, the optimistic one a solved problem and an inapplicable plan; the file is named after the
two training problems; the old plan is gone. -/
example : (match job tools setup .noamLearning 3 (.ok 0) (.ok 1) before with
    | (G, none) => match G.results "noam_learning_problem_solving_stats_fold_3_2_trajectories.csv".toList,
          G.results "noam_learning_cars_3_2_semantic_performance.csv".toList with
      | some (.solving rows), some (.semantic ms) => decide (rows.map (fun x => (x.1, numbers x.2)) = [(.noRemove, [1, 1, 0, 1, 2]), (.hard, [1, 0, 1, 0, 2])] ∧
          ms = [(.noRemove, 10), (.hard, 11)] ∧ G.sols "pfile2" = none)
      | _, _ => false
    | _ => false) = true := by decide +kernel

/-- Another learner leaves everything as it was. -/
example : job tools setup .informativeExplorer 3 (.ok 0) (.ok 1) before = (before, none) :=
  if_pos ⟨by decide, by decide⟩

/-- The planners write the plans they claim. -/
example : Writes tools 0 := by
  intro p t c c' h
  simp only [tools] at h ⊢
  split at h
  · next hc => rw [if_pos hc, if_pos hc]
  · cases h

/-- The names of the exported domains do not begin with the prefix; with the prefix `c` they would. -/
example : (∀ b, ¬ setup.pre <+: domainFile setup.domain b) ∧ "c".toList <+: setup.domain := ⟨by decide +kernel, by decide⟩

/-- The constructions of the concrete lessons return. -/
theorem both : ∃ L P p q, learnLessons cfg read names (newClass names V fns 0) lessons = .ok L ∧ L.lookup "move" = some P ∧
    P.num.safeModel cfg = .ok p ∧ P.num.optimisticModel cfg = .ok q ∧ p.pre = [⟨.ge, .var "(fuel ?o)", .num 3⟩, ⟨.le, .var "(fuel ?o)", .num 5⟩] ∧
    p.eff = [⟨.decrease, "(fuel ?o)", .num 1⟩] ∧ P.disc.safeModel.1 = {ready, moved.neg} ∧ P.disc.safeModel.2 = {moved} := by
  have h : (match learnLessons cfg read names (newClass names V fns 0) lessons with
    | .ok D => match D.lookup "move" with
      | some P => match P.num.safeModel cfg, P.num.optimisticModel cfg with
        | .ok p, .ok _ => decide (p.pre = [⟨.ge, .var "(fuel ?o)", .num 3⟩, ⟨.le, .var "(fuel ?o)", .num 5⟩] ∧
            p.eff = [⟨.decrease, "(fuel ?o)", .num 1⟩] ∧ P.disc.safeModel.1 = {ready, moved.neg} ∧ P.disc.safeModel.2 = {moved})
        | _, _ => false
      | none => false
    | .error _ => false) = true := by decide +kernel
  revert h
  cases learnLessons cfg read names (newClass names V fns 0) lessons with
  | error e => intro h; exact absurd h (by simp)
  | ok D =>
    dsimp only
    cases hl : D.lookup "move" with
    | none => intro h; exact absurd h (by simp)
    | some P =>
      dsimp only
      cases hs : P.num.safeModel cfg with
      | error e => intro h; exact absurd h (by simp)
      | ok p =>
        cases ht : P.num.optimisticModel cfg with
        | error e => intro h; exact absurd h (by simp)
        | ok q => intro h; exact ⟨D, P, p, q, rfl, hl, hs, ht, of_decide_eq_true h⟩

/-- One test problem: a car with 4 units of fuel must move. -/
def drive : HProblem ℚ := ⟨(on, fun _ => 4), fun s => holds s.1 (ground Props.OnlineDomain.Case.ρ moved)⟩

/-- ENHSP finds the plan, Metric-FF does not, VAL accepts it. -/
def carTools : Tools (List (String × OAction ℚ)) (List HybridCall) Unit where
  outcome _ p _ := if p = .enhsp then .ok else .noSolution
  solution _ p _ c := if p = .enhsp then some [call] else c
  val _ c := if c.isSome then ⟨true, false, false⟩ else ⟨false, false, false⟩
  expert _ _ := ⟨true, false, false⟩
  measure _ := .ok ()

def carSetup : Setup := ⟨"cars".toList, "pfile".toList, ["pfile1"], fun s => if s.card = 0 then [] else [], fun _ => 0⟩

def empty : Files (List (String × OAction ℚ)) (List HybridCall) Unit := ⟨∅, fun _ => none, fun _ => none, fun _ => none⟩

/-- The hypotheses of `C129_safe_row` are met by the concrete lessons: the job ends, and its first row has the problem solved. -/
example : ∃ L G, learnLessons cfg read names (newClass names V fns 0) lessons = .ok L ∧
    job carTools carSetup .noamLearning 0 (constructSafe cfg add ord names (discOf L) (numOf L))
      (constructOptimistic cfg add ord names (discOf L) (numOf L)) empty = (G, none) ∧
    ∃ safe opt, G.results (Results.fileName carSetup.domain .solving .noamLearning 0 (some (episodes carSetup G))) =
      some (.solving [(.noRemove, safe), (.hard, opt)]) ∧ safe.stats.count (.out .ok) = 1 ∧ safe.stats.count (.out .notApplicable) = 0 := by
  obtain ⟨L, P, p, q, hD, hl, hp, hq, hpre, heff, hd1, hd2⟩ := both
  have e1 : constructSafe cfg add ord names (discOf L) (numOf L) = .ok [("move", buildAction add (safeDiscrete add ord P.disc) p)] := by
    refine build_ok.mpr ⟨rfl, fun r hr => ?_⟩
    rw [List.mem_singleton.mp hr]
    refine buildOne_ok.mpr ⟨P.disc, P.num, p, ?_, ?_, hp, rfl⟩
    · unfold discOf; rw [lookup_map, hl]; rfl
    · unfold numOf; rw [lookup_map, hl]; rfl
  have e2 : constructOptimistic cfg add ord names (discOf L) (numOf L) =
      .ok [("move", buildAction add (DiscreteOnline.optimisticModel add ord P.disc) q)] := by
    refine build_ok.mpr ⟨rfl, fun r hr => ?_⟩
    rw [List.mem_singleton.mp hr]
    refine buildOne_ok.mpr ⟨P.disc, P.num, q, ?_, ?_, hq, rfl⟩
    · unfold discOf; rw [lookup_map, hl]; rfl
    · unfold numOf; rw [lookup_map, hl]; rfl
  have hacc : Accepts (buildAction add (safeDiscrete add ord P.disc) p) call.ρ on (fun _ => (4 : ℚ)) := by
    refine ⟨?_, ?_⟩
    · unfold buildAction
      dsimp only
      obtain ⟨ks, hk⟩ := safe_node addOK ord P.disc
      rw [hk]
      refine (rebuilt addOK _ _ ks).mpr ?_
      rw [← hk]
      unfold safeDiscrete
      dsimp only
      rw [nodeOf_and addOK (val _ _)]
      simp only [ordOK.mem]
      rw [hd1]
      show ∀ l ∈ ({ready, moved.neg} : Finset Lit), holds on (ground Props.OnlineDomain.Case.ρ l)
      decide +kernel
    · show ∀ q ∈ p.pre, q.holds _
      rw [hpre]
      simp only [List.mem_cons, List.not_mem_nil, or_false, forall_eq_or_imp, forall_eq]
      unfold NCond.holds
      simp only [NExp.eval]
      norm_num
  have hl' : Leads (builtStep [("move", buildAction add (safeDiscrete add ord P.disc) p)]) (on, fun _ => 4) [call] _ :=
    ⟨_, ⟨_, List.mem_singleton.mpr rfl, hacc, rfl⟩, rfl⟩
  have hgoal : drive.SolvedBy (builtStep [("move", buildAction add (safeDiscrete add ord P.disc) p)]) [call] := by
    refine ⟨_, hl', ?_⟩
    show holds (successor P.disc.safeModel.2 Props.OnlineDomain.Case.ρ on) (ground Props.OnlineDomain.Case.ρ moved)
    rw [hd2]
    decide +kernel
  have hproper : Proper V fns [call] := by
    intro c hc
    rw [List.mem_singleton.mp hc]
    exact ⟨proper.1, proper.2⟩
  have hsd : ∀ acts, constructSafe cfg add ord names (discOf L) (numOf L) = .ok acts → ∀ a A, (a, A) ∈ acts → ∀ e ∈ A.numEff, e.op ≠ .scaleDown := by
    intro acts hacts a A hA e he
    rw [e1] at hacts
    cases hacts
    have : A = buildAction add (safeDiscrete add ord P.disc) p := (Prod.mk.inj (List.mem_singleton.mp hA)).2
    subst this
    have he' : e ∈ p.eff := he
    rw [heff, List.mem_singleton] at he'
    rw [he']
    decide
  have hjob : ∃ G, job carTools carSetup .noamLearning 0 (constructSafe cfg add ord names (discOf L) (numOf L))
      (constructOptimistic cfg add ord names (discOf L) (numOf L)) empty = (G, none) := by
    rw [e1, e2]
    exact ⟨_, rfl⟩
  obtain ⟨G, hG⟩ := hjob
  refine ⟨L, G, hD, hG, ?_⟩
  obtain ⟨safe, opt, k1, k2, k3, k4, k5⟩ := C129_safe_row addOK ordOK rfl (by decide) (guess_contract _) setting exactOn hD (E := carSetup) (by decide)
    (.inl rfl) hG hsd (fun _ => drive) (fun _ => [call]) (by
      intro acts hacts t ht
      have hacts' : acts = [("move", buildAction add (safeDiscrete add ord P.disc) p)] := by rw [e1] at hacts; cases hacts; rfl
      subst hacts'
      have htrue : drive.SolvedBy (trueStep fun _ => move) [call] := by
        obtain ⟨s, hs, hg⟩ := hgoal
        exact ⟨s, C110_plan addOK ordOK rfl (by decide) (guess_contract _) setting exactOn hD e1 (hsd _ e1) hproper hs, hg⟩
      refine ⟨?_, ?_, ?_⟩
      · intro a ha
        simp only [caseOf, answers, List.mem_cons, List.not_mem_nil, or_false] at ha
        rcases ha with rfl | rfl
        · right; left; rfl
        · left; rfl
      · intro a ha hok
        simp only [caseOf, answers, List.mem_cons, List.not_mem_nil, or_false] at ha
        rcases ha with rfl | rfl
        · exact absurd (show Outcome.noSolution = Outcome.ok from hok) (by decide)
        · exact ⟨[call], hproper, hgoal, ⟨fun _ => htrue, fun _ => rfl⟩⟩
      · exact ⟨fun _ => hgoal, fun _ => rfl⟩)
  refine ⟨safe, opt, k1, ?_, k2⟩
  rw [k4 _ e1]
  rfl

end Case
end OnlineEvaluation
end Props

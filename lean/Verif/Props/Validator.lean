import Verif.Lemmas.Validator
import Mathlib.Tactic.FieldSimp
import Mathlib.Tactic.IntervalCases
import Mathlib.Tactic.Linarith
import Mathlib.Tactic.NormNum

/-!
C86-C89: what `validate_domain` reports about a learned domain, and C90: how planner processes are
read. Specification: `Spec/Validation.lean`.
-/
namespace Props
open Spec Model

/-- **C86** For every test set: the call returns iff observations were given and every problem gets
an answer the tables know; otherwise it raises and reports nothing. -/
theorem C86_returns_iff (used : Option Used) (tests : List TestCase) :
    (∃ r, validateDomain used tests = .ok r) ↔ used.isSome ∧ ∀ t ∈ tests, ¬ t.Stuck := by
  unfold validateDomain
  by_cases h : ∀ t ∈ tests, ¬ t.Stuck
  · rw [foldlM_ok _ h]
    cases used with
    | none => simp [Bind.bind, Except.bind]
    | some u => simp only [Bind.bind, Except.bind, pure, Except.pure]; exact ⟨fun _ => ⟨rfl, h⟩, fun _ => ⟨_, rfl⟩⟩
  · have h' : ∃ t ∈ tests, t.Stuck := by push Not at h; exact h
    rw [foldlM_error _ h']
    simp only [Bind.bind, Except.bind]
    constructor
    · rintro ⟨r, hr⟩; cases hr
    · rintro ⟨_, hr⟩; exact absurd hr h

/-- What the returned row contains. -/
theorem row_eq {used : Option Used} {tests : List TestCase} {r : SolvingRow}
    (h : validateDomain used tests = .ok r) :
    r.stats = ⟨fun l => tests.countP (hits · l), fun l => (tests.filter (hits · l)).map (listedAs · l)⟩
    ∧ r.percent = percentSolved r.stats ∧ r.percentExp = percentExpert r.stats
    ∧ ∃ u, used = some u ∧ r.numTrajectories = u.len ∧ r.triplets = numTriplets used := by
  have hi := (C86_returns_iff used tests).mp ⟨r, h⟩
  unfold validateDomain at h
  rw [foldlM_ok _ hi.2, foldl_addCase] at h
  cases used with
  | none => simp at hi
  | some u =>
    simp only [Bind.bind, Except.bind, pure, Except.pure] at h
    have := Except.ok.inj h
    subst this
    simp [SolvingStats.init]

/-- **C86** The counter of an outcome is the number of problems with that verdict, and the list
beside it names exactly these problems, in the order of the test set: by file name when a planner
claimed a plan, by stem otherwise. -/
theorem C86_counts {used : Option Used} {tests : List TestCase} {r : SolvingRow}
    (h : validateDomain used tests = .ok r) (o : Outcome) :
    r.stats.count (.out o) = tests.countP (fun t => decide (t.verdict = some o))
    ∧ r.stats.names (.out o) = (tests.filter (fun t => decide (t.verdict = some o))).map
        (fun t => if t.Solved then t.stem ++ ".pddl" else t.stem) := by
  rw [(row_eq h).1]
  exact ⟨rfl, rfl⟩

/-- **C86** A problem counts as solved iff the first planner that claimed a plan for it wrote one
that VAL accepts against the reference domain. -/
theorem C86_ok_iff (t : TestCase) :
    t.verdict = some .ok ↔
      ∃ before log after, t.answers = before ++ (.ok, log) :: after ∧ (∀ a ∈ before, a.1 ≠ .ok) ∧ log.valid := by
  unfold TestCase.verdict
  generalize t.answers = as
  induction as with
  | nil => simp [deciding]
  | cons a rest ih =>
    obtain ⟨o, log⟩ := a
    by_cases ho : o = .ok
    · subst ho
      have : deciding ((Outcome.ok, log) :: rest) = some (.ok, log) := by
        cases rest <;> simp [deciding]
      rw [this]
      constructor
      · intro h
        refine ⟨[], log, rest, rfl, by simp, ?_⟩
        simp only [ValLog.verdict] at h
        split at h
        · assumption
        · split at h
          · cases h
          · split at h <;> cases h
      · rintro ⟨b, l, c, e, hb, hl⟩
        cases b with
        | nil =>
          simp only [List.nil_append, List.cons.injEq, Prod.mk.injEq] at e
          rw [e.1.2]; simp [ValLog.verdict, hl]
        | cons x b =>
          simp only [List.cons_append, List.cons.injEq] at e
          exact absurd (by rw [← e.1]) (hb x (by simp))
    · have hr : (∃ b l c, (o, log) :: rest = b ++ (Outcome.ok, l) :: c ∧ (∀ a ∈ b, a.1 ≠ .ok) ∧ l.valid = true) ↔
          ∃ b l c, rest = b ++ (Outcome.ok, l) :: c ∧ (∀ a ∈ b, a.1 ≠ .ok) ∧ l.valid = true := by
        constructor
        · rintro ⟨b, l, c, e, hb, hl⟩
          cases b with
          | nil => simp at e; exact absurd e.1.1 ho
          | cons x b =>
            simp only [List.cons_append, List.cons.injEq] at e
            exact ⟨b, l, c, e.2, fun a ha => hb a (by simp [ha]), hl⟩
        · rintro ⟨b, l, c, e, hb, hl⟩
          refine ⟨(o, log) :: b, l, c, by simp [e], ?_, hl⟩
          intro a ha
          rcases List.mem_cons.mp ha with rfl | ha
          · exact ho
          · exact hb a ha
      rw [hr, ← ih]
      cases rest with
      | nil => cases o <;> first | exact absurd rfl ho | simp [deciding]
      | cons b rest => rw [deciding, if_neg ho]

/-- **C87** No problem is counted twice: the six outcome counters and the problems VAL's log says
nothing known about add up to the test set. -/
theorem C87_partition {used : Option Used} {tests : List TestCase} {r : SolvingRow}
    (h : validateDomain used tests = .ok r) :
    r.stats.count (.out .ok) + r.stats.count (.out .noSolution) + r.stats.count (.out .timeout)
      + r.stats.count (.out .solverError) + r.stats.count (.out .notApplicable)
      + r.stats.count (.out .goalNotAchieved)
      + tests.countP (fun t => decide (t.verdict = none)) = tests.length := by
  have hi := ((C86_returns_iff used tests).mp ⟨r, h⟩).2
  simp only [(C86_counts h _).1]
  clear h
  induction tests with
  | nil => rfl
  | cons t ts ih =>
    have := ih (fun x hx => hi x (List.mem_cons_of_mem _ hx))
    simp only [List.countP_cons, List.length_cons]
    have hv : t.verdict ≠ some .irrelevant := by
      intro hv
      apply hi t (by simp)
      unfold TestCase.verdict at hv
      cases hd : deciding t.answers with
      | none => rw [hd] at hv; cases hv
      | some x =>
        obtain ⟨o, log⟩ := x
        rw [hd] at hv
        cases o
        · simp only [ValLog.verdict] at hv
          split at hv
          · cases hv
          · split at hv
            · cases hv
            · split at hv <;> cases hv
        all_goals first
          | (exact Or.inr ⟨log, hd⟩)
          | (cases hv)
    cases hv' : t.verdict with
    | none => simp; omega
    | some o => cases o <;> first | exact absurd hv' hv | (simp; omega)

/-- **C87** Every problem no planner claimed to solve is checked once against the expert's plan,
and no other problem is. -/
theorem C87_expert {used : Option Used} {tests : List TestCase} {r : SolvingRow}
    (h : validateDomain used tests = .ok r) :
    r.stats.count .validated = tests.countP (fun t => decide (¬ t.Solved) && t.expert.valid)
    ∧ r.stats.count .notValidated = tests.countP (fun t => decide (¬ t.Solved) && !t.expert.valid)
    ∧ r.stats.count .validated + r.stats.count .notValidated = tests.countP (fun t => decide (¬ t.Solved)) := by
  rw [(row_eq h).1]
  refine ⟨rfl, rfl, ?_⟩
  clear h
  induction tests with
  | nil => rfl
  | cons t ts ih =>
    simp only [List.countP_cons] at ih ⊢
    simp only [hits] at ih ⊢
    by_cases hs : t.Solved <;> by_cases hx : t.expert.valid = true <;> simp [hs, hx] at ih ⊢ <;> omega

private theorem pct_sum (a b c d e f : Nat) (h : 0 < a + b + c + d + e + f) :
    100 * ((a : ℚ) / ((orOne ([a, b, c, d, e, f].sum) : Nat) : ℚ)) + 100 * ((b : ℚ) / ((orOne ([a, b, c, d, e, f].sum) : Nat) : ℚ))
    + 100 * ((c : ℚ) / ((orOne ([a, b, c, d, e, f].sum) : Nat) : ℚ)) + 100 * ((d : ℚ) / ((orOne ([a, b, c, d, e, f].sum) : Nat) : ℚ))
    + 100 * ((e : ℚ) / ((orOne ([a, b, c, d, e, f].sum) : Nat) : ℚ)) + 100 * ((f : ℚ) / ((orOne ([a, b, c, d, e, f].sum) : Nat) : ℚ)) = 100 := by
  have hs : [a, b, c, d, e, f].sum = a + b + c + d + e + f := by simp; omega
  rw [hs, orOne, if_pos h]
  have hq : ((a + b + c + d + e + f : Nat) : ℚ) ≠ 0 := by exact_mod_cast h.ne'
  rw [← mul_add, ← mul_add, ← mul_add, ← mul_add, ← mul_add, ← add_div, ← add_div, ← add_div, ← add_div, ← add_div]
  push_cast at hq ⊢
  rw [div_self hq]; norm_num

/-- **C88** The reported outcome percentages are the shares of the judged problems: each is
`100 * count / judged`, and when some problem was judged they add up to 100; otherwise all are 0. -/
theorem C88_percentages {used : Option Used} {tests : List TestCase} {r : SolvingRow}
    (h : validateDomain used tests = .ok r) :
    let judged := tests.countP (fun t => decide (t.verdict ≠ none))
    (∀ o, judged ≠ 0 → r.percent o = 100 * ((tests.countP (fun t => decide (t.verdict = some o)) : ℚ) / judged))
    ∧ (judged ≠ 0 → r.percent .ok + r.percent .noSolution + r.percent .timeout + r.percent .solverError
        + r.percent .notApplicable + r.percent .goalNotAchieved = 100)
    ∧ (judged = 0 → ∀ o, r.percent o = 0) := by
  intro judged
  have hp := C87_partition h
  have hj : judged + tests.countP (fun t => decide (t.verdict = none)) = tests.length := by
    have := tests.length_eq_countP_add_countP (fun t => decide (t.verdict = none))
    have e : tests.countP (fun t => !(decide (t.verdict = none))) = judged := by
      apply List.countP_congr; intro t _; simp
    rw [← e]
    have e2 : tests.countP (fun a => decide ¬ (decide (a.verdict = none)) = true) = tests.countP (fun t => !(decide (t.verdict = none))) := by
      apply List.countP_congr; intro t _; simp
    omega
  have hs : ((aggregatedFields.map (fun f => r.stats.count (.out f))).sum) = judged := by
    simp only [aggregatedFields, List.map_cons, List.map_nil, List.sum_cons, List.sum_nil]; omega
  have hpe : r.percent = percentSolved r.stats := (row_eq h).2.1
  refine ⟨?_, ?_, ?_⟩
  · intro o h0
    rw [hpe, percentSolved, hs, orOne, if_pos (by omega), (C86_counts h o).1]
  · intro h0
    rw [hpe]
    simp only [percentSolved, aggregatedFields, List.map_cons, List.map_nil]
    apply pct_sum
    omega
  · intro h0 o
    rw [hpe, percentSolved, (C86_counts h o).1]
    have : tests.countP (fun t => decide (t.verdict = some o)) = 0 := by
      rw [List.countP_eq_zero]
      intro t ht hv
      have := List.countP_eq_zero.mp h0 t ht
      simp at this hv
      rw [hv] at this; cases this
    rw [this]; simp

/-- **C88** The expert percentages: shares of the problems no planner claimed; they add up to 100
when there is one, else both are 0. -/
theorem C88_expert_percentages {used : Option Used} {tests : List TestCase} {r : SolvingRow}
    (h : validateDomain used tests = .ok r) :
    let open_ := tests.countP (fun t => decide (¬ t.Solved))
    (open_ ≠ 0 → r.percentExp .validated + r.percentExp .notValidated = 100
      ∧ r.percentExp .validated = 100 * ((tests.countP (fun t => decide (¬ t.Solved) && t.expert.valid) : ℚ) / open_))
    ∧ (open_ = 0 → r.percentExp .validated = 0 ∧ r.percentExp .notValidated = 0) := by
  intro open_
  obtain ⟨h1, h2, h3⟩ := C87_expert h
  have hpe : r.percentExp = percentExpert r.stats := (row_eq h).2.2.1
  rw [hpe]
  simp only [percentExpert]
  refine ⟨fun h0 => ?_, fun h0 => ?_⟩
  · have hpos : r.stats.count .validated + r.stats.count .notValidated > 0 := by
      rw [h3]; exact Nat.pos_of_ne_zero h0
    rw [orOne, if_pos hpos]
    refine ⟨?_, by rw [h3, h1]⟩
    rw [← mul_add, ← add_div]
    have hq : ((r.stats.count .validated + r.stats.count .notValidated : Nat) : ℚ) ≠ 0 := by exact_mod_cast hpos.ne'
    push_cast at hq ⊢
    rw [div_self hq]; norm_num
  · have : r.stats.count .validated = 0 ∧ r.stats.count .notValidated = 0 := by
      change tests.countP _ = 0 at h0
      omega
    rw [this.1, this.2]; simp

/-- The rows of the calls that returned, in order. -/
def solvedRows : List ValidatorCall → List SolvingRow
  | [] => []
  | .validate u ts :: cs =>
    match validateDomain u ts with
    | .ok r => r :: solvedRows cs
    | .error _ => solvedRows cs
  | .clear :: cs => solvedRows cs

/-- **C89** Over every history of validations and clearings, no row is lost, repeated or reordered:
the aggregated rows followed by the current ones are the rows of the validations that returned.
After a clearing everything is in the aggregate. -/
theorem C89_history (cs : List ValidatorCall) :
    (cs.foldl ValidatorState.call ⟨[], []⟩).aggregated ++ (cs.foldl ValidatorState.call ⟨[], []⟩).solving = solvedRows cs
    ∧ ((cs ++ [ValidatorCall.clear]).foldl ValidatorState.call ⟨[], []⟩).aggregated = solvedRows cs
    ∧ ((cs ++ [ValidatorCall.clear]).foldl ValidatorState.call ⟨[], []⟩).solving = [] := by
  have key : ∀ (cs : List ValidatorCall) (v : ValidatorState),
      (cs.foldl ValidatorState.call v).aggregated ++ (cs.foldl ValidatorState.call v).solving
        = v.aggregated ++ v.solving ++ solvedRows cs := by
    intro cs
    induction cs with
    | nil => intro v; simp [solvedRows]
    | cons c cs ih =>
      intro v
      rw [List.foldl_cons, ih]
      cases c with
      | validate u ts =>
        simp only [ValidatorState.call, solvedRows]
        cases validateDomain u ts <;> simp
      | clear => simp [ValidatorState.call, solvedRows]
  have h := key cs ⟨[], []⟩
  refine ⟨by simpa using h, ?_, ?_⟩
  · rw [List.foldl_append]
    simpa [ValidatorState.call] using h
  · rw [List.foldl_append]; rfl

/-- The current rows are those since the last clearing. -/
theorem C89_current (cs : List ValidatorCall) (since : List (Option Used × List TestCase)) :
    ((cs ++ ValidatorCall.clear :: since.map (fun x => ValidatorCall.validate x.1 x.2)).foldl ValidatorState.call ⟨[], []⟩).solving
      = solvedRows (since.map (fun x => .validate x.1 x.2)) := by
  rw [List.foldl_append, List.foldl_cons]
  generalize List.foldl ValidatorState.call ⟨[], []⟩ cs = v
  simp only [ValidatorState.call]
  generalize v.aggregated ++ v.solving = ag
  have key : ∀ (since : List (Option Used × List TestCase)) (w : ValidatorState),
      ((since.map (fun x => ValidatorCall.validate x.1 x.2)).foldl ValidatorState.call w).solving
        = w.solving ++ solvedRows (since.map (fun x => .validate x.1 x.2)) := by
    intro since
    induction since with
    | nil => intro w; simp [solvedRows]
    | cons x xs ih =>
      intro w
      rw [List.map_cons, List.foldl_cons, ih]
      simp only [ValidatorState.call, solvedRows]
      cases validateDomain x.1 x.2 <;> simp
  simpa using key since ⟨[], ag⟩

/-- **C89** The number of transitions reported with a row is the total over the observations when
they are given parsed. -/
theorem C89_triplets {c : List Nat} {tests : List TestCase} {r : SolvingRow}
    (h : validateDomain (some (.observations c)) tests = .ok r) :
    r.triplets = c.sum ∧ r.numTrajectories = c.length := by
  obtain ⟨u, hu, hn, ht⟩ := (row_eq h).2.2.2
  cases hu
  exact ⟨ht, hn⟩

/-- Not so when they are given as files: only the first file is counted. -/
theorem C89_triplets_first_path {l : Nat} {ls : List Nat} {tests : List TestCase} {r : SolvingRow}
    (h : validateDomain (some (.paths (l :: ls))) tests = .ok r) :
    r.triplets = l ∧ r.numTrajectories = ls.length + 1 := by
  obtain ⟨u, hu, hn, ht⟩ := (row_eq h).2.2.2
  cases hu
  exact ⟨ht, hn⟩

/-- **C90** ENHSP is started at most four times on a problem; the answer is that of the first
process that does not end in an unknown error, or `solver_error` when all four do. -/
theorem C90_enhsp (runs : Nat → EnhspRun) :
    ∃ n, n ≤ 3 ∧ enhspSolve runs = ((enhspOutcome (runs n)).2, n + 1)
      ∧ (∀ i < n, (enhspOutcome (runs i)).2 = .solverError)
      ∧ ((enhspOutcome (runs n)).2 = .solverError → n = 3) := by
  have hc : ∀ r, (enhspOutcome r).1 = false ↔ (enhspOutcome r).2 = .solverError := by
    intro r; unfold enhspOutcome
    split_ifs <;> simp
  unfold enhspSolve
  simp only [enhspRetry]
  by_cases h0 : (enhspOutcome (runs 0)).1 = true
  · refine ⟨0, by omega, by simp [h0], by simp, fun h => ?_⟩
    rw [← hc] at h; rw [h] at h0; cases h0
  by_cases h1 : (enhspOutcome (runs 1)).1 = true
  · refine ⟨1, by omega, by simp [h0, h1], ?_, fun h => ?_⟩
    · intro i hi
      interval_cases i
      exact (hc _).mp (by simpa using h0)
    · rw [← hc] at h; rw [h] at h1; cases h1
  by_cases h2 : (enhspOutcome (runs 2)).1 = true
  · refine ⟨2, by omega, by simp [h0, h1, h2], ?_, fun h => ?_⟩
    · intro i hi
      interval_cases i
      · exact (hc _).mp (by simpa using h0)
      · exact (hc _).mp (by simpa using h1)
    · rw [← hc] at h; rw [h] at h2; cases h2
  refine ⟨3, by omega, by simp [h0, h1, h2], ?_, fun _ => rfl⟩
  intro i hi
  interval_cases i
  · exact (hc _).mp (by simpa using h0)
  · exact (hc _).mp (by simpa using h1)
  · exact (hc _).mp (by simpa using h2)

/-- **C90** The same for `execute_solver` of Fast Downward. -/
theorem C90_fast_downward (runs : Nat → Outcome) :
    ∃ n, n ≤ 3 ∧ fdExecute runs = (runs n, n + 1) ∧ (∀ i < n, runs i = .solverError)
      ∧ (runs n = .solverError → n = 3) := by
  unfold fdExecute
  simp only [fdRetry]
  by_cases h0 : runs 0 = .solverError
  · by_cases h1 : runs 1 = .solverError
    · by_cases h2 : runs 2 = .solverError
      · refine ⟨3, by omega, by simp [h0, h1, h2], ?_, fun _ => rfl⟩
        intro i hi; interval_cases i <;> assumption
      · refine ⟨2, by omega, by simp [h0, h1, h2], ?_, fun h => absurd h h2⟩
        intro i hi; interval_cases i <;> assumption
    · refine ⟨1, by omega, by simp [h0, h1], ?_, fun h => absurd h h1⟩
      intro i hi; interval_cases i; assumption
  · exact ⟨0, by omega, by simp [h0], by simp, fun h => absurd h h0⟩

/-- **C90** No planner wrapper ever answers `not_applicable`, `goal_not_achieved` or `irrelevant`:
with these wrappers and a non-empty portfolio `validate_domain` never fails on an outcome. -/
theorem C90_answers (t : TestCase) (hne : t.answers ≠ [])
    (h : ∀ a ∈ t.answers, (∃ runs, (enhspSolve runs).1 = a.1) ∨ (∃ rc f x, fdSolve rc f = .ok (a.1, x))
      ∨ ∃ r b, ffSolve r = .ok (a.1, b)) :
    ¬ t.Stuck ∧ ∀ a ∈ t.answers, a.1 = .ok ∨ a.1 = .noSolution ∨ a.1 = .timeout ∨ a.1 = .solverError := by
  have key : ∀ a ∈ t.answers, a.1 = .ok ∨ a.1 = .noSolution ∨ a.1 = .timeout ∨ a.1 = .solverError := by
    intro a ha
    rcases h a ha with ⟨runs, hr⟩ | ⟨rc, f, x, hr⟩ | ⟨r, b, hr⟩
    · obtain ⟨n, -, hn, -⟩ := C90_enhsp runs
      rw [hn] at hr
      rw [← hr]
      show (enhspOutcome (runs n)).2 = _ ∨ _
      unfold enhspOutcome
      split_ifs <;> simp
    · have ho : fdOutcome rc = .ok ∨ fdOutcome rc = .noSolution ∨ fdOutcome rc = .timeout ∨ fdOutcome rc = .solverError := by
        unfold fdOutcome; split_ifs <;> simp
      unfold fdSolve at hr
      split at hr
      · cases f with
        | none => cases hr
        | some ls => left; exact (congrArg Prod.fst (Except.ok.inj hr)).symm
      · have := congrArg Prod.fst (Except.ok.inj hr)
        simp only at this
        rw [← this]; exact ho
    · unfold ffSolve at hr
      split at hr
      · have := congrArg Prod.fst (Except.ok.inj hr); simp only at this; simp [← this]
      · split at hr
        · have := congrArg Prod.fst (Except.ok.inj hr); simp only at this; simp [← this]
        · split at hr
          · split at hr
            · have := congrArg Prod.fst (Except.ok.inj hr); simp only at this; simp [← this]
            · cases hr
          · split at hr
            · have := congrArg Prod.fst (Except.ok.inj hr); simp only at this; simp [← this]
            · split at hr
              · have := congrArg Prod.fst (Except.ok.inj hr); simp only at this; simp [← this]
              · have := congrArg Prod.fst (Except.ok.inj hr); simp only at this; simp [← this]
  refine ⟨?_, key⟩
  rintro (h1 | ⟨log, h1⟩)
  · exact hne h1
  · rcases key _ (deciding_mem h1) with h | h | h | h <;> cases h

/-- **C90** Metric-FF: a solution file is left behind iff the answer is `ok`, and the answer is `ok`
iff the process ended in time with a file whose status is `ok`, whatever its return code. -/
theorem C90_metric_ff {r : FfRun} {o : Outcome} {b : Bool} (h : ffSolve r = .ok (o, b)) :
    (b = true ↔ o = .ok) ∧ (o = .ok ↔ r.timedOut = false ∧ r.returnCode ≠ none ∧ r.file = some .ok) := by
  obtain ⟨tmo, rc, f⟩ := r
  unfold ffSolve at h
  cases tmo
  · simp only [Bool.false_eq_true, if_false] at h
    cases rc with
    | none =>
      simp only at h
      obtain ⟨rfl, rfl⟩ := Prod.mk.inj (Except.ok.inj h); simp
    | some c =>
      simp only at h
      cases f with
      | none =>
        simp only at h
        split at h
        · obtain ⟨rfl, rfl⟩ := Prod.mk.inj (Except.ok.inj h); simp
        · cases h
      | some st =>
        simp only at h
        split at h
        · rename_i hc
          obtain ⟨rfl, rfl⟩ := Prod.mk.inj (Except.ok.inj h)
          simp [hc.2.1]
        · split at h
          · rename_i hs; subst hs
            obtain ⟨rfl, rfl⟩ := Prod.mk.inj (Except.ok.inj h); simp
          · rename_i hs
            obtain ⟨rfl, rfl⟩ := Prod.mk.inj (Except.ok.inj h); simp [hs]
  · simp only [if_true] at h
    obtain ⟨rfl, rfl⟩ := Prod.mk.inj (Except.ok.inj h); simp

/-- **C90** Fast Downward: on success the plan loses exactly its last line (the cost), so a plan
followed by a cost line is recovered. -/
theorem C90_fast_downward_plan (plan : List String) (cost : String) :
    fdSolve 0 (some (plan ++ [cost])) = .ok (.ok, some plan) := by
  simp [fdSolve, fdOutcome, removeCost]

/-- **C90** How the output of ENHSP is read: a time out hides everything else, a found plan everything
but that; only an output without any known sentence is a solver error. -/
theorem C90_enhsp_outcome (r : EnhspRun) :
    ((enhspOutcome r).2 = .timeout ↔ r.timedOut = true) ∧
    ((enhspOutcome r).2 = .ok ↔ r.timedOut = false ∧ r.solved = true) ∧
    ((enhspOutcome r).2 = .noSolution ↔ r.timedOut = false ∧ r.solved = false ∧
      (r.unsolvable = true ∨ r.otherUnsolvable = true ∨ r.planNull = true ∨ r.goalUnreachable = true)) ∧
    ((enhspOutcome r).2 = .solverError ↔ r = ⟨false, false, false, false, false, false⟩) := by
  obtain ⟨a, b, c, d, e, f⟩ := r
  revert a b c d e f
  decide

/-- **C90** How the return code of Fast Downward is read. -/
theorem C90_fast_downward_code (rc : Nat) :
    (fdOutcome rc = .ok ↔ rc = 0) ∧ (fdOutcome rc = .timeout ↔ rc = 21 ∨ rc = 23 ∨ rc = 247) ∧
    (fdOutcome rc = .noSolution ↔ rc = 11 ∨ rc = 12) := by
  unfold fdOutcome
  simp only [List.mem_cons, List.not_mem_nil, or_false]
  refine ⟨?_, ?_, ?_⟩ <;> split_ifs <;> simp <;> omega

/-! Examples and limits. -/

/-- A test set with six problems: solved, solved by the second planner, a plan that fails, no
solution, a time out, and a plan VAL's log says nothing about. -/
def tests6 : List TestCase :=
  [⟨"pfile1", [(.ok, ⟨true, false, false⟩), (.timeout, ⟨false, false, false⟩)], ⟨true, false, false⟩⟩,
   ⟨"pfile2", [(.timeout, ⟨false, false, false⟩), (.ok, ⟨true, false, false⟩)], ⟨true, false, false⟩⟩,
   ⟨"pfile3", [(.ok, ⟨false, true, true⟩)], ⟨true, false, false⟩⟩,
   ⟨"pfile4", [(.timeout, ⟨false, false, false⟩), (.noSolution, ⟨false, false, false⟩)], ⟨true, false, false⟩⟩,
   ⟨"pfile5", [(.timeout, ⟨false, false, false⟩)], ⟨false, true, false⟩⟩,
   ⟨"pfile6", [(.ok, ⟨false, false, false⟩)], ⟨true, false, false⟩⟩]

example : ∀ t ∈ tests6, ¬ t.Stuck := by
  intro t ht
  simp only [tests6, List.mem_cons, List.not_mem_nil, or_false] at ht
  rcases ht with rfl | rfl | rfl | rfl | rfl | rfl <;> simp [TestCase.Stuck, deciding]

/-- The hypotheses of C86-C89 are met. -/
example : ∃ r, validateDomain (some (.observations [3, 4])) tests6 = .ok r
    ∧ r.stats.count (.out .ok) = 2 ∧ r.stats.count .validated = 1 ∧ r.stats.count .notValidated = 1
    ∧ r.stats.names (.out .ok) = ["pfile1.pddl", "pfile2.pddl"] ∧ r.stats.names (.out .timeout) = ["pfile5"]
    ∧ r.triplets = 7 ∧ r.percent .ok = 40 := by
  have h := (C86_returns_iff (some (.observations [3, 4])) tests6).mpr ⟨rfl, by
    intro t ht
    simp only [tests6, List.mem_cons, List.not_mem_nil, or_false] at ht
    rcases ht with rfl | rfl | rfl | rfl | rfl | rfl <;> simp [TestCase.Stuck, deciding]⟩
  obtain ⟨r, hr⟩ := h
  refine ⟨r, hr, ?_, ?_, ?_, ?_, ?_, (C89_triplets hr).1, ?_⟩
  · rw [(C86_counts hr _).1]; decide
  · rw [(C87_expert hr).1]; decide
  · rw [(C87_expert hr).2.1]; decide
  · rw [(C86_counts hr _).2]; decide
  · rw [(C86_counts hr _).2]; decide
  · rw [(C88_percentages hr).1 .ok (by decide)]
    rw [show tests6.countP (fun t => decide (t.verdict = some .ok)) = 2 from by decide,
      show tests6.countP (fun t => decide (t.verdict ≠ none)) = 5 from by decide]
    norm_num

/-- Limit: a plan VAL rejects ends the search, although a later planner has a valid one. -/
theorem first_claim_decides :
    ∃ t : TestCase, (∃ a ∈ t.answers, a.1 = .ok ∧ a.2.valid = true) ∧ t.verdict = some .notApplicable :=
  ⟨⟨"p", [(.ok, ⟨false, true, false⟩), (.ok, ⟨true, false, false⟩)], ⟨true, false, false⟩⟩, by decide, by decide⟩

/-- Limit: an empty portfolio raises on any non-empty test set. -/
theorem empty_portfolio_raises (used : Option Used) (ts : List TestCase) (h : ∃ t ∈ ts, t.answers = []) :
    validateDomain used ts = .error .keyError := by
  obtain ⟨t, ht, h⟩ := h
  unfold validateDomain
  rw [foldlM_error _ ⟨t, ht, Or.inl h⟩]; rfl

/-- Limit: without observations the call raises after all the work. -/
theorem no_observations_raises (ts : List TestCase) : ¬ ∃ r, validateDomain none ts = .ok r := by
  rw [C86_returns_iff]; simp

example : fdOutcome 12 = .noSolution ∧ fdOutcome 23 = .timeout ∧ fdOutcome 1 = .solverError := by decide

example : (enhspSolve (fun i => if i < 2 then ⟨false, false, false, false, false, false⟩
    else ⟨false, true, false, false, false, false⟩)) = (.ok, 3) := by decide

example : ffSolve ⟨false, some 1, some .ok⟩ = .ok (.ok, true) ∧ ffSolve ⟨false, some 1, some .timeout⟩ = .ok (.solverError, false)
    ∧ ffSolve ⟨false, some 0, some .other⟩ = .ok (.noSolution, false) := ⟨rfl, rfl, rfl⟩

example : (solvedRows [.validate none [], .clear, .validate (some (.observations [])) []]).length = 1 := rfl

end Props

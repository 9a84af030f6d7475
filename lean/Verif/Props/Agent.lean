import Verif.Model.Agent
import Verif.Lemmas.ExploreLoops
import Verif.Spec.Strips

/-! C71, C75: the agent that executes plans and tests goals, and the verdicts built on it. -/
namespace Props
open Model Spec

variable {S A : Type} {E : Env S A} {known : A → Bool}

theorem planLoop_spec (plan : List A) (s : S) (q : List (Try S A) × S × Bool) (h : planLoop known E s plan = .ok q) :
    Path E s q.1 q.2.1 ∧ (q.1.map (·.act)) <+: plan ∧
    (q.2.2 = true → q.1.map (·.act) = plan ∧ (∀ t ∈ q.1, t.ok = true) ∧ Runs E s plan q.2.1) ∧
    (q.2.2 = false → ∃ init t, q.1 = init ++ [t] ∧ t.ok = false ∧ (∀ u ∈ init, u.ok = true) ∧ ∀ s', ¬ Runs E s plan s') := by
  induction plan generalizing s q with
  | nil =>
    cases h
    exact ⟨rfl, List.prefix_refl _, fun _ => ⟨rfl, by simp, rfl⟩, by simp⟩
  | cons a p ih =>
    rw [planLoop] at h
    unfold ipcObserve at h
    by_cases hk : known a = true
    · rw [if_pos hk] at h
      dsimp only at h
      have hh := observe_honest E s a
      by_cases hok : (observe E s a).2 = true
      · rw [if_pos hok] at h
        have hstep : E.step s a = some (observe E s a).1 := by
          rcases hh with ⟨_, hh⟩ | ⟨hh, _⟩
          · exact hh
          · dsimp only at hh; rw [hok] at hh; simp at hh
        cases hq : planLoop known E (observe E s a).1 p with
        | error e => rw [hq] at h; simp at h
        | ok q' =>
          rw [hq] at h
          cases h
          obtain ⟨i1, i2, i3, i4⟩ := ih _ _ hq
          refine ⟨⟨rfl, hh, i1⟩, ?_, fun hv => ?_, fun hv => ?_⟩
          · rw [List.map_cons]; exact List.cons_prefix_cons.mpr ⟨rfl, i2⟩
          · obtain ⟨j1, j2, j3⟩ := i3 hv
            refine ⟨by rw [List.map_cons, j1], ?_, _, hstep, j3⟩
            intro t ht
            rcases List.mem_cons.mp ht with rfl | ht
            · exact hok
            · exact j2 t ht
          · obtain ⟨init, t, e, j1, j2, j3⟩ := i4 hv
            refine ⟨_ :: init, t, by rw [e]; rfl, j1, ?_, ?_⟩
            · intro u hu
              rcases List.mem_cons.mp hu with rfl | hu
              · exact hok
              · exact j2 u hu
            · rintro s' ⟨m, hm, hr⟩
              rw [hstep] at hm
              cases hm
              exact j3 s' hr
      · rw [if_neg hok] at h
        cases h
        have hok' : (observe E s a).2 = false := by simpa using hok
        refine ⟨⟨rfl, hh, rfl⟩, ?_, fun hv => by simp at hv, fun _ => ⟨[], _, rfl, hok', by simp, ?_⟩⟩
        · exact List.cons_prefix_cons.mpr ⟨rfl, List.nil_prefix⟩
        · rintro s' ⟨m, hm, _⟩
          rw [(observe_none hok').1] at hm; simp at hm
    · rw [if_neg hk] at h
      simp at h

theorem path_unique {s m m' : S} {ts : List (Try S A)} (h : Path E s ts m) (h' : Path E s ts m') : m = m' := by
  induction ts generalizing s with
  | nil => exact (show s = m from h).symm.trans h'
  | cons t ts ih => exact ih h.2.2 h'.2.2

theorem planLoop_known {plan : List A} (hk : ∀ a ∈ plan, known a = true) (s : S) : ∃ q, planLoop known E s plan = .ok q := by
  induction plan generalizing s with
  | nil => exact ⟨_, rfl⟩
  | cons a p ih =>
    rw [planLoop]
    unfold ipcObserve
    rw [if_pos (hk a (by simp))]
    dsimp only
    by_cases hok : (observe E s a).2 = true
    · rw [if_pos hok]
      obtain ⟨q, hq⟩ := ih (fun b hb => hk b (List.mem_cons_of_mem _ hb)) (observe E s a).1
      rw [hq]; exact ⟨_, rfl⟩
    · rw [if_neg hok]; exact ⟨_, rfl⟩

/-- **C71.** The trace of an executed plan is a path of the environment from the initial state along a prefix of the plan. If the plan
is reported applicable, it is the whole plan, every step succeeded, and the plan can really be executed; otherwise the trace ends
with the first failing action, and the plan cannot be executed. The goal verdict is the goal test on the last state of the trace. -/
theorem C71_execute_plan {plan : List A} {init : S} {r : List (Try S A) × Bool × Bool} (h : executePlan known E init plan = .ok r) :
    ∃ final, Path E init r.1 final ∧ (r.1.map (·.act)) <+: plan ∧ r.2.1 = E.goal final ∧
      (r.2.2 = true → r.1.map (·.act) = plan ∧ (∀ t ∈ r.1, t.ok = true) ∧ Runs E init plan final) ∧
      (r.2.2 = false → ∃ before t, r.1 = before ++ [t] ∧ t.ok = false ∧ (∀ u ∈ before, u.ok = true) ∧ ∀ s', ¬ Runs E init plan s') := by
  unfold executePlan at h
  cases hq : planLoop known E init plan with
  | error e => rw [hq] at h; simp at h
  | ok q =>
    rw [hq] at h
    cases h
    obtain ⟨h1, h2, h3, h4⟩ := planLoop_spec plan init q hq
    exact ⟨q.2.1, h1, h2, rfl, h3, h4⟩

/-- C71: a plan over the actions of the domain is always executed without an exception. -/
theorem C71_no_exception {plan : List A} (hk : ∀ a ∈ plan, known a = true) (init : S) : ∃ r, executePlan known E init plan = .ok r := by
  obtain ⟨q, hq⟩ := planLoop_known (E := E) hk init
  exact ⟨_, by unfold executePlan; rw [hq]⟩

/-- C71: the reported applicability is exact. -/
theorem C71_applicable_iff {plan : List A} {init : S} {r : List (Try S A) × Bool × Bool} (h : executePlan known E init plan = .ok r) :
    r.2.2 = true ↔ ∃ s', Runs E init plan s' := by
  obtain ⟨final, _, _, _, h3, h4⟩ := C71_execute_plan h
  constructor
  · exact fun hv => ⟨final, (h3 hv).2.2⟩
  · rintro ⟨s', hr⟩
    by_contra hv
    obtain ⟨_, _, _, _, _, h5⟩ := h4 (by simpa using hv)
    exact h5 s' hr

/-! ### The goal test -/

/-- The functions of an expression determine its value. -/
def NumGoalOK (g : NumGoal) : Prop := ∀ v w : String → Rat, (∀ f ∈ g.fns, v f = w f) → g.eval v = g.eval w

/-- **C71.** Whatever states were tested before, the goal test on a state that assigns every function of the goal is exact: every
goal literal holds and every goal expression is true under the values of the state. -/
theorem C71_goal_exact {G : Finset Lit} {goals : List NumGoal} (hpos : ∀ l ∈ G, l.pos = true) (hg : ∀ g ∈ goals, NumGoalOK g)
    (mem : String → Rat) (history : List (State × List (String × Rat))) (s : State) (fluents : List (String × Rat)) (v : String → Rat)
    (hv : ∀ g ∈ goals, ∀ f ∈ g.fns, fluents.lookup f = some (v f)) :
    (goalReached G goals (goalTests G goals mem history) s fluents).1 = true ↔
      (∀ l ∈ G, holds s l) ∧ ∀ g ∈ goals, g.eval v = true := by
  unfold goalReached
  dsimp only
  rw [Bool.and_eq_true, decide_eq_true_eq, List.all_eq_true]
  refine and_congr ?_ ?_
  · constructor
    · intro h l hl
      obtain ⟨x, hx, e⟩ := Finset.mem_image.mp (h hl)
      unfold holds
      rw [← e]; exact ⟨fun _ => hx, fun _ => rfl⟩
    · intro h l hl
      refine Finset.mem_image.mpr ⟨l.atom, (h l hl).mp (hpos l hl), ?_⟩
      have := hpos l hl
      cases l; simp [Lit.atom] at *; exact this
  · constructor
    · intro h g hgm
      rw [← h g hgm]
      refine hg g hgm _ _ fun f hf => ?_
      unfold assignFluents
      rw [if_pos (List.mem_flatMap.mpr ⟨g, hgm, hf⟩), hv g hgm f hf]; rfl
    · intro h g hgm
      rw [← h g hgm]
      refine hg g hgm _ _ fun f hf => ?_
      unfold assignFluents
      rw [if_pos (List.mem_flatMap.mpr ⟨g, hgm, hf⟩), hv g hgm f hf]; rfl

/-- C71, limit: a goal with a negative literal is never recognised, in any state. -/
theorem C71_limit_negative_goal {G : Finset Lit} {l : Lit} (hl : l ∈ G) (hneg : l.pos = false) (goals : List NumGoal) (mem : String → Rat)
    (s : State) (fluents : List (String × Rat)) : (goalReached G goals mem s fluents).1 = false := by
  unfold goalReached
  dsimp only
  rw [Bool.and_eq_false_iff]
  left
  rw [decide_eq_false_iff_not]
  intro h
  obtain ⟨x, _, e⟩ := Finset.mem_image.mp (h hl)
  rw [← e] at hneg; simp at hneg

private def positive : NumGoal := ⟨["(fuel t)"], fun v => decide (0 < v "(fuel t)")⟩
/-- C71, limit: the value of a function that the state does not mention is the one of the state tested before. -/
theorem C71_limit_stale_value :
    (goalReached ∅ [positive] (goalTests ∅ [positive] (fun _ => 0) [(∅, [("(fuel t)", 5)])]) ∅ []).1 = true ∧
    (goalReached ∅ [positive] (goalTests ∅ [positive] (fun _ => 0) []) ∅ []).1 = false := by decide +kernel

/-! ### The verdict `solved` -/

theorem solverLoop_spec {init : S} (l : List (SolveStatus × List A)) (st : SolveStatus) (q : Solved S A)
    (hst : st ≠ .ok) (h : solverLoop known E init st l = .ok q) :
    ∃ final, Path E init q.trace final ∧ q.len = q.trace.length ∧ (q.status = .ok ↔ q.state = none) ∧
      (q.status = .ok → E.goal final = true) ∧ (∀ s, q.state = some s → s = final ∧ (q.trace ≠ [] → E.goal final = false)) ∧
      (q.status = .ok → ∃ plan, (SolveStatus.ok, plan) ∈ l ∧ (q.trace.map (·.act)) <+: plan) ∧
      (st ≠ .notApplicable → (∀ x ∈ l, x.1 ≠ .notApplicable) → (q.status = .notApplicable → ∃ plan, (SolveStatus.ok, plan) ∈ l ∧ ∀ s', ¬ Runs E init plan s')) := by
  induction l generalizing st with
  | nil =>
    cases h
    exact ⟨init, rfl, rfl, by simp [hst], fun h => absurd h hst, by simp, fun h => absurd h hst, fun h _ h' => absurd h' h⟩
  | cons x rest ih =>
    obtain ⟨sx, plan⟩ := x
    by_cases hx : sx = .ok
    · subst hx
      rw [solverLoop] at h
      cases hr : executePlan known E init plan with
      | error e => rw [hr] at h; simp at h
      | ok r =>
        rw [hr] at h
        dsimp only at h
        obtain ⟨final, h1, h2, h3, h4, h5⟩ := C71_execute_plan hr
        by_cases hg : r.2.1 = true
        · rw [if_pos hg] at h
          cases h
          exact ⟨final, h1, rfl, by simp, fun _ => by rw [← h3]; exact hg, by simp, fun _ => ⟨plan, by simp, h2⟩, by simp⟩
        · rw [if_neg hg] at h
          cases hl : r.1.getLast? with
          | none => rw [hl] at h; simp at h
          | some t =>
            rw [hl] at h
            cases h
            have hgf : E.goal final = false := by rw [← h3]; simpa using hg
            refine ⟨final, h1, rfl, ?_, ?_, ?_, ?_, ?_⟩
            · simp; split <;> simp
            · simp; split <;> simp
            · intro s hs
              refine ⟨?_, fun _ => hgf⟩
              simp only [Option.some.injEq] at hs
              subst hs
              obtain ⟨before, e⟩ := List.getLast?_eq_some_iff.mp hl
              rw [e] at h1
              obtain ⟨m, _, p1, p2, p3⟩ := path_append_iff.mp h1
              exact p3
            · simp; split <;> simp
            · intro _ _ hna
              dsimp only at hna
              by_cases hv : r.2.2 = true
              · rw [if_pos hv] at hna; simp at hna
              · obtain ⟨_, _, _, _, _, h6⟩ := h5 (by simpa using hv)
                exact ⟨plan, by simp, h6⟩
    · have e : solverLoop known E init st ((sx, plan) :: rest) = solverLoop known E init sx rest := by
        cases sx <;> first | exact absurd rfl hx | rfl
      rw [e] at h
      obtain ⟨final, h1, h2, h3, h4, h5, h6, h7⟩ := ih sx hx h
      refine ⟨final, h1, h2, h3, h4, h5, fun hh => ?_, fun _ hall hh => ?_⟩
      · obtain ⟨p, hp1, hp2⟩ := h6 hh
        exact ⟨p, List.mem_cons_of_mem _ hp1, hp2⟩
      · obtain ⟨p, hp1, hp2⟩ := h7 (hall (sx, plan) (by simp)) (fun x hx => hall x (List.mem_cons_of_mem _ hx)) hh
        exact ⟨p, List.mem_cons_of_mem _ hp1, hp2⟩

/-- **C75.** Whatever the solvers answer: the status `ok` is only given when a path from the initial state to a goal state was
executed, along a plan of a solver; the number of steps is the length of that path, and otherwise the returned state is where the executed path ends. -/
theorem C75_solved_truthful {init : S} {solvers : Option (List (SolveStatus × List A))} {q : Solved S A} (h : useSolvers known E init solvers = .ok q) :
    ∃ final, Path E init q.trace final ∧ q.len = q.trace.length ∧
      (q.status = .ok → E.goal final = true ∧ ∃ l plan, solvers = some l ∧ (SolveStatus.ok, plan) ∈ l ∧ (q.trace.map (·.act)) <+: plan) ∧
      (q.status ≠ .ok → q.state = some final) := by
  unfold useSolvers at h
  cases solvers with
  | none => simp at h
  | some l =>
    obtain ⟨final, h1, h2, h3, h4, h5, h6, _⟩ := solverLoop_spec l .noSolution q (by simp) h
    refine ⟨final, h1, h2, fun hs => ⟨h4 hs, ?_⟩, fun hs => ?_⟩
    · obtain ⟨p, hp⟩ := h6 hs
      exact ⟨l, p, rfl, hp⟩
    · cases hst : q.state with
      | none => exact absurd (h3.mpr hst) hs
      | some s => rw [(h5 s hst).1]

/-- A goal state was reached from the initial state. -/
def GoalVisited (E : Env S A) (init : S) : Prop := ∃ ts final, Path E init ts final ∧ E.goal final = true

/-- An exploration tells the truth: it says `reached` only after a path to a goal state. -/
def ExploreOK (E : Env S A) (explore : List (Try S A) → S → Explored S A) : Prop :=
  ∀ ts s, (explore ts s).reached = true → GoalVisited E s

theorem visited_after {init m : S} {ts : List (Try S A)} (h : Path E init ts m) (hv : GoalVisited E m) : GoalVisited E init := by
  obtain ⟨us, final, h1, h2⟩ := hv
  exact ⟨ts ++ us, final, path_append h h1, h2⟩

/-- **C75.** Every driver reports the goal as reached only when a path of the environment from the initial state to a goal state was
executed, whatever the solvers answer and whatever the exploration does. -/
theorem C75_drivers_truthful {init : S} {safe : Option (List (SolveStatus × List A))} {optimistic : List (Try S A) → Option (List (SolveStatus × List A))}
    {explore : List (Try S A) → S → Explored S A} (hex : ExploreOK E explore) :
    (∀ n, noamTry known E init safe optimistic explore = .ok (true, n) → GoalVisited E init) ∧
    (∀ n, informativeTry known E init safe explore = .ok (true, n) → GoalVisited E init) ∧
    (∀ n, optimisticTry known E init safe explore = .ok (true, n) → GoalVisited E init) ∧
    (∀ plan b, semiTry known E init plan safe optimistic explore = .ok (true, b) → GoalVisited E init) := by
  have one : ∀ {sv : Option (List (SolveStatus × List A))} {q : Solved S A}, useSolvers known E init sv = .ok q → q.status = .ok → GoalVisited E init := by
    intro sv q h hs
    obtain ⟨final, h1, _, h3, _⟩ := C75_solved_truthful h
    exact ⟨q.trace, final, h1, (h3 hs).1⟩
  have two : ∀ {sv : Option (List (SolveStatus × List A))} {q : Solved S A}, useSolvers known E init sv = .ok q → q.status ≠ .ok →
      ∀ ts, (explore ts (q.state.getD init)).reached = true → GoalVisited E init := by
    intro sv q h hs ts hr
    obtain ⟨final, h1, _, _, h4⟩ := C75_solved_truthful h
    rw [h4 hs] at hr
    exact visited_after h1 (hex _ _ hr)
  refine ⟨?_, ?_, ?_, ?_⟩
  · intro n h
    unfold noamTry at h
    cases hq : useSolvers known E init safe with
    | error e => rw [hq] at h; simp at h
    | ok q =>
      rw [hq] at h
      dsimp only at h
      by_cases h1 : q.status = .ok
      · exact one hq h1
      · rw [if_neg h1] at h
        by_cases h2 : q.status = .notApplicable
        · rw [if_pos h2] at h; simp at h
        · rw [if_neg h2] at h
          cases ho : useSolvers known E init (optimistic q.trace) with
          | error e => rw [ho] at h; simp at h
          | ok o =>
            rw [ho] at h
            dsimp only at h
            by_cases h3 : o.status = .ok
            · exact one ho h3
            · rw [if_neg h3] at h
              simp only [Except.ok.injEq, Prod.mk.injEq] at h
              exact two ho h3 _ h.1
  · intro n h
    unfold informativeTry at h
    cases hq : useSolvers known E init safe with
    | error e => rw [hq] at h; simp at h
    | ok q =>
      rw [hq] at h
      dsimp only at h
      by_cases h1 : q.status = .ok
      · exact one hq h1
      · rw [if_neg h1] at h
        by_cases h2 : q.status = .notApplicable
        · rw [if_pos h2] at h; simp at h
        · rw [if_neg h2] at h
          simp only [Except.ok.injEq, Prod.mk.injEq] at h
          exact hex _ _ h.1
  · intro n h
    unfold optimisticTry at h
    cases hq : useSolvers known E init safe with
    | error e => rw [hq] at h; simp at h
    | ok q =>
      rw [hq] at h
      dsimp only at h
      by_cases h1 : q.status = .ok
      · exact one hq h1
      · rw [if_neg h1] at h
        simp only [Except.ok.injEq, Prod.mk.injEq] at h
        exact hex _ _ h.1
  · intro plan b h
    unfold semiTry at h
    by_cases hn : safe.isNone = true
    · rw [if_pos hn] at h; simp at h
    · rw [if_neg hn] at h
      by_cases hp : plan = true
      · rw [if_pos hp] at h
        cases hq : useSolvers known E init safe with
        | error e => rw [hq] at h; simp at h
        | ok q =>
          rw [hq] at h
          dsimp only at h
          by_cases h1 : q.status = .ok
          · exact one hq h1
          · rw [if_neg h1] at h
            cases ho : useSolvers known E init (optimistic q.trace) with
            | error e => rw [ho] at h; simp at h
            | ok o =>
              rw [ho] at h
              dsimp only at h
              by_cases h3 : o.status = .ok
              · exact one ho h3
              · rw [if_neg h3] at h
                simp only [Except.ok.injEq, Prod.mk.injEq] at h
                exact two ho h3 _ h.1
      · rw [if_neg hp] at h
        simp only [Except.ok.injEq, Prod.mk.injEq] at h
        exact hex _ _ h.1

/-- **C75.** When neither plan reaches the goal, the exploration starts where the execution of the optimistic plan ended, after both
executed traces (from the initial state) were learned, and its verdict and its number of steps are reported. -/
theorem C75_explores_after_both {init : S} {safe : Option (List (SolveStatus × List A))} {optimistic : List (Try S A) → Option (List (SolveStatus × List A))}
    {explore : List (Try S A) → S → Explored S A} {b : Bool} {n : Nat} (h : noamTry known E init safe optimistic explore = .ok (b, n)) :
    (∃ sv ts final, (sv = safe ∨ ∃ us, sv = optimistic us) ∧ Path E init ts final ∧ E.goal final = true ∧ b = true ∧ n = ts.length ∧
        ∃ l plan, sv = some l ∧ (SolveStatus.ok, plan) ∈ l ∧ ts.map (·.act) <+: plan) ∨
      ∃ t₁ t₂ f₁ f₂, Path E init t₁ f₁ ∧ Path E init t₂ f₂ ∧ b = (explore (t₁ ++ t₂) f₂).reached ∧ n = (explore (t₁ ++ t₂) f₂).steps := by
  unfold noamTry at h
  cases hq : useSolvers known E init safe with
  | error e => rw [hq] at h; simp at h
  | ok q =>
    rw [hq] at h
    dsimp only at h
    obtain ⟨f₁, p1, p2, p3, p4⟩ := C75_solved_truthful hq
    by_cases h1 : q.status = .ok
    · rw [if_pos h1] at h
      simp only [Except.ok.injEq, Prod.mk.injEq] at h
      exact .inl ⟨safe, q.trace, f₁, .inl rfl, p1, (p3 h1).1, h.1.symm, by omega, (p3 h1).2⟩
    · rw [if_neg h1] at h
      by_cases h2 : q.status = .notApplicable
      · rw [if_pos h2] at h; simp at h
      · rw [if_neg h2] at h
        cases ho : useSolvers known E init (optimistic q.trace) with
        | error e => rw [ho] at h; simp at h
        | ok o =>
          rw [ho] at h
          dsimp only at h
          obtain ⟨f₂, r1, r2, r3, r4⟩ := C75_solved_truthful ho
          by_cases h3 : o.status = .ok
          · rw [if_pos h3] at h
            simp only [Except.ok.injEq, Prod.mk.injEq] at h
            exact .inl ⟨_, o.trace, f₂, .inr ⟨_, rfl⟩, r1, (r3 h3).1, h.1.symm, by omega, (r3 h3).2⟩
          · rw [if_neg h3, r4 h3] at h
            simp only [Except.ok.injEq, Prod.mk.injEq, Option.getD_some] at h
            exact .inr ⟨q.trace, o.trace, f₁, f₂, p1, r1, h.1.symm, h.2.symm⟩

/-- **C75.** A problem is credited to the solvers only when the execution of one of their plans ended in a goal state. -/
theorem C75_credit {init : S} {plan : Bool} {safe : Option (List (SolveStatus × List A))} {optimistic : List (Try S A) → Option (List (SolveStatus × List A))}
    {explore : List (Try S A) → S → Explored S A} {b : Bool} (h : semiTry known E init plan safe optimistic explore = .ok (b, true)) :
    b = true ∧ ∃ sv ts final, (sv = safe ∨ ∃ us, sv = optimistic us) ∧ Path E init ts final ∧ E.goal final = true ∧
        ∃ l plan, sv = some l ∧ (SolveStatus.ok, plan) ∈ l ∧ ts.map (·.act) <+: plan := by
  unfold semiTry at h
  by_cases hn : safe.isNone = true
  · rw [if_pos hn] at h; simp at h
  · rw [if_neg hn] at h
    by_cases hp : plan = true
    · rw [if_pos hp] at h
      cases hq : useSolvers known E init safe with
      | error e => rw [hq] at h; simp at h
      | ok q =>
        rw [hq] at h
        dsimp only at h
        obtain ⟨f₁, p1, p2, p3, p4⟩ := C75_solved_truthful hq
        by_cases h1 : q.status = .ok
        · rw [if_pos h1] at h
          simp only [Except.ok.injEq, Prod.mk.injEq] at h
          exact ⟨h.1.symm, safe, q.trace, f₁, .inl rfl, p1, (p3 h1).1, (p3 h1).2⟩
        · rw [if_neg h1] at h
          cases ho : useSolvers known E init (optimistic q.trace) with
          | error e => rw [ho] at h; simp at h
          | ok o =>
            rw [ho] at h
            dsimp only at h
            obtain ⟨f₂, r1, r2, r3, r4⟩ := C75_solved_truthful ho
            by_cases h3 : o.status = .ok
            · rw [if_pos h3] at h
              simp only [Except.ok.injEq, Prod.mk.injEq] at h
              exact ⟨h.1.symm, _, o.trace, f₂, .inr ⟨_, rfl⟩, r1, (r3 h3).1, (r3 h3).2⟩
            · rw [if_neg h3] at h
              simp at h
    · rw [if_neg hp] at h
      simp at h

/-- **C75.** A plan of the safe model that is not applicable in the environment is never passed over: the NOAM driver raises a
`ValueError` exactly when the executed plan of the safe model failed or no solver was found for one of the models it uses. -/
theorem C75_unsafe_plan_raises {init : S} {l : List (SolveStatus × List A)} {optimistic : List (Try S A) → List (SolveStatus × List A)}
    {explore : List (Try S A) → S → Explored S A} {q : Solved S A} (h : useSolvers known E init (some l) = .ok q)
    (ho : ∀ ts, useSolvers known E init (some (optimistic ts)) ≠ .error .valueError) :
    noamTry known E init (some l) (fun ts => some (optimistic ts)) explore = .error .valueError ↔ q.status = .notApplicable := by
  unfold noamTry
  rw [h]
  dsimp only
  constructor
  · intro hh
    by_contra hne
    by_cases h1 : q.status = .ok
    · rw [if_pos h1] at hh; simp at hh
    · rw [if_neg h1, if_neg hne] at hh
      cases hu : useSolvers known E init (some (optimistic q.trace)) with
      | error e =>
        rw [hu] at hh
        simp only [Except.error.injEq] at hh
        exact ho _ (hh ▸ hu)
      | ok o =>
        rw [hu] at hh
        dsimp only at hh
        by_cases h3 : o.status = .ok
        · rw [if_pos h3] at hh; simp at hh
        · rw [if_neg h3] at hh; simp at hh
  · intro hs
    rw [if_neg (by rw [hs]; simp), if_pos hs]

/-- **C75.** Without any solver nothing is reported: every driver raises a `ValueError`. -/
theorem C75_no_solver {init : S} {plan : Bool} {optimistic : List (Try S A) → Option (List (SolveStatus × List A))}
    {explore : List (Try S A) → S → Explored S A} :
    noamTry known E init none optimistic explore = .error .valueError ∧ informativeTry known E init none explore = .error .valueError ∧
      optimisticTry known E init none explore = .error .valueError ∧ semiTry known E init plan none optimistic explore = .error .valueError :=
  ⟨rfl, rfl, rfl, rfl⟩

/-! ### A concrete environment: a counter that can be increased up to three -/

/-- `inc` is applicable below three, `noop` never; the goal is two. -/
def counter : Env Nat String := ⟨fun s a => if a = "inc" ∧ s < 3 then some (s + 1) else none, fun s => s == 2⟩
def knownCounter (a : String) : Bool := a == "inc" || a == "noop"

example : (match executePlan knownCounter counter 0 ["inc", "inc"] with
    | .ok r => decide (r.1.map (·.after) = [1, 2]) && r.2.1 && r.2.2 | .error _ => false) = true := by decide +kernel
example : (match executePlan knownCounter counter 0 ["inc", "noop", "inc"] with
    | .ok r => decide (r.1.map (·.after) = [1, 1]) && !r.2.1 && !r.2.2 | .error _ => false) = true := by decide +kernel
example : (match executePlan knownCounter counter 0 ["fly"] with | .ok _ => false | .error e => decide (e = .keyError)) = true := by decide +kernel

/-- C75, limit: when a solver claims success but its plan is empty (its file is missing) and the goal does not hold initially, the
driver raises an `IndexError`. -/
theorem C75_limit_empty_plan :
    (match useSolvers knownCounter counter 0 (some [(.ok, [])]) with | .ok _ => false | .error e => decide (e = .indexError)) = true := by
  decide +kernel

/-- C75, limit: the other solvers are not asked when the plan of the first one that claims success fails. -/
theorem C75_limit_second_solver_ignored :
    (match useSolvers knownCounter counter 0 (some [(.ok, ["noop"]), (.ok, ["inc", "inc"])]) with
      | .ok q => decide (q.status = .notApplicable ∧ q.len = 1) | .error _ => false) = true ∧
    (match useSolvers knownCounter counter 0 (some [(.noSolution, ["noop"]), (.ok, ["inc", "inc"])]) with
      | .ok q => decide (q.status = .ok ∧ q.len = 2) | .error _ => false) = true := by
  constructor <;> decide +kernel

example : (match semiTry knownCounter counter 0 true (some [(.noSolution, [])]) (fun _ => some [(.ok, ["inc", "inc"])])
      (fun _ s => ⟨false, 0, s, Explorer.init⟩) with | .ok r => r.1 && r.2 | .error _ => false) = true := by decide +kernel
example : (match noamTry knownCounter counter 0 (some [(.noSolution, [])]) (fun _ => some [(.ok, ["inc"])])
      (fun ts s => ⟨s == 1, ts.length, s, Explorer.init⟩) with | .ok r => r.1 && r.2 == 1 | .error _ => false) = true := by decide +kernel

example : (match noamTry knownCounter counter 0 (some [(.ok, ["noop"])]) (fun _ => some [(.noSolution, [])])
      (fun _ s => ⟨false, 0, s, Explorer.init⟩) with | .ok _ => false | .error e => decide (e = .valueError)) = true := by decide +kernel

end Props

import Verif.Props.Session

/-! A concrete run for C112. -/
namespace Props
namespace Session
namespace Case
open Model Spec Model.OnlineDomain Props.OnlineDomain Props.OnlineSafety Model.OnlineTraining Props.OnlineTraining Model.Session
open OnlineCase Props.OnlineDomain.Case Props.OnlineSafety.Case Props.OnlineTraining.Case

def g : Ground := ⟨call, ["car"]⟩

/-- The true domain: moving. -/
def env (goal : HybridState ℚ → Bool) : Env (HybridState ℚ) Ground :=
  ⟨fun s g => if (∀ l ∈ move.pre, holds s.1 (ground g.call.ρ l)) ∧ 2 ≤ monoVal (fun f => s.2 (g.call.fluent f)) col then
      some (successor move.eff g.call.ρ s.1, assignAll move.functions g.call.fluent (fun f => (move.num f).value (monoVal fun f => s.2 (g.call.fluent f))) s.2)
    else none, goal⟩

/-- A problem in which a ready car has some fuel, never solved, with one solver that finds nothing. -/
def training (fuel : ℚ) : Episode ℚ := ⟨env fun _ => false, (on, fun _ => fuel), [g], fun _ _ => [(.noSolution, [])]⟩

/-- A problem in which the car must have moved; the second solver finds a plan. -/
def final : Episode ℚ :=
  ⟨env fun s => decide (⟨"moved", ["car"]⟩ ∈ s.1), (on, fun _ => 4), [g], fun safe _ => if safe then [(.other "timeout", []), (.ok, [g])] else []⟩

/-- One step in each exploration; plans are made from the third problem on. -/
noncomputable def U : Setup ℚ :=
  { cfg := cfg, add := add, ord := ord, read := read, names := names, voc := V, fns := fns, degree := 0, order := fun _ l => l, select := popSelect
    minEpisodes := 2, minExecutions := 10, maxFailed := 50000, maxSteps := 1, maxFile := 5000 }

theorem choices : ChoicesOK U := ⟨fun _ _ => List.Perm.refl _, fun _ _ a f =>
  ⟨List.mem_cons_self, fun _ hx => List.mem_cons_of_mem _ hx, le_refl _⟩⟩

theorem envOf (goal : HybridState ℚ → Bool) : EnvOf (fun _ => move) (env goal) := by
  intro s g s'
  unfold env trueStep applicable
  dsimp only
  constructor
  · intro h
    split_ifs at h with hc
    exact ⟨hc.1, hc.2, (Option.some.inj h).symm⟩
  · rintro ⟨h1, h2, h3⟩
    rw [if_pos ⟨h1, h2⟩, h3]

theorem fits : Fits U g := fun _ => ⟨proper.1, proper.2⟩

theorem episode (fuel : ℚ) : EpisodeOK U (fun _ => move) (training fuel) where
  env := envOf _
  grounded := fun x hx => by rw [List.mem_singleton.mp hx]; exact fits
  plans := fun safe acts x hx g hg => by
    have : x = (.noSolution, []) := List.mem_singleton.mp hx
    rw [this] at hg; simp at hg

theorem episode' : EpisodeOK U (fun _ => move) final where
  env := envOf _
  grounded := fun x hx => by rw [List.mem_singleton.mp hx]; exact fits
  plans := fun safe acts x hx y hy => by
    cases safe with
    | false => simp [final] at hx
    | true =>
      have hx' : x = (.other "timeout", []) ∨ x = (.ok, [g]) := by simpa [final] using hx
      rcases hx' with rfl | rfl
      · simp at hy
      · rw [List.mem_singleton.mp hy]; exact fits

theorem world : World U (fun _ => move) :=
  { functions := setting.functions, voc := setting.voc, pre := setting.pre, eff := setting.eff, convex := setting.convex, affine := setting.affine
    reads := setting.reads, honest := by simp, proper := by simp }

/-- What is known before the last problem. -/
theorem ready_to_plan : ∃ st rs st1 P p, semiRun U 0 (Learner.new U) [training 5, training 3] = .ok (st, rs) ∧
    rs = [⟨false, false, .noSolution, .noSolution⟩, ⟨false, false, .noSolution, .noSolution⟩] ∧ readPending U st = .ok st1 ∧
    st1.pupils.map Prod.fst = ["move"] ∧ st1.pupils.lookup "move" = some P ∧ P.num.safeModel cfg = .ok p ∧
    p.pre = [⟨.ge, .var "(fuel ?o)", .num 3⟩, ⟨.le, .var "(fuel ?o)", .num 5⟩] ∧ p.eff = [⟨.decrease, "(fuel ?o)", .num 1⟩] ∧
    P.disc.safeModel.1 = {ready, moved.neg} ∧ P.disc.safeModel.2 = {moved} ∧
    ((successesAt "move" (st1.lessons.flatMap shown)).map (transitionOf read)).map (fun t => (t.pre, t.post, t.ok)) =
      [([("(fuel ?o)", 5)], [("(fuel ?o)", 4)], true), ([("(fuel ?o)", 3)], [("(fuel ?o)", 2)], true)] ∧
    (∃ out, semiProblem U 2 st final = .ok out) := by
  have h : (match semiRun U 0 (Learner.new U) [training 5, training 3] with
    | .ok (st, rs) => match readPending U st with
      | .ok st1 => match st1.pupils.lookup "move" with
        | some P => match P.num.safeModel cfg with
          | .ok p => match semiProblem U 2 st final with
            | .ok _ => decide (rs = [⟨false, false, .noSolution, .noSolution⟩, ⟨false, false, .noSolution, .noSolution⟩] ∧ st1.pupils.map Prod.fst = ["move"] ∧
                p.pre = [⟨.ge, .var "(fuel ?o)", .num 3⟩, ⟨.le, .var "(fuel ?o)", .num 5⟩] ∧
                p.eff = [⟨.decrease, "(fuel ?o)", .num 1⟩] ∧ P.disc.safeModel.1 = {ready, moved.neg} ∧ P.disc.safeModel.2 = {moved} ∧
                ((successesAt "move" (st1.lessons.flatMap shown)).map (transitionOf read)).map (fun t => (t.pre, t.post, t.ok)) =
                  [([("(fuel ?o)", 5)], [("(fuel ?o)", 4)], true), ([("(fuel ?o)", 3)], [("(fuel ?o)", 2)], true)])
            | .error _ => false
          | .error _ => false
        | none => false
      | .error _ => false
    | .error _ => false) = true := by decide +kernel
  revert h
  cases semiRun U 0 (Learner.new U) [training 5, training 3] with
  | error e => intro h; exact absurd h (by simp)
  | ok r =>
    obtain ⟨st, rs⟩ := r
    dsimp only
    cases hr : readPending U st with
    | error e => intro h; exact absurd h (by simp)
    | ok st1 =>
      dsimp only
      cases hl : st1.pupils.lookup "move" with
      | none => intro h; exact absurd h (by simp)
      | some P =>
        dsimp only
        cases hs : P.num.safeModel cfg with
        | error e => intro h; exact absurd h (by simp)
        | ok p =>
          dsimp only
          cases hq : semiProblem U 2 st final with
          | error e => intro h; exact absurd h (by simp)
          | ok out =>
            intro h
            obtain ⟨h1, h2, h3, h4, h5, h6, h7⟩ := of_decide_eq_true h
            exact ⟨st, rs, st1, P, p, rfl, h1, hr, h2, hl, hs, h3, h4, h5, h6, h7, out, hq⟩

/-- What the learners of the only action say about a ready car with 4 units of fuel. -/
theorem plan_ok {D : Class ℚ} {P : Pupil ℚ} {p : NumPart ℚ} (hl : D.lookup "move" = some P) (hs : P.num.safeModel cfg = .ok p)
    (hpre : p.pre = [⟨.ge, .var "(fuel ?o)", .num 3⟩, ⟨.le, .var "(fuel ?o)", .num 5⟩]) (heff : p.eff = [⟨.decrease, "(fuel ?o)", .num 1⟩])
    (hd1 : P.disc.safeModel.1 = {ready, moved.neg}) (hd2 : P.disc.safeModel.2 = {moved}) :
    constructSafe cfg add ord names (discOf D) (numOf D) = .ok [("move", buildAction add (safeDiscrete add ord P.disc) p)] ∧
    (∀ a A, (a, A) ∈ [("move", buildAction add (safeDiscrete add ord P.disc) p)] → ∀ e ∈ A.numEff, e.op ≠ .scaleDown) ∧
    SoundOn final [("move", buildAction add (safeDiscrete add ord P.disc) p)] := by
  refine ⟨?_, ?_, ?_⟩
  · refine build_ok.mpr ⟨rfl, fun q hq => ?_⟩
    rw [List.mem_singleton.mp hq]
    refine buildOne_ok.mpr ⟨P.disc, P.num, p, ?_, ?_, hs, rfl⟩
    · unfold discOf; rw [lookup_map, hl]; rfl
    · unfold numOf; rw [lookup_map, hl]; rfl
  · intro a A hA e he
    have : A = buildAction add (safeDiscrete add ord P.disc) p := (Prod.mk.inj (List.mem_singleton.mp hA)).2
    subst this
    have he' : e ∈ p.eff := he
    rw [heff, List.mem_singleton] at he'
    rw [he']
    decide
  · intro x hx hk
    have hx' : x = (.other "timeout", []) ∨ x = (.ok, [g]) := by simpa [final] using hx
    rcases hx' with rfl | rfl
    · cases hk
    · refine ⟨fun y hy => by rw [List.mem_singleton.mp hy]; decide, _, ⟨_, ⟨_, List.mem_singleton.mpr rfl, ?_, rfl⟩, rfl⟩, ?_⟩
      · refine ⟨?_, ?_⟩
        · unfold buildAction
          dsimp only
          obtain ⟨ks, hk⟩ := safe_node addOK ord P.disc
          rw [hk]
          refine (rebuilt addOK _ _ ks).mpr ?_
          rw [← hk]
          unfold safeDiscrete
          dsimp only
          rw [nodeOf_and addOK (val _ _)]
          simp only [ordOK.mem]
          rw [hd1]
          show ∀ l ∈ ({ready, moved.neg} : Finset Lit), holds on (ground Props.OnlineDomain.Case.ρ l)
          decide +kernel
        · show ∀ q ∈ p.pre, q.holds _
          rw [hpre]
          simp only [List.mem_cons, List.not_mem_nil, or_false, forall_eq_or_imp, forall_eq]
          unfold NCond.holds
          simp only [NExp.eval, final]
          norm_num
      · show decide (_ ∈ successor P.disc.safeModel.2 Props.OnlineDomain.Case.ρ on) = true
        rw [hd2]
        decide +kernel

/-- The libraries are exact on what was seen. -/
theorem exactly {st : Learner ℚ} {acts : List (String × OAction ℚ)}
    (hsucc : ((successesAt "move" (st.lessons.flatMap shown)).map (transitionOf read)).map (fun t => (t.pre, t.post, t.ok)) =
      [([("(fuel ?o)", 5)], [("(fuel ?o)", 4)], true), ([("(fuel ?o)", 3)], [("(fuel ?o)", 2)], true)])
    (hops : ∀ a A, (a, A) ∈ acts → ∀ e ∈ A.numEff, e.op ≠ .scaleDown) : Exactly U st acts := by
  have e : (successesAt "move" (st.lessons.flatMap shown)).map (transitionOf read) = [attempt 5 4 true, attempt 3 2 true] := by
    have inj : Function.Injective fun t : Transition ℚ => (t.pre, t.post, t.ok) := by
      rintro ⟨a, b, c⟩ ⟨a', b', c'⟩ h
      simpa using h
    exact inj.list_map (by rw [hsucc]; rfl)
  refine ⟨addOK, ordOK, rfl, by decide, guess_contract _, fun a ha => ?_, hops⟩
  have : a = "move" := List.mem_singleton.mp ha
  subst this
  show ExactOn cfg fs 0 ((successesAt "move" (st.lessons.flatMap shown)).map (transitionOf read))
  rw [e]
  exact ⟨fun _ => inc, printable⟩

/-- Two explorations (from 5 and from 3 units of fuel), then a problem with 4 units, never seen before: the second solver's plan for the
safe domain is executed and solves it. -/
example : ∃ st rs out, semiRun U 0 (Learner.new U) [training 5, training 3] = .ok (st, rs) ∧ semiProblem U 2 st final = .ok out ∧
    out.2 = ⟨true, true, .ok, .other "irrelevant"⟩ := by
  obtain ⟨st, rs, st1, P, p, hrun, _, hread, _, hl, hs, hpre, heff, hd1, hd2, hsucc, out, hout⟩ := ready_to_plan
  obtain ⟨c1, c2, c3⟩ := plan_ok hl hs hpre heff hd1 hd2
  refine ⟨st, rs, out, hrun, hout, ?_⟩
  have := C112_semi_safe choices (by decide) world (ps := [training 5, training 3]) (fun q hq => by
    rcases List.mem_cons.mp hq with rfl | hq
    · exact episode 5
    · rw [List.mem_singleton.mp hq]; exact episode 3) hrun episode' (.inl (le_refl _)) hread c1 (exactly hsucc c2) c3 hout
  exact (this.1 ⟨(.ok, [g]), by simp [final], rfl⟩).1

/-- The same with NOAM. -/
theorem noam_ready : ∃ st rs P p, noamRun U .noam (Learner.new U) [training 5, training 3] = .ok (st, rs) ∧ rs = [(false, 1), (false, 1)] ∧
    st.pupils.lookup "move" = some P ∧ P.num.safeModel cfg = .ok p ∧
    p.pre = [⟨.ge, .var "(fuel ?o)", .num 3⟩, ⟨.le, .var "(fuel ?o)", .num 5⟩] ∧ p.eff = [⟨.decrease, "(fuel ?o)", .num 1⟩] ∧
    P.disc.safeModel.1 = {ready, moved.neg} ∧ P.disc.safeModel.2 = {moved} ∧
    ((successesAt "move" (st.lessons.flatMap shown)).map (transitionOf read)).map (fun t => (t.pre, t.post, t.ok)) =
      [([("(fuel ?o)", 5)], [("(fuel ?o)", 4)], true), ([("(fuel ?o)", 3)], [("(fuel ?o)", 2)], true)] ∧
    (∃ out, noamProblem U .noam st final = .ok out) := by
  have h : (match noamRun U .noam (Learner.new U) [training 5, training 3] with
    | .ok (st, rs) => match st.pupils.lookup "move" with
        | some P => match P.num.safeModel cfg with
          | .ok p => match noamProblem U .noam st final with
            | .ok _ => decide (rs = [(false, 1), (false, 1)] ∧ 
                p.pre = [⟨.ge, .var "(fuel ?o)", .num 3⟩, ⟨.le, .var "(fuel ?o)", .num 5⟩] ∧
                p.eff = [⟨.decrease, "(fuel ?o)", .num 1⟩] ∧ P.disc.safeModel.1 = {ready, moved.neg} ∧ P.disc.safeModel.2 = {moved} ∧
                ((successesAt "move" (st.lessons.flatMap shown)).map (transitionOf read)).map (fun t => (t.pre, t.post, t.ok)) =
                  [([("(fuel ?o)", 5)], [("(fuel ?o)", 4)], true), ([("(fuel ?o)", 3)], [("(fuel ?o)", 2)], true)])
            | .error _ => false
          | .error _ => false
        | none => false
    | .error _ => false) = true := by decide +kernel
  revert h
  cases noamRun U .noam (Learner.new U) [training 5, training 3] with
  | error e => intro h; exact absurd h (by simp)
  | ok r =>
    obtain ⟨st, rs⟩ := r
    dsimp only
    cases hl : st.pupils.lookup "move" with
    | none => intro h; exact absurd h (by simp)
    | some P =>
      dsimp only
      cases hs : P.num.safeModel cfg with
      | error e => intro h; exact absurd h (by simp)
      | ok p =>
        dsimp only
        cases hq : noamProblem U .noam st final with
        | error e => intro h; exact absurd h (by simp)
        | ok out =>
          intro h
          obtain ⟨h1, h3, h4, h5, h6, h7⟩ := of_decide_eq_true h
          exact ⟨st, rs, P, p, rfl, h1, hl, hs, h3, h4, h5, h6, h7, out, hq⟩

/-- NOAM solves the last problem with the plan of the safe domain, in one step. -/
example : ∃ st rs out, noamRun U .noam (Learner.new U) [training 5, training 3] = .ok (st, rs) ∧ noamProblem U .noam st final = .ok out ∧ out.2 = (true, 1) := by
  obtain ⟨st, rs, P, p, hrun, _, hl, hs, hpre, heff, hd1, hd2, hsucc, out, hout⟩ := noam_ready
  obtain ⟨c1, c2, c3⟩ := plan_ok hl hs hpre heff hd1 hd2
  refine ⟨st, rs, out, hrun, hout, ?_⟩
  have := C112_noam_safe choices world (ps := [training 5, training 3]) (fun q hq => by
    rcases List.mem_cons.mp hq with rfl | hq
    · exact episode 5
    · rw [List.mem_singleton.mp hq]; exact episode 3) hrun episode' c1 (exactly hsucc c2) c3 (by
      intro x hx
      have hx' : x = (.other "timeout", []) ∨ x = (.ok, [g]) := by simpa [final] using hx
      rcases hx' with rfl | rfl <;> simp)
  obtain ⟨plan, h1, h2, _⟩ := this.2 (by decide) ⟨(.ok, [g]), by simp [final], rfl⟩ out hout
  have : plan = [g] := by simpa [final] using h1
  rw [h2, this]
  rfl

/-- A solver that reports a plan which is none: the run ends with the `ValueError`. -/
example : (match noamRun U .noam (Learner.new U) [training 5, training 3, { final with init := (∅, fun _ => 4) }] with
    | .error .unsafePlan => true | _ => false) = true := by decide +kernel

end Case
end Session
end Props

import Verif.Spec.Plans
import Verif.Props.SamSafety
import Verif.Props.SamLimits
import Verif.Props.SamBehaviour
import Verif.Props.MaSam
import Verif.Props.Validator

/-! C117: plans found with the learned domain. -/
namespace Props
namespace Plans
open Model Spec Spec.Plans

/-- Every step of one domain that a plan may contain is a step of another. -/
theorem leads_of_steps {S A : Type} {f g : S → A → S → Prop} {ok : A → Prop} (h : ∀ s a s', ok a → f s a s' → g s a s') :
    ∀ {plan : List A} {s s' : S}, (∀ a ∈ plan, ok a) → Leads f s plan s' → Leads g s plan s'
  | [], _, _, _, hl => hl
  | a :: _, _, _, ho, ⟨m, h1, h2⟩ =>
    ⟨m, h _ _ _ (ho a (by simp)) h1, leads_of_steps h (fun b hb => ho b (by simp [hb])) h2⟩

section
variable {D : Domain} {truth : String → Schema} {obs : List (List Component)} {inj : Bool} {L' : Learner} {rep : List (String × Status)}

theorem static {p : Policy} (hD : WFDomain D) (h : (Learner.init D p inj).learn obs = .ok (L', rep)) :
    L'.dom.names = D.names ∧ ∀ a, (L'.dom.act a).sig = (D.act a).sig := by
  obtain ⟨hl, _⟩ := learn_spec (L0 := Learner.init D p inj) hD.names (init_sigs D _ inj) h
  exact ⟨hl.static.names, hl.static.sig⟩

/-- A step of the learned domain with distinct objects is a step of the true domain. -/
theorem step_safe (hD : WFDomain D) (hT : WFTruth D truth) (hG : GoodData D truth obs)
    (h : (Learner.init D .noRemove inj).learn obs = .ok (L', rep)) {s s' : State} {c : Call}
    (hc : c.params.Nodup ∧ ∀ o ∈ c.params, o ∉ Sig.names D.consts) (hs : (returned L'.dom).step s c s') :
    (real D truth).step s c s' := by
  obtain ⟨h1, h2, h3, _, h5⟩ := hs
  obtain ⟨hn, hsig⟩ := static hD h
  simp only [returned, Strips.binding, hn, hsig] at h1 h2 h3 h5
  have hp := hT.params _ h1
  have hinj := subst_injective (hD.sigs _ h1) ⟨h2, hc.1, hc.2⟩
  refine ⟨h1, by simpa [real, hp] using h2, ?_, by intro q hq; simp [real] at hq, ?_⟩
  · simp only [real, Strips.binding, hp]
    exact C01_preconditions_sufficient hD hT hG h h1 _ _ h3
  · simp only [real, Strips.binding, hp]
    rw [h5]; exact C02_effects_exact hD hT hG h h1 _ hinj _ h3

/-- **C117, plans are correct.** A plan with distinct objects that solves a problem in the learned domain solves it in the true domain. -/
theorem C117_plans_correct (hD : WFDomain D) (hT : WFTruth D truth) (hG : GoodData D truth obs)
    (h : (Learner.init D .noRemove inj).learn obs = .ok (L', rep)) (P : Problem) {plan : List Call} (hd : Distinct D.consts plan)
    (hs : (returned L'.dom).Solves P plan) : (real D truth).Solves P plan := by
  obtain ⟨s, hl, hg⟩ := hs
  exact ⟨s, leads_of_steps (ok := fun c : Call => c.params.Nodup ∧ ∀ o ∈ c.params, o ∉ Sig.names D.consts) (fun s a s' ha => step_safe hD hT hG h ha) hd hl, hg⟩

/-- **C117, soft policy.** If all true preconditions are positive, the same holds for the domain learned with the policy `soft`. -/
theorem C117_soft_plans_correct (hD : WFDomain D) (hT : WFTruth D truth) (hG : GoodData D truth obs)
    (h : (Learner.init D .soft inj).learn obs = .ok (L', rep)) (hpos : ∀ a ∈ D.names, ∀ l ∈ (truth a).pre, l.pos = true)
    (P : Problem) {plan : List Call} (hd : Distinct D.consts plan) (hs : (returned L'.dom).Solves P plan) :
    (real D truth).Solves P plan := by
  obtain ⟨s, hl, hg⟩ := hs
  refine ⟨s, leads_of_steps (ok := fun c : Call => c.params.Nodup ∧ ∀ o ∈ c.params, o ∉ Sig.names D.consts) ?_ hd hl, hg⟩
  rintro s c s' hc ⟨h1, h2, h3, _, h5⟩
  obtain ⟨hn, hsig⟩ := static hD h
  simp only [returned, Strips.binding, hn, hsig] at h1 h2 h3 h5
  have hp := hT.params _ h1
  have hinj := subst_injective (hD.sigs _ h1) ⟨h2, hc.1, hc.2⟩
  refine ⟨h1, by simpa [real, hp] using h2, ?_, by intro q hq; simp [real] at hq, ?_⟩
  · simp only [real, Strips.binding, hp]
    exact C01_positive_preconditions_any_policy hD hT hG h h1 (hpos _ h1) _ _ h3
  · simp only [real, Strips.binding, hp]
    rw [h5]; exact C02_effects_exact_soft hD hT hG h h1 _ hinj _ h3

/-- **C117, the inequalities suffice.** If the parameters of each action have one type, the domain has no constants and no observed call repeats an
object, then with the default settings every plan that solves a problem in the learned domain solves it in the true domain. -/
theorem C117_all_plans_correct (hD : WFDomain D) (hT : WFTruth D truth) (hG : GoodData D truth obs) (hc : D.consts = [])
    (h : (Learner.init D .noRemove true).learn obs = .ok (L', rep))
    (htypes : ∀ a ∈ D.names, ∀ p ∈ (D.act a).sig, ∀ q ∈ (D.act a).sig, p.2.name = q.2.name)
    (hdup : ∀ c ∈ obs.flatten, c.success = true → c.call.params.Nodup) (P : Problem) {plan : List Call}
    (hs : (returned L'.dom).Solves P plan) : (real D truth).Solves P plan := by
  obtain ⟨s, hl, hg⟩ := hs
  refine ⟨s, leads_of_steps (ok := fun _ => True) ?_ (fun _ _ => trivial) hl, hg⟩
  rintro s c s' - ⟨h1, h2, h3, h4, h5⟩
  obtain ⟨hn, hsig⟩ := static hD h
  simp only [returned, Strips.binding, hn, hsig] at h1 h2 h3 h4 h5
  have hp := hT.params _ h1
  have key := C13_noninjective_safe_partial hD hT hG hc h h1 (htypes _ h1) (fun c hc hs _ => hdup c hc hs) _ s h3 h4
  refine ⟨h1, by simpa [real, hp] using h2, ?_, by intro q hq; simp [real] at hq, ?_⟩
  · simp only [real, Strips.binding, hp]; exact key.1
  · simp only [real, Strips.binding, hp]; rw [h5]; exact key.2

/-- An observed transition is a step of the learned domain. -/
theorem step_observed {p : Policy} (hD : WFDomain D) (hT : WFTruth D truth) (hG : GoodData D truth obs)
    (h : (Learner.init D p inj).learn obs = .ok (L', rep)) {c : Component} (hc : c ∈ obs.flatten)
    (hs : c.success = true) (hd : c.call.params.Nodup) : (returned L'.dom).step c.prev c.call c.next := by
  obtain ⟨hn, hsig⟩ := static hD h
  have hk : c.call.name ∈ D.names := by
    have := (learn_ok_iff (L0 := Learner.init D p inj) (obs := obs) hD.names (init_sigs D _ inj)).mp ⟨_, h⟩ c hc hs
    exact this
  have hp := hT.params _ hk
  have hex := hG.explained c hc hs
  obtain ⟨h1, h2⟩ := C03_reproduces_observations hD hT hG h hc hs hd
  have hinj := subst_injective (hD.sigs _ hk) ⟨by rw [← hp]; exact hex.arity, hd, hG.noConst c hc hs hd⟩
  have hb : (returned L'.dom).binding c.call = substOf truth c := by
    simp only [returned, Strips.binding, hsig, substOf, hp]
  refine ⟨by simpa [returned, hn] using hk, ?_, ?_, ?_, ?_⟩
  · simp only [returned, hsig]; rw [← hp]; exact hex.arity
  · rw [hb]; exact h1
  · rw [hb]
    rintro ⟨x, y⟩ hq he
    obtain ⟨tx, ty, hsub, _⟩ := mem_sameTypePairs.mp (((ineq_form hD h hk _).mp hq).1.2)
    have hxy : [x, y].Sublist (Sig.names (D.act c.call.name).sig) := hsub.map Prod.fst
    have hm : ∀ z ∈ [x, y], z ∈ Sig.names ((D.act c.call.name).sig ++ D.consts) := fun z hz => by
      simp only [Sig.names, List.map_append, List.mem_append]; exact Or.inl (hxy.subset hz)
    have hw : (Sig.names (D.act c.call.name).sig).Nodup := by
      have := hD.sigs _ hk
      simp only [WFSig, Sig.names, List.map_append] at this
      exact (List.nodup_append.mp this).1
    have e := hinj x (hm x (by simp)) y (hm y (by simp)) (by simpa [substOf, hp] using he)
    have h2 := hxy.nodup hw
    rw [e] at h2
    simp at h2
  · rw [hb]; exact h2.symm

/-- **C117, recorded plans.** The plan of a recorded trajectory of the training set (successful transitions, distinct objects in each call) leads in
the learned domain from the first to the last state, with every policy; so it solves every problem it solved when it was recorded. -/
theorem C117_recorded_plans {p : Policy} (hD : WFDomain D) (hT : WFTruth D truth) (hG : GoodData D truth obs)
    (h : (Learner.init D p inj).learn obs = .ok (L', rep)) {t : List Component} {plan : List Call} {s s' : State}
    (ht : ∀ c ∈ t, c ∈ obs.flatten ∧ c.success = true ∧ c.call.params.Nodup) (hr : Recorded t s plan s') :
    Leads (returned L'.dom).step s plan s' ∧ Leads (real D truth).step s plan s' := by
  obtain ⟨rfl, hl⟩ := hr
  induction t generalizing s with
  | nil => exact ⟨hl, hl⟩
  | cons c t ih =>
    obtain ⟨m, ⟨rfl, rfl⟩, h2⟩ := hl
    obtain ⟨h3, h4, h5⟩ := ht c (by simp)
    obtain ⟨i1, i2⟩ := ih (fun b hb => ht b (by simp [hb])) h2
    have hk := (learn_ok_iff (L0 := Learner.init D p inj) (obs := obs) hD.names (init_sigs D _ inj)).mp ⟨_, h⟩ c h3 h4
    have hex := hG.explained c h3 h4
    exact ⟨⟨c.next, step_observed hD hT hG h h3 h4 h5, i1⟩,
      ⟨c.next, ⟨hk, hex.arity, hex.app, by intro q hq; simp [real] at hq, hex.next⟩, i2⟩⟩

end

/-- The row of a validation in which every claimed plan is correct. -/
theorem row_of_safe {π : Type} {tested reference : TestCase → π → Prop} {allowed : TestCase → π → Prop}
    (hsafe : ∀ t plan, allowed t plan → tested t plan → reference t plan)
    {used : Option Used} {tests : List TestCase} {r : SolvingRow} (h : validateDomain used tests = .ok r)
    (expert : TestCase → π) (hE : ∀ t ∈ tests, Evaluated (tested t) (reference t) (allowed t) (expert t) t) :
    r.stats.count (.out .notApplicable) = 0 ∧ r.stats.count (.out .goalNotAchieved) = 0 ∧
    r.stats.count (.out .ok) = tests.countP (fun t => decide t.Solved) ∧
    r.stats.count (.out .ok) + r.stats.count (.out .noSolution) + r.stats.count (.out .timeout)
      + r.stats.count (.out .solverError) = tests.length ∧
    (0 < tests.length → r.percent .ok = 100 * ((tests.countP (fun t => decide t.Solved) : ℚ) / tests.length)) := by
  have hstuck := ((C86_returns_iff used tests).mp ⟨r, h⟩).2
  -- the verdict of each test
  have hv : ∀ t ∈ tests, (t.Solved → t.verdict = some .ok) ∧
      (¬ t.Solved → t.verdict = some .noSolution ∨ t.verdict = some .timeout ∨ t.verdict = some .solverError) := by
    intro t ht
    have hE := hE t ht
    have key : ∀ l : List (Outcome × ValLog), (∀ a ∈ l, a ∈ t.answers) → l ≠ [] → ∃ a ∈ l, deciding l = some a ∧
        (a.1 = .ok ↔ ∃ b ∈ l, b.1 = .ok) := by
      intro l
      induction l with
      | nil => intro _ hn; exact absurd rfl hn
      | cons a l ih =>
        intro hm _
        cases l with
        | nil => exact ⟨a, by simp, rfl, by simp⟩
        | cons b l =>
          by_cases ha : a.1 = .ok
          · exact ⟨a, by simp, by simp [deciding, ha], by simp [ha]⟩
          · obtain ⟨x, hx, hd, hi⟩ := ih (fun y hy => hm y (by simp [hy])) (by simp)
            refine ⟨x, by simp [hx], by rw [deciding, if_neg ha]; exact hd, ?_⟩
            rw [hi]; simp [ha]
    have hne : t.answers ≠ [] := fun e => hstuck t ht (Or.inl e)
    obtain ⟨a, ha, hd, hi⟩ := key t.answers (fun _ => id) hne
    have hok : a.1 = .ok → t.verdict = some .ok := by
      intro e
      obtain ⟨plan, hal, hs, hval⟩ := hE.sound a ha e
      have := hval.mpr (hsafe _ _ hal hs)
      unfold TestCase.verdict
      rw [hd]
      obtain ⟨o, log⟩ := a
      simp only at e this
      subst e
      simp [ValLog.verdict, this]
    refine ⟨fun hs => hok (hi.mpr hs), fun hs => ?_⟩
    have hno : a.1 ≠ .ok := fun e => hs (hi.mp e)
    have := hE.answers a ha
    unfold TestCase.verdict
    rw [hd]
    obtain ⟨o, log⟩ := a
    simp only at this hno
    rcases this with e | e | e | e <;> subst e <;> simp_all
  have c0 : ∀ o, (∀ t ∈ tests, t.verdict ≠ some o) → r.stats.count (.out o) = 0 := by
    intro o ho
    rw [(C86_counts h o).1, List.countP_eq_zero]
    intro t ht; simpa using ho t ht
  have hna : r.stats.count (.out .notApplicable) = 0 := c0 _ fun t ht e => by
    by_cases hs : t.Solved
    · rw [(hv t ht).1 hs] at e; cases e
    · rcases (hv t ht).2 hs with k | k | k <;> rw [k] at e <;> cases e
  have hgn : r.stats.count (.out .goalNotAchieved) = 0 := c0 _ fun t ht e => by
    by_cases hs : t.Solved
    · rw [(hv t ht).1 hs] at e; cases e
    · rcases (hv t ht).2 hs with k | k | k <;> rw [k] at e <;> cases e
  have hok : r.stats.count (.out .ok) = tests.countP (fun t => decide t.Solved) := by
    rw [(C86_counts h .ok).1]
    apply List.countP_congr
    intro t ht
    simp only [decide_eq_true_eq]
    constructor
    · intro e; by_contra hs
      rcases (hv t ht).2 hs with k | k | k <;> rw [k] at e <;> cases e
    · exact (hv t ht).1
  have hnone : tests.countP (fun t => decide (t.verdict = none)) = 0 := by
    rw [List.countP_eq_zero]
    intro t ht
    simp only [decide_eq_true_eq]
    intro e
    by_cases hs : t.Solved
    · rw [(hv t ht).1 hs] at e; cases e
    · rcases (hv t ht).2 hs with k | k | k <;> rw [k] at e <;> cases e
  have hpart := C87_partition h
  refine ⟨hna, hgn, hok, by omega, fun h0 => ?_⟩
  have hj : tests.countP (fun t => decide (t.verdict ≠ none)) = tests.length := by
    rw [List.countP_eq_length]
    intro t ht
    have := List.countP_eq_zero.mp hnone t ht
    simpa using this
  have := (C88_percentages h).1 .ok (by rw [hj]; omega)
  rw [this, hj, ← (C86_counts h .ok).1, hok]

section
variable {D : Domain} {truth : String → Schema} {obs : List (List Component)} {inj : Bool} {L' : Learner} {rep : List (String × Status)}

/-- **C117, validation of SAM.** When the tested domain is the one SAM returned and the reference is the true one: no problem is reported as not applicable
or goal not achieved, `ok` counts all problems for which a planner claimed a plan, and the four outcomes of the planners cover the test set. -/
theorem C117_validation (hD : WFDomain D) (hT : WFTruth D truth) (hG : GoodData D truth obs)
    (h : (Learner.init D .noRemove inj).learn obs = .ok (L', rep))
    {used : Option Used} {tests : List TestCase} {r : SolvingRow} (hv : validateDomain used tests = .ok r)
    (P : TestCase → Problem) (expert : TestCase → List Call)
    (hE : ∀ t ∈ tests, Evaluated ((returned L'.dom).Solves (P t)) ((real D truth).Solves (P t)) (Distinct D.consts) (expert t) t) :
    r.stats.count (.out .notApplicable) = 0 ∧ r.stats.count (.out .goalNotAchieved) = 0 ∧
    r.stats.count (.out .ok) = tests.countP (fun t => decide t.Solved) ∧
    r.stats.count (.out .ok) + r.stats.count (.out .noSolution) + r.stats.count (.out .timeout)
      + r.stats.count (.out .solverError) = tests.length ∧
    (0 < tests.length → r.percent .ok = 100 * ((tests.countP (fun t => decide t.Solved) : ℚ) / tests.length)) :=
  row_of_safe (tested := fun t => (returned L'.dom).Solves (P t)) (reference := fun t => (real D truth).Solves (P t))
    (fun t _ hd hs => C117_plans_correct hD hT hG h (P t) hd hs) hv expert hE

/-- **C117, expert plans.** An expert plan whose recording is in the training set is always validated: at most the unsolved problems with another
expert plan are reported as not validated. -/
theorem C117_expert_plans {p : Policy} (hD : WFDomain D) (hT : WFTruth D truth) (hG : GoodData D truth obs)
    (h : (Learner.init D p inj).learn obs = .ok (L', rep))
    {used : Option Used} {tests : List TestCase} {r : SolvingRow} (hv : validateDomain used tests = .ok r)
    (P : TestCase → Problem) (expert : TestCase → List Call) (trained : TestCase → Bool)
    (hE : ∀ t ∈ tests, t.expert.valid = true ↔ (returned L'.dom).Solves (P t) (expert t))
    (ht : ∀ t ∈ tests, trained t = true → ∃ tr s, (∀ c ∈ tr, c ∈ obs.flatten ∧ c.success = true ∧ c.call.params.Nodup) ∧
      Recorded tr (P t).init (expert t) s ∧ (P t).goal s) :
    r.stats.count .notValidated ≤ tests.countP (fun t => decide (¬ t.Solved) && !trained t) ∧
    tests.countP (fun t => decide (¬ t.Solved) && trained t) ≤ r.stats.count .validated := by
  have hval : ∀ t ∈ tests, trained t = true → t.expert.valid = true := by
    intro t htt htr
    obtain ⟨tr, s, h1, h2, h3⟩ := ht t htt htr
    exact (hE t htt).mpr ⟨s, (C117_recorded_plans hD hT hG h h1 h2).1, h3⟩
  obtain ⟨e1, e2, _⟩ := C87_expert hv
  rw [e1, e2]
  refine ⟨List.countP_mono_left fun t htt k => ?_, List.countP_mono_left fun t htt k => ?_⟩
  · simp only [Bool.and_eq_true, Bool.not_eq_true'] at k ⊢
    refine ⟨k.1, ?_⟩
    cases htr : trained t with
    | false => rfl
    | true => have h2 := k.2; rw [hval t htt htr] at h2; cases h2
  · simp only [Bool.and_eq_true] at k ⊢
    exact ⟨k.1, hval t htt k.2⟩

end

section
variable {D : Domain} {truth : String → Schema} {obs : List (List JointComponent)} {L' : MaLearner} {rep : List (String × Status)}
  {ord : Finset Lit → List Lit}

/-- **C117, multi-agent (under the hypotheses of C22).** A plan with distinct objects that solves a problem in the domain MA-SAM returned solves it in
the true domain. -/
theorem C117_multi_agent_plans (ho : GoodOrd ord) (hD : WFDomain D) (hT : WFTruth D truth) (hc : D.consts = [])
    (hG : GoodJointData D truth obs) (h : (MaLearner.init D .noRemove).learn ord obs = .ok (L', rep)) (P : Problem) {plan : List Call}
    (hd : Distinct D.consts plan) (hs : (returned L'.base.dom).Solves P plan) : (real D truth).Solves P plan := by
  obtain ⟨s, hl, hg⟩ := hs
  refine ⟨s, leads_of_steps (ok := fun c : Call => c.params.Nodup ∧ ∀ o ∈ c.params, o ∉ Sig.names D.consts) ?_ hd hl, hg⟩
  rintro s c s' hk ⟨h1, h2, h3, _, h5⟩
  have hF := ma_final ho hD hT hc hG h
  simp only [returned, Strips.binding, hF.sig] at h1 h2 h3 h5
  have hn := hF.names _ h1
  have hp := hT.params _ hn
  have key := C22_returned_actions_safe_partial ho hD hT hc hG h h1 _ s h3
  refine ⟨hn, by simpa [real, hp] using h2, ?_, by intro q hq; simp [real] at hq, ?_⟩
  · simp only [real, Strips.binding, hp]; exact key.1
  · simp only [real, Strips.binding, hp]; rw [h5]
    exact key.2 (subst_injective (hD.sigs _ hn) ⟨h2, hk.1, hk.2⟩)

/-- **C117, validation of MA-SAM.** As for SAM. -/
theorem C117_multi_agent_validation (ho : GoodOrd ord) (hD : WFDomain D) (hT : WFTruth D truth) (hc : D.consts = [])
    (hG : GoodJointData D truth obs) (h : (MaLearner.init D .noRemove).learn ord obs = .ok (L', rep))
    {used : Option Used} {tests : List TestCase} {r : SolvingRow} (hv : validateDomain used tests = .ok r)
    (P : TestCase → Problem) (expert : TestCase → List Call)
    (hE : ∀ t ∈ tests, Evaluated ((returned L'.base.dom).Solves (P t)) ((real D truth).Solves (P t)) (Distinct D.consts) (expert t) t) :
    r.stats.count (.out .notApplicable) = 0 ∧ r.stats.count (.out .goalNotAchieved) = 0 ∧
    r.stats.count (.out .ok) = tests.countP (fun t => decide t.Solved) := by
  obtain ⟨a, b, c, _⟩ := row_of_safe (tested := fun t => (returned L'.base.dom).Solves (P t))
    (reference := fun t => (real D truth).Solves (P t)) (fun t _ hd hs => C117_multi_agent_plans ho hD hT hc hG h (P t) hd hs) hv expert hE
  exact ⟨a, b, c⟩

end

/-! ### Concrete cases -/

section
open Limits MaLimits

instance decStep (A : Strips) (s : State) (c : Call) (s' : State) : Decidable (A.step s c s') := by
  unfold Strips.step; infer_instance

namespace Case

def sig : Sig := [("?x", o)]
/-- The action adds `(p ?x)` where it does not hold. -/
def D : Domain := dom [p1] [] sig
def truth : String → Schema := tru sig {P "?x" false} {P "?x"}
def train : List Component := [comp ∅ ["a"] {A "p" ["a"]}, comp {A "p" ["a"]} ["b"] {A "p" ["a"], A "p" ["b"]}]
/-- A test problem with two objects that were never seen. -/
def prob : Problem := ⟨∅, fun s => A "p" ["o1"] ∈ s ∧ A "p" ["o2"] ∈ s⟩
def plan : List Call := [⟨"act", ["o1"]⟩, ⟨"act", ["o2"]⟩]
/-- The problem of the training trajectory. -/
def trainProb : Problem := ⟨∅, fun s => A "p" ["b"] ∈ s⟩
def ok : ValLog := ⟨true, false, false⟩
def tests : List TestCase := [⟨"p1", [(.timeout, ok), (.ok, ok)], ok⟩, ⟨"p2", [(.timeout, ok)], ok⟩]

theorem good : WFDomain D ∧ WFTruth D truth ∧ GoodData D truth [train] := by
  have h : ProblemOK D truth [train] := by decide +kernel
  exact ⟨h.sound.1, h.sound.2.1, h.sound.2.2, fun _ _ _ _ _ _ hm => by simp [D, dom, Sig.names] at hm⟩

theorem solves (L' : Learner) (h : L' = runLearn (Learner.init D) [train]) : (returned L'.dom).Solves prob plan := by
  subst h
  exact ⟨{A "p" ["o1"], A "p" ["o2"]}, ⟨{A "p" ["o1"]}, by decide +kernel, {A "p" ["o1"], A "p" ["o2"]}, by decide +kernel, rfl⟩,
    by decide, by decide⟩

/-- The plan for the new problem has distinct objects, solves the problem in the learned domain and so in the true one; with the second problem the
planners time out, and its expert plan (the training plan) is validated. -/
example : ∃ L' rep r, (Learner.init D).learn [train] = .ok (L', rep) ∧ Distinct D.consts plan ∧ (returned L'.dom).Solves prob plan ∧
    (real D truth).Solves prob plan ∧ validateDomain (some (.observations [2])) tests = .ok r ∧
    (∀ t ∈ tests, Evaluated ((returned L'.dom).Solves (if t.stem = "p1" then prob else trainProb))
      ((real D truth).Solves (if t.stem = "p1" then prob else trainProb)) (Distinct D.consts) (if t.stem = "p1" then plan else train.map Component.call) t) ∧
    r.stats.count (.out .ok) = 1 ∧ r.stats.count (.out .timeout) = 1 ∧ r.stats.count .validated = 1 ∧
    (∀ a ∈ D.names, ∀ p ∈ (D.act a).sig, ∀ q ∈ (D.act a).sig, p.2.name = q.2.name) ∧
    (∀ c ∈ [train].flatten, c.success = true → c.call.params.Nodup) ∧
    Recorded train trainProb.init (train.map Component.call) {A "p" ["a"], A "p" ["b"]} := by
  obtain ⟨rep, hr⟩ := runLearn_eq (D := D) (p := .noRemove) (i := true) (obs := [train]) (by decide) (by decide)
  obtain ⟨hD, hT, hG⟩ := good
  have hd : Distinct D.consts plan := by intro c hc; simp [plan] at hc; rcases hc with rfl | rfl <;> simp [D, dom, Sig.names]
  have hs := solves _ rfl
  have hs' := C117_plans_correct hD hT hG hr prob hd hs
  have hrec : Recorded train trainProb.init (train.map Component.call) {A "p" ["a"], A "p" ["b"]} :=
    ⟨rfl, {A "p" ["a"]}, ⟨rfl, rfl⟩, {A "p" ["a"], A "p" ["b"]}, ⟨rfl, rfl⟩, rfl⟩
  have hrp := C117_recorded_plans hD hT hG hr (t := train) (by decide) hrec
  have hv : (validateDomain (some (.observations [2])) tests).toOption.isSome := by decide +kernel
  obtain ⟨r, hv'⟩ := Option.isSome_iff_exists.mp hv
  have hr' : validateDomain (some (.observations [2])) tests = .ok r := by
    cases e : validateDomain (some (.observations [2])) tests with
    | error x => rw [e] at hv'; cases hv'
    | ok y => rw [e] at hv'; cases hv'; rfl
  refine ⟨_, rep, r, hr, hd, hs, hs', hr', ?_, ?_, ?_, ?_, by decide, by decide, hrec⟩
  · intro t ht
    simp only [tests, List.mem_cons, List.not_mem_nil, or_false] at ht
    rcases ht with rfl | rfl
    · refine ⟨by decide, ?_, by simp only [if_true]; exact iff_of_true rfl hs⟩
      intro a ha ho
      exact ⟨plan, hd, by simpa using hs, by
        simp only [List.mem_cons, List.not_mem_nil, or_false] at ha
        rcases ha with rfl | rfl
        · cases ho
        · simpa [ok] using hs'⟩
    · refine ⟨by decide, ?_, iff_of_true rfl ⟨{A "p" ["a"], A "p" ["b"]}, hrp.1, (by decide : A "p" ["b"] ∈ ({A "p" ["a"], A "p" ["b"]} : State))⟩⟩
      intro a ha ho
      simp only [List.mem_cons, List.not_mem_nil, or_false] at ha
      subst ha; cases ho
  · rw [(C86_counts hr' .ok).1]; decide
  · rw [(C86_counts hr' .timeout).1]; decide
  · rw [(C87_expert hr').1]; decide

end Case

/-- **C117 needs distinct objects.** The plan `act(b, b)` solves the problem "not `(p b)`" in the learned domain, inequalities included, but not in the
true domain, which deletes `(p ?x)` and then adds `(p ?y)`. The parameters have a type and its subtype; no observed call repeats an object. -/
theorem C117_repeated_objects_unsafe : ∃ (D : Domain) (truth : String → Schema) (obs : List (List Component)) (L' : Learner)
    (rep : List (String × Status)) (P : Problem) (plan : List Call),
    WFDomain D ∧ WFTruth D truth ∧ GoodData D truth obs ∧ (Learner.init D).learn obs = .ok (L', rep) ∧
    (∀ c ∈ obs.flatten, c.call.params.Nodup) ∧ (returned L'.dom).Solves P plan ∧ ¬ (real D truth).Solves P plan := by
  let sig : Sig := [("?x", o), ("?y", sub)]
  let obs := [[comp {A "p" ["a"], A "p" ["b"]} ["a", "b"] {A "p" ["b"]}]]
  obtain ⟨rep, hr⟩ := runLearn_eq (D := dom [p1] [] sig) (p := .noRemove) (i := true) (obs := obs) (by decide) (by decide)
  have hok : ProblemOK (dom [p1] [] sig) (tru sig ∅ {P "?x" false, P "?y"}) obs := by decide +kernel
  refine ⟨dom [p1] [] sig, tru sig ∅ {P "?x" false, P "?y"}, obs, _, rep, ⟨{A "p" ["b"]}, fun s => A "p" ["b"] ∉ s⟩,
    [⟨"act", ["b", "b"]⟩], hok.sound.1, hok.sound.2.1, ⟨hok.sound.2.2, fun _ _ _ _ _ _ hm => by simp [dom, Sig.names] at hm⟩,
    hr, by decide, ⟨∅, ⟨∅, by decide +kernel, rfl⟩, by decide⟩, ?_⟩
  rintro ⟨s, ⟨m, ⟨_, _, _, _, h⟩, rfl⟩, hg⟩
  apply hg
  rw [h]
  decide +kernel

/-- **C117 needs the policy that keeps negative preconditions.** With `soft` and `hard` a plan found with the learned domain can be inapplicable:
the true action needs `(p ?x)` false and adds it, so the negative precondition is dropped. -/
theorem C117_soft_unsafe : ∃ (D : Domain) (truth : String → Schema) (obs : List (List Component)),
    WFDomain D ∧ WFTruth D truth ∧ GoodData D truth obs ∧
    ∀ p ∈ [Policy.soft, Policy.hard], ∃ (L' : Learner) (rep : List (String × Status)) (P : Problem) (plan : List Call),
    (Learner.init D p).learn obs = .ok (L', rep) ∧ Distinct D.consts plan ∧ (returned L'.dom).Solves P plan ∧ ¬ (real D truth).Solves P plan := by
  obtain ⟨hD, hT, hG⟩ := Case.good
  refine ⟨Case.D, Case.truth, [Case.train], hD, hT, hG, ?_⟩
  have hno : ¬ (real Case.D Case.truth).Solves ⟨{A "p" ["a"]}, fun s => A "p" ["a"] ∈ s⟩ [⟨"act", ["a"]⟩] := by
    rintro ⟨s, ⟨m, ⟨_, _, h, _⟩, rfl⟩, _⟩
    revert h
    decide +kernel
  have hd : Distinct Case.D.consts [⟨"act", ["a"]⟩] := by intro c hc; simp at hc; subst hc; simp [Case.D, dom, Sig.names]
  intro p hp
  simp only [List.mem_cons, List.not_mem_nil, or_false] at hp
  rcases hp with rfl | rfl
  · obtain ⟨rep, hr⟩ := runLearn_eq (D := Case.D) (p := .soft) (i := true) (obs := [Case.train]) (by decide) (by decide)
    exact ⟨_, rep, _, _, hr, hd, ⟨{A "p" ["a"]}, ⟨{A "p" ["a"]}, by decide +kernel, rfl⟩, by decide⟩, hno⟩
  · obtain ⟨rep, hr⟩ := runLearn_eq (D := Case.D) (p := .hard) (i := true) (obs := [Case.train]) (by decide) (by decide)
    exact ⟨_, rep, _, _, hr, hd, ⟨{A "p" ["a"]}, ⟨{A "p" ["a"]}, by decide +kernel, rfl⟩, by decide⟩, hno⟩

/-- The hypotheses of the multi-agent theorem: two agents act in one step; the plan uses objects that were never seen. -/
example : let D := dom2 [p1] [] xy xy
    let truth := tru2 xy {P "?x"} xy {P "?y"}
    let obs : List (List JointComponent) := [[⟨∅, [⟨"a", ["o1", "o2"]⟩], {A "p" ["o1"]}⟩],
      [⟨∅, [⟨"a", ["o1", "o2"]⟩, ⟨"b", ["o1", "o2"]⟩], {A "p" ["o1"], A "p" ["o2"]}⟩], [⟨∅, [⟨"b", ["o1", "o2"]⟩], {A "p" ["o2"]}⟩]]
    let L' := runMa (ordOf (univP ["o1", "o2"])) (MaLearner.init D) obs
    let plan : List Call := [⟨"a", ["o3", "o4"]⟩, ⟨"b", ["o4", "o5"]⟩]
    maOk (ordOf (univP ["o1", "o2"])) (MaLearner.init D) obs = true ∧ Distinct D.consts plan ∧
    (returned L'.base.dom).Solves ⟨∅, fun s => A "p" ["o3"] ∈ s ∧ A "p" ["o5"] ∈ s⟩ plan ∧
    (real D truth).Solves ⟨∅, fun s => A "p" ["o3"] ∈ s ∧ A "p" ["o5"] ∈ s⟩ plan := by
  intro D truth obs L' plan
  refine ⟨by decide +kernel, ?_, ⟨{A "p" ["o3"], A "p" ["o5"]}, ⟨{A "p" ["o3"]}, by decide +kernel, {A "p" ["o3"], A "p" ["o5"]}, by decide +kernel, rfl⟩, by decide⟩,
    ⟨{A "p" ["o3"], A "p" ["o5"]}, ⟨{A "p" ["o3"]}, by decide +kernel, {A "p" ["o3"], A "p" ["o5"]}, by decide +kernel, rfl⟩, by decide⟩⟩
  intro c hc
  simp only [plan, List.mem_cons, List.not_mem_nil, or_false] at hc
  rcases hc with rfl | rfl <;> simp [D, dom2, Sig.names]

end
end Plans
end Props

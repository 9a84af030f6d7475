import Verif.Spec.CondPlans
import Verif.Props.CondReplay
import Verif.Props.UniversalCase
import Verif.Props.Plans

/-! C126: plans found with a domain learned by conditional or universal conditional SAM. -/
namespace Props
namespace CondPlans
open Model Spec Spec.Plans Spec.CondPlans

section
variable {add : Cond → Cond → Cond} {ord : LitOrd} (hadd : AddOK add) (ho : EnumNodup ord)
variable {D : Domain} (hD : WFDomain D) {n : Nat} {p : Policy}

/-! ### Conditional effects -/
section
variable {truth : String → CondSchema} {obs : List (List Component)} {K : CondLearner} {rep : List (String × Status)}
include hadd ho hD

/-- A returned action and its parameters are those of the partial domain. -/
theorem known (h : (CondLearner.init D n p).learn add ord obs = .ok (K, rep)) {a : String} (ha : a ∈ K.base.dom.names) :
    a ∈ D.names ∧ (K.base.dom.act a).sig = (D.act a).sig := by
  obtain ⟨hn, _, e2, _, _, e5, e6⟩ := learn_outcome hadd ho hD h
  rw [e2] at ha
  obtain ⟨c, hc, rfl⟩ := (e5 a).mp ha
  exact ⟨hn c hc, (e6 _ ha).sig⟩

/-- A step of the returned domain with a settled action and distinct objects is a step of the true domain. -/
theorem step_safe (hT : WFCondTruth D n truth) (hG : CondData D truth obs.flatten)
    (h : (CondLearner.init D n p).learn add ord obs = .ok (K, rep)) {s s' : State} {c : Call}
    (hc : c.params.Nodup ∧ ∀ o ∈ c.params, o ∉ Sig.names D.consts)
    (hset : c.name ∈ K.base.dom.names → Settled D obs.flatten n truth c.name)
    (hs : (learned K.base.dom K.action).step s c s') : (realCond D truth).step s c s' := by
  obtain ⟨h1, h2, h3, h4⟩ := hs
  obtain ⟨hna, hsig⟩ := known hadd ho hD h h1
  have hse := hset h1
  simp only [learned, Actions.binding, hsig] at h2 h3 h4
  have hp := hT.params _ hna
  have hinj := subst_injective (hD.sigs _ hna) ⟨h2, hc.1, hc.2⟩
  refine ⟨hna, by simpa [realCond, hp] using h2, ?_, ?_⟩
  · simp only [realCond, Actions.binding, hp]
    exact C46_applicable hadd ho hD hT hG h h1 h3
  · simp only [realCond, Actions.binding, hp]
    rw [h4]
    exact C48_exact_partial hadd ho hD hT hG h h1 hinj h3 (Or.inl hse.one) hse.apart hse.seen

/-- **C126, plans are correct.** A plan with distinct objects whose actions are settled, and that solves a problem in the domain returned by
conditional SAM, solves it in the true domain. -/
theorem C126_plans_correct (hT : WFCondTruth D n truth) (hG : CondData D truth obs.flatten)
    (h : (CondLearner.init D n p).learn add ord obs = .ok (K, rep)) (P : Problem) {plan : List Call} (hd : Distinct D.consts plan)
    (hset : ∀ c ∈ plan, c.name ∈ K.base.dom.names → Settled D obs.flatten n truth c.name)
    (hs : (learned K.base.dom K.action).Solves P plan) : (realCond D truth).Solves P plan := by
  obtain ⟨s, hl, hg⟩ := hs
  exact ⟨s, Plans.leads_of_steps (ok := fun c : Call => (c.params.Nodup ∧ ∀ o ∈ c.params, o ∉ Sig.names D.consts) ∧
    (c.name ∈ K.base.dom.names → Settled D obs.flatten n truth c.name))
    (fun s a s' ha => step_safe hadd ho hD hT hG h ha.1 ha.2) (fun c hc => ⟨hd c hc, hset c hc⟩) hl, hg⟩

/-- **C126, the first call.** Without any restriction on the data, the first call of a plan of the returned domain is applicable in the true domain,
and everything the returned action makes true the true action makes true. -/
theorem C126_first_call (hT : WFCondTruth D n truth) (hG : CondData D truth obs.flatten)
    (h : (CondLearner.init D n p).learn add ord obs = .ok (K, rep)) (P : Problem) {c : Call} {plan : List Call}
    (hs : (learned K.base.dom K.action).Solves P (c :: plan)) :
    (realCond D truth).accepts c.name ((realCond D truth).binding c) P.init ∧
    (K.action c.name).makes ((realCond D truth).binding c) P.init ⊆ fired (truth c.name).effs ((realCond D truth).binding c) P.init := by
  obtain ⟨s, ⟨m, ⟨h1, h2, h3, h4⟩, _⟩, _⟩ := hs
  obtain ⟨hna, hsig⟩ := known hadd ho hD h h1
  simp only [learned, Actions.binding, hsig] at h2 h3 h4
  have hp := hT.params _ hna
  simp only [realCond, Actions.binding, hp]
  exact ⟨C46_applicable hadd ho hD hT hG h h1 h3, C47_no_spurious_effect hadd ho hD hT hG h h1 h3.1⟩

/-- **C126, recorded plans.** The plan of a recorded trajectory of the training set leads from the first to the last state in the returned and in the
true domain, if for each of its actions at most one literal is ambiguous and no observed effect is ambiguous while another is determined. -/
theorem C126_recorded_plans (hT : WFCondTruth D n truth) (hG : CondData D truth obs.flatten)
    (h : (CondLearner.init D n p).learn add ord obs = .ok (K, rep)) {t : List Component} {plan : List Call} {s s' : State}
    (ht : ∀ c ∈ t, c ∈ obs.flatten)
    (H1 : ∀ c ∈ t, ∀ l l', Ambiguous D obs.flatten c.call.name n l → Ambiguous D obs.flatten c.call.name n l' → l = l')
    (H2 : ∀ c ∈ t, ∀ l l', Became D obs.flatten c.call.name l → Ambiguous D obs.flatten c.call.name n l →
      Became D obs.flatten c.call.name l' → ¬ Determined D obs.flatten c.call.name n l') (hr : Recorded t s plan s') :
    Leads (learned K.base.dom K.action).step s plan s' ∧ Leads (realCond D truth).step s plan s' := by
  obtain ⟨rfl, hl⟩ := hr
  induction t generalizing s with
  | nil => exact ⟨hl, hl⟩
  | cons c t ih =>
    obtain ⟨m, ⟨rfl, rfl⟩, h2⟩ := hl
    have hc := ht c (by simp)
    obtain ⟨i1, i2⟩ := ih (fun b hb => ht b (by simp [hb])) (fun b hb => H1 b (by simp [hb])) (fun b hb => H2 b (by simp [hb])) h2
    have ha : c.call.name ∈ K.base.dom.names := ((C49_returned hadd ho hD hG h).2.1 _).mpr ⟨c, hc, rfl⟩
    obtain ⟨hna, hsig⟩ := known hadd ho hD h ha
    have hp := hT.params _ hna
    obtain ⟨k1, k2⟩ := C85_observed_transitions_reproduced_partial hadd ho hD hT hG h hc (H1 c (by simp)) (H2 c (by simp))
    refine ⟨⟨c.next, ⟨ha, ?_, ?_, ?_⟩, i1⟩, ⟨c.next, ⟨hna, ?_, ?_, ?_⟩, i2⟩⟩
    · simp only [learned, hsig]; exact hG.arity c hc
    · simp only [learned, Actions.binding, hsig]; exact k1
    · simp only [learned, Actions.binding, hsig]; exact k2.symm
    · simp only [realCond, hp]; exact hG.arity c hc
    · simp only [realCond, Actions.binding, hp]; exact hG.app c hc
    · simp only [realCond, Actions.binding, hp]; exact hG.next c hc

/-- **C126, the row of the validation.** If every returned action is settled, no plan claimed by a planner is reported as not applicable or as missing
the goal; the solved problems are exactly those for which a planner claimed a plan. -/
theorem C126_validation (hT : WFCondTruth D n truth) (hG : CondData D truth obs.flatten)
    (h : (CondLearner.init D n p).learn add ord obs = .ok (K, rep))
    (hset : ∀ a ∈ K.base.dom.names, Settled D obs.flatten n truth a)
    {used : Option Used} {tests : List TestCase} {r : SolvingRow} (hv : validateDomain used tests = .ok r)
    (P : TestCase → Problem) (expert : TestCase → List Call)
    (hE : ∀ t ∈ tests, Evaluated ((learned K.base.dom K.action).Solves (P t)) ((realCond D truth).Solves (P t)) (Distinct D.consts) (expert t) t) :
    r.stats.count (.out .notApplicable) = 0 ∧ r.stats.count (.out .goalNotAchieved) = 0 ∧
    r.stats.count (.out .ok) = tests.countP (fun t => decide t.Solved) ∧
    r.stats.count (.out .ok) + r.stats.count (.out .noSolution) + r.stats.count (.out .timeout)
      + r.stats.count (.out .solverError) = tests.length ∧
    (0 < tests.length → r.percent .ok = 100 * ((tests.countP (fun t => decide t.Solved) : ℚ) / tests.length)) :=
  Plans.row_of_safe (tested := fun t => (learned K.base.dom K.action).Solves (P t)) (reference := fun t => (realCond D truth).Solves (P t))
    (fun t _ hd hs => C126_plans_correct hadd ho hD hT hG h (P t) hd (fun c _ => hset c.name) hs) hv expert hE

end

/-! ### Universal effects -/
section
variable {deep : Bool} {types : List PType} {umap : List (String × List String)} {obs : List UniObs} {truth : String → UniSchema}
  {U : UniLearner} {rep : List (String × Status)}
include hadd ho hD

theorem knownUni (hC : UniCalls D types obs) (h : (UniLearner.init D types umap n p).learn add deep ord obs = .ok (U, rep)) {a : String}
    (ha : a ∈ U.base.base.dom.names) : a ∈ D.names ∧ (U.base.base.dom.act a).sig = (D.act a).sig := by
  obtain ⟨_, _, _, h4, _, h6, h7⟩ := uni_outcome hadd ho hD hC h
  rw [h4] at ha
  obtain ⟨ts, hU⟩ := h7 a ha
  exact ⟨h6 a ha, hU.base.sig⟩

/-- A step of the returned domain with a settled action whose quantifiers cover the world is a step of the true domain. -/
theorem step_safe_uni (hT : WFUniTruth D n types (addVar D) truth) (hG : UniData D types truth obs) (hn : 1 ≤ n)
    (h : (UniLearner.init D types umap n p).learn add deep ord obs = .ok (U, rep)) {objs : Sig} (hobj : (Sig.names objs).Nodup)
    {s s' : State} {c : Call}
    (hc : List.Forall₂ (fun o (p : String × PType) => (o, p.2) ∈ objs) c.params (D.act c.name).sig ∧ c.params.Nodup)
    (hset : c.name ∈ U.base.base.dom.names → SettledUni D types obs n (addVar D c.name) truth c.name ∧
      Covers objs types (truth c.name) ((U.action c.name).foralls.map Forall.type) ∧ (deep = false ∨ (U.uconds c.name).length ≤ 1))
    (hs : (learnedUni objs U.base.base.dom U.action).step s c s') : (realUni objs D truth).step s c s' := by
  obtain ⟨h1, h2, h3, h4⟩ := hs
  obtain ⟨hna, hsig⟩ := knownUni hadd ho hD hG.toUniCalls h h1
  obtain ⟨k1, k2, k3⟩ := hset h1
  simp only [learnedUni, Actions.binding, hsig] at h2 h3 h4
  have hp := hT.params _ hna
  have hk := hG.noConsts
  have hW : World (D.act c.name).sig objs (subst (Sig.names (D.act c.name).sig) c.params) :=
    ExactCall.world (c := (⟨s, c, s', true⟩ : Component)) hk (by have := hD.sigs _ hna; rwa [hk] at this)
      ⟨by rw [hk, List.append_nil]; exact hobj, hc.1, hc.2⟩
  refine ⟨hna, by simpa [realUni, hp] using h2, ?_, ?_⟩
  · simp only [realUni, Actions.binding, hp]
    exact C83_applicable hadd ho hD hT hG h h1 h3
  · simp only [realUni, Actions.binding, hp]
    rw [h4]
    exact C84_exact_partial hadd ho hD hT hG h h1 hW h3 hn k1.none k3 k1.seen k1.seenAt (fun u hu o ho hs => Or.inr (k2.covered u hu o ho hs)) k2.sub

/-- **C126, universal effects.** A plan of exact calls in a world of any objects whose actions are settled and quantify over the types that occur there,
and that solves a problem in the domain returned by universal conditional SAM, solves it in the true domain. -/
theorem C126_universal_plans_correct (hT : WFUniTruth D n types (addVar D) truth) (hG : UniData D types truth obs) (hn : 1 ≤ n)
    (h : (UniLearner.init D types umap n p).learn add deep ord obs = .ok (U, rep)) (P : Problem) {objs : Sig} {plan : List Call}
    (hx : ExactCalls D objs plan)
    (hset : ∀ c ∈ plan, c.name ∈ U.base.base.dom.names → SettledUni D types obs n (addVar D c.name) truth c.name ∧
      Covers objs types (truth c.name) ((U.action c.name).foralls.map Forall.type) ∧ (deep = false ∨ (U.uconds c.name).length ≤ 1))
    (hs : (learnedUni objs U.base.base.dom U.action).Solves P plan) : (realUni objs D truth).Solves P plan := by
  obtain ⟨s, hl, hg⟩ := hs
  exact ⟨s, Plans.leads_of_steps (ok := fun c : Call =>
    (List.Forall₂ (fun o (p : String × PType) => (o, p.2) ∈ objs) c.params (D.act c.name).sig ∧ c.params.Nodup) ∧
    (c.name ∈ U.base.base.dom.names → SettledUni D types obs n (addVar D c.name) truth c.name ∧
      Covers objs types (truth c.name) ((U.action c.name).foralls.map Forall.type) ∧ (deep = false ∨ (U.uconds c.name).length ≤ 1)))
    (fun s a s' ha => step_safe_uni hadd ho hD hT hG hn h hx.names ha.1 ha.2) (fun c hc => ⟨hx.exact c hc, hset c hc⟩) hl, hg⟩

/-- **C126, the row of the validation, universal effects.** -/
theorem C126_universal_validation (hT : WFUniTruth D n types (addVar D) truth) (hG : UniData D types truth obs) (hn : 1 ≤ n)
    (h : (UniLearner.init D types umap n p).learn add deep ord obs = .ok (U, rep))
    (hset : ∀ a ∈ U.base.base.dom.names, SettledUni D types obs n (addVar D a) truth a ∧ (deep = false ∨ (U.uconds a).length ≤ 1))
    {used : Option Used} {tests : List TestCase} {r : SolvingRow} (hv : validateDomain used tests = .ok r)
    (P : TestCase → Problem) (objs : TestCase → Sig) (expert : TestCase → List Call)
    (hcov : ∀ t ∈ tests, ∀ a ∈ U.base.base.dom.names, Covers (objs t) types (truth a) ((U.action a).foralls.map Forall.type))
    (hE : ∀ t ∈ tests, Evaluated ((learnedUni (objs t) U.base.base.dom U.action).Solves (P t)) ((realUni (objs t) D truth).Solves (P t))
      (ExactCalls D (objs t)) (expert t) t) :
    r.stats.count (.out .notApplicable) = 0 ∧ r.stats.count (.out .goalNotAchieved) = 0 ∧
    r.stats.count (.out .ok) = tests.countP (fun t => decide t.Solved) ∧
    r.stats.count (.out .ok) + r.stats.count (.out .noSolution) + r.stats.count (.out .timeout)
      + r.stats.count (.out .solverError) = tests.length ∧
    (0 < tests.length → r.percent .ok = 100 * ((tests.countP (fun t => decide t.Solved) : ℚ) / tests.length)) :=
  Plans.row_of_safe (tested := fun t => (learnedUni (objs t) U.base.base.dom U.action).Solves (P t))
    (reference := fun t => (realUni (objs t) D truth).Solves (P t)) (allowed := fun t plan => t ∈ tests ∧ ExactCalls D (objs t) plan)
    (fun t _ hx hs => C126_universal_plans_correct hadd ho hD hT hG hn h (P t) hx.2
      (fun c _ ha => ⟨(hset _ ha).1, hcov t hx.1 _ ha, (hset _ ha).2⟩) hs) hv expert
    (fun t ht => ⟨(hE t ht).answers, fun a ha e => by
      obtain ⟨plan, k1, k2, k3⟩ := (hE t ht).sound a ha e
      exact ⟨plan, ⟨ht, k1⟩, k2, k3⟩, (hE t ht).expert⟩)

end
end

/-! ### Concrete cases -/
namespace Case

theorem ambiguous {l : Lit} (hl : Ambiguous (propDom ["p", "q"]) (propObs exEffs exStates) "go" 1 l) : l = pos "q" := by
  obtain ⟨h1, h2, h3⟩ := notAmbiguous (enumOf_nodup (U := ["p", "q"].flatMap fun p => [pos p, neg p]) (by decide))
    (ex_ok.sound.1.sigs "go" (by decide)) hl
  exact ex_possible l h1 h2 h3

theorem settled : Settled (propDom ["p", "q"]) [propObs exEffs exStates].flatten 1 (propTruth ∅ exEffs) "go" := by
  have hf : [propObs exEffs exStates].flatten = propObs exEffs exStates := by simp
  rw [hf]
  refine ⟨fun l l' h h' => (ambiguous h).trans (ambiguous h').symm, fun l l' hb h => ?_, ?_⟩
  · rw [ambiguous h] at hb
    exact absurd hb (by decide +kernel)
  · intro e he l hl
    left
    revert e l
    show ∀ e ∈ exEffs, _
    decide +kernel

/-- The switch is on: make `p` true. -/
def prob : Problem := ⟨st ["q"], fun s => (⟨"p", []⟩ : Atom) ∈ s⟩

/-- The hypotheses of `C126_plans_correct` are met, by a plan that solves the problem. -/
example : (realCond (propDom ["p", "q"]) (propTruth ∅ exEffs)).Solves prob [⟨"go", []⟩] := by
  obtain ⟨h1, h2, h3, h4, rep, h5⟩ := propRun_eq (by decide) ∅ exEffs exStates ex_ok
  have hgo : "go" ∈ (propRun ["p", "q"] exEffs exStates).base.dom.names := by decide +kernel
  refine C126_plans_correct plainAdd_ok h4 h1 h2 h3 h5 prob (by intro c hc; simp at hc; subst hc; simp) ?_ ?_
  · intro c hc _
    simp at hc; subst hc
    exact settled
  · refine ⟨st ["p", "q"], ⟨st ["p", "q"], ⟨hgo, ?_, ?_, ?_⟩, rfl⟩, ?_⟩
    · show ([] : List String).length = _
      rw [show (learned (propRun ["p", "q"] exEffs exStates).base.dom (propRun ["p", "q"] exEffs exStates).action).params "go" = [] from
        (known plainAdd_ok h4 h1 h5 hgo).2]
      rfl
    · show ((propRun ["p", "q"] exEffs exStates).action "go").accepts _ _
      decide +kernel
    · show _ = ((propRun ["p", "q"] exEffs exStates).action "go").next _ _
      decide +kernel
    · show _ ∈ _
      decide

/-- The hypotheses of `C126_recorded_plans` are met: the transition from `{q}`. -/
example : Leads (learned (propRun ["p", "q"] exEffs exStates).base.dom (propRun ["p", "q"] exEffs exStates).action).step (st ["q"]) [⟨"go", []⟩]
    (st ["p", "q"]) := by
  obtain ⟨h1, h2, h3, h4, rep, h5⟩ := propRun_eq (by decide) ∅ exEffs exStates ex_ok
  have ht : ∀ c ∈ [(⟨st ["q"], ⟨"go", []⟩, st ["p", "q"], true⟩ : Component)], c ∈ [propObs exEffs exStates].flatten := by
    rw [show st ["p", "q"] = condSuccessor exEffs id (st ["q"]) by decide +kernel]
    simp [propObs, exStates]
  refine (C126_recorded_plans plainAdd_ok h4 h1 h2 h3 h5 ht ?_ ?_ ⟨rfl, st ["p", "q"], ⟨rfl, rfl⟩, rfl⟩).1
  · intro c hc; simp at hc; subst hc; exact settled.one
  · intro c hc; simp at hc; subst hc; exact settled.apart

def limitEffs : List CondEff := [⟨{pos "p"}, {pos "x"}⟩, ⟨{pos "q"}, {pos "y"}⟩]
def limitStates : List (List String) := [[], ["x", "y", "p", "q"]]
/-- Keep `y` false. -/
def limitProb : Problem := ⟨st ["x", "q"], fun s => (⟨"y", []⟩ : Atom) ∉ s⟩

/-- **C126 needs settled actions.** After real transitions of a well-formed action, a plan that solves a problem in the returned domain does not solve
it in the true domain, although its call is applicable there: two literals are ambiguous, and the condition for the second is missing. -/
theorem C126_needs_settled :
    CondProblemOK (propDom ["x", "y", "p", "q"]) 1 (propTruth ∅ limitEffs) (propObs limitEffs limitStates) ∧
    (learned (propRun ["x", "y", "p", "q"] limitEffs limitStates).base.dom (propRun ["x", "y", "p", "q"] limitEffs limitStates).action).Solves
      limitProb [⟨"go", []⟩] ∧
    ¬ (realCond (propDom ["x", "y", "p", "q"]) (propTruth ∅ limitEffs)).Solves limitProb [⟨"go", []⟩] := by
  have hok : CondProblemOK (propDom ["x", "y", "p", "q"]) 1 (propTruth ∅ limitEffs) (propObs limitEffs limitStates) := C48_needs_restriction_1.1
  obtain ⟨h1, h2, h3, h4, rep, h5⟩ := propRun_eq (ps := ["x", "y", "p", "q"]) (by decide) ∅ limitEffs limitStates hok
  have hgo : "go" ∈ (propRun ["x", "y", "p", "q"] limitEffs limitStates).base.dom.names := by decide +kernel
  refine ⟨hok, ⟨st ["x", "q"], ⟨st ["x", "q"], ⟨hgo, ?_, ?_, ?_⟩, rfl⟩, ?_⟩, ?_⟩
  · show ([] : List String).length = _
    rw [show (learned (propRun ["x", "y", "p", "q"] limitEffs limitStates).base.dom
      (propRun ["x", "y", "p", "q"] limitEffs limitStates).action).params "go" = [] from (known plainAdd_ok h4 h1 h5 hgo).2]
    rfl
  · show ((propRun ["x", "y", "p", "q"] limitEffs limitStates).action "go").accepts _ _
    decide +kernel
  · show _ = ((propRun ["x", "y", "p", "q"] limitEffs limitStates).action "go").next _ _
    decide +kernel
  · show _ ∉ _
    decide
  · rintro ⟨s, ⟨m, ⟨_, _, _, h⟩, rfl⟩, hg⟩
    have : m = condSuccessor limitEffs (subst [] []) (st ["x", "q"]) := h
    rw [this] at hg
    exact absurd hg (by show ¬ (_ ∉ _); decide +kernel)

/-! Universal effects: flooding a room in a world with unseen objects. -/
open UniCase in
theorem settledUni : SettledUni UniCase.D UniCase.types UniCase.obs 1 (addVar UniCase.D "flood") UniCase.truth "flood" := by
  refine ⟨UniCase.unambiguous, ?_, ?_⟩
  · intro e he; revert e; decide +kernel
  · intro T hT e he l hl _
    left
    have : ∀ T ∈ types, ∀ e ∈ ((truth "flood").withObject (addVar D "flood" T) T).effs, ∀ l ∈ e.res,
        Became (extend D "flood" (addVar D "flood" T) T) (withObjects "flood" T obs) "flood" l := by
      unfold Became
      decide +kernel
    exact this T hT e he l hl

open UniCase in
theorem covers : Covers objs2 types (truth "flood") ((run.action "flood").foralls.map Forall.type) := by
  refine ⟨?_, by decide +kernel⟩
  intro u hu o hoo hs
  revert u o
  decide +kernel

/-- Wet the balls of both rooms. -/
def floodProb : Problem := ⟨UniCase.s2, fun s => ∀ b ∈ ["c1", "c2", "c3"], (⟨"wet", [b]⟩ : Atom) ∈ s⟩
def floodPlan : List Call := [⟨"flood", ["k1"]⟩, ⟨"flood", ["k2"]⟩]

theorem mk_step {A : Actions} {s s' : State} {c : Call} (sig : Sig) (hn : c.name ∈ A.names) (hp : A.params c.name = sig)
    (hl : c.params.length = sig.length) (ha : A.accepts c.name (subst sig.names c.params) s)
    (hx : s' = A.next c.name (subst sig.names c.params) s) : A.step s c s' := by
  subst hp; exact ⟨hn, hl, ha, hx⟩

open UniCase in
theorem flood_step (U : UniLearner) (hU : U = run) (hfl : "flood" ∈ U.base.base.dom.names) (hp : (U.base.base.dom.act "flood").sig = [("?r", room)])
    {r : String} {s s' : State} (ha : (run.action "flood").accepts objs2 (subst ["?r"] [r]) s)
    (hx : s' = (run.action "flood").next objs2 (subst ["?r"] [r]) s) :
    (learnedUni objs2 U.base.base.dom U.action).step s ⟨"flood", [r]⟩ s' := by
  rw [← hU] at ha hx
  exact mk_step [("?r", room)] hfl hp rfl ha hx

def wetTwo : State := UniCase.s2 ∪ UniCase.st [("wet", ["c1"]), ("wet", ["c2"])]
def wetAll : State := UniCase.s2 ∪ UniCase.st [("wet", ["c1"]), ("wet", ["c2"]), ("wet", ["c3"])]

open UniCase in
theorem floods : (run.action "flood").accepts objs2 (subst ["?r"] ["k1"]) s2 ∧ wetTwo = (run.action "flood").next objs2 (subst ["?r"] ["k1"]) s2 ∧
    (run.action "flood").accepts objs2 (subst ["?r"] ["k2"]) wetTwo ∧ wetAll = (run.action "flood").next objs2 (subst ["?r"] ["k2"]) wetTwo := by
  decide +kernel

theorem solves (U : UniLearner) (hU : U = UniCase.run) (hfl : "flood" ∈ U.base.base.dom.names)
    (hp : (U.base.base.dom.act "flood").sig = [("?r", UniCase.room)]) :
    (learnedUni UniCase.objs2 U.base.base.dom U.action).Solves floodProb floodPlan :=
  ⟨wetAll, ⟨wetTwo, flood_step U hU hfl hp floods.1 floods.2.1, wetAll, flood_step U hU hfl hp floods.2.2.1 floods.2.2.2, rfl⟩,
    show ∀ b ∈ ["c1", "c2", "c3"], (⟨"wet", [b]⟩ : Atom) ∈ wetAll by decide +kernel⟩

/-- The hypotheses of `C126_universal_plans_correct` are met, by a plan that solves the problem. -/
example : (realUni UniCase.objs2 UniCase.D UniCase.truth).Solves floodProb floodPlan := by
  obtain ⟨rep, h⟩ := UniCase.returned
  have hname : ∀ c ∈ floodPlan, c.name = "flood" := by decide
  have hfl : "flood" ∈ UniCase.run.base.base.dom.names := UniCase.learned.2.2.2
  have hp : (UniCase.run.base.base.dom.act "flood").sig = [("?r", UniCase.room)] :=
    (knownUni plainAdd_ok UniCase.ordOK UniCase.ok.sound.1 UniCase.ok.sound.2.2.toUniCalls h hfl).2
  have hx : ExactCalls UniCase.D UniCase.objs2 floodPlan := ⟨by decide, by decide⟩
  exact C126_universal_plans_correct plainAdd_ok UniCase.ordOK UniCase.ok.sound.1 UniCase.ok.sound.2.1 UniCase.ok.sound.2.2 (Nat.le_refl 1) h
    floodProb hx (fun c hc _ => by rw [hname c hc]; exact ⟨settledUni, covers, Or.inl rfl⟩) (solves _ rfl hfl hp)

end Case
end CondPlans
end Props

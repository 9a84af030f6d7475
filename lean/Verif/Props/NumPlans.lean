import Verif.Props.Plans
import Verif.Props.NumSam
import Verif.Props.NumSamCase
import Verif.Props.IncHull

/-! C118: plans found with the domain N-SAM returned. -/
namespace Props
namespace NumPlans
open Model Spec Spec.Plans Props.Plans

section
variable {K : Type} [Field K] [LinearOrder K]

/-- What a call sees is a valuation of its functions. -/
theorem seen_lifts {txt : Atom → String} {fns : List PredDecl} {consts sig : Sig} (ht : TextOK txt fns consts sig) (ρ : String → String) (σ : Atom → K) :
    Lifts txt fns consts sig ρ σ (seen txt (InScope fns consts sig) ρ σ) := by
  intro f hf
  unfold seen
  have h : ∃ f', InScope fns consts sig f' ∧ txt f' = txt f := ⟨f, hf, rfl⟩
  rw [dif_pos h]
  have hl : ∀ {g}, InScope fns consts sig g → Liftable fns consts sig g := fun hg => hg.liftable
  rw [ht.inj _ _ (hl h.choose_spec.1) (hl hf) h.choose_spec.2]

end

section
variable {K : Type} [Field K] [LinearOrder K] [IsStrictOrderedRing K] [FloorRing K]
variable {cfg : NumCfg K} {D : Domain} {truth : String → Schema} {num : String → NumSchema K} {obs : List (List (NumComponent K))}
  {N' : NumLearner K} {info : List (String × NumStatus)}

/-- What C62 asks of a returned action: its functions have different texts and there is one, the data is explained by the true numeric part, which is
convex and affine in the used monomials, the numeric libraries work as their contracts say and no learned effect divides. -/
structure Fits (cfg : NumCfg K) (D : Domain) (obs : List (List (NumComponent K))) (N' : NumLearner K) (a : String) (A : NumSchema K) : Prop where
  text : TextOK cfg.txt cfg.fns D.consts (D.act a).sig
  some : ∃ f, InScope cfg.fns D.consts (D.act a).sig f
  good : NumGood cfg D a A obs
  libs : ∃ rel, relevantOf cfg a = .ok rel ∧ NumConvex cfg.txt cfg.fns D.consts (D.act a).sig (usedCols rel (prevColumns cfg D a)) A ∧
    (HullSetup cfg.lib cfg.digits polyExp (prevColumns cfg D a) (hullRows cfg D a obs) ∨
      ProjSetup cfg.lib cfg.digits polyExp (prevColumns cfg D a) (hullRows cfg D a obs)) ∧
    CoefficientsPrintable cfg.reg cfg.digits (usedCols rel (prevColumns cfg D a)) (usedCols rel (nextColumns cfg D a)) (regressionRows cfg D a obs)
  noDivision : ∀ e ∈ (N'.num a).eff, e.op ≠ .scaleDown

/-- The settings of the learner: the domain has functions, exact numeric conditions, no unsafe effects, the default precision. -/
structure Settings (cfg : NumCfg K) : Prop where
  functions : cfg.fns ≠ []
  plain : cfg.plain = true
  safe : cfg.allowUnsafe = false
  digits : cfg.digits ≤ 10
  reg : RegContract cfg.reg

/-- The actions of the returned domain are actions of the partial domain with the same parameters. -/
theorem static (hD : WFDomain D) (hc : Settings cfg) (h : (NumLearner.init D .noRemove).learn cfg obs = .ok (N', info)) {a : String}
    (ha : a ∈ N'.base.dom.names) : a ∈ D.names ∧ (N'.base.dom.act a).sig = (D.act a).sig := by
  obtain ⟨L', al, HL⟩ := numLearn_spec hD.names hc.functions h
  rw [HL.names] at ha
  obtain ⟨p, hp, rfl⟩ := List.mem_map.mp ha
  exact ⟨(HL.allowed p hp).1, HL.sig _ ha⟩

/-- **C118, one step.** A step of the returned domain with distinct objects is a step of the true domain. -/
theorem C118_step (hD : WFDomain D) (hT : WFTruth D truth) (hG : GoodData D truth (obs.map fun o => o.map NumComponent.comp)) (hc : Settings cfg)
    (h : (NumLearner.init D .noRemove).learn cfg obs = .ok (N', info)) (hF : ∀ a ∈ N'.base.dom.names, Fits cfg D obs N' a (num a))
    {s s' : NState K} {c : Call} (hd : c.params.Nodup ∧ ∀ o ∈ c.params, o ∉ Sig.names D.consts)
    (hs : (returnedNum cfg.txt cfg.fns D.consts N').step cfg.txt s c s') : (realNum cfg.fns D truth num).step cfg.txt s c s' := by
  obtain ⟨⟨h1, h2, h3, _, h5⟩, h6, h7, h8⟩ := hs
  have h1' : c.name ∈ N'.base.dom.names := h1
  obtain ⟨ha, hsig⟩ := static hD hc h h1'
  obtain ⟨rel, hrel, hC, hS, hP⟩ := (hF _ h1').libs
  simp only [returnedNum, returned, Strips.binding, hsig] at h2 h3 h5 h6 h7 h8
  have hp := hT.params _ ha
  obtain ⟨k1, k2, k3, _, k5⟩ := C62_numeric_model_safe hD hT hG hc.functions hc.plain hc.safe hc.digits hc.reg h h1' (hF _ h1').text (hF _ h1').some
    (hF _ h1').good hrel hC hS hP (hF _ h1').noDivision _ _ _ h3 h6
  have hinj := subst_injective (hD.sigs _ ha) ⟨h2, hd.1, hd.2⟩
  refine ⟨⟨ha, by simpa [realNum, real, hp] using h2, ?_, by intro q hq; simp [realNum, real] at hq, ?_⟩, ?_, ?_, ?_⟩
  · simp only [realNum, real, Strips.binding, hp]; exact k1
  · simp only [realNum, real, Strips.binding, hp]; rw [h5]; exact k5 hinj
  · simp only [realNum, real, Strips.binding, hp]; exact k2
  · simp only [realNum, real, Strips.binding, hp]
    intro f hf
    rw [h7 f hf]; exact k3 f hf
  · simp only [realNum, real, Strips.binding, hp]; exact h8

/-- **C118, plans.** Every plan with distinct objects that solves a problem in the returned domain solves it in the true one. -/
theorem C118_plans_correct (hD : WFDomain D) (hT : WFTruth D truth) (hG : GoodData D truth (obs.map fun o => o.map NumComponent.comp)) (hc : Settings cfg)
    (h : (NumLearner.init D .noRemove).learn cfg obs = .ok (N', info)) (hF : ∀ a ∈ N'.base.dom.names, Fits cfg D obs N' a (num a))
    (P : NumProblem K) {plan : List Call} (hd : Distinct D.consts plan)
    (hs : (returnedNum cfg.txt cfg.fns D.consts N').Solves cfg.txt P plan) : (realNum cfg.fns D truth num).Solves cfg.txt P plan := by
  obtain ⟨s, hl, hg⟩ := hs
  exact ⟨s, leads_of_steps (ok := fun c : Call => c.params.Nodup ∧ ∀ o ∈ c.params, o ∉ Sig.names D.consts)
    (fun s a s' ha => C118_step hD hT hG hc h hF ha) hd hl, hg⟩

/-- The learned numeric condition holds in every observed state. -/
theorem accepts (hD : WFDomain D) (hT : WFTruth D truth) (hG : GoodData D truth (obs.map fun o => o.map NumComponent.comp)) (hc : Settings cfg)
    (h : (NumLearner.init D .noRemove).learn cfg obs = .ok (N', info)) {a : String} (ha : a ∈ N'.base.dom.names) {A : NumSchema K}
    (hF : Fits cfg D obs N' a A) {c : NumComponent K} (hm : c ∈ obs.flatten) (hs : c.comp.success = true) (hn : c.comp.call.name = a)
    (hd : c.comp.call.params.Nodup) {x : String → K}
    (hx : Lifts cfg.txt cfg.fns D.consts (D.act a).sig (subst (Sig.names (D.act a).sig) c.comp.call.params) (valuesOf c.prevN) x) :
    ∀ q ∈ (N'.num a).pre, q.holds x := by
  obtain ⟨L', al, HL⟩ := numLearn_spec hD.names hc.functions h
  have ht := hF.text
  obtain ⟨rel, hrel, hC, hS, hP⟩ := hF.libs
  rw [HL.names] at ha
  have hlk : ∃ m, al.lookup a = some m := by
    cases hl : al.lookup a with
    | none => rw [Py.lookup_none_iff] at hl; exact absurd ha hl
    | some m => exact ⟨m, rfl⟩
  obtain ⟨m, hm'⟩ := hlk
  obtain ⟨haD, _, hu, hsafe⟩ := HL.allowed _ (lookup_mem hm')
  dsimp only at haD hu hsafe
  have hpart : N'.num a = m := by rw [HL.part, hm']; rfl
  rw [hpart]
  have H := fullObs (hD.sigs a haD) hT hG haD ht hF.good
  have hne : scopeFns cfg D a ≠ [] := by
    obtain ⟨f, hf⟩ := hF.some
    exact List.ne_nil_of_mem (mem_scopeFns.mpr hf)
  have S := storeOf_shape hne _ H (HL.matched a)
  unfold safeAction at hsafe
  rw [hrel] at hsafe
  simp only [Bind.bind, Except.bind] at hsafe
  cases hnp : numericPre cfg rel (storeOf cfg D a (usableN obs.flatten a)) with
  | error e => rw [hnp] at hsafe; simp at hsafe
  | ok cs =>
    cases hne' : numericEff cfg rel (storeOf cfg D a (usableN obs.flatten a)) with
    | error e => rw [hnp, hne'] at hsafe; simp at hsafe
    | ok es =>
      rw [hnp, hne'] at hsafe
      simp only [Except.ok.injEq] at hsafe
      subst hsafe
      dsimp only
      unfold numericPre at hnp
      by_cases hr0 : rel = some []
      · rw [if_pos hr0] at hnp
        simp only [Except.ok.injEq] at hnp
        subst hnp; simp
      · rw [if_neg hr0, hc.plain, S.hullCols hu, S.hullRows hu] at hnp
        cases hsi : safeInequalities cfg.lib cfg.digits cfg.margin true polyExp rel (prevColumns cfg D a)
            (dedupBy (fun r : List String → K => (prevColumns cfg D a).map r) ((usableN obs.flatten a).map (prevRow cfg D a))) with
        | notSafe => rw [hsi] at hnp; simp at hnp
        | crash => rw [hsi] at hnp; simp at hnp
        | conds cs' =>
          rw [hsi] at hnp
          dsimp only at hnp
          split_ifs at hnp
          simp only [Except.ok.injEq] at hnp
          subst hnp
          refine (hS.elim (fun hS => C55_precondition_is_hull hS hsi x) fun hS => C70_projected_precondition_is_hull hS hsi x).mpr ?_
          have hr : prevRow cfg D a c ∈ (usableN obs.flatten a).map (prevRow cfg D a) :=
            List.mem_map_of_mem (mem_usableN.mpr ⟨hm, hs, hn, hd⟩)
          obtain ⟨r', k1, k2⟩ := dedupBy_rep (key := fun r : List String → K => (prevColumns cfg D a).map r) hr
          refine inHull_agree (fun q hq => ?_) (inHull_row k1)
          have hq' := usedCols_sub hq
          have e1 : r' q = prevRow cfg D a c q := List.map_inj_left.mp k2 q hq'
          rw [e1, prevRow_lifts ht c hq']
          have e2 : colVal polyExp x q = monoVal x q := colVal_mono ht hq'
          have e3 : (polyExp q : NExp K).eval x = monoVal x q := e2
          rw [e3]
          unfold monoVal
          congr 1
          apply List.map_congr_left
          intro n hnq
          obtain ⟨f, hf, rfl⟩ := (mem_prevColumns ht hq').2 n hnq
          have e4 := stateVal_lifts ht (Model.callSubst D c) c.prevN f hf
          rw [e4, hx f hf]
          unfold Model.callSubst
          rw [hn]; rfl

/-- **C118, observations.** Every observation of a returned action (successful, distinct objects, in which only the functions of the action change) is a
step of the returned domain. -/
theorem C118_observed_step (hD : WFDomain D) (hT : WFTruth D truth) (hG : GoodData D truth (obs.map fun o => o.map NumComponent.comp)) (hc : Settings cfg)
    (h : (NumLearner.init D .noRemove).learn cfg obs = .ok (N', info)) (hF : ∀ a ∈ N'.base.dom.names, Fits cfg D obs N' a (num a))
    {c : NumComponent K} (hm : c ∈ obs.flatten) (hs : c.comp.success = true) (hd : c.comp.call.params.Nodup) (ha : c.comp.call.name ∈ N'.base.dom.names)
    (hfr : ∀ g, (∀ f, InScope cfg.fns D.consts (D.act c.comp.call.name).sig f → groundFn (substOf truth c.comp) f ≠ g) →
      valuesOf c.nextN g = valuesOf c.prevN g) :
    (returnedNum cfg.txt cfg.fns D.consts N').step cfg.txt (c.comp.prev, valuesOf c.prevN) c.comp.call (c.comp.next, valuesOf c.nextN) := by
  obtain ⟨hk, hsig⟩ := static hD hc h ha
  obtain ⟨L', al, HL⟩ := numLearn_spec hD.names hc.functions h
  have hal := ha
  rw [HL.names] at hal
  obtain ⟨rep, hbase⟩ := HL.base
  have hmc : c.comp ∈ (obs.map fun o => o.map NumComponent.comp).flatten := by
    rw [← List.map_flatten]; exact List.mem_map.mpr ⟨c, hm, rfl⟩
  have hp := hT.params _ hk
  obtain ⟨hb1, hb2, hb3, _, hb5⟩ := step_observed hD hT hG hbase hmc hs hd
  have hF' := hF _ ha
  obtain ⟨rel, hrel, hC, hS, hP⟩ := hF'.libs
  have hb : substOf truth c.comp = subst (Sig.names (D.act c.comp.call.name).sig) c.comp.call.params := by unfold substOf; rw [hp]
  have hlift := seen_lifts hF'.text (subst (Sig.names (D.act c.comp.call.name).sig) c.comp.call.params) (valuesOf c.prevN)
  have hacc := accepts hD hT hG hc h ha hF' hm hs rfl hd hlift
  obtain ⟨hn, hsg⟩ := Plans.static hD hbase
  simp only [returned, Strips.binding, hsg] at hb2 hb3 hb5
  have happ : applicable (N'.base.dom.act c.comp.call.name).pre (subst (Sig.names (D.act c.comp.call.name).sig) c.comp.call.params) c.comp.prev := by
    rw [HL.pre _ hal]; exact hb3
  obtain ⟨_, _, k3, _, _⟩ := C62_numeric_model_safe hD hT hG hc.functions hc.plain hc.safe hc.digits hc.reg h ha hF'.text hF'.some
    hF'.good hrel hC hS hP hF'.noDivision _ _ _ happ hacc
  have hex := hF'.good c hm hs rfl hd
  refine ⟨⟨ha, ?_, ?_, ?_, ?_⟩, ?_, ?_, ?_⟩
  · simp only [returnedNum, returned, hsig]; exact hb2
  · simp only [returnedNum, returned, Strips.binding, hsig]; exact happ
  · intro q hq
    simp only [returnedNum, returned, HL.ineq _ hal] at hq
    simp at hq
  · simp only [returnedNum, returned, Strips.binding, hsig]
    rw [HL.eff _ hal]; exact hb5
  · simp only [returnedNum, returned, Strips.binding, hsig]; exact hacc
  · simp only [returnedNum, returned, Strips.binding, hsig]
    intro f hf
    rw [k3 f hf]
    unfold valuesOf
    rw [hex.next _ hlift f hf]; rfl
  · simp only [returnedNum, returned, Strips.binding, hsig]
    intro g hg
    exact hfr g (by rw [hb]; exact hg)

/-- **C118, recorded plans.** A recorded training plan whose actions were all returned leads in the returned domain from its first to its last state. -/
theorem C118_recorded_plans (hD : WFDomain D) (hT : WFTruth D truth) (hG : GoodData D truth (obs.map fun o => o.map NumComponent.comp)) (hc : Settings cfg)
    (h : (NumLearner.init D .noRemove).learn cfg obs = .ok (N', info)) (hF : ∀ a ∈ N'.base.dom.names, Fits cfg D obs N' a (num a))
    {t : List (NumComponent K)} {plan : List Call} {s s' : NState K}
    (ht : ∀ c ∈ t, c ∈ obs.flatten ∧ c.comp.success = true ∧ c.comp.call.params.Nodup ∧ c.comp.call.name ∈ N'.base.dom.names ∧
      ∀ g, (∀ f, InScope cfg.fns D.consts (D.act c.comp.call.name).sig f → groundFn (substOf truth c.comp) f ≠ g) →
        valuesOf c.nextN g = valuesOf c.prevN g)
    (hr : RecordedNum t s plan s') : Leads ((returnedNum cfg.txt cfg.fns D.consts N').step cfg.txt) s plan s' := by
  obtain ⟨rfl, hl⟩ := hr
  induction t generalizing s with
  | nil => exact hl
  | cons c t ih =>
    obtain ⟨m, ⟨rfl, rfl⟩, h2⟩ := hl
    obtain ⟨h3, h4, h5, h6, h7⟩ := ht c (by simp)
    exact ⟨_, C118_observed_step hD hT hG hc h hF h3 h4 h5 h6 h7, ih (fun b hb => ht b (by simp [hb])) h2⟩

/-- **C118, validation.** The row of the validator for the domain N-SAM returned, against the true domain. -/
theorem C118_validation (hD : WFDomain D) (hT : WFTruth D truth) (hG : GoodData D truth (obs.map fun o => o.map NumComponent.comp)) (hc : Settings cfg)
    (h : (NumLearner.init D .noRemove).learn cfg obs = .ok (N', info)) (hF : ∀ a ∈ N'.base.dom.names, Fits cfg D obs N' a (num a))
    {used : Option Used} {tests : List TestCase} {r : SolvingRow} (hv : validateDomain used tests = .ok r)
    (P : TestCase → NumProblem K) (expert : TestCase → List Call)
    (hE : ∀ t ∈ tests, Evaluated ((returnedNum cfg.txt cfg.fns D.consts N').Solves cfg.txt (P t)) ((realNum cfg.fns D truth num).Solves cfg.txt (P t))
      (Distinct D.consts) (expert t) t) :
    r.stats.count (.out .notApplicable) = 0 ∧ r.stats.count (.out .goalNotAchieved) = 0 ∧
    r.stats.count (.out .ok) = tests.countP (fun t => decide t.Solved) ∧
    r.stats.count (.out .ok) + r.stats.count (.out .noSolution) + r.stats.count (.out .timeout)
      + r.stats.count (.out .solverError) = tests.length := by
  obtain ⟨a, b, c, d, _⟩ := row_of_safe (tested := fun t => (returnedNum cfg.txt cfg.fns D.consts N').Solves cfg.txt (P t))
    (reference := fun t => (realNum cfg.fns D truth num).Solves cfg.txt (P t))
    (fun t _ hd hs => C118_plans_correct hD hT hG hc h hF (P t) hd hs) hv expert hE
  exact ⟨a, b, c, d⟩

end

/-! ### A concrete case -/
namespace Case
open NumWorld

theorem settings : Settings cfg := ⟨by simp [cfg], rfl, rfl, by decide, guess_contract _⟩

theorem fits {N' : NumLearner ℚ} {info : List (String × NumStatus)} (h : (NumLearner.init World.D).learn cfg obs = .ok (N', info)) :
    ∀ a ∈ N'.base.dom.names, Fits cfg World.D obs N' a truthN := by
  obtain ⟨N, i, h', hn, hp, he, _⟩ := run
  rw [h'] at h
  simp only [Except.ok.injEq, Prod.mk.injEq] at h
  obtain ⟨rfl, rfl⟩ := h
  intro a ha
  rw [hn] at ha
  simp only [List.mem_cons, List.not_mem_nil, or_false] at ha
  subst ha
  exact ⟨textOK, ⟨_, scope_iff.mpr rfl⟩, explained, ⟨none, rfl, convex, Or.inl setup, printable⟩, by rw [he]; decide⟩

def at' (l : String) : Atom := ⟨"at", ["v", l]⟩
def st (l : String) : State := {at' l, ⟨"power", []⟩}
def go (x y : String) : Call := ⟨"move", ["v", x, y]⟩
/-- A vehicle that was never seen, at a place that was never seen, with 5 units of fuel; two moves are needed. -/
def prob : NumProblem ℚ := ⟨(st "l7", fun _ => 5), fun s => at' "l9" ∈ s.1 ∧ s.2 (fuelAt "v") = 3⟩
def plan : List Call := [go "l7" "l8", go "l8" "l9"]
def fuel (q : ℚ) : Atom → ℚ := fun g => if g = fuelAt "v" then q else 5

theorem ground_fuel (x y : String) : groundFn (subst ["?o", "?x", "?y"] ["v", x, y]) (fuelAt "?o") = fuelAt "v" := rfl

/-- The hypotheses of C118 hold: the plan, over objects and values that were never observed, solves the problem in the returned domain; so it solves it
in the true one. -/
example : ∃ N' info, (NumLearner.init World.D).learn cfg obs = .ok (N', info) ∧ Distinct World.D.consts plan ∧
    (∀ a ∈ N'.base.dom.names, Fits cfg World.D obs N' a truthN) ∧
    (returnedNum cfg.txt cfg.fns World.D.consts N').Solves cfg.txt prob plan ∧
    (realNum cfg.fns World.D World.truth fun _ => truthN).Solves cfg.txt prob plan := by
  obtain ⟨N, i, h, hn, hp, he, _⟩ := run
  have hd : Distinct World.D.consts plan := by
    intro c hc
    simp only [plan, List.mem_cons, List.not_mem_nil, or_false] at hc
    rcases hc with rfl | rfl <;> simp [World.D, Sig.names, go]
  have hb : (returned N.base.dom).step (st "l7") (go "l7" "l8") (st "l8") ∧ (returned N.base.dom).step (st "l8") (go "l8" "l9") (st "l9") ∧
      (N.base.dom.act "move").sig = World.moveSig := by
    have hh : (match (NumLearner.init World.D).learn cfg obs with
      | .ok (N', _) => decide ((returned N'.base.dom).step (st "l7") (go "l7" "l8") (st "l8") ∧ (returned N'.base.dom).step (st "l8") (go "l8" "l9") (st "l9") ∧
          (N'.base.dom.act "move").sig = World.moveSig)
      | .error _ => false) = true := by decide +kernel
    rw [h] at hh
    exact of_decide_eq_true hh
  obtain ⟨b1, b2, hsig⟩ := hb
  have hstep : ∀ (x y : String) (q : ℚ) (σ σ' : Atom → ℚ), σ (fuelAt "v") = q → 3 ≤ q → q ≤ 5 → σ' (fuelAt "v") = q - 1 →
      (∀ g, g ≠ fuelAt "v" → σ' g = σ g) → (returned N.base.dom).step (st x) (go x y) (st y) →
      (returnedNum cfg.txt cfg.fns World.D.consts N).step cfg.txt (st x, σ) (go x y) (st y, σ') := by
    intro x y q σ σ' h1 h2 h3 h4 h5 h6
    have hbind : (returned N.base.dom).binding (go x y) = subst ["?o", "?x", "?y"] ["v", x, y] := by
      simp only [Strips.binding, returned, go, hsig]; rfl
    have hsc : (returnedNum cfg.txt cfg.fns World.D.consts N).fns "move" = InScope cfg.fns World.D.consts (World.D.act "move").sig := by
      simp only [returnedNum, hsig]; rfl
    have hseen : seen cfg.txt (InScope cfg.fns World.D.consts (World.D.act "move").sig) (subst ["?o", "?x", "?y"] ["v", x, y]) σ "(fuel ?o)" = q := by
      have := seen_lifts textOK (subst ["?o", "?x", "?y"] ["v", x, y]) σ (fuelAt "?o") (scope_iff.mpr rfl)
      rw [ground_fuel, h1] at this
      exact this
    refine ⟨h6, ?_, ?_, ?_⟩
    · show ∀ p ∈ (N.num "move").pre, p.holds _
      rw [hp, show (go x y).name = "move" from rfl, hsc]
      change ∀ p ∈ _, NCond.holds (seen cfg.txt _ ((returned N.base.dom).binding (go x y)) σ) p
      rw [hbind]
      intro p hpm
      simp only [List.mem_cons, List.not_mem_nil, or_false] at hpm
      rcases hpm with rfl | rfl
      · show (3 : ℚ) ≤ _; exact h2.trans hseen.ge
      · show _ ≤ (5 : ℚ); exact hseen.le.trans h3
    · rw [show (go x y).name = "move" from rfl, hsc]
      intro f hf
      obtain rfl := scope_iff.mp hf
      change σ' (groundFn ((returned N.base.dom).binding (go x y)) (fuelAt "?o")) = applyNumeric (N.num "move").eff
        (seen cfg.txt _ ((returned N.base.dom).binding (go x y)) σ) "(fuel ?o)"
      rw [hbind, ground_fuel, h4, he]
      show q - 1 = seen cfg.txt _ _ σ "(fuel ?o)" - 1
      rw [hseen]
    · rw [show (go x y).name = "move" from rfl, hsc]
      intro g hg
      apply h5
      intro e
      have := hg (fuelAt "?o") (scope_iff.mpr rfl)
      change groundFn ((returned N.base.dom).binding (go x y)) (fuelAt "?o") ≠ g at this
      rw [hbind, ground_fuel] at this
      exact this e.symm
  have hsol : (returnedNum cfg.txt cfg.fns World.D.consts N).Solves cfg.txt prob plan := by
    refine ⟨(st "l9", fuel 3), ⟨(st "l8", fuel 4), ?_, (st "l9", fuel 3), ?_, rfl⟩, by decide, by decide⟩
    · refine hstep "l7" "l8" 5 _ _ rfl (by norm_num) (by norm_num) (by norm_num [fuel]) ?_ b1
      intro g hg; simp [fuel, hg]
    · refine hstep "l8" "l9" 4 _ _ (by simp [fuel]) (by norm_num) (by norm_num) (by norm_num [fuel]) ?_ b2
      intro g hg; simp [fuel, hg]
  exact ⟨N, i, h, hd, fits h, hsol, C118_plans_correct World.wfD World.wfT good settings h (fits h) prob hd hsol⟩

/-- The plan of a training trajectory is a plan of the returned domain. -/
example : ∃ N' info s, (NumLearner.init World.D).learn cfg obs = .ok (N', info) ∧
    Leads ((returnedNum cfg.txt cfg.fns World.D.consts N').step cfg.txt) (World.s2, valuesOf n2.prevN) [World.c2.call] s := by
  obtain ⟨N, i, h, hn, hp, he, _⟩ := run
  refine ⟨N, i, _, h, C118_recorded_plans World.wfD World.wfT good settings h (fits h) (t := [n2]) ?_ ⟨rfl, _, ⟨rfl, rfl⟩, rfl⟩⟩
  intro c hc
  simp only [List.mem_cons, List.not_mem_nil, or_false] at hc
  subst hc
  refine ⟨by simp [obs], rfl, by decide, by rw [hn]; decide, ?_⟩
  intro g hg
  have hne : fuelAt "b" ≠ g := hg (fuelAt "?o") (scope_iff.mpr rfl)
  have : (g == fuelAt "b") = false := by simpa using Ne.symm hne
  simp [valuesOf, n2, List.lookup, this]

end Case
end NumPlans
end Props

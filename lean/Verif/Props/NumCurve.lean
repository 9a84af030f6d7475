import Verif.Props.NumPlans
import Verif.Props.IncNumSamCase
import Verif.Props.SamConstants

/-! C125: plans of the domain N-SAM returned after more observations, and plans of the domain incremental N-SAM returned. -/
namespace Props
namespace NumCurve
open Model Spec Spec.Plans Props.Plans Props.NumPlans

section
variable {K : Type} [Field K] [LinearOrder K] [IsStrictOrderedRing K] [FloorRing K]
variable {cfg : NumCfg K} {D : Domain} {truth : String → Schema} {num : String → NumSchema K} {obs obs₁ obs₂ : List (List (NumComponent K))}
  {N' N₁ N₂ : NumLearner K} {info info₁ info₂ : List (String × NumStatus)}

/-- The numeric condition of a returned action accepts the convex hull of the observed states. -/
theorem pre_iff {A : NumSchema K} (hD : WFDomain D) (hT : WFTruth D truth) (hG : GoodData D truth (obs.map fun o => o.map NumComponent.comp))
    (hc : Settings cfg) (h : (NumLearner.init D .noRemove).learn cfg obs = .ok (N', info)) {a : String} (ha : a ∈ N'.base.dom.names)
    (hF : Fits cfg D obs N' a A) {rel : Option (List (List String))} (hrel : relevantOf cfg a = .ok rel) (x : String → K) :
    (∀ q ∈ (N'.num a).pre, q.holds x) ↔
      InHull (usedCols rel (prevColumns cfg D a)) ((usableN obs.flatten a).map (prevRow cfg D a)) (colVal polyExp x) := by
  obtain ⟨L', al, HL⟩ := numLearn_spec hD.names hc.functions h
  have ht := hF.text
  obtain ⟨rel', hrel', hC, hS, hP⟩ := hF.libs
  rw [hrel] at hrel'
  cases hrel'
  rw [HL.names] at ha
  have hlk : ∃ m, al.lookup a = some m := by
    cases hl : al.lookup a with
    | none => rw [Py.lookup_none_iff] at hl; exact absurd ha hl
    | some m => exact ⟨m, rfl⟩
  obtain ⟨m, hm'⟩ := hlk
  obtain ⟨haD, _, hu, hsafe⟩ := HL.allowed _ (lookup_mem hm')
  dsimp only at haD hu hsafe
  have hpart : N'.num a = m := by rw [HL.part, hm']; rfl
  rw [hpart]
  have H := fullObs (hD.sigs a haD) hT hG haD ht hF.good
  have hne : scopeFns cfg D a ≠ [] := by
    obtain ⟨f, hf⟩ := hF.some
    exact List.ne_nil_of_mem (mem_scopeFns.mpr hf)
  have S := storeOf_shape hne _ H (HL.matched a)
  unfold safeAction at hsafe
  rw [hrel] at hsafe
  simp only [Bind.bind, Except.bind] at hsafe
  cases hnp : numericPre cfg rel (storeOf cfg D a (usableN obs.flatten a)) with
  | error e => rw [hnp] at hsafe; simp at hsafe
  | ok cs =>
    cases hne' : numericEff cfg rel (storeOf cfg D a (usableN obs.flatten a)) with
    | error e => rw [hnp, hne'] at hsafe; simp at hsafe
    | ok es =>
      rw [hnp, hne'] at hsafe
      simp only [Except.ok.injEq] at hsafe
      subst hsafe
      dsimp only
      unfold numericPre at hnp
      by_cases hr0 : rel = some []
      · rw [if_pos hr0] at hnp
        simp only [Except.ok.injEq] at hnp
        subst hnp hr0
        refine iff_of_true (by simp) (inHull_congr (cols := []) (fun c => by simp [usedCols]) |>.mp (inHull_nil_cols ?_ _))
        simpa using hu
      · rw [if_neg hr0, hc.plain, S.hullCols hu, S.hullRows hu] at hnp
        cases hsi : safeInequalities cfg.lib cfg.digits cfg.margin true polyExp rel (prevColumns cfg D a)
            (dedupBy (fun r : List String → K => (prevColumns cfg D a).map r) ((usableN obs.flatten a).map (prevRow cfg D a))) with
        | notSafe => rw [hsi] at hnp; simp at hnp
        | crash => rw [hsi] at hnp; simp at hnp
        | conds cs' =>
          rw [hsi] at hnp
          dsimp only at hnp
          split_ifs at hnp
          simp only [Except.ok.injEq] at hnp
          subst hnp
          rw [hS.elim (fun hS => C55_precondition_is_hull hS hsi x) fun hS => C70_projected_precondition_is_hull hS hsi x]
          constructor
          · exact inHull_trans fun r hr => inHull_row (dedupBy_mem hr)
          · refine inHull_trans ?_
            intro r hr
            obtain ⟨r', k1, k2⟩ := dedupBy_rep (key := fun r : List String → K => (prevColumns cfg D a).map r) hr
            exact inHull_agree (fun c hc => List.map_inj_left.mp k2 c (usedCols_sub hc)) (inHull_row k1)

theorem good_of (hG : GoodData D truth (obs₂.map fun o => o.map NumComponent.comp)) (hsub : ∀ c ∈ obs₁.flatten, c ∈ obs₂.flatten) :
    GoodData D truth (obs₁.map fun o => o.map NumComponent.comp) := by
  have hs : ∀ c ∈ (obs₁.map fun o => o.map NumComponent.comp).flatten, c ∈ (obs₂.map fun o => o.map NumComponent.comp).flatten := by
    intro c hc
    rw [← List.map_flatten] at hc ⊢
    obtain ⟨d, hd, rfl⟩ := List.mem_map.mp hc
    exact List.mem_map_of_mem (hsub d hd)
  exact ⟨fun c hc => hG.explained c (hs c hc), fun c hc => hG.noConst c (hs c hc)⟩

/-- **C125, conditions.** With more observations the boolean preconditions of an action returned both times are among the earlier ones and its numeric
condition accepts every state it accepted. -/
theorem C125_conditions (hD : WFDomain D) (hT : WFTruth D truth) (hG : GoodData D truth (obs₂.map fun o => o.map NumComponent.comp)) (hc : Settings cfg)
    (hsub : ∀ c ∈ obs₁.flatten, c ∈ obs₂.flatten)
    (h₁ : (NumLearner.init D .noRemove).learn cfg obs₁ = .ok (N₁, info₁)) (h₂ : (NumLearner.init D .noRemove).learn cfg obs₂ = .ok (N₂, info₂))
    {a : String} (ha₁ : a ∈ N₁.base.dom.names) (ha₂ : a ∈ N₂.base.dom.names)
    {A : NumSchema K} (hF₁ : Fits cfg D obs₁ N₁ a A) (hF₂ : Fits cfg D obs₂ N₂ a A) :
    (N₂.base.dom.act a).pre ⊆ (N₁.base.dom.act a).pre ∧
    ∀ x, (∀ q ∈ (N₁.num a).pre, q.holds x) → ∀ q ∈ (N₂.num a).pre, q.holds x := by
  obtain ⟨haD, _⟩ := NumPlans.static hD hc h₁ ha₁
  constructor
  · obtain ⟨L₁, al₁, HL₁⟩ := numLearn_spec hD.names hc.functions h₁
    obtain ⟨L₂, al₂, HL₂⟩ := numLearn_spec hD.names hc.functions h₂
    have ha₁' := ha₁
    rw [HL₁.names] at ha₁'
    rw [HL₂.names] at ha₂
    obtain ⟨r₁, e₁⟩ := HL₁.base
    obtain ⟨r₂, e₂⟩ := HL₂.base
    rw [HL₁.pre a ha₁', HL₂.pre a ha₂]
    obtain ⟨p, hp, rfl⟩ := List.mem_map.mp ha₁'
    obtain ⟨c, hc'⟩ := List.exists_mem_of_ne_nil _ (HL₁.allowed p hp).2.2.1
    obtain ⟨q1, q2⟩ := mem_usableN.mp hc'
    refine (C06_preconditions_shrink hD (by decide) ?_ e₁ e₂ haD ⟨c.comp, ?_, q2⟩).1
    · intro d hd
      rw [← List.map_flatten] at hd ⊢
      obtain ⟨d', hd', rfl⟩ := List.mem_map.mp hd
      exact List.mem_map_of_mem (hsub d' hd')
    · rw [← List.map_flatten]; exact List.mem_map_of_mem q1
  · intro x hx
    obtain ⟨rel, hrel, _⟩ := hF₁.libs
    rw [pre_iff hD hT hG hc h₂ ha₂ hF₂ hrel]
    rw [pre_iff hD hT (good_of hG hsub) hc h₁ ha₁ hF₁ hrel] at hx
    refine inHull_trans ?_ hx
    intro r hr
    obtain ⟨c, hc', rfl⟩ := List.mem_map.mp hr
    obtain ⟨q1, q2⟩ := mem_usableN.mp hc'
    exact inHull_row (List.mem_map_of_mem (mem_usableN.mpr ⟨hsub c q1, q2⟩))

/-- **C125, one step.** A step with distinct objects of the domain learned from some observations is a step of the domain learned from more, if that
still has the action. -/
theorem C125_step (hD : WFDomain D) (hT : WFTruth D truth) (hG : GoodData D truth (obs₂.map fun o => o.map NumComponent.comp)) (hc : Settings cfg)
    (hsub : ∀ c ∈ obs₁.flatten, c ∈ obs₂.flatten)
    (h₁ : (NumLearner.init D .noRemove).learn cfg obs₁ = .ok (N₁, info₁)) (h₂ : (NumLearner.init D .noRemove).learn cfg obs₂ = .ok (N₂, info₂))
    (hF₁ : ∀ a ∈ N₁.base.dom.names, Fits cfg D obs₁ N₁ a (num a)) (hF₂ : ∀ a ∈ N₂.base.dom.names, Fits cfg D obs₂ N₂ a (num a))
    {s s' : NState K} {c : Call} (hd : c.params.Nodup ∧ ∀ o ∈ c.params, o ∉ Sig.names D.consts) (hk : c.name ∈ N₂.base.dom.names)
    (hs : (returnedNum cfg.txt cfg.fns D.consts N₁).step cfg.txt s c s') : (returnedNum cfg.txt cfg.fns D.consts N₂).step cfg.txt s c s' := by
  obtain ⟨⟨t1, t2, t3, _, t5⟩, t6, t7, t8⟩ := C118_step hD hT (good_of hG hsub) hc h₁ hF₁ hd hs
  obtain ⟨⟨h1, h2, h3, _, _⟩, h6, _, _⟩ := hs
  have h1' : c.name ∈ N₁.base.dom.names := h1
  obtain ⟨ha, hsig₁⟩ := NumPlans.static hD hc h₁ h1'
  obtain ⟨_, hsig₂⟩ := NumPlans.static hD hc h₂ hk
  have hF := hF₂ _ hk
  obtain ⟨rel, hrel, hC, hS, hP⟩ := hF.libs
  have hp := hT.params _ ha
  simp only [returnedNum, returned, Strips.binding, hsig₁] at h2 h3 h6
  simp only [realNum, real, Strips.binding, hp] at t5 t7 t8
  obtain ⟨k1, k2⟩ := C125_conditions hD hT hG hc hsub h₁ h₂ h1' hk (hF₁ _ h1') hF
  have happ : applicable (N₂.base.dom.act c.name).pre (subst (Sig.names (D.act c.name).sig) c.params) s.1 := fun l hl => h3 l (k1 hl)
  have hnum := k2 _ h6
  obtain ⟨_, _, j3, _, j5⟩ := C62_numeric_model_safe hD hT hG hc.functions hc.plain hc.safe hc.digits hc.reg h₂ hk hF.text hF.some
    hF.good hrel hC hS hP hF.noDivision _ _ _ happ hnum
  have hinj := subst_injective (hD.sigs _ ha) ⟨h2, hd.1, hd.2⟩
  refine ⟨⟨hk, ?_, ?_, ?_, ?_⟩, ?_, ?_, ?_⟩
  · simp only [returnedNum, returned, hsig₂]; exact h2
  · simp only [returnedNum, returned, Strips.binding, hsig₂]; exact happ
  · intro q hq
    have := C62_limit_inequalities_dropped hD.names hc.functions h₂ _ hk
    simp only [returnedNum, returned, this] at hq
    simp at hq
  · simp only [returnedNum, returned, Strips.binding, hsig₂]; rw [t5]; exact (j5 hinj).symm
  · simp only [returnedNum, returned, Strips.binding, hsig₂]; exact hnum
  · simp only [returnedNum, returned, Strips.binding, hsig₂]
    intro f hf
    rw [t7 f hf]; exact (j3 f hf).symm
  · simp only [returnedNum, returned, Strips.binding, hsig₂]; exact t8

/-- **C125, plans.** Every plan with distinct objects that solves a problem in the domain N-SAM learned from some observations solves it in the domain it
learned from more, if all its actions are still returned. -/
theorem C125_plans_kept (hD : WFDomain D) (hT : WFTruth D truth) (hG : GoodData D truth (obs₂.map fun o => o.map NumComponent.comp)) (hc : Settings cfg)
    (hsub : ∀ c ∈ obs₁.flatten, c ∈ obs₂.flatten)
    (h₁ : (NumLearner.init D .noRemove).learn cfg obs₁ = .ok (N₁, info₁)) (h₂ : (NumLearner.init D .noRemove).learn cfg obs₂ = .ok (N₂, info₂))
    (hF₁ : ∀ a ∈ N₁.base.dom.names, Fits cfg D obs₁ N₁ a (num a)) (hF₂ : ∀ a ∈ N₂.base.dom.names, Fits cfg D obs₂ N₂ a (num a))
    (P : NumProblem K) {plan : List Call} (hd : Distinct D.consts plan) (hk : ∀ c ∈ plan, c.name ∈ N₂.base.dom.names)
    (hs : (returnedNum cfg.txt cfg.fns D.consts N₁).Solves cfg.txt P plan) : (returnedNum cfg.txt cfg.fns D.consts N₂).Solves cfg.txt P plan := by
  obtain ⟨s, hl, hg⟩ := hs
  refine ⟨s, leads_of_steps (ok := fun c : Call => (c.params.Nodup ∧ ∀ o ∈ c.params, o ∉ Sig.names D.consts) ∧ c.name ∈ N₂.base.dom.names)
    (fun s a s' ha => C125_step hD hT hG hc hsub h₁ h₂ hF₁ hF₂ ha.1 ha.2) (fun c hc' => ⟨hd c hc', hk c hc'⟩) hl, hg⟩

end

section
open Model.IncNumSam Props.IncNumSam
variable {K : Type} [Field K] [LinearOrder K] [IsStrictOrderedRing K] [FloorRing K]
variable {cfg : NumCfg K} {D : Domain} {truth : String → Schema} {num : String → NumSchema K} {obs : List (List (NumComponent K))}
  {N' : IncLearner K} {info : List (String × NumStatus)}

/-- The domain incremental N-SAM returned. -/
def returnedInc (txt : Atom → String) (decls : List PredDecl) (consts : Sig) (N : IncLearner K) : NumStrips K :=
  returnedNum txt decls consts ⟨N.base, [], N.num⟩

/-- What C111 asks of a returned action, as in `Fits`. -/
structure FitsInc (cfg : NumCfg K) (D : Domain) (obs : List (List (NumComponent K))) (N' : IncLearner K) (a : String) (A : NumSchema K) : Prop where
  text : TextOK cfg.txt cfg.fns D.consts (D.act a).sig
  some : ∃ f, InScope cfg.fns D.consts (D.act a).sig f
  good : NumGood cfg D a A obs
  libs : ∃ rel, relevantOf cfg a = .ok rel ∧ NumConvex cfg.txt cfg.fns D.consts (D.act a).sig (usedCols rel (prevColumns cfg D a)) A ∧
    IncSetup cfg.lib cfg.digits polyExp (prevColumns cfg D a) (distinctRows (prevColumns cfg D a) [] (points cfg D a obs)) ∧
    CoefficientsPrintable cfg.reg cfg.digits (usedCols rel (prevColumns cfg D a)) (usedCols rel (nextColumns cfg D a)) (regressionRows cfg D a obs)
  noDivision : ∀ e ∈ (N'.num a).eff, e.op ≠ .scaleDown

theorem static_inc (hD : WFDomain D) (hc : Settings cfg) (h : (IncLearner.init D .noRemove).learn cfg obs = .ok (N', info)) {a : String}
    (ha : a ∈ N'.base.dom.names) : a ∈ D.names ∧ (N'.base.dom.act a).sig = (D.act a).sig := by
  obtain ⟨L', al, HL⟩ := incLearn_spec hD.names hc.functions h
  rw [HL.names] at ha
  obtain ⟨p, hp, rfl⟩ := List.mem_map.mp ha
  exact ⟨(HL.allowed p hp).1, HL.sig _ ha⟩

/-- **C125, incremental, one step.** A step with distinct objects of the domain incremental N-SAM returned is a step of the true domain. -/
theorem C125_incremental_step (hD : WFDomain D) (hT : WFTruth D truth) (hG : GoodData D truth (obs.map fun o => o.map NumComponent.comp)) (hc : Settings cfg)
    (h : (IncLearner.init D .noRemove).learn cfg obs = .ok (N', info)) (hF : ∀ a ∈ N'.base.dom.names, FitsInc cfg D obs N' a (num a))
    {s s' : NState K} {c : Call} (hd : c.params.Nodup ∧ ∀ o ∈ c.params, o ∉ Sig.names D.consts)
    (hs : (returnedInc cfg.txt cfg.fns D.consts N').step cfg.txt s c s') : (realNum cfg.fns D truth num).step cfg.txt s c s' := by
  obtain ⟨⟨h1, h2, h3, _, h5⟩, h6, h7, h8⟩ := hs
  have h1' : c.name ∈ N'.base.dom.names := h1
  obtain ⟨ha, hsig⟩ := static_inc hD hc h h1'
  obtain ⟨rel, hrel, hC, hS, hP⟩ := (hF _ h1').libs
  simp only [returnedInc, returnedNum, Spec.Plans.returned, Strips.binding, hsig] at h2 h3 h5 h6 h7 h8
  have hp := hT.params _ ha
  obtain ⟨k2, k3, _, k5⟩ := C111_safe hD hT hG hc.functions hc.plain hc.safe hc.digits hc.reg h h1' (hF _ h1').text (hF _ h1').some
    (hF _ h1').good hrel hC hS hP (hF _ h1').noDivision _ h6
  obtain ⟨k1, k5⟩ := k5 rfl _ _ h3
  have hinj := subst_injective (hD.sigs _ ha) ⟨h2, hd.1, hd.2⟩
  refine ⟨⟨ha, by simpa [realNum, real, hp] using h2, ?_, by intro q hq; simp [realNum, real] at hq, ?_⟩, ?_, ?_, ?_⟩
  · simp only [realNum, real, Strips.binding, hp]; exact k1
  · simp only [realNum, real, Strips.binding, hp]; rw [h5]; exact k5 hinj
  · simp only [realNum, real, Strips.binding, hp]; exact k2
  · simp only [realNum, real, Strips.binding, hp]
    intro f hf
    rw [h7 f hf]; exact k3 f hf
  · simp only [realNum, real, Strips.binding, hp]; exact h8

/-- **C125, incremental, plans.** Every plan with distinct objects that solves a problem in the domain incremental N-SAM returned (no negative
preconditions removed) solves it in the true one. -/
theorem C125_incremental_plans_correct (hD : WFDomain D) (hT : WFTruth D truth) (hG : GoodData D truth (obs.map fun o => o.map NumComponent.comp))
    (hc : Settings cfg) (h : (IncLearner.init D .noRemove).learn cfg obs = .ok (N', info))
    (hF : ∀ a ∈ N'.base.dom.names, FitsInc cfg D obs N' a (num a)) (P : NumProblem K) {plan : List Call} (hd : Distinct D.consts plan)
    (hs : (returnedInc cfg.txt cfg.fns D.consts N').Solves cfg.txt P plan) : (realNum cfg.fns D truth num).Solves cfg.txt P plan := by
  obtain ⟨s, hl, hg⟩ := hs
  exact ⟨s, leads_of_steps (ok := fun c : Call => c.params.Nodup ∧ ∀ o ∈ c.params, o ∉ Sig.names D.consts)
    (fun s a s' ha => C125_incremental_step hD hT hG hc h hF ha) hd hl, hg⟩

/-- **C125, the two learners.** On the same observations, with no relevant fluents named, a step whose action both learners returned is a step of the one
domain exactly when it is one of the other; so they have the same plans over such actions. -/
theorem C125_same_steps {policy : Policy} (hD : WFDomain D) (hT : WFTruth D truth) (hG : GoodData D truth (obs.map fun o => o.map NumComponent.comp))
    (hc : Settings cfg) (hnone : cfg.relevant = none)
    (h : (IncLearner.init D policy).learn cfg obs = .ok (N', info)) {M' : NumLearner K} {info' : List (String × NumStatus)}
    (h' : (NumLearner.init D policy).learn cfg obs = .ok (M', info')) {s s' : NState K} {c : Call}
    (ha : c.name ∈ N'.base.dom.names) (ha' : c.name ∈ M'.base.dom.names) {A : NumSchema K}
    (ht : TextOK cfg.txt cfg.fns D.consts (D.act c.name).sig) (hsc : ∃ f, InScope cfg.fns D.consts (D.act c.name).sig f)
    (hN : NumGood cfg D c.name A obs)
    (hS : IncSetup cfg.lib cfg.digits polyExp (prevColumns cfg D c.name) (distinctRows (prevColumns cfg D c.name) [] (points cfg D c.name obs)))
    (hS' : HullSetup cfg.lib cfg.digits polyExp (prevColumns cfg D c.name) (hullRows cfg D c.name obs)) :
    (returnedInc cfg.txt cfg.fns D.consts N').step cfg.txt s c s' ↔ (returnedNum cfg.txt cfg.fns D.consts M').step cfg.txt s c s' := by
  obtain ⟨e1, e2, e3, e4⟩ := C111_same_as_batch hD hT hG hc.functions hc.plain hnone h ha h' ha' ht hsc hN hS hS'
  obtain ⟨L1, al, HL⟩ := incLearn_spec hD.names hc.functions h
  obtain ⟨L2, bl, HB⟩ := numLearn_spec hD.names hc.functions h'
  have hal := ha
  rw [HL.names] at hal
  have hbl := ha'
  rw [HB.names] at hbl
  have s1 := HL.sig _ hal
  have s2 := HB.sig _ hbl
  have i1 := HL.ineq _ hal
  have i2 := HB.ineq _ hbl
  simp only [NumStrips.step, Strips.step, returnedInc, returnedNum, Spec.Plans.returned, Strips.binding, s1, s2, i1, i2, e1, e2, e3, e4, ha, ha']

theorem leads_congr {S T : Type} {r r' : S → T → S → Prop} : ∀ {l : List T} {s t : S}, (∀ c ∈ l, ∀ s s', r s c s' ↔ r' s c s') →
    (Leads r s l t ↔ Leads r' s l t)
  | [], _, _, _ => Iff.rfl
  | c :: l, s, t, h => by
    have ih : ∀ m, Leads r m l t ↔ Leads r' m l t := fun m => leads_congr fun c hc => h c (by simp [hc])
    simp only [Leads, ih, h c (by simp)]

/-- **C125, the two learners, plans.** -/
theorem C125_same_plans {policy : Policy} (hD : WFDomain D) (hT : WFTruth D truth) (hG : GoodData D truth (obs.map fun o => o.map NumComponent.comp))
    (hc : Settings cfg) (hnone : cfg.relevant = none)
    (h : (IncLearner.init D policy).learn cfg obs = .ok (N', info)) {M' : NumLearner K} {info' : List (String × NumStatus)}
    (h' : (NumLearner.init D policy).learn cfg obs = .ok (M', info')) (P : NumProblem K) {plan : List Call}
    (ha : ∀ c ∈ plan, c.name ∈ N'.base.dom.names ∧ c.name ∈ M'.base.dom.names)
    (hfit : ∀ c ∈ plan, TextOK cfg.txt cfg.fns D.consts (D.act c.name).sig ∧ (∃ f, InScope cfg.fns D.consts (D.act c.name).sig f) ∧
      NumGood cfg D c.name (num c.name) obs ∧
      IncSetup cfg.lib cfg.digits polyExp (prevColumns cfg D c.name) (distinctRows (prevColumns cfg D c.name) [] (points cfg D c.name obs)) ∧
      HullSetup cfg.lib cfg.digits polyExp (prevColumns cfg D c.name) (hullRows cfg D c.name obs)) :
    (returnedInc cfg.txt cfg.fns D.consts N').Solves cfg.txt P plan ↔ (returnedNum cfg.txt cfg.fns D.consts M').Solves cfg.txt P plan := by
  unfold NumStrips.Solves
  refine exists_congr fun s => and_congr_left fun _ => leads_congr fun c hc' s s' => ?_
  obtain ⟨f1, f2, f3, f4, f5⟩ := hfit c hc'
  exact C125_same_steps hD hT hG hc hnone h h' (ha c hc').1 (ha c hc').2 f1 f2 f3 f4 f5

end

/-! ### A concrete case: the data of `NumSamCase` and one more observation, in which the object was already at its destination too. -/
namespace Case
open NumWorld

def both : State := {⟨"at", ["b", "l1"]⟩, ⟨"at", ["b", "l2"]⟩, ⟨"power", []⟩}
def n5 : NumComponent ℚ := ⟨⟨both, ⟨"move", ["b", "l1", "l2"]⟩, World.s1, true⟩, n1.prevN, n1.nextN⟩
def more : List (List (NumComponent ℚ)) := NumWorld.obs ++ [[n5]]

theorem sub : ∀ c ∈ NumWorld.obs.flatten, c ∈ more.flatten := by
  intro c hc; rw [more, List.flatten_append]; exact List.mem_append_left _ hc

theorem mem_more {c : NumComponent ℚ} (h : c ∈ more.flatten) : c ∈ NumWorld.obs.flatten ∨ c = n5 := by
  rw [more, List.flatten_append] at h
  rcases List.mem_append.mp h with h | h
  · exact .inl h
  · exact .inr (by simpa using h)

theorem run : ∃ N' info, (NumLearner.init World.D).learn NumWorld.cfg more = .ok (N', info) ∧ N'.base.dom.names = ["move"] ∧
    (N'.num "move").eff = [⟨.decrease, "(fuel ?o)", .num 1⟩] ∧
    (⟨"at", ["?o", "?y"], false⟩ : Lit) ∉ (N'.base.dom.act "move").pre := by
  have h : (match (NumLearner.init World.D).learn NumWorld.cfg more with
    | .ok (N', _) => decide (N'.base.dom.names = ["move"] ∧ (N'.num "move").eff = [⟨.decrease, "(fuel ?o)", .num 1⟩] ∧
        (⟨"at", ["?o", "?y"], false⟩ : Lit) ∉ (N'.base.dom.act "move").pre)
    | .error _ => false) = true := by decide +kernel
  revert h
  cases (NumLearner.init World.D).learn NumWorld.cfg more with
  | error e => intro h; exact absurd h (by simp)
  | ok r => intro h; exact ⟨r.1, r.2, rfl, of_decide_eq_true h⟩

theorem good : GoodData World.D World.truth (more.map fun o => o.map NumComponent.comp) where
  explained := by
    intro c hc hs
    rw [← List.map_flatten] at hc
    obtain ⟨d, hd, rfl⟩ := List.mem_map.mp hc
    rcases mem_more hd with hd | rfl
    · exact NumWorld.good.explained _ (by rw [← List.map_flatten]; exact List.mem_map_of_mem hd) hs
    · exact ⟨rfl, by decide, by decide⟩
  noConst := by intro c _ _ _ o _; simp [World.D, Sig.names]

theorem explained : NumGood NumWorld.cfg World.D "move" truthN more := by
  intro c hc hs hn hd
  rcases mem_more hc with hc | rfl
  · exact NumWorld.explained c hc hs hn hd
  · have e := NumWorld.explained n1 (by simp [NumWorld.obs]) rfl rfl (by decide)
    exact ⟨e.prevKeys, e.nextKeys, e.prevArgs, e.nextArgs, e.prevDef, e.pre, e.next⟩

theorem usable_more : usableN more.flatten "move" = [n1, n2, n4, n5] := rfl
theorem usable_obs : usableN NumWorld.obs.flatten "move" = [n1, n2, n4] := rfl

theorem row5 : prevRow NumWorld.cfg World.D "move" n5 = prevRow NumWorld.cfg World.D "move" n1 := by
  funext m; rfl

theorem rows : hullRows NumWorld.cfg World.D "move" more = hullRows NumWorld.cfg World.D "move" NumWorld.obs := by
  unfold hullRows
  rw [usable_more, usable_obs]
  simp only [List.map_cons, List.map_nil, row5, show n4 = n2 from rfl]
  generalize prevRow NumWorld.cfg World.D "move" n1 = r1
  generalize prevRow NumWorld.cfg World.D "move" n2 = r2
  simp only [dedupBy, List.filter_cons, List.filter_nil]
  split_ifs <;> simp_all [List.filter_cons]

theorem printable : CoefficientsPrintable NumWorld.cfg.reg NumWorld.cfg.digits (usedCols none (prevColumns NumWorld.cfg World.D "move"))
    (usedCols none (nextColumns NumWorld.cfg World.D "move")) (regressionRows NumWorld.cfg World.D "move" more) := by
  rw [cols_eq, nextCols_eq]
  intro f hf
  have : f = ["(fuel ?o)"] := by simpa [usedCols] using hf
  subst this
  have e0 : regFeats NumWorld.cfg.digits (usedCols none [["(fuel ?o)"]]) (usedCols none [["(fuel ?o)"]])
      (regressionRows NumWorld.cfg World.D "move" more) = [["(fuel ?o)"]] := by decide +kernel
  rw [e0]
  have e : NumWorld.cfg.reg.solve [["(fuel ?o)"]] (regLabels (usedCols none [["(fuel ?o)"]]) (usedCols none [["(fuel ?o)"]])
      (regressionRows NumWorld.cfg World.D "move" more) ["(fuel ?o)"]) = (([1], -1), true) := by decide +kernel
  rw [e]
  refine ⟨?_, ?_⟩
  · intro c hc
    simp only [List.cons_append, List.nil_append, List.mem_cons, List.not_mem_nil, or_false] at hc
    rcases hc with rfl | rfl
    · exact_mod_cast p4 1
    · exact_mod_cast p4 (-1)
  · intro i hi hi' _
    have : i = 0 := by simpa using hi
    subst this
    left
    simp

theorem fits {N' : NumLearner ℚ} {info : List (String × NumStatus)} (h : (NumLearner.init World.D).learn NumWorld.cfg more = .ok (N', info)) :
    ∀ a ∈ N'.base.dom.names, Fits NumWorld.cfg World.D more N' a truthN := by
  obtain ⟨N, i, h', hn, he, _⟩ := run
  rw [h'] at h
  simp only [Except.ok.injEq, Prod.mk.injEq] at h
  obtain ⟨rfl, rfl⟩ := h
  intro a ha
  rw [hn] at ha
  simp only [List.mem_cons, List.not_mem_nil, or_false] at ha
  subst ha
  exact ⟨textOK, ⟨_, scope_iff.mpr rfl⟩, explained, ⟨none, rfl, convex, Or.inl (by rw [rows]; exact setup), printable⟩, by rw [he]; decide⟩

/-- C125 applies: every problem solved by moves in the domain learned from the first observations is solved by the same moves in the other, which has
one precondition less. -/
example : ∃ N₁ info₁ N₂ info₂, (NumLearner.init World.D).learn NumWorld.cfg NumWorld.obs = .ok (N₁, info₁) ∧
    (NumLearner.init World.D).learn NumWorld.cfg more = .ok (N₂, info₂) ∧
    (N₁.base.dom.act "move").pre ≠ (N₂.base.dom.act "move").pre ∧
    ∀ (P : NumProblem ℚ) (plan : List Call), Distinct World.D.consts plan → (∀ c ∈ plan, c.name = "move") →
      (returnedNum NumWorld.cfg.txt NumWorld.cfg.fns World.D.consts N₁).Solves NumWorld.cfg.txt P plan →
      (returnedNum NumWorld.cfg.txt NumWorld.cfg.fns World.D.consts N₂).Solves NumWorld.cfg.txt P plan := by
  obtain ⟨N₁, i₁, h₁, hn₁, _⟩ := NumWorld.run
  obtain ⟨N₂, i₂, h₂, hn₂, _, hl⟩ := run
  refine ⟨N₁, i₁, N₂, i₂, h₁, h₂, ?_, fun P plan hd hm hs => ?_⟩
  · have hh : (match (NumLearner.init World.D).learn NumWorld.cfg NumWorld.obs with
      | .ok (N', _) => decide ((⟨"at", ["?o", "?y"], false⟩ : Lit) ∈ (N'.base.dom.act "move").pre)
      | .error _ => false) = true := by decide +kernel
    rw [h₁] at hh
    intro e
    rw [← e] at hl
    exact hl (of_decide_eq_true hh)
  · exact C125_plans_kept World.wfD World.wfT good NumPlans.Case.settings sub h₁ h₂ (NumPlans.Case.fits h₁) (fits h₂) P hd
      (fun c hc => by rw [hn₂, hm c hc]; simp) hs

open Model.IncNumSam Props.IncNumSam in
theorem settingsInc : Settings Props.IncNumSam.Case.cfg :=
  ⟨by simp [IncNumSam.Case.cfg, NumWorld.cfg], rfl, rfl, by decide, guess_contract _⟩

/-- The hypotheses of the theorem about incremental N-SAM hold. -/
example : ∃ N' info, (Model.IncNumSam.IncLearner.init World.D .noRemove).learn IncNumSam.Case.cfg NumWorld.obs = .ok (N', info) ∧
    ∀ (P : NumProblem ℚ) (plan : List Call), Distinct World.D.consts plan →
      (returnedInc IncNumSam.Case.cfg.txt IncNumSam.Case.cfg.fns World.D.consts N').Solves IncNumSam.Case.cfg.txt P plan →
      (realNum IncNumSam.Case.cfg.fns World.D World.truth fun _ => truthN).Solves IncNumSam.Case.cfg.txt P plan := by
  obtain ⟨N', info, h, hn, hp, he, _⟩ := IncNumSam.Case.run .noRemove (.inl rfl)
  refine ⟨N', info, h, fun P plan hd hs => C125_incremental_plans_correct World.wfD World.wfT NumWorld.good settingsInc h ?_ P hd hs⟩
  intro a ha
  rw [hn] at ha
  simp only [List.mem_cons, List.not_mem_nil, or_false] at ha
  subst ha
  exact ⟨textOK, ⟨_, scope_iff.mpr rfl⟩, NumWorld.explained, ⟨none, rfl, convex, IncNumSam.Case.setup, NumWorld.printable⟩, by rw [he]; decide⟩

/-- A plan of that domain: with 4 units of fuel, which was never observed, one move. -/
theorem inc_step : ∃ N' info, (Model.IncNumSam.IncLearner.init World.D .noRemove).learn IncNumSam.Case.cfg NumWorld.obs = .ok (N', info) ∧
    (returnedInc IncNumSam.Case.cfg.txt IncNumSam.Case.cfg.fns World.D.consts N').toStrips.step (NumPlans.Case.st "l7") (NumPlans.Case.go "l7" "l8")
      (NumPlans.Case.st "l8") ∧ (∀ q ∈ (N'.num "move").pre, q.holds fun _ => 4) ∧ applyNumeric (N'.num "move").eff (fun _ => 4) "(fuel ?o)" = 3 := by
  obtain ⟨N', info, h, hn, hp, he, _⟩ := IncNumSam.Case.run .noRemove (.inl rfl)
  have hh : (match (Model.IncNumSam.IncLearner.init World.D .noRemove).learn IncNumSam.Case.cfg NumWorld.obs with
      | .ok (N', _) => decide ((returned N'.base.dom).step (NumPlans.Case.st "l7") (NumPlans.Case.go "l7" "l8") (NumPlans.Case.st "l8"))
      | .error _ => false) = true := by decide +kernel
  rw [h] at hh
  refine ⟨N', info, h, of_decide_eq_true hh, ?_, ?_⟩
  · rw [hp]
    intro q hq
    simp only [IncNumSam.Case.preOf, List.mem_cons, List.not_mem_nil, or_false] at hq
    rcases hq with rfl | rfl
    · show (3 : ℚ) ≤ 4; norm_num
    · show (4 : ℚ) ≤ 5; norm_num
  · rw [he]; show (4 : ℚ) - 1 = 3; norm_num

/-- **C125, limit.** An action can be lost with more observations: with two points `move` is returned; a third point makes the hull two-dimensional,
Qhull raises and the action is not returned. So the condition that the actions are still returned cannot be dropped. -/
theorem C125_limit_lost : ∃ (cfg : NumCfg ℚ) (obs₁ obs₂ : List (List (NumComponent ℚ))) (N₁ N₂ : NumLearner ℚ) (i₁ i₂ : List (String × NumStatus)),
    (∀ c ∈ obs₁.flatten, c ∈ obs₂.flatten) ∧ (NumLearner.init World.D .noRemove).learn cfg obs₁ = .ok (N₁, i₁) ∧
    (NumLearner.init World.D .noRemove).learn cfg obs₂ = .ok (N₂, i₂) ∧ "move" ∈ N₁.base.dom.names ∧ "move" ∉ N₂.base.dom.names := by
  have h1 : (match (NumLearner.init World.D .noRemove).learn IncNumSam.Case.failing (IncNumSam.Case.plane.take 2) with
      | .ok (N', _) => decide ("move" ∈ N'.base.dom.names)
      | .error _ => false) = true := by decide +kernel
  have h2 : (match (NumLearner.init World.D .noRemove).learn IncNumSam.Case.failing IncNumSam.Case.plane with
      | .ok (N', _) => decide ("move" ∉ N'.base.dom.names)
      | .error _ => false) = true := by decide +kernel
  refine ⟨IncNumSam.Case.failing, IncNumSam.Case.plane.take 2, IncNumSam.Case.plane, ?_⟩
  revert h1 h2
  cases e1 : (NumLearner.init World.D .noRemove).learn IncNumSam.Case.failing (IncNumSam.Case.plane.take 2) with
  | error e => intro h; exact absurd h (by simp)
  | ok r1 =>
    cases e2 : (NumLearner.init World.D .noRemove).learn IncNumSam.Case.failing IncNumSam.Case.plane with
    | error e => intro _ h; exact absurd h (by simp)
    | ok r2 =>
      intro h1 h2
      refine ⟨r1.1, r2.1, r1.2, r2.2, ?_, rfl, rfl, of_decide_eq_true h1, of_decide_eq_true h2⟩
      intro c hc
      simp only [IncNumSam.Case.plane, List.take, List.flatten_cons, List.flatten_nil, List.cons_append, List.nil_append, List.mem_cons,
        List.not_mem_nil, or_false, List.append_nil] at hc ⊢
      rcases hc with rfl | rfl <;> simp

end Case
end NumCurve
end Props

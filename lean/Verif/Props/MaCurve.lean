import Verif.Lemmas.MaForm
import Verif.Props.TripletsJob
import Verif.Props.MacroSafe

/-! C123: MA-SAM compared with the single-agent baseline and with itself on more data. -/
namespace Props
namespace MaCurve
open Model Model.Triplets Spec Spec.Plans Props.Triplets

section
variable {D : Domain} {truth : String → Schema} {obs obs₁ obs₂ : List (List JointComponent)} {L' L₁ L₂ : MaLearner}
  {rep rep₁ rep₂ : List (String × Status)} {ord ord₁ ord₂ : Finset Lit → List Lit}

theorem mem_us {u : Component} : u ∈ obs.flatten.flatMap usableCalls ↔
    ∃ c ∈ obs.flatten, JointComponent.NoDup c ∧ ∃ k ∈ c.calls, u = single c k := by
  rw [List.mem_flatMap]
  exact ⟨fun ⟨c, hc, hu⟩ => ⟨c, hc, mem_usableCalls.mp hu⟩, fun ⟨c, hc, hu⟩ => ⟨c, hc, mem_usableCalls.mpr hu⟩⟩

/-- **C123, what the preconditions are.** The preconditions of MA-SAM are exactly the well-typed literals that held before every execution of the action in
a joint action without repeated objects, whoever acted besides. -/
theorem C123_preconditions (hD : WFDomain D) (hc : D.consts = [])
    (h : (MaLearner.init D .noRemove).learn ord obs = .ok (L', rep)) {a : String} (ha : a ∈ D.names)
    (harity : ∀ c ∈ obs.flatten, JointComponent.NoDup c → ∀ k ∈ c.calls, k.name = a → k.params.length = (D.act a).sig.length) (l : Lit) :
    l ∈ (L'.base.dom.act a).pre ↔ TypedLit D.preds (D.act a).sig l ∧
      ∀ c ∈ obs.flatten, JointComponent.NoDup c → ∀ k ∈ c.calls, k.name = a →
        holds c.prev (ground (subst (Sig.names (D.act a).sig) k.params) l) := by
  obtain ⟨hF, _⟩ := ma_form hD h
  have hsig : (D.act a).sig ++ D.consts = (D.act a).sig := by rw [hc, List.append_nil]
  have hobs : ∀ c ∈ obs.flatten, JointComponent.NoDup c → ∀ k ∈ c.calls, k.name = a → (l ∈ obsPrev D (single c k) ↔
      TypedLit D.preds (D.act a).sig l ∧ holds c.prev (ground (subst (Sig.names (D.act a).sig) k.params) l)) := by
    rintro c hc' hn k hk rfl
    have hgood : GoodCall D.consts (D.act k.name).sig k.params :=
      ⟨harity c hc' hn k hk rfl, hn k hk, fun o _ h => by rw [hc] at h; cases h⟩
    have := obsPrev_iff (D := D) (c := single c k) (l := l) (hD.sigs _ ha) hgood
    rw [show (single c k).call = k from rfl, hsig] at this
    exact this
  rw [hF.pre a ha, liftedVocab_typed (hD.sigs a ha), hsig]
  constructor
  · rintro (⟨⟨u, hu, e⟩, h2⟩ | ⟨h1, h2⟩)
    · constructor
      · have hin := h2 u hu e
        obtain ⟨c, hc', hn, k, hk, rfl⟩ := mem_us.mp hu
        exact ((hobs c hc' hn k hk e).mp hin).1
      · intro c hc' hn k hk e
        exact ((hobs c hc' hn k hk e).mp (h2 _ (mem_us.mpr ⟨c, hc', hn, k, hk, rfl⟩) e)).2
    · refine ⟨h2, fun c hc' hn k hk e => ?_⟩
      exact absurd e (h1 _ (mem_us.mpr ⟨c, hc', hn, k, hk, rfl⟩))
  · rintro ⟨h1, h2⟩
    by_cases ho : ∃ u ∈ obs.flatten.flatMap usableCalls, u.call.name = a
    · refine Or.inl ⟨ho, fun u hu e => ?_⟩
      obtain ⟨c, hc', hn, k, hk, rfl⟩ := mem_us.mp hu
      exact (hobs c hc' hn k hk e).mpr ⟨h1, h2 c hc' hn k hk e⟩
    · exact Or.inr ⟨fun u hu e => ho ⟨u, hu, e⟩, h1⟩

/-- **C123, what is returned.** An action of the domain that acts alone whenever it is executed (joint actions with repeated objects aside) is returned. -/
theorem C123_alone_returned (hD : WFDomain D) (h : (MaLearner.init D .noRemove).learn ord obs = .ok (L', rep)) {a : String} (ha : a ∈ D.names)
    (halone : ∀ c ∈ obs.flatten, JointComponent.NoDup c → (∃ k ∈ c.calls, k.name = a) → c.calls.length = 1) : a ∈ L'.base.dom.names := by
  refine (ma_form hD h).2 a ha fun c hc hn => ?_
  by_cases hk : ∃ k ∈ c.calls, k.name = a
  · exact Or.inl (halone c hc hn hk)
  · exact Or.inr fun k hk' e => hk ⟨k, hk', e⟩

theorem good_arity (hT : WFTruth D truth) (hG : GoodJointData D truth obs) {a : String} (ha : a ∈ D.names) :
    ∀ c ∈ obs.flatten, JointComponent.NoDup c → ∀ k ∈ c.calls, k.name = a → k.params.length = (D.act a).sig.length := by
  rintro c hc hn k hk rfl
  rw [(hG.explained c hc hn).arity k hk, hT.params _ ha]

/-- A step of a returned action from its closed form. -/
theorem step_of (ho : GoodOrd ord) (hD : WFDomain D) (hT : WFTruth D truth) (hc : D.consts = []) (hG : GoodJointData D truth obs)
    (h : (MaLearner.init D .noRemove).learn ord obs = .ok (L', rep)) {s : State} {c : Call} (hn : c.params.Nodup)
    (ha : c.name ∈ L'.base.dom.names) (hl : c.params.length = (D.act c.name).sig.length)
    (hp : applicable (L'.base.dom.act c.name).pre (subst (Sig.names (D.act c.name).sig) c.params) s)
    (hi : ineqHolds (L'.base.dom.act c.name).ineq (subst (Sig.names (D.act c.name).sig) c.params)) :
    (returned L'.base.dom).step s c (successor (truth c.name).eff (subst (Sig.names (D.act c.name).sig) c.params) s) := by
  have hF := ma_final ho hD hT hc hG h
  have haD := hF.names _ ha
  refine ⟨ha, by simpa [returned, hF.sig] using hl, ?_, ?_, ?_⟩
  · simpa only [returned, Strips.binding, hF.sig] using hp
  · simpa only [returned, Strips.binding, hF.sig] using hi
  · simp only [returned, Strips.binding, hF.sig]
    have hinj := subst_injective (hD.sigs _ haD) ⟨hl, hn, fun o _ h => by rw [hc] at h; cases h⟩
    exact ((C22_returned_actions_safe_partial ho hD hT hc hG h ha _ s hp).2 hinj).symm

/-- MA-SAM's preconditions and inequalities are among those of the baseline, also for actions the baseline never saw. -/
theorem below_baseline (hD : WFDomain D) (hT : WFTruth D truth) (hc : D.consts = []) (hG : GoodJointData D truth obs)
    (h : (MaLearner.init D .noRemove).learn ord obs = .ok (L', rep)) {r : List (List Component)} (hr : baselineAll obs = .ok r) {B : Learner}
    (hB : (Learner.init D .noRemove true).learn r = .ok (B, rep₂)) {a : String} (ha : a ∈ D.names) :
    (L'.base.dom.act a).pre ⊆ (B.dom.act a).pre ∧ (L'.base.dom.act a).ineq ⊆ (B.dom.act a).ineq := by
  obtain ⟨hF, _⟩ := ma_form hD h
  have hsub : ∀ x ∈ r.flatten, ∃ c ∈ obs.flatten, ∃ k, c.calls = [k] ∧ x = single c k := by
    intro x hx
    rw [baselineAll_mem hr, ← List.flatMap_def] at hx
    obtain ⟨o, ho, hx⟩ := List.mem_flatMap.mp hx
    obtain ⟨c, hc', k, hk, e⟩ := Curve.mem_singles.mp hx
    exact ⟨c, List.mem_flatten.mpr ⟨o, ho, hc'⟩, k, hk, e⟩
  constructor
  · intro l hl
    rw [(closed_form hD hB ha).1 l]
    refine ⟨?_, Or.inr (Or.inl rfl)⟩
    by_cases hu : usable r.flatten a = []
    · refine Or.inr ⟨hu, (liftedVocab_typed (hD.sigs a ha)).mpr ?_⟩
      rw [hc, List.append_nil]
      exact ((C123_preconditions hD hc h ha (good_arity hT hG ha) l).mp hl).1
    · refine Or.inl ⟨hu, fun x hx => ?_⟩
      obtain ⟨hx1, _, hx3, hx4⟩ := mem_usable.mp hx
      obtain ⟨c, hc', k, hk, rfl⟩ := hsub x hx1
      have hin : single c k ∈ obs.flatten.flatMap usableCalls :=
        mem_us.mpr ⟨c, hc', fun k' hk' => by rw [hk, List.mem_singleton] at hk'; subst hk'; exact hx4, k, by rw [hk]; simp, rfl⟩
      rcases (hF.pre a ha l).mp hl with ⟨_, h2⟩ | ⟨h1, _⟩
      · exact h2 _ hin hx3
      · exact absurd hx3 (h1 _ hin)
  · intro q hq
    rw [ineq_form hD hB ha]
    obtain ⟨h1, h2⟩ := (hF.ineq a ha q).mp hq
    refine ⟨⟨rfl, h1⟩, fun x hx _ e hn hd => h2 ?_⟩
    obtain ⟨c, hc', k, hk, rfl⟩ := hsub x hx
    exact ⟨k, List.mem_flatMap.mpr ⟨c, hc', by rw [hk]; simp⟩, e, hn, hd⟩

/-- **C123, better than the baseline.** On good joint data, a plan with distinct objects that solves a problem in the domain the single-agent baseline
learned from the same joint trajectories, and uses only actions MA-SAM returned, solves it in the domain MA-SAM returned and in the true domain. -/
theorem C123_dominates_baseline (ho : GoodOrd ord) (hD : WFDomain D) (hT : WFTruth D truth) (hc : D.consts = []) (hG : GoodJointData D truth obs)
    (hreal : ∀ c ∈ obs.flatten, JointExplained truth c)
    (h : (MaLearner.init D .noRemove).learn ord obs = .ok (L', rep)) {r : List (List Component)} (hr : baselineAll obs = .ok r) {B : Learner}
    (hB : (Learner.init D .noRemove true).learn r = .ok (B, rep₂)) (P : Problem) {plan : List Call} (hd : Distinct D.consts plan)
    (hret : ∀ c ∈ plan, c.name ∈ L'.base.dom.names) (hs : (returned B.dom).Solves P plan) :
    (returned L'.base.dom).Solves P plan ∧ (real D truth).Solves P plan := by
  have hGB : GoodData D truth r := by
    have key : ∀ x ∈ r.flatten, ∃ c ∈ obs.flatten, ∃ k, c.calls = [k] ∧ x = single c k := by
      intro x hx
      rw [baselineAll_mem hr, ← List.flatMap_def] at hx
      obtain ⟨o, ho, hx⟩ := List.mem_flatMap.mp hx
      obtain ⟨c, hc', k, hk, e⟩ := Curve.mem_singles.mp hx
      exact ⟨c, List.mem_flatten.mpr ⟨o, ho, hc'⟩, k, hk, e⟩
    constructor
    · intro x hx _
      obtain ⟨c, hc', k, hk, rfl⟩ := key x hx
      exact explained_of_single hk (hreal c hc')
    · intro x hx _ _ o _ ho
      rw [hc] at ho; cases ho
  obtain ⟨s, hl, hg⟩ := hs
  have hLs : (returned L'.base.dom).Solves P plan := by
    refine ⟨s, Props.Plans.leads_of_steps (ok := fun c : Call => c.params.Nodup ∧ c.name ∈ L'.base.dom.names) ?_
      (fun c hc' => ⟨(hd c hc').1, hret c hc'⟩) hl, hg⟩
    rintro s c s' ⟨hn, hin⟩ ⟨k1, k2, k3, k4, k5⟩
    obtain ⟨n1, s1⟩ := Props.Plans.static hD hB
    simp only [returned, Strips.binding, n1, s1] at k1 k2 k3 k4 k5
    obtain ⟨b1, b2⟩ := below_baseline hD hT hc hG h hr hB k1
    have hinj := subst_injective (hD.sigs _ k1) ⟨k2, hn, fun o _ h => by rw [hc] at h; cases h⟩
    rw [k5, C02_effects_exact hD hT hGB hB k1 _ hinj _ k3]
    exact step_of ho hD hT hc hG h hn hin k2 (fun l hl => k3 l (b1 hl)) (fun q hq => k4 q (b2 hq))
  exact ⟨hLs, Props.Plans.C117_multi_agent_plans ho hD hT hc hG h P hd hLs⟩

/-- **C123, more data.** On good joint data, a plan with distinct objects that solves a problem in the domain MA-SAM learned from a part of the joint
transitions, and uses only actions it still returns, solves it in the domain MA-SAM learned from all of them. -/
theorem C123_plans_kept (ho₁ : GoodOrd ord₁) (ho₂ : GoodOrd ord₂) (hD : WFDomain D) (hT : WFTruth D truth) (hc : D.consts = [])
    (hG : GoodJointData D truth obs₂) (hsub : ∀ c ∈ obs₁.flatten, c ∈ obs₂.flatten)
    (h₁ : (MaLearner.init D .noRemove).learn ord₁ obs₁ = .ok (L₁, rep₁)) (h₂ : (MaLearner.init D .noRemove).learn ord₂ obs₂ = .ok (L₂, rep₂))
    (P : Problem) {plan : List Call} (hd : Distinct D.consts plan) (hret : ∀ c ∈ plan, c.name ∈ L₂.base.dom.names)
    (hs : (returned L₁.base.dom).Solves P plan) : (returned L₂.base.dom).Solves P plan := by
  have hG₁ : GoodJointData D truth obs₁ :=
    ⟨fun c hc => hG.explained c (hsub c hc), fun c hc => hG.distinct c (hsub c hc), fun c hc => hG.covered c (hsub c hc)⟩
  obtain ⟨s, hl, hg⟩ := hs
  refine ⟨s, Props.Plans.leads_of_steps (ok := fun c : Call => c.params.Nodup ∧ c.name ∈ L₂.base.dom.names) ?_
    (fun c hc' => ⟨(hd c hc').1, hret c hc'⟩) hl, hg⟩
  rintro s c s' ⟨hn, hin⟩ ⟨k1, k2, k3, k4, k5⟩
  have hF := ma_final ho₁ hD hT hc hG₁ h₁
  simp only [returned, Strips.binding, hF.sig] at k1 k2 k3 k4 k5
  have haD := hF.names _ k1
  have hinj := subst_injective (hD.sigs _ haD) ⟨k2, hn, fun o _ h => by rw [hc] at h; cases h⟩
  rw [k5, (C22_returned_actions_safe_partial ho₁ hD hT hc hG₁ h₁ k1 _ s k3).2 hinj]
  refine step_of ho₂ hD hT hc hG h₂ hn hin k2 (fun l hl => k3 l ?_) (fun q hq => k4 q ?_)
  · rw [C123_preconditions hD hc h₁ haD (good_arity hT hG₁ haD)]
    obtain ⟨t1, t2⟩ := (C123_preconditions hD hc h₂ haD (good_arity hT hG haD) l).mp hl
    exact ⟨t1, fun c hc => t2 c (hsub c hc)⟩
  · obtain ⟨q1, q2⟩ := ((ma_form hD h₂).1.ineq _ haD q).mp hq
    refine ((ma_form hD h₁).1.ineq _ haD q).mpr ⟨q1, fun ⟨k, hk, e⟩ => q2 ⟨k, ?_, e⟩⟩
    obtain ⟨c', hc', hk⟩ := List.mem_flatMap.mp hk
    exact List.mem_flatMap.mpr ⟨c', hsub c' hc', hk⟩

end
end MaCurve
end Props

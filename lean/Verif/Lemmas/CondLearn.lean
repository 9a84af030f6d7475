import Verif.Lemmas.CondConstruct

/-! The outcome of `ConditionalSAM.learn_action_model`, in terms of the data. -/
namespace Model
open Spec

/-- The outcome for the action `a`. -/
structure CondOutcome (add : Cond → Cond → Cond) (ord : LitOrd) (D : Domain) (n : Nat) (cs : List Component)
    (K' : CondLearner) (a : String) : Prop where
  pre : ∀ l, l ∈ (K'.base.dom.act a).pre ↔ ∀ c ∈ of cs a, l ∈ obsPrev D c
  ineq : (K'.base.dom.act a).ineq = sameTypePairs (D.act a).sig
  sig : (K'.base.dom.act a).sig = (D.act a).sig
  built : ∃ d obs, (∀ l, l ∈ obs ↔ ∃ c ∈ of cs a, l ∈ obsEff D c) ∧ d.OK ∧
    (∀ l, d.possible.lookup l = if l ∈ (K'.base.dom.act a).pre then none
      else if l ∈ liftedVocab D (D.act a).sig then
        some (((createCnf ord (liftedVocab D (D.act a).sig) n).filter fun A => ∀ c ∈ of cs a, Surv D c l A).filter
          fun A => ∀ x ∈ A, x ∉ (K'.base.dom.act a).pre)
      else none) ∧
    Built add ord d (K'.base.dom.act a).pre obs (K'.base.dom.act a).eff (K'.conds a) (K'.condEffs a)

theorem condLearn_spec {add : Cond → Cond → Cond} {ord : LitOrd} (hadd : AddOK add) (ho : EnumNodup ord) {D : Domain}
    (hD : WFDomain D) (n : Nat) (p : Policy) (obs : List (List Component)) (hn : ∀ c ∈ obs.flatten, c.call.name ∈ D.names) :
    ∃ K', (CondLearner.init D n p).learn add ord obs = .ok (K', K'.base.report) ∧
      K'.base.dom.names = K'.base.observed ∧ K'.base.observed.Nodup ∧ K'.base.safe = [] ∧
      (∀ a, a ∈ K'.base.observed ↔ ∃ c ∈ obs.flatten, c.call.name = a) ∧
      ∀ a ∈ K'.base.observed, CondOutcome add ord D n obs.flatten K' a := by
  obtain ⟨K1, e1, h1⟩ := (CondInv.start (ord := ord) hD n p).process ho obs.flatten [] _ hn
  rw [List.nil_append] at h1
  let K1' : CondLearner := { K1 with base := { K1.base with dom := { K1.base.dom with names := K1.base.observed } } }
  have hD0 : ∃ D0 : String → DepSet, ∀ a ∈ K1.base.observed, K1.deps a = some (D0 a) := by
    refine ⟨fun a => (K1.deps a).getD (DepSet.new n), fun a ha => ?_⟩
    obtain ⟨d, hd, _⟩ := h1.deps a ha
    simp [hd]
  obtain ⟨D0, hD0⟩ := hD0
  have hdep : ∀ a ∈ K1.base.observed, (D0 a).OK ∧ ((D0 a).possible.map Prod.fst).Nodup ∧
      ∀ l, (D0 a).possible.lookup l = if l ∈ liftedVocab D (D.act a).sig then
      some ((createCnf ord (liftedVocab D (D.act a).sig) n).filter fun A => ∀ c ∈ of obs.flatten a, Surv D c l A)
      else none := by
    intro a ha
    obtain ⟨d, hd, g1, g2, g3, g4⟩ := h1.deps a ha
    have : D0 a = d := by have := hD0 a ha; rw [hd] at this; simpa using this.symm
    rw [this]; exact ⟨g1, g3, g4⟩
  obtain ⟨K2, f1, f2, f3, f4, f5, f6, _, f8⟩ := constructFold_spec hadd ho D0 K1.base.observed h1.obsNodup K1' (by
    intro a ha
    obtain ⟨g1, g2, _⟩ := hdep a ha
    exact ⟨hD0 a ha, g1, g2, by simp [K1', h1.cannotBe], by simp [K1', h1.conds], by simp [K1', h1.condEffs],
      h1.eff a (h1.obsNames a ha)⟩)
  have hobs : K2.base.observed = K1.base.observed := f3
  refine ⟨K2, ?_, ?_, by rw [hobs]; exact h1.obsNodup, by rw [f4]; exact h1.safe, by rw [hobs]; exact h1.observed, ?_⟩
  · unfold CondLearner.learn
    simp only [bind, Except.bind]
    rw [show ({ CondLearner.init D n p with base := (CondLearner.init D n p).base.deduceIneq } : CondLearner) =
      { CondLearner.init D n p with base := (Learner.init D p).deduceIneq } from rfl, e1]
    simp only [CondLearner.constructSafe]
    rw [show K1.base.observed.foldlM (CondLearner.constructAction add ord) _ = .ok K2 from f1]
  · rw [hobs]; exact f2.names
  · intro a ha
    rw [hobs] at ha
    have hpre : (K2.base.dom.act a).pre = (K1.base.dom.act a).pre := (f6 a).1
    refine ⟨?_, ?_, ?_, ?_⟩
    · rw [hpre]; exact h1.pre a ha
    · rw [(f6 a).2]
      have := h1.ineq a
      rw [if_pos (h1.obsNames a ha)] at this
      exact this
    · rw [f2.sig]; exact h1.static.sig a
    · obtain ⟨g1, g2, g3⟩ := hdep a ha
      refine ⟨(D0 a).removePre ord (K1.base.dom.act a).pre, K1.obsEff a, h1.obsEff a, (removePre_ok ho g1 g2 _).1, ?_, ?_⟩
      · intro l
        rw [lookup_removePre ho g1, hpre, g3]
        by_cases hl : l ∈ (K1.base.dom.act a).pre
        · simp [hl]
        · rw [if_neg hl, if_neg hl]
          split <;> rfl
      · rw [hpre]; exact f8 a ha

/-- Learning fails exactly when an observed action is not in the domain. -/
theorem condProcess_error {ord : LitOrd} (ho : EnumNodup ord) {D : Domain} {iq} {n : Nat} {cs hs : List Component} {K : CondLearner}
    (h : CondInv ord D iq n hs K) (hn : ∃ c ∈ cs, c.call.name ∉ D.names) : K.process ord cs = .error .keyError := by
  induction cs generalizing K hs with
  | nil => simp at hn
  | cons c cs ih =>
    unfold CondLearner.process at ih ⊢
    rw [List.foldlM_cons]
    by_cases hc : c.call.name ∈ D.names
    · have : ∃ K', K.handleComponent ord c = .ok K' ∧ CondInv ord D iq n (hs ++ [c]) K' := by
        by_cases ho' : c.call.name ∈ K.base.observed
        · exact h.step_upd ho ho'
        · exact h.step_new ho hc ho'
      obtain ⟨K1, e1, h1⟩ := this
      rw [e1]
      refine ih h1 ?_
      obtain ⟨x, hx, hx'⟩ := hn
      rcases List.mem_cons.mp hx with rfl | hx
      · exact absurd hc hx'
      · exact ⟨x, hx, hx'⟩
    · have : K.handleComponent ord c = .error .keyError := by
        unfold CondLearner.handleComponent
        rw [h.static.names, if_pos (by simpa using hc)]
      rw [this]; rfl

end Model

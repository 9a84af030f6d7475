import Verif.Spec.VersionSpace
import Verif.Props.SamLimits

/-! C139: the learned domain is the most permissive safe one. -/
namespace Props
open Model Spec

namespace SamOptimal

section
variable {D : Domain} {M truth : String → Schema} {obs : List (List Component)} {L' : Learner} {inj : Bool}
  {rep : List (String × Status)}

/-- The domain the learner returned, read as an action model. -/
def learned (D : Domain) (L' : Learner) (a : String) : Schema := ⟨(D.act a).sig, (L'.dom.act a).pre, (L'.dom.act a).eff⟩

/-- Only transitions with distinct objects. -/
abbrev distinct (obs : List (List Component)) : List (List Component) :=
  obs.map fun o => o.filter fun c => decide c.call.params.Nodup

theorem mem_distinct {c : Component} : c ∈ (distinct obs).flatten ↔ c ∈ obs.flatten ∧ c.call.params.Nodup := by
  unfold distinct
  rw [show (obs.map fun o => o.filter fun c => decide c.call.params.Nodup).flatten =
    obs.flatten.filter (fun c => decide c.call.params.Nodup) by rw [List.filter_flatten], List.mem_filter, decide_eq_true_eq]

theorem good_of (hM : Candidate D M obs)
    (hc : ∀ c ∈ obs.flatten, c.success = true → c.call.params.Nodup → ∀ o ∈ c.call.params, o ∉ Sig.names D.consts) :
    GoodData D M (distinct obs) where
  explained := fun c h hs => hM.explains c (mem_distinct.mp h).1 hs (mem_distinct.mp h).2
  noConst := fun c h hs hd => hc c (mem_distinct.mp h).1 hs hd

/-- What is learned without the transitions with repeated objects. -/
theorem learn_distinct (hD : WFDomain D) (h : (Learner.init D .noRemove inj).learn obs = .ok (L', rep)) :
    ∃ L₂ rep₂, (Learner.init D .noRemove inj).learn (distinct obs) = .ok (L₂, rep₂) ∧
      (∀ a ∈ D.names, (L'.dom.act a).pre = (L₂.dom.act a).pre ∧ (L'.dom.act a).eff = (L₂.dom.act a).eff) := by
  have hk := (learn_ok_iff (L0 := Learner.init D .noRemove inj) hD.names (init_sigs D _ inj)).mp ⟨_, h⟩
  obtain ⟨⟨L₂, rep₂⟩, h₂⟩ := (learn_ok_iff (L0 := Learner.init D .noRemove inj) (obs := distinct obs) hD.names (init_sigs D _ inj)).mpr
    fun c hc hs => hk c (mem_distinct.mp hc).1 hs
  exact ⟨L₂, rep₂, h₂, (C08_duplicates_ignored hD h h₂).1⟩

/-- **C139 (the learned model is a candidate).** If some action model explains the transitions, the learned
one does. -/
theorem C139_learned_is_candidate (hD : WFDomain D) (hT : Candidate D truth obs)
    (hc : ∀ c ∈ obs.flatten, c.success = true → c.call.params.Nodup → ∀ o ∈ c.call.params, o ∉ Sig.names D.consts)
    (h : (Learner.init D .noRemove inj).learn obs = .ok (L', rep)) : Candidate D (learned D L') obs := by
  obtain ⟨L₂, rep₂, h₂, he⟩ := learn_distinct hD h
  have hG := good_of hT hc
  obtain ⟨hI, _, _⟩ := SafeInv.learn hD hT.wf hG (SafeInv.init hD _ _) rfl h₂
  have hk := (learn_ok_iff (L0 := Learner.init D .noRemove inj) hD.names (init_sigs D _ inj)).mp ⟨_, h⟩
  refine ⟨⟨fun a _ => rfl, fun a ha => ⟨?_, ?_, ?_⟩⟩, ?_⟩
  · intro l hl
    exact hI.preTyped a ha l ((he a ha).1 ▸ hl)
  · intro l hl
    have := (hT.wf.wf a ha).eff l (hI.effSound a ha ((he a ha).2 ▸ hl))
    rwa [hT.wf.params a ha] at this
  · intro l hl hl'
    exact (hT.wf.wf a ha).consistent l (hI.effSound a ha ((he a ha).2 ▸ hl)) (hI.effSound a ha ((he a ha).2 ▸ hl'))
  · intro c hc1 hs hd
    have hname : c.call.name ∈ D.names := hk c hc1 hs
    have hs2 : substOf (learned D L') c = substOf truth c := by
      unfold substOf learned
      rw [hT.wf.params _ hname]
    obtain ⟨k1, k2⟩ := C03_reproduces_observations hD hT.wf hG h₂ (mem_distinct.mpr ⟨hc1, hd⟩) hs hd
    rw [← (he _ hname).1] at k1
    rw [← (he _ hname).2] at k2
    refine ⟨?_, ?_, ?_⟩
    · rw [(hT.explains c hc1 hs hd).arity, hT.wf.params _ hname]; rfl
    · rw [hs2]; exact k1
    · rw [hs2]; exact k2.symm

/-- **C139 (preconditions).** The learned preconditions are those that some candidate has. -/
theorem C139_preconditions (hD : WFDomain D) (hT : Candidate D truth obs)
    (hc : ∀ c ∈ obs.flatten, c.success = true → c.call.params.Nodup → ∀ o ∈ c.call.params, o ∉ Sig.names D.consts)
    (h : (Learner.init D .noRemove inj).learn obs = .ok (L', rep)) {a : String} (ha : a ∈ D.names) (l : Lit) :
    l ∈ (L'.dom.act a).pre ↔ ∃ M, Candidate D M obs ∧ l ∈ (M a).pre := by
  constructor
  · intro hl
    exact ⟨learned D L', C139_learned_is_candidate hD hT hc h, hl⟩
  · rintro ⟨M, hM, hl⟩
    obtain ⟨L₂, rep₂, h₂, he⟩ := learn_distinct hD h
    obtain ⟨hI, _, hv⟩ := SafeInv.learn hD hM.wf (good_of hM hc) (SafeInv.init hD _ _) rfl h₂
    rw [(he a ha).1]
    by_cases ho : a ∈ L₂.observed
    · exact hI.preComplete a ho hl
    · apply hv a ha ho
      rw [liftedVocab_typed (hD.sigs a ha)]
      have := (hM.wf.wf a ha).pre l hl
      rwa [hM.wf.params a ha] at this

/-- **C139 (effects).** The learned effects are those that every candidate has. -/
theorem C139_effects (hD : WFDomain D) (hT : Candidate D truth obs)
    (hc : ∀ c ∈ obs.flatten, c.success = true → c.call.params.Nodup → ∀ o ∈ c.call.params, o ∉ Sig.names D.consts)
    (h : (Learner.init D .noRemove inj).learn obs = .ok (L', rep)) {a : String} (ha : a ∈ D.names) (e : Lit) :
    e ∈ (L'.dom.act a).eff ↔ ∀ M, Candidate D M obs → e ∈ (M a).eff := by
  constructor
  · intro he M hM
    obtain ⟨L₂, rep₂, h₂, heq⟩ := learn_distinct hD h
    exact C04_no_spurious_effects hD hM.wf (good_of hM hc) h₂ ha ((heq a ha).2 ▸ he)
  · intro he
    exact he _ (C139_learned_is_candidate hD hT hc h)

/-- **C139 (possible effects).** The literals that some candidate has as an effect are the learned effects and the learned
preconditions whose negation is not a learned effect: nothing else can still turn out to be an effect. -/
theorem C139_possible_effects (hD : WFDomain D) (hT : Candidate D truth obs)
    (hc : ∀ c ∈ obs.flatten, c.success = true → c.call.params.Nodup → ∀ o ∈ c.call.params, o ∉ Sig.names D.consts)
    (h : (Learner.init D .noRemove inj).learn obs = .ok (L', rep)) {a : String} (ha : a ∈ D.names) (e : Lit) :
    (∃ M, Candidate D M obs ∧ e ∈ (M a).eff) ↔
      e ∈ (L'.dom.act a).eff ∨ (e ∈ (L'.dom.act a).pre ∧ e.neg ∉ (L'.dom.act a).eff) := by
  have hL := C139_learned_is_candidate hD hT hc h
  constructor
  · rintro ⟨M, hM, hl⟩
    have hneg : e.neg ∉ (L'.dom.act a).eff := fun k => (hM.wf.wf a ha).consistent e hl ((C139_effects hD hT hc h ha _).mp k M hM)
    obtain ⟨L₂, rep₂, h₂, he⟩ := learn_distinct hD h
    obtain ⟨hI, _, hv⟩ := SafeInv.learn hD hM.wf (good_of hM hc) (SafeInv.init hD _ _) rfl h₂
    rw [(he a ha).1, (he a ha).2] at *
    by_cases ho : a ∈ L₂.observed
    · rcases hI.effComplete a ho e hl with k | k
      · exact Or.inl k
      · exact Or.inr ⟨k, hneg⟩
    · refine Or.inr ⟨hv a ha ho ?_, hneg⟩
      rw [liftedVocab_typed (hD.sigs a ha)]
      have := (hM.wf.wf a ha).eff e hl
      rwa [hM.wf.params a ha] at this
  · rintro (k | ⟨k1, k2⟩)
    · exact ⟨_, hL, k⟩
    · have htyped : TypedLit D.preds ((D.act a).sig ++ D.consts) e := (hL.wf.wf a ha).pre e k1
      refine ⟨Function.update (learned D L') a ⟨(D.act a).sig, (L'.dom.act a).pre, insert e (L'.dom.act a).eff⟩, ⟨⟨?_, ?_⟩, ?_⟩, by simp⟩
      · intro b hb
        by_cases hba : b = a
        · subst hba; simp
        · simp [hba, learned]
      · intro b hb
        by_cases hba : b = a
        · subst hba
          rw [Function.update_self]
          have hw := hL.wf.wf b hb
          refine ⟨hw.pre, ?_, ?_⟩
          · intro l hl
            rcases Finset.mem_insert.mp hl with rfl | hl
            · exact htyped
            · exact hw.eff l hl
          · intro l hl hn
            rcases Finset.mem_insert.mp hl with rfl | hl
            · rcases Finset.mem_insert.mp hn with hn | hn
              · have := congrArg Lit.pos hn
                simp [Lit.neg] at this
              · exact k2 hn
            · rcases Finset.mem_insert.mp hn with hn | hn
              · rw [← hn, Lit.neg_neg] at k2
                exact k2 hl
              · exact hw.consistent l hl hn
        · rw [Function.update_of_ne hba]
          exact hL.wf.wf b hb
      · intro c hc1 hs hd
        have hx := hL.explains c hc1 hs hd
        by_cases hba : c.call.name = a
        · subst hba
          have hgc := goodCall_of hL.wf ha hx hd (hc c hc1 hs hd)
          have hinj := subst_injective (hD.sigs _ ha) hgc
          have hwf := hL.wf.wf _ ha
          have hsub : substOf (Function.update (learned D L') c.call.name ⟨(D.act c.call.name).sig, (L'.dom.act c.call.name).pre, insert e (L'.dom.act c.call.name).eff⟩) c = substOf (learned D L') c := by
            unfold substOf; rw [Function.update_self]; rfl
          refine ⟨?_, ?_, ?_⟩
          · rw [Function.update_self]; exact hx.arity
          · rw [hsub, Function.update_self]; exact hx.app
          · rw [hsub, Function.update_self, hx.next]
            have := successor_eq (S := fun x => x ∈ Sig.names ((D.act c.call.name).sig ++ D.consts)) (ρ := substOf (learned D L') c)
              (T := insert e (L'.dom.act c.call.name).eff) (E := (L'.dom.act c.call.name).eff) (s := c.prev)
              (fun x y hx hy => hinj x hx y hy) ?_ ?_ (Finset.subset_insert _ _) ?_
            · exact this
            · intro l hl x hx
              rcases Finset.mem_insert.mp hl with rfl | hl
              · exact typed_sub htyped x hx
              · exact typed_sub (hwf.eff l hl) x hx
            · intro l hl hn
              rcases Finset.mem_insert.mp hl with rfl | hl
              · rcases Finset.mem_insert.mp hn with hn | hn
                · have := congrArg Lit.pos hn
                  simp [Lit.neg] at this
                · exact k2 hn
              · rcases Finset.mem_insert.mp hn with hn | hn
                · rw [← hn, Lit.neg_neg] at k2
                  exact k2 hl
                · exact hwf.consistent l hl hn
            · intro l hl hn
              rcases Finset.mem_insert.mp hl with rfl | hl
              · exact hx.app _ k1
              · exact absurd hl hn
        · have : (Function.update (learned D L') a ⟨(D.act a).sig, (L'.dom.act a).pre, insert e (L'.dom.act a).eff⟩) c.call.name = learned D L' c.call.name :=
            Function.update_of_ne hba _ _
          refine ⟨?_, ?_, ?_⟩
          · rw [this]; exact hx.arity
          · unfold substOf; rw [this]; exact hx.app
          · unfold substOf; rw [this]; exact hx.next

/-- **C139 (applicability).** A call is accepted in a state exactly when every candidate accepts it there. -/
theorem C139_accepts_iff (hD : WFDomain D) (hT : Candidate D truth obs)
    (hc : ∀ c ∈ obs.flatten, c.success = true → c.call.params.Nodup → ∀ o ∈ c.call.params, o ∉ Sig.names D.consts)
    (h : (Learner.init D .noRemove inj).learn obs = .ok (L', rep)) {a : String} (ha : a ∈ D.names)
    (ρ : String → String) (s : State) :
    applicable (L'.dom.act a).pre ρ s ↔ ∀ M, Candidate D M obs → applicable (M a).pre ρ s := by
  constructor
  · intro happ M hM l hl
    exact happ l ((C139_preconditions hD hT hc h ha l).mpr ⟨M, hM, hl⟩)
  · intro k
    exact k _ (C139_learned_is_candidate hD hT hc h)

/-- **C139 (most permissive).** Whatever a model accepts that is safe for every candidate, the learned
domain accepts too; and for different objects it then predicts the state that all candidates predict. -/
theorem C139_most_permissive (hD : WFDomain D) (hT : Candidate D truth obs)
    (hc : ∀ c ∈ obs.flatten, c.success = true → c.call.params.Nodup → ∀ o ∈ c.call.params, o ∉ Sig.names D.consts)
    (h : (Learner.init D .noRemove inj).learn obs = .ok (L', rep)) {a : String} (ha : a ∈ D.names)
    {Q : Schema} (hQ : ∀ M, Candidate D M obs → ∀ ρ, Spec.Injective D.consts (D.act a).sig ρ → ∀ s, applicable Q.pre ρ s →
      applicable (M a).pre ρ s ∧ successor Q.eff ρ s = successor (M a).eff ρ s)
    (ρ : String → String) (hρ : Spec.Injective D.consts (D.act a).sig ρ) (s : State) (happ : applicable Q.pre ρ s) :
    applicable (L'.dom.act a).pre ρ s ∧ successor (L'.dom.act a).eff ρ s = successor Q.eff ρ s := by
  have hL := hQ _ (C139_learned_is_candidate hD hT hc h) ρ hρ s happ
  exact ⟨hL.1, hL.2.symm⟩

/-- C139: the learned domain itself is safe for every candidate. -/
theorem C139_safe (hD : WFDomain D)
    (hc : ∀ c ∈ obs.flatten, c.success = true → c.call.params.Nodup → ∀ o ∈ c.call.params, o ∉ Sig.names D.consts)
    (h : (Learner.init D .noRemove inj).learn obs = .ok (L', rep)) {a : String} (ha : a ∈ D.names)
    (hM : Candidate D M obs) (ρ : String → String) (hρ : Spec.Injective D.consts (D.act a).sig ρ) (s : State)
    (happ : applicable (L'.dom.act a).pre ρ s) :
    applicable (M a).pre ρ s ∧ successor (L'.dom.act a).eff ρ s = successor (M a).eff ρ s := by
  obtain ⟨L₂, rep₂, h₂, he⟩ := learn_distinct hD h
  have hG := good_of hM hc
  rw [(he a ha).1] at happ
  rw [(he a ha).2]
  exact ⟨C01_preconditions_sufficient hD hM.wf hG h₂ ha ρ s happ, C02_effects_exact hD hM.wf hG h₂ ha ρ hρ s happ⟩

end

/-! ### Cases -/

section
open Props.Limits

/-- A concrete problem: the action makes its first object `p`; one transition. Two candidates. -/
example : let sig : Sig := [("?x", o)]
    let obs := [[comp ∅ ["a"] {A "p" ["a"]}]]
    Candidate (dom [p1] [] sig) (tru sig ∅ {P "?x"}) obs ∧ Candidate (dom [p1] [] sig) (tru sig {P "?x" false} {P "?x"}) obs ∧
    ((runLearn (Learner.init (dom [p1] [] sig)) obs).dom.act "act").pre = {P "?x" false} := by
  intro sig obs
  have h1 : ProblemOK (dom [p1] [] sig) (tru sig ∅ {P "?x"}) obs := by decide +kernel
  have h2 : ProblemOK (dom [p1] [] sig) (tru sig {P "?x" false} {P "?x"}) obs := by decide +kernel
  exact ⟨⟨h1.sound.2.1, fun c hc hs _ => h1.sound.2.2 c hc hs⟩, ⟨h2.sound.2.1, fun c hc hs _ => h2.sound.2.2 c hc hs⟩, by decide +kernel⟩

/-- **C139 needs distinct objects.** Transitions with repeated objects also exclude action models, but the learner
does not use them: here every model that explains them accepts a call which the learned domain refuses. -/
theorem C139_repeated_objects_unused : ∃ (D : Domain) (truth : String → Schema) (obs : List (List Component)) (L' : Learner)
    (rep : List (String × Status)) (ρ : String → String) (s : State),
    ProblemOK D truth obs ∧ D.consts = [] ∧ (Learner.init D).learn obs = .ok (L', rep) ∧
    Spec.Injective D.consts (D.act "act").sig ρ ∧
    (∀ M, WFTruth D M → (∀ c ∈ obs.flatten, c.success = true → Explained M c) → applicable (M "act").pre ρ s) ∧
    ¬ applicable (L'.dom.act "act").pre ρ s := by
  let sig : Sig := [("?x", o), ("?y", o)]
  let obs := [[comp ∅ ["a", "a"] {A "p" ["a"]}]]
  obtain ⟨rep, hr⟩ := runLearn_eq (D := dom [p1] [] sig) (p := .noRemove) (i := true) (obs := obs) (by decide) (by decide)
  refine ⟨dom [p1] [] sig, tru sig ∅ {P "?x"}, obs, _, rep, subst ["?x", "?y"] ["a", "b"], ∅, by decide +kernel, rfl, hr, ?_, ?_, by decide +kernel⟩
  · intro x hx y hy
    have hx' : x = "?x" ∨ x = "?y" := by simpa [dom, sig, Sig.names, ActModel.fresh] using hx
    have hy' : y = "?x" ∨ y = "?y" := by simpa [dom, sig, Sig.names, ActModel.fresh] using hy
    rcases hx' with rfl | rfl <;> rcases hy' with rfl | rfl <;> decide
  · intro M _ hM l hl
    have hE := hM (comp ∅ ["a", "a"] {A "p" ["a"]}) (by simp [obs]) rfl
    have := hE.app l hl
    simp only [holds, comp, Finset.notMem_empty, iff_false] at this ⊢
    exact this

end
end SamOptimal
end Props

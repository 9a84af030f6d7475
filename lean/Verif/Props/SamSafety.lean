import Verif.Lemmas.SamPolicy
import Verif.Props.World

/-! C01, C02, C03, C04, C12, C13: safety of the learned model. -/
namespace Props
open Model Spec

section
variable {D : Domain} {truth : String → Schema} {obs : List (List Component)} {L' : Learner}
  {rep : List (String × Status)} {inj : Bool}

/-- **C01.** Learned preconditions are sufficient: whenever the returned action is applicable in a
state, under any substitution whatever (even not injective), so is the true action. -/
theorem C01_preconditions_sufficient (hD : WFDomain D) (hT : WFTruth D truth) (hG : GoodData D truth obs)
    (h : (Learner.init D .noRemove inj).learn obs = .ok (L', rep)) {a : String} (ha : a ∈ D.names)
    (ρ : String → String) (s : State) (happ : applicable (L'.dom.act a).pre ρ s) :
    applicable (truth a).pre ρ s := by
  obtain ⟨h1, _, h3⟩ := SafeInv.learn hD hT hG (SafeInv.init hD _ _) rfl h
  exact (safe_of_inv hD hT h1 h3 ha happ).1

/-- **C01, the other policies.** If the true preconditions are positive, the same holds for the
policies that remove negative preconditions. -/
theorem C01_positive_preconditions_any_policy {p : Policy} (hD : WFDomain D) (hT : WFTruth D truth)
    (hG : GoodData D truth obs) (h : (Learner.init D p inj).learn obs = .ok (L', rep)) {a : String} (ha : a ∈ D.names)
    (hpos : ∀ l ∈ (truth a).pre, l.pos = true)
    (ρ : String → String) (s : State) (happ : applicable (L'.dom.act a).pre ρ s) :
    applicable (truth a).pre ρ s := by
  obtain ⟨⟨Ln, rn⟩, hn⟩ := learn_ok_policy (q := .noRemove) hD.names h
  obtain ⟨h1, _, h3⟩ := SafeInv.learn hD hT hG (SafeInv.init hD _ _) rfl hn
  have hf := (policy_factor hD.names h hn a ha).2.2
  intro l hl
  apply happ
  rw [hf]
  refine ⟨?_, Or.inl (hpos l hl)⟩
  by_cases ho : a ∈ Ln.observed
  · exact h1.preComplete a ho hl
  · exact h3 a ha ho ((liftedVocab_typed (hD.sigs a ha)).mpr (hT.params a ha ▸ (hT.wf a ha).pre l hl))

/-- **C02.** Learned effects predict the true successor: whenever the returned action is applicable
under an injective substitution, the learned and the true action lead to the same state. -/
theorem C02_effects_exact (hD : WFDomain D) (hT : WFTruth D truth) (hG : GoodData D truth obs)
    (h : (Learner.init D .noRemove inj).learn obs = .ok (L', rep)) {a : String} (ha : a ∈ D.names)
    (ρ : String → String) (hρ : Spec.Injective D.consts (D.act a).sig ρ) (s : State)
    (happ : applicable (L'.dom.act a).pre ρ s) :
    successor (L'.dom.act a).eff ρ s = successor (truth a).eff ρ s := by
  obtain ⟨h1, _, h3⟩ := SafeInv.learn hD hT hG (SafeInv.init hD _ _) rfl h
  exact (safe_of_inv hD hT h1 h3 ha happ).2 hρ

/-- **C02, soft policy.** Effects stay exact when the soft policy is used. -/
theorem C02_effects_exact_soft (hD : WFDomain D) (hT : WFTruth D truth) (hG : GoodData D truth obs)
    (h : (Learner.init D .soft inj).learn obs = .ok (L', rep)) {a : String} (ha : a ∈ D.names)
    (ρ : String → String) (hρ : Spec.Injective D.consts (D.act a).sig ρ) (s : State)
    (happ : applicable (L'.dom.act a).pre ρ s) :
    successor (L'.dom.act a).eff ρ s = successor (truth a).eff ρ s := by
  obtain ⟨⟨Ln, rn⟩, hn⟩ := learn_ok_policy (q := .noRemove) hD.names h
  obtain ⟨h1, _, h3⟩ := SafeInv.learn hD hT hG (SafeInv.init hD _ _) rfl hn
  obtain ⟨f1, _, f3⟩ := policy_factor hD.names h hn a ha
  have hp := hT.params a ha
  have hwf := hT.wf a ha
  rw [f1]
  by_cases ho : a ∈ Ln.observed
  · apply successor_eq (S := fun x => x ∈ Sig.names ((D.act a).sig ++ D.consts))
      (fun x y hx hy => hρ x hx y hy) (fun l hl x hx => by rw [← hp]; exact typed_sub (hwf.eff l hl) x hx)
      hwf.consistent (h1.effSound a ha)
    intro e he hne
    apply happ
    rw [f3]
    refine ⟨(h1.effComplete a ho e he).resolve_left hne, Or.inr (Or.inr ⟨rfl, fun k => ?_⟩)⟩
    exact hwf.consistent e he (h1.effSound a ha k)
  · have hsame : ∀ l ∈ (Ln.dom.act a).pre, l ∈ (L'.dom.act a).pre := by
      intro l hl; rw [f3]
      exact ⟨hl, Or.inr (Or.inr ⟨rfl, by rw [h1.effEmpty a ha ho]; simp⟩)⟩
    exact (safe_of_inv hD hT h1 h3 ha (fun l hl => happ l (hsame l hl))).2 hρ

/-- **C03.** The returned model, whatever the policy, accepts every usable observation and maps its
previous state to its next state. -/
theorem C03_reproduces_observations {p : Policy} (hD : WFDomain D) (hT : WFTruth D truth) (hG : GoodData D truth obs)
    (h : (Learner.init D p inj).learn obs = .ok (L', rep)) {c : Component} (hc : c ∈ obs.flatten)
    (hs : c.success = true) (hd : c.call.params.Nodup) :
    applicable (L'.dom.act c.call.name).pre (substOf truth c) c.prev ∧
    successor (L'.dom.act c.call.name).eff (substOf truth c) c.prev = c.next := by
  obtain ⟨⟨Ln, rn⟩, hn⟩ := learn_ok_policy (q := .noRemove) hD.names h
  obtain ⟨hl, _⟩ := learn_spec (L0 := Learner.init D .noRemove inj) hD.names (init_sigs D _ inj) hn
  have ha : c.call.name ∈ D.names := hl.known c hc hs
  obtain ⟨h1, _, _⟩ := SafeInv.learn hD hT hG (SafeInv.init hD _ _) rfl hn
  obtain ⟨f1, _, f3⟩ := policy_factor hD.names h hn _ ha
  have hp := hT.params _ ha
  have hwf := hT.wf _ ha
  have hu : c ∈ usable obs.flatten c.call.name := mem_usable.mpr ⟨hc, hs, rfl, hd⟩
  have hgc := goodCall_of hT ha (hG.explained c hc hs) hd (hG.noConst c hc hs hd)
  have hρ : substOf truth c = subst (Sig.names (D.act c.call.name).sig) c.call.params := by unfold substOf; rw [hp]
  have happ : applicable (Ln.dom.act c.call.name).pre (substOf truth c) c.prev := by
    intro l hlp
    rw [hl.pre _ ha] at hlp
    have hpf : PreForm D False ∅ (usable obs.flatten c.call.name) l := by
      rcases hlp.1 with k | ⟨⟨_, k⟩, _⟩
      · have : (D.act c.call.name).pre = ∅ := (hD.empty _ ha).1
        simpa [Learner.init, this] using k
      · rw [k] at hu; simp at hu
    have := (preForm_empty.mp hpf).2 c hu
    rw [obsPrev_iff (hD.sigs _ ha) hgc] at this
    rw [hρ]; exact this.2
  refine ⟨fun l hl => happ l ((f3 l).mp hl).1, ?_⟩
  rw [f1, (hG.explained c hc hs).next]
  have hinj := subst_injective (hD.sigs _ ha) hgc
  rw [← hρ] at hinj
  apply successor_eq (S := fun x => x ∈ Sig.names ((D.act c.call.name).sig ++ D.consts))
    (fun x y hx hy => hinj x hx y hy) (fun l hl x hx => by rw [← hp]; exact typed_sub (hwf.eff l hl) x hx)
    hwf.consistent (h1.effSound _ ha)
  intro e he hne
  have ho : c.call.name ∈ Ln.observed := (hl.observed _).mpr (Or.inr (fun k => by rw [k] at hu; simp at hu))
  exact happ e ((h1.effComplete _ ho e he).resolve_left hne)

/-- **C04.** No spurious effects: each learned effect is an effect of the true action. -/
theorem C04_no_spurious_effects {p : Policy} (hD : WFDomain D) (hT : WFTruth D truth) (hG : GoodData D truth obs)
    (h : (Learner.init D p inj).learn obs = .ok (L', rep)) {a : String} (ha : a ∈ D.names) {e : Lit}
    (he : e ∈ (L'.dom.act a).eff) : e ∈ (truth a).eff := by
  obtain ⟨⟨Ln, rn⟩, hn⟩ := learn_ok_policy (q := .noRemove) hD.names h
  obtain ⟨h1, _, _⟩ := SafeInv.learn hD hT hG (SafeInv.init hD _ _) rfl hn
  rw [(policy_factor hD.names h hn a ha).1] at he
  exact h1.effSound a ha he

theorem learnMany_inv (hD : WFDomain D) (hT : WFTruth D truth) :
    ∀ (batches : List (List (List Component))) (L L' : Learner), batches ≠ [] →
      (∀ obs ∈ batches, GoodData D truth obs) → SafeInv D truth L → L.policy = .noRemove →
      learnMany L batches = .ok L' →
      SafeInv D truth L' ∧ ∀ a ∈ D.names, a ∉ L'.observed → liftedVocab D (D.act a).sig ⊆ (L'.dom.act a).pre := by
  intro batches
  induction batches with
  | nil => intro _ _ h; exact absurd rfl h
  | cons obs rest ih =>
    intro L L' _ hG hI hp h
    simp only [learnMany] at h
    cases hl : L.learn obs with
    | error e => rw [hl] at h; simp [Bind.bind, Except.bind] at h
    | ok r =>
      rw [hl] at h
      simp only [Bind.bind, Except.bind] at h
      obtain ⟨h1, h2, h3⟩ := SafeInv.learn hD hT (hG obs (by simp)) hI hp (L' := r.1) (rep := r.2) hl
      cases rest with
      | nil => simp only [learnMany, Except.ok.injEq] at h; subst h; exact ⟨h1, h3⟩
      | cons o os => exact ih r.1 L' (by simp) (fun o ho => hG o (by simp [ho])) h1 h2 h

/-- **C12 (safety part).** After any number of calls of `learn_action_model` on the same learner, with
any batches of good data, the model is still safe. -/
theorem C12_many_calls_safe (hD : WFDomain D) (hT : WFTruth D truth) {batches : List (List (List Component))}
    (hne : batches ≠ []) (hG : ∀ obs ∈ batches, GoodData D truth obs)
    (h : learnMany (Learner.init D .noRemove inj) batches = .ok L') {a : String} (ha : a ∈ D.names)
    (ρ : String → String) (s : State) (happ : applicable (L'.dom.act a).pre ρ s) :
    applicable (truth a).pre ρ s ∧
    (Spec.Injective D.consts (D.act a).sig ρ → successor (L'.dom.act a).eff ρ s = successor (truth a).eff ρ s) := by
  obtain ⟨h1, h3⟩ := learnMany_inv hD hT batches _ _ hne hG (SafeInv.init hD _ _) rfl h
  exact safe_of_inv hD hT h1 h3 ha happ

end

/-! #### The hypotheses can be met -/

/-- C01, C02, C04: the world's data satisfy all hypotheses, and the learned "move" is applicable in a
state that was never observed, so the conclusions are about something. -/
example : WFDomain World.D ∧ WFTruth World.D World.truth ∧ GoodData World.D World.truth World.obs ∧
    ∃ L' rep, (Learner.init World.D).learn World.obs = .ok (L', rep) ∧
      applicable (L'.dom.act "move").pre (subst ["?o", "?x", "?y"] ["b", "l2", "l3"])
        {⟨"at", ["b", "l2"]⟩, ⟨"power", []⟩, ⟨"at", ["z", "l2"]⟩} ∧
      Spec.Injective World.D.consts (World.D.act "move").sig (subst ["?o", "?x", "?y"] ["b", "l2", "l3"]) ∧
      (⟨"at", ["?o", "?y"], true⟩ : Lit) ∈ (L'.dom.act "move").eff := by
  refine ⟨World.wfD, World.wfT, World.good, ?_⟩
  obtain ⟨r, hr⟩ := World.learns .noRemove true
  refine ⟨r.1, r.2, hr, ?_⟩
  have e : r.1 = (match (Learner.init World.D).learn World.obs with | .ok r => r.1 | .error _ => Learner.init World.D) := by
    rw [hr]
  rw [e]
  refine ⟨by decide +kernel, ?_, by decide +kernel⟩
  intro x hx y hy
  have hx' : x = "?o" ∨ x = "?x" ∨ x = "?y" := by simpa [World.D, World.moveSig, Sig.names, ActModel.fresh] using hx
  have hy' : y = "?o" ∨ y = "?x" ∨ y = "?y" := by simpa [World.D, World.moveSig, Sig.names, ActModel.fresh] using hy
  rcases hx' with rfl | rfl | rfl <;> rcases hy' with rfl | rfl | rfl <;> decide

/-- C03: a usable observation exists in the world. -/
example : World.c1 ∈ World.obs.flatten ∧ World.c1.success = true ∧ World.c1.call.params.Nodup := by decide

end Props

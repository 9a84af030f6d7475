import Verif.Props.SamLimits

/-! C05 and C06 for domains **with** constants: they hold as soon as the transitions are real and no
call with distinct objects binds a parameter to a constant (the hypothesis `GoodData` of C01-C04); the
preconditions are monotone in every domain; and without that hypothesis the effects are not. -/
namespace Props
open Model Spec Limits

section
variable {D : Domain} {truth : String → Schema} {obs obs₁ obs₂ : List (List Component)} {L' L₁ L₂ : Learner}
  {rep rep₁ rep₂ : List (String × Status)} {inj : Bool} {p : Policy}

theorem eff_form_good (hD : WFDomain D) (hT : WFTruth D truth) (hG : GoodData D truth obs)
    (h : (Learner.init D p inj).learn obs = .ok (L', rep)) {a : String} (ha : a ∈ D.names) (l : Lit) :
    l ∈ (L'.dom.act a).eff ↔ ∃ c ∈ usable obs.flatten a, l ∈ obsEff D c := by
  obtain ⟨hl, _⟩ := learn_spec (L0 := Learner.init D p inj) hD.names (init_sigs D _ inj) h
  have e2 : (D.act a).eff = ∅ := (hD.empty a ha).2.1
  have hfact : ∀ c ∈ usable obs.flatten a, Fact D (truth a) c := by
    intro c hc
    obtain ⟨h1, h2, h3, h4⟩ := mem_usable.mp hc
    subst h3
    exact fact_of ha (hD.sigs _ ha) hT (hG.explained c h1 h2) h4 (hG.noConst c h1 h2 h4)
  constructor
  · intro k
    have := hl.effSub a l k
    simpa [Learner.init, e2] using this
  · rintro ⟨c, hc, k⟩
    refine hl.effSup a l (Or.inr ⟨c, hc, k⟩) (Or.inr ⟨by simp [Learner.init], fun c' hc' _ => ?_⟩)
    exact (hfact c' hc').effNext l ((hfact c hc).effSound l k)

/-- **C05 with constants.** Real transitions, no parameter bound to a constant: order, grouping and
repetition do not matter, whatever the constants of the domain. -/
theorem C05_order_irrelevant_constants (hD : WFDomain D) (hT : WFTruth D truth)
    (hG₁ : GoodData D truth obs₁)
    (hsame : ∀ c : Component, c.success = true → (c ∈ obs₁.flatten ↔ c ∈ obs₂.flatten))
    (h₁ : (Learner.init D p inj).learn obs₁ = .ok (L₁, rep₁)) (h₂ : (Learner.init D p inj).learn obs₂ = .ok (L₂, rep₂)) :
    (∀ a ∈ D.names, L₁.dom.act a = L₂.dom.act a) ∧ (∀ e, e ∈ rep₁ ↔ e ∈ rep₂) := by
  have hG₂ : GoodData D truth obs₂ :=
    ⟨fun c hc hs => hG₁.explained c ((hsame c hs).mpr hc) hs, fun c hc hs => hG₁.noConst c ((hsame c hs).mpr hc) hs⟩
  constructor
  · intro a ha
    obtain ⟨p1, _, o1, s1⟩ := closed_form hD h₁ ha
    obtain ⟨p2, _, o2, s2⟩ := closed_form hD h₂ ha
    have heff : (L₁.dom.act a).eff = (L₂.dom.act a).eff := by
      ext l; rw [eff_form_good hD hT hG₁ h₁ ha, eff_form_good hD hT hG₂ h₂ ha]; simp only [mem_usable_congr hsame]
    have hpre : (L₁.dom.act a).pre = (L₂.dom.act a).pre := by
      ext l; rw [p1, p2, heff]; simp only [mem_usable_congr hsame, ne_eq, usable_nil_congr hsame]
    have hineq : (L₁.dom.act a).ineq = (L₂.dom.act a).ineq := by
      ext q; rw [ineq_form hD h₁ ha, ineq_form hD h₂ ha]
      apply and_congr_right; intro _
      constructor
      · intro k c hc hs; exact k c ((hsame c hs).mpr hc) hs
      · intro k c hc hs; exact k c ((hsame c hs).mp hc) hs
    cases h1 : L₁.dom.act a; cases h2 : L₂.dom.act a
    simp_all
  · rintro ⟨a, st⟩
    rw [(report_form hD h₁).2, (report_form hD h₂).2]
    by_cases ha : a ∈ D.names
    · have e : (a ∈ L₁.observed ↔ a ∈ L₂.observed) := by
        rw [(closed_form hD h₁ ha).2.2.1, (closed_form hD h₂ ha).2.2.1, ne_eq, ne_eq, usable_nil_congr hsame]
      rw [e]
    · simp [ha]

/-- **C06, preconditions, every domain.** With or without constants, whatever the data: more
observations of an observed action only remove preconditions and inequalities (every policy that does
not look at the effects). -/
theorem C06_preconditions_shrink (hD : WFDomain D) (hp : p ≠ .soft)
    (hsub : ∀ c ∈ obs₁.flatten, c ∈ obs₂.flatten)
    (h₁ : (Learner.init D p inj).learn obs₁ = .ok (L₁, rep₁)) (h₂ : (Learner.init D p inj).learn obs₂ = .ok (L₂, rep₂))
    {a : String} (ha : a ∈ D.names) (ho : Observed obs₁ a) :
    (L₂.dom.act a).pre ⊆ (L₁.dom.act a).pre ∧ (L₂.dom.act a).ineq ⊆ (L₁.dom.act a).ineq := by
  obtain ⟨p1, _⟩ := closed_form hD h₁ ha
  obtain ⟨p2, _⟩ := closed_form hD h₂ ha
  have hus : ∀ c, c ∈ usable obs₁.flatten a → c ∈ usable obs₂.flatten a := by
    intro c; rw [mem_usable, mem_usable]; rintro ⟨k1, k2⟩; exact ⟨hsub c k1, k2⟩
  have hne := observed_iff_usable.mp ho
  constructor
  · intro l; rw [p1, p2]
    rintro ⟨(⟨_, k⟩ | ⟨k, _⟩), k3⟩
    · refine ⟨Or.inl ⟨hne, fun c hc => k c (hus c hc)⟩, ?_⟩
      rcases k3 with k3 | k3 | ⟨k3, _⟩
      · exact Or.inl k3
      · exact Or.inr (Or.inl k3)
      · exact absurd k3 hp
    · obtain ⟨c, hc'⟩ := List.exists_mem_of_ne_nil _ hne
      have := hus c hc'; rw [k] at this; simp at this
  · intro q; rw [ineq_form hD h₁ ha, ineq_form hD h₂ ha]
    rintro ⟨k1, k2⟩; exact ⟨k1, fun c hc => k2 c (hsub c hc)⟩

/-- **C06 with constants.** Real transitions, no parameter bound to a constant: more observations of an
observed action only remove preconditions and only add effects. -/
theorem C06_monotone_constants (hD : WFDomain D) (hT : WFTruth D truth) (hG : GoodData D truth obs₂)
    (hsub : ∀ c ∈ obs₁.flatten, c ∈ obs₂.flatten)
    (h₁ : (Learner.init D p inj).learn obs₁ = .ok (L₁, rep₁)) (h₂ : (Learner.init D p inj).learn obs₂ = .ok (L₂, rep₂))
    {a : String} (ha : a ∈ D.names) (ho : Observed obs₁ a) :
    (L₂.dom.act a).pre ⊆ (L₁.dom.act a).pre ∧ (L₁.dom.act a).eff ⊆ (L₂.dom.act a).eff ∧
    (L₂.dom.act a).ineq ⊆ (L₁.dom.act a).ineq := by
  have hG₁ : GoodData D truth obs₁ :=
    ⟨fun c hc => hG.explained c (hsub c hc), fun c hc => hG.noConst c (hsub c hc)⟩
  obtain ⟨p1, _⟩ := closed_form hD h₁ ha
  obtain ⟨p2, _⟩ := closed_form hD h₂ ha
  have hus : ∀ c, c ∈ usable obs₁.flatten a → c ∈ usable obs₂.flatten a := by
    intro c; rw [mem_usable, mem_usable]; rintro ⟨k1, k2⟩; exact ⟨hsub c k1, k2⟩
  have hne := observed_iff_usable.mp ho
  have heff : (L₁.dom.act a).eff ⊆ (L₂.dom.act a).eff := by
    intro l; rw [eff_form_good hD hT hG₁ h₁ ha, eff_form_good hD hT hG h₂ ha]
    rintro ⟨c, k1, k2⟩; exact ⟨c, hus c k1, k2⟩
  refine ⟨?_, heff, ?_⟩
  · intro l; rw [p1, p2]
    rintro ⟨(⟨_, k⟩ | ⟨k, _⟩), k3⟩
    · refine ⟨Or.inl ⟨hne, fun c hc => k c (hus c hc)⟩, ?_⟩
      rcases k3 with k3 | k3 | ⟨k3, k4⟩
      · exact Or.inl k3
      · exact Or.inr (Or.inl k3)
      · exact Or.inr (Or.inr ⟨k3, fun k => k4 (heff k)⟩)
    · obtain ⟨c, hc'⟩ := List.exists_mem_of_ne_nil _ hne
      have := hus c hc'; rw [k] at this; simp at this
  · intro q; rw [ineq_form hD h₁ ha, ineq_form hD h₂ ha]
    rintro ⟨k1, k2⟩; exact ⟨k1, fun c hc => k2 c (hsub c hc)⟩

end

/-- **C06 needs that restriction.** A call that binds the parameter to a constant makes the learner
record an effect on the parameter that the next real transition removes again. -/
theorem C06_constant_call_effects_shrink : ∃ (D : Domain) (truth : String → Schema) (c₁ c₂ : Component) (L₁ L₂ : Learner)
    (rep₁ rep₂ : List (String × Status)),
    ProblemOK D truth [[c₁, c₂]] ∧ (Learner.init D).learn [[c₁]] = .ok (L₁, rep₁) ∧
    (Learner.init D).learn [[c₁, c₂]] = .ok (L₂, rep₂) ∧ Observed [[c₁]] "act" ∧
    ¬ (L₁.dom.act "act").eff ⊆ (L₂.dom.act "act").eff := by
  let sig : Sig := [("?x", o)]
  let c₁ := comp ∅ ["c"] {A "p" ["c"]}
  let c₂ := comp ∅ ["a"] {A "p" ["c"]}
  obtain ⟨rep₁, h₁⟩ := runLearn_eq (D := dom [p1] [("c", o)] sig) (p := .noRemove) (i := true) (obs := [[c₁]]) (by decide) (by decide)
  obtain ⟨rep₂, h₂⟩ := runLearn_eq (D := dom [p1] [("c", o)] sig) (p := .noRemove) (i := true) (obs := [[c₁, c₂]]) (by decide) (by decide)
  exact ⟨dom [p1] [("c", o)] sig, tru sig ∅ {P "c"}, c₁, c₂, _, _, rep₁, rep₂, by decide +kernel, h₁, h₂,
    ⟨c₁, by simp, rfl, rfl, by decide⟩, by decide +kernel⟩

/-- The hypotheses of the theorems with constants are met: a domain with the constant `c`, an action
that moves `p` from its argument to the constant, observed twice; the second observation removes a
precondition and adds an effect. -/
example : ∃ (D : Domain) (truth : String → Schema) (c₁ c₂ : Component) (L₁ L₂ : Learner) (rep₁ rep₂ : List (String × Status)),
    WFDomain D ∧ WFTruth D truth ∧ GoodData D truth [[c₁, c₂]] ∧ D.consts ≠ [] ∧
    (Learner.init D).learn [[c₁]] = .ok (L₁, rep₁) ∧ (Learner.init D).learn [[c₁, c₂]] = .ok (L₂, rep₂) ∧
    Observed [[c₁]] "act" ∧ (L₂.dom.act "act").pre ≠ (L₁.dom.act "act").pre ∧
    (L₁.dom.act "act").eff ≠ (L₂.dom.act "act").eff := by
  let sig : Sig := [("?x", o)]
  let c₁ := comp {A "p" ["a"], A "p" ["c"]} ["a"] {A "p" ["c"]}
  let c₂ := comp {A "p" ["b"]} ["b"] {A "p" ["c"]}
  obtain ⟨rep₁, h₁⟩ := runLearn_eq (D := dom [p1] [("c", o)] sig) (p := .noRemove) (i := true) (obs := [[c₁]]) (by decide) (by decide)
  obtain ⟨rep₂, h₂⟩ := runLearn_eq (D := dom [p1] [("c", o)] sig) (p := .noRemove) (i := true) (obs := [[c₁, c₂]]) (by decide) (by decide)
  have hOK : ProblemOK (dom [p1] [("c", o)] sig) (tru sig {P "?x"} {P "?x" false, P "c"}) [[c₁, c₂]] := by decide +kernel
  refine ⟨_, _, c₁, c₂, _, _, rep₁, rep₂, hOK.sound.1, hOK.sound.2.1, ⟨hOK.sound.2.2, ?_⟩, by decide, h₁, h₂,
    ⟨c₁, by simp, rfl, rfl, by decide⟩, by decide +kernel, by decide +kernel⟩
  decide +kernel

/-- The hypotheses of `C13_inequalities_suffice_partial` are met by a domain with a constant, an action
with two parameters of one type and a third of a subtype, a duplicated call on record, and a
substitution that the learned preconditions accept. -/
example : ∃ (D : Domain) (truth : String → Schema) (obs : List (List Component)) (L' : Learner) (rep : List (String × Status))
    (ρ : String → String) (s : State),
    WFDomain D ∧ WFTruth D truth ∧ GoodData D truth obs ∧ D.consts ≠ [] ∧
    (∃ c ∈ obs.flatten, ¬ c.call.params.Nodup) ∧
    (Learner.init D .noRemove true).learn obs = .ok (L', rep) ∧
    applicable (L'.dom.act "act").pre ρ s ∧ ineqHolds (L'.dom.act "act").ineq ρ ∧ (L'.dom.act "act").ineq ≠ ∅ ∧
    (∀ x ∈ (D.act "act").sig, ∀ y ∈ (D.act "act").sig, x.2.name ≠ y.2.name → ρ x.1 ≠ ρ y.1) ∧
    (∀ c ∈ obs.flatten, c.success = true → c.call.name = "act" →
      ∀ x ∈ Sig.names (D.act "act").sig, ∀ y ∈ Sig.names (D.act "act").sig, x ≠ y →
        substOf truth c x = substOf truth c y → ρ x ≠ ρ y) ∧
    (∀ x ∈ Sig.names D.consts, ∀ y ∈ Sig.names ((D.act "act").sig ++ D.consts), x ≠ y → ρ x ≠ ρ y) := by
  let sig : Sig := [("?x", o), ("?y", o), ("?z", sub)]
  let c₁ := comp {A "p" ["a"], A "p" ["c"]} ["a", "b", "e"] {A "p" ["c"]}
  let c₂ := comp {A "p" ["a"], A "p" ["c"]} ["a", "b", "b"] {A "p" ["c"]}
  obtain ⟨rep, h⟩ := runLearn_eq (D := dom [p1] [("c", o)] sig) (p := .noRemove) (i := true) (obs := [[c₁, c₂]]) (by decide) (by decide)
  have hOK : ProblemOK (dom [p1] [("c", o)] sig) (tru sig {P "?x"} {P "?x" false, P "c"}) [[c₁, c₂]] := by decide +kernel
  refine ⟨_, _, [[c₁, c₂]], _, rep, subst ["?x", "?y", "?z"] ["a", "b", "e"], {A "p" ["a"], A "p" ["c"]},
    hOK.sound.1, hOK.sound.2.1, ⟨hOK.sound.2.2, by decide +kernel⟩, by decide, by decide, h, by decide +kernel,
    by decide +kernel, by decide +kernel, by decide +kernel, by decide +kernel, by decide +kernel⟩

end Props

import Verif.Props.SamBehaviour
import Verif.Props.SamSafety

/-! C12, C13 and the limits of C01, C02, C04, C05, C07: what does **not** hold. Each negative theorem
exhibits a well-formed domain, a well-formed true action model and real transitions (nothing else is
needed: the refuted statements are universally quantified), and evaluates the model of the learner in
the kernel. The positive theorem at the start is the part of C13 that does hold. -/
namespace Props
open Model Spec

section
variable {D : Domain} {truth : String → Schema} {obs : List (List Component)} {L' : Learner}
  {rep : List (String × Status)}

/-- **C13, the part that holds.** Without constants, if all parameters of an action have one type and no
successful call of it repeated an object, then the learned preconditions including the inequalities
guarantee the right successor for *every* substitution they accept. -/
theorem C13_noninjective_safe_partial (hD : WFDomain D) (hT : WFTruth D truth) (hG : GoodData D truth obs)
    (hc : D.consts = [])
    (h : (Learner.init D .noRemove true).learn obs = .ok (L', rep)) {a : String} (ha : a ∈ D.names)
    (htypes : ∀ p ∈ (D.act a).sig, ∀ q ∈ (D.act a).sig, p.2.name = q.2.name)
    (hdup : ∀ c ∈ obs.flatten, c.success = true → c.call.name = a → c.call.params.Nodup)
    (ρ : String → String) (s : State) (happ : applicable (L'.dom.act a).pre ρ s)
    (hineq : ineqHolds (L'.dom.act a).ineq ρ) :
    applicable (truth a).pre ρ s ∧ successor (L'.dom.act a).eff ρ s = successor (truth a).eff ρ s := by
  refine ⟨C01_preconditions_sufficient hD hT hG h ha ρ s happ, C02_effects_exact hD hT hG h ha ρ ?_ s happ⟩
  have hp := (hD.sigs a ha).params
  -- every ordered pair of the signature is an inequality precondition
  have key : ∀ x y : String × PType, [x, y].Sublist (D.act a).sig → ρ x.1 ≠ ρ y.1 := by
    intro x y hs
    apply hineq (x.1, y.1)
    rw [ineq_form hD h ha, mem_sameTypePairs]
    refine ⟨⟨rfl, x.2, y.2, hs, htypes x (hs.subset (by simp)) y (hs.subset (by simp))⟩, ?_⟩
    intro c hc' hcs hca hnd
    exact absurd (hdup c hc' hcs hca) hnd
  intro x hx y hy e
  rw [hc, List.append_nil, Sig.names, List.mem_map] at hx hy
  obtain ⟨⟨x, tx⟩, hx, rfl⟩ := hx
  obtain ⟨⟨y, ty⟩, hy, rfl⟩ := hy
  by_contra hne
  have hor : [(x, tx), (y, ty)].Sublist (D.act a).sig ∨ [(y, ty), (x, tx)].Sublist (D.act a).sig := by
    clear key hp
    generalize (D.act a).sig = l at hx hy
    induction l with
    | nil => simp at hx
    | cons z zs ih =>
      rcases List.mem_cons.mp hx with rfl | hx' <;> rcases List.mem_cons.mp hy with e' | hy'
      · exact absurd (congrArg Prod.fst e').symm hne
      · exact Or.inl (List.Sublist.cons_cons _ (List.singleton_sublist.mpr hy'))
      · subst e'; exact Or.inr (List.Sublist.cons_cons _ (List.singleton_sublist.mpr hx'))
      · rcases ih hx' hy' with k | k
        · exact Or.inl (k.cons _)
        · exact Or.inr (k.cons _)
  rcases hor with k | k
  · exact key _ _ k e
  · exact key _ _ k e.symm

/-- **C13, the part that holds, in general.** A substitution accepted by the learned inequalities is
safe as soon as the pairs the inequalities do not speak about get different objects: parameters of
different types, parameters that some successful call bound to one object, and parameter/constant
pairs. (Every same-type pair never observed equal is separated by the learned inequalities.) -/
theorem C13_inequalities_suffice_partial (hD : WFDomain D) (hT : WFTruth D truth) (hG : GoodData D truth obs)
    (h : (Learner.init D .noRemove true).learn obs = .ok (L', rep)) {a : String} (ha : a ∈ D.names)
    (ρ : String → String) (s : State) (happ : applicable (L'.dom.act a).pre ρ s)
    (hineq : ineqHolds (L'.dom.act a).ineq ρ)
    (htypes : ∀ x ∈ (D.act a).sig, ∀ y ∈ (D.act a).sig, x.2.name ≠ y.2.name → ρ x.1 ≠ ρ y.1)
    (hseen : ∀ c ∈ obs.flatten, c.success = true → c.call.name = a →
      ∀ x ∈ Sig.names (D.act a).sig, ∀ y ∈ Sig.names (D.act a).sig, x ≠ y →
        substOf truth c x = substOf truth c y → ρ x ≠ ρ y)
    (hconst : ∀ x ∈ Sig.names D.consts, ∀ y ∈ Sig.names ((D.act a).sig ++ D.consts), x ≠ y → ρ x ≠ ρ y) :
    applicable (truth a).pre ρ s ∧ successor (L'.dom.act a).eff ρ s = successor (truth a).eff ρ s := by
  refine ⟨C01_preconditions_sufficient hD hT hG h ha ρ s happ, C02_effects_exact hD hT hG h ha ρ ?_ s happ⟩
  have hp := (hD.sigs a ha).params
  have hsub : ∀ x y : String × PType, [x, y].Sublist (D.act a).sig → ρ x.1 ≠ ρ y.1 := by
    intro x y hs
    have hx : x ∈ (D.act a).sig := hs.subset (by simp)
    have hy : y ∈ (D.act a).sig := hs.subset (by simp)
    have hxy : x.1 ≠ y.1 := by
      have : [x.1, y.1].Sublist (Sig.names (D.act a).sig) := hs.map Prod.fst
      have := this.nodup hp
      simpa using this
    by_cases ht : x.2.name = y.2.name
    · by_cases hd : ∃ c ∈ obs.flatten, c.success = true ∧ c.call.name = a ∧
          (x.1, y.1) ∈ duplicatePairs (D.act a).sig c.call.params
      · obtain ⟨c, hc, hcs, hca, hm⟩ := hd
        have har := (hG.explained c hc hcs).arity
        rw [hca, hT.params a ha] at har
        obtain ⟨_, e⟩ := (mem_duplicatePairs hp har).mp hm
        apply hseen c hc hcs hca _ (List.mem_map_of_mem hx) _ (List.mem_map_of_mem hy) hxy
        unfold substOf
        rw [hca, hT.params a ha]
        exact e
      · apply hineq (x.1, y.1)
        rw [ineq_form hD h ha, mem_sameTypePairs]
        refine ⟨⟨rfl, x.2, y.2, hs, ht⟩, fun c hc hcs hca _ hm => hd ⟨c, hc, hcs, hca, hm⟩⟩
    · exact htypes x hx y hy ht
  have hpair : ∀ x ∈ Sig.names (D.act a).sig, ∀ y ∈ Sig.names (D.act a).sig, x ≠ y → ρ x ≠ ρ y := by
    intro x hx y hy hne
    rw [Sig.names, List.mem_map] at hx hy
    obtain ⟨⟨x, tx⟩, hx, rfl⟩ := hx
    obtain ⟨⟨y, ty⟩, hy, rfl⟩ := hy
    have hor : [(x, tx), (y, ty)].Sublist (D.act a).sig ∨ [(y, ty), (x, tx)].Sublist (D.act a).sig := by
      clear hsub hp htypes
      generalize (D.act a).sig = l at hx hy
      induction l with
      | nil => simp at hx
      | cons z zs ih =>
        rcases List.mem_cons.mp hx with rfl | hx' <;> rcases List.mem_cons.mp hy with e' | hy'
        · exact absurd (congrArg Prod.fst e').symm hne
        · exact Or.inl (List.Sublist.cons_cons _ (List.singleton_sublist.mpr hy'))
        · subst e'; exact Or.inr (List.Sublist.cons_cons _ (List.singleton_sublist.mpr hx'))
        · rcases ih hx' hy' with k | k
          · exact Or.inl (k.cons _)
          · exact Or.inr (k.cons _)
    rcases hor with k | k
    · exact hsub _ _ k
    · exact fun e => hsub _ _ k e.symm
  intro x hx y hy e
  by_contra hne
  rw [names_append, List.mem_append] at hx hy
  rcases hx with hx | hx
  · rcases hy with hy | hy
    · exact hpair x hx y hy hne e
    · exact hconst y hy x (by rw [names_append, List.mem_append]; exact Or.inl hx) (Ne.symm hne) e.symm
  · exact hconst x hx y (by rw [names_append, List.mem_append]; exact hy) hne e

end

namespace Limits

def o : PType := ⟨"obj", ["object"]⟩
def sub : PType := ⟨"small", ["obj", "object"]⟩
def p1 : PredDecl := ⟨"p", [("?v", o)]⟩
def q2 : PredDecl := ⟨"q", [("?v", o), ("?w", o)]⟩
def P (x : String) (b : Bool := true) : Lit := ⟨"p", [x], b⟩
def Q (x y : String) (b : Bool := true) : Lit := ⟨"q", [x, y], b⟩
def A (n : String) (l : List String) : Atom := ⟨n, l⟩

/-- A domain with one action "act". -/
def dom (preds : List PredDecl) (consts sig : Sig) : Domain := ⟨preds, consts, ["act"], fun _ => .fresh sig⟩
def tru (sig : Sig) (pre eff : Finset Lit) : String → Schema := fun _ => ⟨sig, pre, eff⟩
def comp (prev : State) (call : List String) (next : State) : Component := ⟨prev, ⟨"act", call⟩, next, true⟩

end Limits
open Limits

/-- **C12, refuted.** Learning in two calls is not learning from both batches at once: the first call
completes the still unobserved action with all (contradictory) literals and the second call adds to
them, so the action stays inapplicable forever although it was observed. -/
theorem C12_two_calls_not_one : ∃ (D : Domain) (truth : String → Schema) (b₁ b₂ : List (List Component)) (L₂ : Learner),
    ProblemOK D truth (b₁ ++ b₂) ∧ learnMany (Learner.init D) [b₁, b₂] = .ok L₂ ∧
    (∀ ρ s, ¬ applicable (L₂.dom.act "act").pre ρ s) ∧
    (∃ L rep, (Learner.init D).learn (b₁ ++ b₂) = .ok (L, rep) ∧ ∃ ρ s, applicable (L.dom.act "act").pre ρ s) := by
  refine ⟨dom [p1] [] [("?x", o)], tru [("?x", o)] {P "?x"} {P "?x" false},
    [[]], [[comp {A "p" ["a"]} ["a"] ∅]], ?_⟩
  refine ⟨runLearn (runLearn (Learner.init (dom [p1] [] [("?x", o)])) [[]]) [[comp {A "p" ["a"]} ["a"] ∅]], ?_, ?_, ?_, ?_⟩
  · decide +kernel
  · rfl
  · intro ρ s h
    have h1 := h (P "?x") (by decide +kernel)
    have h2 := h (P "?x").neg (by decide +kernel)
    rw [ground_neg] at h2
    exact holds_neg.mp h2 h1
  · obtain ⟨rep, hr⟩ := runLearn_eq (D := dom [p1] [] [("?x", o)]) (p := .noRemove) (i := true)
      (obs := [[]] ++ [[comp {A "p" ["a"]} ["a"] ∅]]) (by decide) (by decide)
    exact ⟨_, rep, hr, subst ["?x"] ["a"], {A "p" ["a"]}, by decide +kernel⟩

/-- **C13, refuted for repeated objects.** One successful call with a repeated object drops the
inequality; the learned model then accepts a non-injective call whose true effect it mispredicts. Here
the true action deletes `(p ?x)` and then adds `(p ?y)`; `(p ?y)` is not learned as an effect because it
already held. -/
theorem C13_duplicate_call_unsafe : ∃ (D : Domain) (truth : String → Schema) (obs : List (List Component)) (L' : Learner)
    (rep : List (String × Status)) (ρ : String → String) (s : State),
    ProblemOK D truth obs ∧ D.consts = [] ∧ (Learner.init D).learn obs = .ok (L', rep) ∧
    applicable (L'.dom.act "act").pre ρ s ∧ ineqHolds (L'.dom.act "act").ineq ρ ∧
    successor (L'.dom.act "act").eff ρ s ≠ successor (truth "act").eff ρ s := by
  let sig : Sig := [("?x", o), ("?y", o)]
  let obs := [[comp {A "p" ["a"], A "p" ["b"]} ["a", "b"] {A "p" ["b"]}, comp {A "p" ["a"]} ["a", "a"] {A "p" ["a"]}]]
  obtain ⟨rep, hr⟩ := runLearn_eq (D := dom [p1] [] sig) (p := .noRemove) (i := true) (obs := obs) (by decide) (by decide)
  exact ⟨dom [p1] [] sig, tru sig ∅ {P "?x" false, P "?y"}, obs, _, rep, subst ["?x", "?y"] ["a", "a"], {A "p" ["a"]},
    by decide +kernel, rfl, hr, by decide +kernel, by decide +kernel, by decide +kernel⟩

/-- **C13, refuted for subtypes.** No duplicated call is needed: inequalities are only produced for
parameters of *equal* type names, so parameters of a type and of its subtype may be bound to one
object. -/
theorem C13_subtype_unsafe : ∃ (D : Domain) (truth : String → Schema) (obs : List (List Component)) (L' : Learner)
    (rep : List (String × Status)) (ρ : String → String) (s : State),
    ProblemOK D truth obs ∧ D.consts = [] ∧ (∀ c ∈ obs.flatten, c.call.params.Nodup) ∧
    (Learner.init D).learn obs = .ok (L', rep) ∧
    applicable (L'.dom.act "act").pre ρ s ∧ ineqHolds (L'.dom.act "act").ineq ρ ∧
    successor (L'.dom.act "act").eff ρ s ≠ successor (truth "act").eff ρ s := by
  let sig : Sig := [("?x", o), ("?y", sub)]
  let obs := [[comp {A "p" ["a"], A "p" ["b"]} ["a", "b"] {A "p" ["b"]}]]
  obtain ⟨rep, hr⟩ := runLearn_eq (D := dom [p1] [] sig) (p := .noRemove) (i := true) (obs := obs) (by decide) (by decide)
  exact ⟨dom [p1] [] sig, tru sig ∅ {P "?x" false, P "?y"}, obs, _, rep, subst ["?x", "?y"] ["b", "b"], {A "p" ["b"]},
    by decide +kernel, rfl, by decide, hr, by decide +kernel, by decide +kernel, by decide +kernel⟩

/-- **C01 needs `noConst`.** A call that binds a parameter to a constant can remove a true
precondition: the true action needs `(q ?x c)`; the call with `?x = c` needs `(q c c)`, which the
vocabulary (distinct objects only) does not contain, so the literal is dropped. -/
theorem C01_constant_call_unsafe : ∃ (D : Domain) (truth : String → Schema) (obs : List (List Component)) (L' : Learner)
    (rep : List (String × Status)) (ρ : String → String) (s : State),
    ProblemOK D truth obs ∧ (Learner.init D).learn obs = .ok (L', rep) ∧ Spec.Injective D.consts (D.act "act").sig ρ ∧
    applicable (L'.dom.act "act").pre ρ s ∧ ¬ applicable (truth "act").pre ρ s := by
  let sig : Sig := [("?x", o)]
  let obs := [[comp {A "q" ["a", "c"]} ["a"] {A "q" ["a", "c"]}, comp {A "q" ["c", "c"]} ["c"] {A "q" ["c", "c"]}]]
  obtain ⟨rep, hr⟩ := runLearn_eq (D := dom [q2] [("c", o)] sig) (p := .noRemove) (i := true) (obs := obs) (by decide) (by decide)
  refine ⟨dom [q2] [("c", o)] sig, tru sig {Q "?x" "c"} ∅, obs, _, rep, subst ["?x"] ["a"], ∅,
    by decide +kernel, hr, ?_, by decide +kernel, by decide +kernel⟩
  intro x hx y hy
  have hx' : x = "?x" ∨ x = "c" := by simpa [dom, sig, Sig.names, ActModel.fresh] using hx
  have hy' : y = "?x" ∨ y = "c" := by simpa [dom, sig, Sig.names, ActModel.fresh] using hy
  rcases hx' with rfl | rfl <;> rcases hy' with rfl | rfl <;> decide

/-- **C04 (and C02) need `noConst`.** After a single call that binds a parameter to a constant, an
effect on the constant is learned for the parameter as well; applied to another object the learned
effect is wrong. -/
theorem C04_constant_call_spurious : ∃ (D : Domain) (truth : String → Schema) (obs : List (List Component)) (L' : Learner)
    (rep : List (String × Status)) (e : Lit) (ρ : String → String) (s : State),
    ProblemOK D truth obs ∧ (Learner.init D).learn obs = .ok (L', rep) ∧
    e ∈ (L'.dom.act "act").eff ∧ e ∉ (truth "act").eff ∧
    Spec.Injective D.consts (D.act "act").sig ρ ∧ applicable (L'.dom.act "act").pre ρ s ∧
    successor (L'.dom.act "act").eff ρ s ≠ successor (truth "act").eff ρ s := by
  let sig : Sig := [("?x", o)]
  let obs := [[comp ∅ ["c"] {A "p" ["c"]}]]
  obtain ⟨rep, hr⟩ := runLearn_eq (D := dom [p1] [("c", o)] sig) (p := .noRemove) (i := true) (obs := obs) (by decide) (by decide)
  refine ⟨dom [p1] [("c", o)] sig, tru sig ∅ {P "c"}, obs, _, rep, P "?x", subst ["?x"] ["a"], ∅,
    by decide +kernel, hr, by decide +kernel, by decide +kernel, ?_, by decide +kernel, by decide +kernel⟩
  intro x hx y hy
  have hx' : x = "?x" ∨ x = "c" := by simpa [dom, sig, Sig.names, ActModel.fresh] using hx
  have hy' : y = "?x" ∨ y = "c" := by simpa [dom, sig, Sig.names, ActModel.fresh] using hy
  rcases hx' with rfl | rfl <;> rcases hy' with rfl | rfl <;> decide

/-- **C05 needs the absence of constants.** With constants the order of two real transitions matters:
the first transition of an action never records what cannot be an effect. -/
theorem C05_constants_order_matters : ∃ (D : Domain) (truth : String → Schema) (c₁ c₂ : Component) (L₁ L₂ : Learner)
    (rep₁ rep₂ : List (String × Status)),
    ProblemOK D truth [[c₁, c₂]] ∧ (Learner.init D).learn [[c₁, c₂]] = .ok (L₁, rep₁) ∧
    (Learner.init D).learn [[c₂, c₁]] = .ok (L₂, rep₂) ∧ (L₁.dom.act "act").eff ≠ (L₂.dom.act "act").eff := by
  let sig : Sig := [("?x", o)]
  let c₁ := comp ∅ ["c"] {A "p" ["c"]}
  let c₂ := comp ∅ ["a"] {A "p" ["c"]}
  obtain ⟨rep₁, h₁⟩ := runLearn_eq (D := dom [p1] [("c", o)] sig) (p := .noRemove) (i := true) (obs := [[c₁, c₂]]) (by decide) (by decide)
  obtain ⟨rep₂, h₂⟩ := runLearn_eq (D := dom [p1] [("c", o)] sig) (p := .noRemove) (i := true) (obs := [[c₂, c₁]]) (by decide) (by decide)
  exact ⟨dom [p1] [("c", o)] sig, tru sig ∅ {P "c"}, c₁, c₂, _, _, rep₁, rep₂, by decide +kernel, h₁, h₂, by decide +kernel⟩

/-- **C07 needs a literal.** An unobserved action whose parameters fit no predicate is returned without
preconditions: it is applicable everywhere, although nothing is known about it. -/
theorem C07_empty_vocabulary_applicable : ∃ (D : Domain) (L' : Learner) (rep : List (String × Status)),
    WFDomain D ∧ (Learner.init D).learn [] = .ok (L', rep) ∧ "act" ∈ D.names ∧ ∀ ρ s, applicable (L'.dom.act "act").pre ρ s := by
  obtain ⟨rep, hr⟩ := runLearn_eq (D := dom [p1] [] []) (p := .noRemove) (i := true) (obs := []) (by decide) (by decide)
  have hOK : ProblemOK (dom [p1] [] []) (tru [] ∅ ∅) [] := by decide +kernel
  refine ⟨_, _, rep, hOK.sound.1, hr, by decide, fun ρ s => ?_⟩
  have : ((runLearn (Learner.init (dom [p1] [] [])) []).dom.act "act").pre = ∅ := by decide +kernel
  rw [this]; intro l hl; simp at hl

/-- **C07 needs the default policy.** With `hard`, an unobserved action becomes applicable. -/
theorem C07_hard_policy_applicable : ∃ (D : Domain) (L' : Learner) (rep : List (String × Status)) (ρ : String → String) (s : State),
    WFDomain D ∧ (Learner.init D .hard).learn [] = .ok (L', rep) ∧ "act" ∈ D.names ∧ applicable (L'.dom.act "act").pre ρ s := by
  let sig : Sig := [("?x", o)]
  obtain ⟨rep, hr⟩ := runLearn_eq (D := dom [p1] [] sig) (p := .hard) (i := true) (obs := []) (by decide) (by decide)
  have hOK : ProblemOK (dom [p1] [] sig) (tru sig ∅ ∅) [] := by decide +kernel
  exact ⟨_, _, rep, subst ["?x"] ["a"], {A "p" ["a"]}, hOK.sound.1, hr, by decide, by decide +kernel⟩

/-- **C01 and C02 need the default policy.** With `soft`, the true negative precondition of an action
that makes its atom true is dropped: the learned action is applicable where the true one is not. -/
theorem C01_soft_policy_unsafe : ∃ (D : Domain) (truth : String → Schema) (obs : List (List Component)) (L' : Learner)
    (rep : List (String × Status)) (ρ : String → String) (s : State),
    ProblemOK D truth obs ∧ D.consts = [] ∧ (Learner.init D .soft).learn obs = .ok (L', rep) ∧
    applicable (L'.dom.act "act").pre ρ s ∧ ¬ applicable (truth "act").pre ρ s := by
  let sig : Sig := [("?x", o)]
  let obs := [[comp ∅ ["a"] {A "p" ["a"]}]]
  obtain ⟨rep, hr⟩ := runLearn_eq (D := dom [p1] [] sig) (p := .soft) (i := true) (obs := obs) (by decide) (by decide)
  exact ⟨dom [p1] [] sig, tru sig {P "?x" false} {P "?x"}, obs, _, rep, subst ["?x"] ["a"], {A "p" ["a"]},
    by decide +kernel, rfl, hr, by decide +kernel, by decide +kernel⟩

/-- **C02 fails with the hard policy.** A delete effect that was never visible (its atom was already
false) is not learned, and the policy removes the negative precondition that protected it. -/
theorem C02_hard_policy_unsafe : ∃ (D : Domain) (truth : String → Schema) (obs : List (List Component)) (L' : Learner)
    (rep : List (String × Status)) (ρ : String → String) (s : State),
    ProblemOK D truth obs ∧ D.consts = [] ∧ (Learner.init D .hard).learn obs = .ok (L', rep) ∧
    Spec.Injective D.consts (D.act "act").sig ρ ∧ applicable (L'.dom.act "act").pre ρ s ∧
    successor (L'.dom.act "act").eff ρ s ≠ successor (truth "act").eff ρ s := by
  let sig : Sig := [("?x", o)]
  let obs := [[comp ∅ ["a"] ∅]]
  obtain ⟨rep, hr⟩ := runLearn_eq (D := dom [p1] [] sig) (p := .hard) (i := true) (obs := obs) (by decide) (by decide)
  refine ⟨dom [p1] [] sig, tru sig ∅ {P "?x" false}, obs, _, rep, subst ["?x"] ["a"], {A "p" ["a"]},
    by decide +kernel, rfl, hr, ?_, by decide +kernel, by decide +kernel⟩
  intro x hx y hy
  have hx' : x = "?x" := by simpa [dom, sig, Sig.names, ActModel.fresh] using hx
  have hy' : y = "?x" := by simpa [dom, sig, Sig.names, ActModel.fresh] using hy
  rw [hx', hy']; exact fun _ => rfl

/-- The hypotheses of `C13_noninjective_safe_partial` can be met by data with several parameters. -/
example : let sig : Sig := [("?x", o), ("?y", o)]
    let obs := [[comp {A "q" ["a", "b"]} ["a", "b"] {A "q" ["b", "a"]}]]
    ProblemOK (dom [q2] [] sig) (tru sig {Q "?x" "?y"} {Q "?x" "?y" false, Q "?y" "?x"}) obs ∧
    (∀ p ∈ sig, ∀ q ∈ sig, p.2.name = q.2.name) ∧ (∀ c ∈ obs.flatten, c.call.params.Nodup) ∧
    applicable ((runLearn (Learner.init (dom [q2] [] sig)) obs).dom.act "act").pre (subst ["?x", "?y"] ["b", "c"]) {A "q" ["b", "c"]} ∧
    ineqHolds ((runLearn (Learner.init (dom [q2] [] sig)) obs).dom.act "act").ineq (subst ["?x", "?y"] ["b", "c"]) := by
  decide +kernel

end Props

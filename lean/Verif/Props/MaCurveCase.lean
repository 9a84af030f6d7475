import Verif.Props.MaCurve
import Verif.Props.TripletsCase

/-! Concrete cases for C123. -/
namespace Props
namespace MaCurve
namespace Case
open Model Model.Triplets Spec Spec.Plans Props.Triplets Limits MaLimits PlusLimits

def D : Domain := dom2 [p1, q2] [] xy xy
/-- "a" adds `(p ?x)` and `(q ?x ?y)`, "b" adds `(p ?x)`. -/
def truth : String → Schema := tru2 xy {P "?x", Q "?x" "?y"} xy {P "?x"}
/-- "a" alone where `p` holds already. -/
def few : List (List JointComponent) := [[⟨{A "p" ["o1"]}, [⟨"a", ["o1", "o2"]⟩], {A "p" ["o1"], A "q" ["o1", "o2"]}⟩]]
/-- Then both at once. -/
def more : List (List JointComponent) := few ++ [[⟨∅, [⟨"a", ["o1", "o2"]⟩, ⟨"b", ["o1", "o2"]⟩], {A "p" ["o1"], A "q" ["o1", "o2"]}⟩]]
noncomputable def ord : Finset Lit → List Lit := ordOf (univP ["o1", "o2"] ++ univQ ["o1", "o2"])
def prob : Problem := ⟨{A "p" ["o3"]}, fun s => A "q" ["o3", "o4"] ∈ s⟩
def plan : List Call := [⟨"a", ["o3", "o4"]⟩]

/-- **C123, refuted without the condition on the returned actions.** Good joint data: "a", returned after the first trajectory, is dropped after the
second, because a joint transition leaves open which of the two agents adds `p`; its plans are lost, while the single-agent baseline keeps them. -/
theorem C123_curve_can_sink : ∃ (L₁ L₂ : MaLearner) (rep₁ rep₂ rep₃ : List (String × Status)) (r : List (List Component)) (B : Learner),
    WFDomain D ∧ WFTruth D truth ∧ D.consts = [] ∧ GoodJointData D truth more ∧ GoodOrd ord ∧ (∀ c ∈ more.flatten, JointExplained truth c) ∧
    (∀ c ∈ few.flatten, c ∈ more.flatten) ∧ (MaLearner.init D).learn ord few = .ok (L₁, rep₁) ∧ (MaLearner.init D).learn ord more = .ok (L₂, rep₂) ∧
    baselineAll more = .ok r ∧ (Learner.init D).learn r = .ok (B, rep₃) ∧ Distinct D.consts plan ∧
    (returned L₁.base.dom).Solves prob plan ∧ (returned B.dom).Solves prob plan ∧ (real D truth).Solves prob plan ∧
    "a" ∉ L₂.base.dom.names ∧ ¬ (returned L₂.base.dom).Solves prob plan := by
  have hok : JointProblemOK D truth more := by decide +kernel
  obtain ⟨h1, h2, h3⟩ := goodJointB_sound hok (by decide +kernel)
  obtain ⟨rep₁, e1⟩ := runMa_eq (ord := ord) (L := MaLearner.init D) (obs := few) (by decide +kernel)
  obtain ⟨rep₂, e2⟩ := runMa_eq (ord := ord) (L := MaLearner.init D) (obs := more) (by decide +kernel)
  have hb : baselineAll more = .ok [[⟨{A "p" ["o1"]}, ⟨"a", ["o1", "o2"]⟩, {A "p" ["o1"], A "q" ["o1", "o2"]}, true⟩], []] := by rfl
  obtain ⟨rep₃, e3⟩ := runLearn_eq (D := D) (p := .noRemove) (i := true)
    (obs := [[⟨{A "p" ["o1"]}, ⟨"a", ["o1", "o2"]⟩, {A "p" ["o1"], A "q" ["o1", "o2"]}, true⟩], []]) (by decide) (by decide)
  have hgone : "a" ∉ (runMa ord (MaLearner.init D) more).base.dom.names := by decide +kernel
  refine ⟨_, _, rep₁, rep₂, rep₃, _, _, h1, h2, rfl, h3, ordOf_good _, hok.sound.2.2, ?_, e1, e2, hb, e3, ?_, ?_, ?_, ?_, hgone, ?_⟩
  · intro c hc; simp only [more, List.flatten_append, List.mem_append]; exact Or.inl hc
  · intro c hc; simp [plan] at hc; subst hc; simp [D, dom2, Sig.names]
  · exact ⟨{A "p" ["o3"], A "q" ["o3", "o4"]}, ⟨_, by decide +kernel, rfl⟩, by show A "q" ["o3", "o4"] ∈ _; decide⟩
  · exact ⟨{A "p" ["o3"], A "q" ["o3", "o4"]}, ⟨_, by decide +kernel, rfl⟩, by show A "q" ["o3", "o4"] ∈ _; decide⟩
  · exact ⟨{A "p" ["o3"], A "q" ["o3", "o4"]}, ⟨_, by decide +kernel, rfl⟩, by show A "q" ["o3", "o4"] ∈ _; decide⟩
  · rintro ⟨s, ⟨m, hm, _⟩, _⟩
    exact hgone hm.1

def D2 : Domain := dom2 [p1] [] xy xy
def truth2 : String → Schema := tru2 xy {P "?x"} xy {P "?y"}
/-- The two transitions of the joint trajectory in which one agent acts. -/
def part : List JointComponent := [⟨∅, [⟨"a", ["o1", "o2"]⟩], {A "p" ["o1"]}⟩, ⟨∅, [⟨"b", ["o1", "o2"]⟩], {A "p" ["o2"]}⟩]
def prob2 : Problem := ⟨∅, fun s => A "p" ["o3"] ∈ s⟩
def plan2 : List Call := [⟨"a", ["o3", "o4"]⟩]

/-- The hypotheses of the positive theorems are met: a plan of the baseline, and one of MA-SAM on a part of the data, are plans of MA-SAM on all joint
transitions. -/
example : ∃ (L₁ L₂ : MaLearner) (rep₁ rep₂ rep₃ : List (String × Status)) (r : List (List Component)) (B : Learner),
    WFDomain D2 ∧ WFTruth D2 truth2 ∧ D2.consts = [] ∧ GoodJointData D2 truth2 [joint] ∧ (∀ c ∈ [joint].flatten, JointExplained truth2 c) ∧
    (∀ c ∈ [part].flatten, c ∈ [joint].flatten) ∧
    (MaLearner.init D2).learn (ordOf (univP ["o1", "o2"])) [part] = .ok (L₁, rep₁) ∧
    (MaLearner.init D2).learn (ordOf (univP ["o1", "o2"])) [joint] = .ok (L₂, rep₂) ∧
    baselineAll [joint] = .ok r ∧ (Learner.init D2).learn r = .ok (B, rep₃) ∧ Distinct D2.consts plan2 ∧
    (∀ c ∈ plan2, c.name ∈ L₂.base.dom.names) ∧ (returned L₁.base.dom).Solves prob2 plan2 ∧ (returned B.dom).Solves prob2 plan2 ∧
    (returned L₂.base.dom).Solves prob2 plan2 := by
  have hok : JointProblemOK D2 truth2 [joint] := by decide +kernel
  obtain ⟨h1, h2, h3⟩ := goodJointB_sound hok (by decide +kernel)
  obtain ⟨rep₁, e1⟩ := runMa_eq (ord := ordOf (univP ["o1", "o2"])) (L := MaLearner.init D2) (obs := [part]) (by decide +kernel)
  obtain ⟨rep₂, e2⟩ := runMa_eq (ord := ordOf (univP ["o1", "o2"])) (L := MaLearner.init D2) (obs := [joint]) (by decide +kernel)
  obtain ⟨rep₃, e3⟩ := runLearn_eq (D := D2) (p := .noRemove) (i := true)
    (obs := [[⟨∅, ⟨"a", ["o1", "o2"]⟩, {A "p" ["o1"]}, true⟩, ⟨∅, ⟨"a", ["o1", "o2"]⟩, {A "p" ["o1"]}, true⟩,
      ⟨∅, ⟨"b", ["o1", "o2"]⟩, {A "p" ["o2"]}, true⟩]]) (by decide) (by decide)
  have hb : baselineAll [joint] = .ok [[⟨∅, ⟨"a", ["o1", "o2"]⟩, {A "p" ["o1"]}, true⟩, ⟨∅, ⟨"a", ["o1", "o2"]⟩, {A "p" ["o1"]}, true⟩,
      ⟨∅, ⟨"b", ["o1", "o2"]⟩, {A "p" ["o2"]}, true⟩]] := by rfl
  have hd : Distinct D2.consts plan2 := by intro c hc; simp [plan2] at hc; subst hc; simp [D2, dom2, Sig.names]
  have hret : ∀ c ∈ plan2, c.name ∈ (runMa (ordOf (univP ["o1", "o2"])) (MaLearner.init D2) [joint]).base.dom.names := by decide +kernel
  have hsB : (returned (runLearn (Learner.init D2) [[⟨∅, ⟨"a", ["o1", "o2"]⟩, {A "p" ["o1"]}, true⟩, ⟨∅, ⟨"a", ["o1", "o2"]⟩, {A "p" ["o1"]}, true⟩,
      ⟨∅, ⟨"b", ["o1", "o2"]⟩, {A "p" ["o2"]}, true⟩]]).dom).Solves prob2 plan2 :=
    ⟨{A "p" ["o3"]}, ⟨_, by decide +kernel, rfl⟩, by show A "p" ["o3"] ∈ _; decide⟩
  refine ⟨_, _, rep₁, rep₂, rep₃, _, _, h1, h2, rfl, h3, hok.sound.2.2, ?_, e1, e2, hb, e3, hd, hret, ?_, hsB,
    (C123_dominates_baseline (ordOf_good _) h1 h2 rfl h3 hok.sound.2.2 e2 hb e3 _ hd hret hsB).1⟩
  · intro c hc
    simp only [part, joint, List.flatten_cons, List.flatten_nil, List.append_nil, List.mem_cons, List.not_mem_nil, or_false] at hc ⊢
    rcases hc with rfl | rfl <;> simp
  · exact ⟨{A "p" ["o3"]}, ⟨_, by decide +kernel, rfl⟩, by show A "p" ["o3"] ∈ _; decide⟩

/-- "a" acts alone in the first data set, and is returned. -/
example : (∀ c ∈ few.flatten, JointComponent.NoDup c → (∃ k ∈ c.calls, k.name = "a") → c.calls.length = 1) ∧
    "a" ∈ (runMa ord (MaLearner.init D) few).base.dom.names := by
  constructor
  · intro c hc _ _
    simp [few] at hc; subst hc; rfl
  · decide +kernel

end Case
end MaCurve
end Props

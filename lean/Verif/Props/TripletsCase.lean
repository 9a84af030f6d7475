import Verif.Props.Triplets
import Verif.Props.MaSam

/-! Concrete cases for C101-C103. -/
namespace Props
namespace Triplets
open Model Model.Triplets Spec Limits MaLimits

/-- Two observations of five and one transitions cut into pairs: two pieces, three transitions lost. -/
example : chunks 2 [⟨["a"], [1, 2, 3, 4, 5]⟩, ⟨["b"], [6]⟩] = .ok [⟨["a"], [1, 2]⟩, ⟨["a"], [3, 4]⟩] := by
  rfl

/-- Three real transitions cut into single ones; the model of the first two is safe, has an effect,
and is applicable to an object never seen. -/
example : let D := dom [p1] [] [("?x", o)]
    let truth := tru [("?x", o)] {P "?x"} {P "?x" false}
    let obs : List (Obs Component) := [⟨["a", "b"], [comp {A "p" ["a"], A "p" ["b"]} ["a"] {A "p" ["b"]},
      comp {A "p" ["b"]} ["b"] ∅]⟩, ⟨["c"], [comp {A "p" ["c"]} ["c"] ∅]⟩]
    WFDomain D ∧ WFTruth D truth ∧ GoodData D truth (given obs) ∧ D.consts = [] ∧
    ∃ r rep, chunks 1 obs = .ok r ∧ r.length = 3 ∧ Observed (given (r.take 2)) "act" ∧
      (Learner.init D).learn (given (r.take 2)) = .ok (runLearn (Learner.init D) (given (r.take 2)), rep) ∧
      P "?x" false ∈ ((runLearn (Learner.init D) (given (r.take 2))).dom.act "act").eff ∧
      Spec.Injective D.consts (D.act "act").sig (subst ["?x"] ["z"]) ∧
      applicable ((runLearn (Learner.init D) (given (r.take 2))).dom.act "act").pre (subst ["?x"] ["z"]) {A "p" ["z"]} := by
  intro D truth obs
  have hok : ProblemOK D truth (given obs) := by decide +kernel
  refine ⟨hok.sound.1, hok.sound.2.1, ⟨hok.sound.2.2, fun _ _ _ _ _ _ h => (by cases h)⟩, rfl, ?_⟩
  refine ⟨[⟨["a", "b"], [comp {A "p" ["a"], A "p" ["b"]} ["a"] {A "p" ["b"]}]⟩, ⟨["a", "b"], [comp {A "p" ["b"]} ["b"] ∅]⟩,
    ⟨["c"], [comp {A "p" ["c"]} ["c"] ∅]⟩], ?_⟩
  obtain ⟨rep, hr⟩ := runLearn_eq (D := D) (p := .noRemove) (i := true)
    (obs := given [⟨["a", "b"], [comp {A "p" ["a"], A "p" ["b"]} ["a"] {A "p" ["b"]}]⟩, ⟨["a", "b"], [comp {A "p" ["b"]} ["b"] ∅]⟩])
    (by decide) (by decide)
  refine ⟨rep, rfl, rfl, ⟨comp {A "p" ["b"]} ["b"] ∅, by simp [given], by decide⟩, hr, by decide +kernel, (by unfold Spec.Injective; decide +kernel),
    by decide +kernel⟩

/-- A joint observation with four transitions: two agents, one agent, two agents, one agent. -/
def joint : List JointComponent :=
  [⟨∅, [⟨"a", ["o1", "o2"]⟩, ⟨"b", ["o1", "o2"]⟩], {A "p" ["o1"], A "p" ["o2"]}⟩,
   ⟨∅, [⟨"a", ["o1", "o2"]⟩], {A "p" ["o1"]}⟩,
   ⟨∅, [⟨"a", ["o1", "o2"]⟩, ⟨"b", ["o1", "o2"]⟩], {A "p" ["o1"], A "p" ["o2"]}⟩,
   ⟨∅, [⟨"b", ["o1", "o2"]⟩], {A "p" ["o2"]}⟩]

/-- Its baseline: the first transition is dropped, the third replaced by a copy of the second. -/
example : baseline joint = .ok ⟨[⟨∅, ⟨"a", ["o1", "o2"]⟩, {A "p" ["o1"]}, true⟩, ⟨∅, ⟨"a", ["o1", "o2"]⟩, {A "p" ["o1"]}, true⟩,
    ⟨∅, ⟨"b", ["o1", "o2"]⟩, {A "p" ["o2"]}, true⟩], 2, 2⟩ := by
  rfl

example : datasetRatio [⟨[], 2, 2⟩, ⟨[], 1, 1⟩] = .ok (3, 3, 1) := by
  decide +kernel

/-- The hypotheses of C102 are met by real joint transitions; the learned "a" has its effect. -/
example : let D := dom2 [p1] [] xy xy
    let truth := tru2 xy {P "?x"} xy {P "?y"}
    WFDomain D ∧ WFTruth D truth ∧ D.consts = [] ∧
    (∀ c ∈ [joint].flatten, ∀ k, c.calls = [k] → JointExplained truth c ∧ (k.params.Nodup → ∀ o ∈ k.params, o ∉ Sig.names D.consts)) ∧
    ∃ r rep, baselineAll [joint] = .ok r ∧ (Learner.init D).learn r = .ok (runLearn (Learner.init D) r, rep) ∧
      P "?x" ∈ ((runLearn (Learner.init D) r).dom.act "a").eff ∧
      Spec.Injective D.consts (D.act "a").sig (subst ["?x", "?y"] ["o3", "o4"]) ∧
      applicable ((runLearn (Learner.init D) r).dom.act "a").pre (subst ["?x", "?y"] ["o3", "o4"]) ∅ := by
  intro D truth
  have hok : JointProblemOK D truth [joint] := by decide +kernel
  refine ⟨hok.sound.1, hok.sound.2.1, rfl, fun c hc k _ => ⟨hok.sound.2.2 c hc, fun _ o _ h => by cases h⟩, ?_⟩
  obtain ⟨rep, hr⟩ := runLearn_eq (D := D) (p := .noRemove) (i := true)
    (obs := [[⟨∅, ⟨"a", ["o1", "o2"]⟩, {A "p" ["o1"]}, true⟩, ⟨∅, ⟨"a", ["o1", "o2"]⟩, {A "p" ["o1"]}, true⟩,
      ⟨∅, ⟨"b", ["o1", "o2"]⟩, {A "p" ["o2"]}, true⟩]]) (by decide) (by decide)
  exact ⟨_, rep, rfl, hr, by decide +kernel, (by unfold Spec.Injective; decide +kernel), by decide +kernel⟩

/-- A joint action in which nobody acts raises. -/
example : baseline [⟨∅, [], ∅⟩] = .error .indexError := rfl

/-- 100 problems: 80 training ones. With hop 10 every iteration fits. -/
example : iterations (.experiment 100) 10 = .ok [1, 2, 3, 4, 5, 6, 7, 8, 9, 10, 20, 30, 40, 50, 60, 70, 80] := by decide
/-- With hop 100, 90 training trajectories are asked for although there are 80. -/
example : iterations (.experiment 100) 100 = .ok [1, 10, 20, 30, 40, 50, 60, 70, 80, 90] ∧ maxTrain (.experiment 100) = 81 := by decide
example : rounds [10, 20] 4 = [[10], [10, 20], [10, 20]] := by decide

end Triplets
end Props

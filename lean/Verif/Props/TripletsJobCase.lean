import Verif.Props.TripletsJob
import Verif.Props.TripletsCase

/-! A concrete case for C122. -/
namespace Props
namespace Curve
namespace Case
open Model Model.Triplets Spec Spec.Plans Props.Triplets Limits MaLimits

def D : Domain := dom2 [p1] [] xy xy
def truth : String → Schema := tru2 xy {P "?x"} xy {P "?y"}
/-- One joint trajectory of four transitions: both agents, "a" alone, both, "b" alone. -/
def data : List (Obs JointComponent) := [⟨["o1", "o2"], joint⟩]
/-- The models of the three rounds over two pieces of two transitions. -/
def models : List (Learner × List (String × Status)) := (samRounds D 2 4 data).toOption.getD []

theorem returns : samRounds D 2 4 data = .ok models := by
  have h : (samRounds D 2 4 data).toOption.isSome := by decide +kernel
  unfold models
  cases e : samRounds D 2 4 data with
  | error x => rw [e] at h; cases h
  | ok y => rfl

theorem solves : (returned (models[0]'(by decide +kernel)).1.dom).Solves ⟨∅, fun s => A "p" ["o3"] ∈ s⟩ [⟨"a", ["o3", "o4"]⟩] :=
  ⟨{A "p" ["o3"]}, ⟨{A "p" ["o3"]}, by decide +kernel, rfl⟩, by decide⟩

/-- The hypotheses are met: three rounds; the plan of the first round is one of the last; "b", unknown in the first round, is accepted in the second,
where its recall is 1. -/
example : WFDomain D ∧ WFTruth D truth ∧
    (∀ o ∈ data, ∀ c ∈ o.comps, ∀ k, c.calls = [k] → JointExplained truth c ∧ (k.params.Nodup → ∀ o ∈ k.params, o ∉ Sig.names D.consts)) ∧
    models.length = 3 ∧ Distinct D.consts [⟨"a", ["o3", "o4"]⟩] ∧
    (real D truth).Solves ⟨∅, fun s => A "p" ["o3"] ∈ s⟩ [⟨"a", ["o3", "o4"]⟩] ∧
    (models.map fun m => (preCounts m.1.dom.names (appOf m.1.dom.act) (appTrue truth) [(∅, ⟨"b", ["o1", "o2"]⟩)]).recall "b") = [some 0, some 1, some 1] ∧
    (models.map fun m => (preCounts m.1.dom.names (appOf m.1.dom.act) (appTrue truth) [(∅, ⟨"b", ["o1", "o2"]⟩)]).precision "b") =
      [some 1, some 1, some 1] := by
  have hok : JointProblemOK D truth [joint] := by decide +kernel
  have hreal : ∀ o ∈ data, ∀ c ∈ o.comps, ∀ k, c.calls = [k] →
      JointExplained truth c ∧ (k.params.Nodup → ∀ o ∈ k.params, o ∉ Sig.names D.consts) := by
    intro o ho c hc k _
    refine ⟨hok.sound.2.2 c ?_, fun _ o _ h => by cases h⟩
    simp only [data, List.mem_singleton] at ho
    subst ho
    simpa using hc
  have hd : Distinct D.consts [⟨"a", ["o3", "o4"]⟩] := by intro c hc; simp at hc; subst hc; simp [D, dom2, Sig.names]
  have hl : models.length = 3 := by decide +kernel
  exact ⟨hok.sound.1, hok.sound.2.1, hreal, hl, hd,
    ((C122_curve hok.sound.1 hok.sound.2.1 hreal returns (i := 0) (j := 2) (by omega) (by omega)).1 _ _ hd solves).2,
    by decide +kernel, by decide +kernel⟩

/-- With agents that always act alone the job raises. -/
example : ∃ e, samRounds D 1 21 [⟨["o1", "o2"], [⟨∅, [⟨"a", ["o1", "o2"]⟩], {A "p" ["o1"]}⟩]⟩] = .error e := ⟨.valueError, rfl⟩

/-- The job of the domain "rover": ten transitions per piece, a hundred rounds. -/
example : sizes "rover" = (10, 101) ∧ sizes "depots" = (5, 21) := by decide

end Case
end Curve
end Props

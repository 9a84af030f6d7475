import Verif.Lemmas.Check
import Verif.Lemmas.MaSamLearn

/-! Executable checkers for multi-agent problems, used only to discharge concrete examples. -/
namespace Model
open Spec

/-- All effects of all calls applied to the previous state. -/
def jointNext (truth : String → Schema) (c : JointComponent) : State :=
  (c.prev \ (c.calls.toFinset.biUnion fun k =>
    ((truth k.name).eff.filter (fun l => l.pos = false)).image fun l => (ground (callSubst truth k) l).atom)) ∪
  (c.calls.toFinset.biUnion fun k =>
    ((truth k.name).eff.filter (fun l => l.pos = true)).image fun l => (ground (callSubst truth k) l).atom)

/-- Well-formed domain and truth, every joint transition real. -/
def JointProblemOK (D : Domain) (truth : String → Schema) (obs : List (List JointComponent)) : Prop :=
  ProblemOK D truth [] ∧ ∀ c ∈ obs.flatten,
    (∀ k ∈ c.calls, k.params.length = (truth k.name).params.length) ∧
    (∀ k ∈ c.calls, applicable (truth k.name).pre (callSubst truth k) c.prev) ∧
    (∀ k ∈ c.calls, ∀ e ∈ (truth k.name).eff, holds c.next (ground (callSubst truth k) e)) ∧
    c.next = jointNext truth c

instance (D truth obs) : Decidable (JointProblemOK D truth obs) := by unfold JointProblemOK; infer_instance

theorem JointProblemOK.sound {D : Domain} {truth : String → Schema} {obs : List (List JointComponent)}
    (h : JointProblemOK D truth obs) : WFDomain D ∧ WFTruth D truth ∧ ∀ c ∈ obs.flatten, JointExplained truth c := by
  obtain ⟨h1, h2, _⟩ := h.1.sound
  refine ⟨h1, h2, fun c hc => ?_⟩
  obtain ⟨k1, k2, k3, k4⟩ := h.2 c hc
  refine ⟨k1, k2, k3, fun g hg hg' => ?_⟩
  rw [k4] at hg
  obtain ⟨n, as, b⟩ := g
  cases b with
  | true =>
    have hin : (⟨n, as⟩ : Atom) ∉ c.prev := fun hin => hg' (by simp [holds, Lit.atom, hin])
    have : (⟨n, as⟩ : Atom) ∈ jointNext truth c := by simpa [holds, Lit.atom] using hg
    unfold jointNext at this
    rw [Finset.mem_union, Finset.mem_sdiff] at this
    rcases this with ⟨k, _⟩ | h
    · exact absurd k hin
    · obtain ⟨k, hk, he⟩ := Finset.mem_biUnion.mp h
      obtain ⟨e, he, hea⟩ := Finset.mem_image.mp he
      rw [Finset.mem_filter] at he
      refine ⟨k, List.mem_toFinset.mp hk, e, he.1, ?_⟩
      have h1 := congrArg Atom.name hea
      have h2 := congrArg Atom.args hea
      simp only [ground, Lit.atom] at h1 h2
      simp only [ground, Lit.mk.injEq]
      exact ⟨h1, h2, he.2⟩
  | false =>
    have hin : (⟨n, as⟩ : Atom) ∈ c.prev := by
      by_contra hin
      exact hg' (by simp [holds, Lit.atom, hin])
    have : (⟨n, as⟩ : Atom) ∉ jointNext truth c := by simpa [holds, Lit.atom] using hg
    unfold jointNext at this
    rw [Finset.mem_union, Finset.mem_sdiff, not_or, not_and, not_not] at this
    obtain ⟨k, hk, he⟩ := Finset.mem_biUnion.mp (this.1 hin)
    obtain ⟨e, he, hea⟩ := Finset.mem_image.mp he
    rw [Finset.mem_filter] at he
    refine ⟨k, List.mem_toFinset.mp hk, e, he.1, ?_⟩
    have h1 := congrArg Atom.name hea
    have h2 := congrArg Atom.args hea
    simp only [ground, Lit.atom] at h1 h2
    simp only [ground, Lit.mk.injEq]
    exact ⟨h1, h2, he.2⟩

/-- Executable enumeration of sets: the literals of a given universe in its order. -/
noncomputable def ordOf (U : List Lit) (s : Finset Lit) : List Lit :=
  if s ⊆ U.toFinset then U.filter (fun l => l ∈ s) else s.toList

theorem ordOf_good (U : List Lit) : GoodOrd (ordOf U) := by
  intro s l
  unfold ordOf
  split
  · rename_i h
    simp only [List.mem_filter, decide_eq_true_eq, and_iff_right_iff_imp]
    intro hl; exact List.mem_toFinset.mp (h hl)
  · exact Finset.mem_toList

/-- The learner after learning, for evaluation in examples. -/
noncomputable def runMa (ord : Finset Lit → List Lit) (L : MaLearner) (obs : List (List JointComponent)) : MaLearner :=
  match L.learn ord obs with
  | .ok r => r.1
  | .error _ => L

noncomputable def maOk (ord : Finset Lit → List Lit) (L : MaLearner) (obs : List (List JointComponent)) : Bool :=
  match L.learn ord obs with
  | .ok _ => true
  | .error _ => false

theorem runMa_eq {ord : Finset Lit → List Lit} {L : MaLearner} {obs : List (List JointComponent)} (h : maOk ord L obs = true) :
    ∃ rep, L.learn ord obs = .ok (runMa ord L obs, rep) := by
  unfold maOk at h
  unfold runMa
  split at h
  · rename_i r hr; exact ⟨r.2, by rw [hr]⟩
  · simp at h

noncomputable def maErr (ord : Finset Lit → List Lit) (L : MaLearner) (obs : List (List JointComponent)) : Bool :=
  match L.learn ord obs with
  | .ok _ => false
  | .error e => decide (e = .attributeError)

theorem maErr_eq {ord : Finset Lit → List Lit} {L : MaLearner} {obs : List (List JointComponent)} (h : maErr ord L obs = true) :
    L.learn ord obs = .error .attributeError := by
  unfold maErr at h
  split at h
  · simp at h
  · rename_i e he; rw [he, of_decide_eq_true h]

end Model

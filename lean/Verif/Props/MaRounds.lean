import Verif.Props.MaCurveCase
import Verif.Props.TripletsJobCase

/-! C123: the rounds of the job that learns with MA-SAM from pieces of the joint trajectories. -/
namespace Props
namespace MaCurve
open Model Model.Triplets Spec Spec.Plans Props.Triplets

theorem mapM_take {α β : Type} {f : α → Except Err β} : ∀ {l : List α} {r : List β} (m : Nat), l.mapM f = .ok r → (l.take m).mapM f = .ok (r.take m)
  | [], r, m, h => by simp [pure, Except.pure] at h; subst h; simp [pure, Except.pure]
  | x :: l, r, 0, h => by simp [pure, Except.pure]
  | x :: l, r, m + 1, h => by
    rw [List.mapM_cons] at h
    rw [List.take_succ_cons, List.mapM_cons]
    simp only [Bind.bind, Except.bind] at h ⊢
    cases hx : f x with
    | error e => rw [hx] at h; simp at h
    | ok y =>
      rw [hx] at h
      simp only at h ⊢
      cases hl : l.mapM f with
      | error e => rw [hl] at h; simp at h
      | ok r' =>
        rw [hl] at h
        simp only [pure, Except.pure, Except.ok.injEq] at h
        subst h
        rw [mapM_take m hl]
        rfl

section
variable {ord : Finset Lit → List Lit} {D : Domain} {truth : String → Schema} {n bound : Nat} {joint : List (Obs JointComponent)}
  {ms : List (MaLearner × List (String × Status))}

/-- **C123, the rounds of MA-SAM.** The job makes `bound - 1` rounds; round `i` learns from exactly the first `i` pieces, in order. -/
theorem C123_job_rounds (h : maRounds ord D n bound joint = .ok ms) : ∃ pieces : List (Obs JointComponent), chunks n joint = .ok pieces ∧
    ms.length = bound - 1 ∧ ∀ i, ∀ hi : i < ms.length, (MaLearner.init D).learn ord ((pieces.take (i + 1)).map Obs.comps) = .ok ms[i] := by
  unfold maRounds at h
  simp only [Bind.bind, Except.bind] at h
  cases hp : chunks n joint with
  | error e => rw [hp] at h; simp at h
  | ok pieces =>
    rw [hp] at h
    simp only at h
    obtain ⟨g1, g2⟩ := Curve.mapM_get h
    obtain ⟨l1, l2⟩ := Curve.rounds_get (pieces.map Obs.comps) bound
    refine ⟨pieces, rfl, by omega, fun i hi => ?_⟩
    rw [List.map_take, ← l2 i (by omega)]
    exact g2 i (by omega) hi

/-- The transitions of pieces are transitions of the trajectories. -/
theorem pieces_sub {pieces : List (Obs JointComponent)} (hp : chunks n joint = .ok pieces) (m : Nat) :
    ∀ c ∈ ((pieces.take m).map Obs.comps).flatten, c ∈ (joint.map Obs.comps).flatten := by
  intro c hc
  obtain ⟨cs, hcs, hc⟩ := List.mem_flatten.mp hc
  obtain ⟨w, hw, rfl⟩ := List.mem_map.mp hcs
  have hw := List.mem_of_mem_take hw
  rcases Nat.eq_zero_or_pos n with rfl | hn
  · have := (C101_zero_raises joint).mp ⟨pieces, hp⟩
    subst this
    simp [chunks] at hp
    subst hp; cases hw
  · obtain ⟨r', h', hm, _⟩ := C101_pieces hn joint
    rw [hp] at h'
    cases h'
    obtain ⟨_, o, ho, _, hin⟩ := hm w hw
    exact List.mem_flatten.mpr ⟨_, List.mem_map_of_mem ho, hin.subset hc⟩

theorem good_part {obs₁ obs₂ : List (List JointComponent)} (hG : GoodJointData D truth obs₂) (hsub : ∀ c ∈ obs₁.flatten, c ∈ obs₂.flatten) :
    GoodJointData D truth obs₁ :=
  ⟨fun c hc => hG.explained c (hsub c hc), fun c hc => hG.distinct c (hsub c hc), fun c hc => hG.covered c (hsub c hc)⟩

/-- **C123, the curve of the job.** On good joint trajectories, for rounds `i ≤ j`: a plan with distinct objects of the domain of round `i`, all of whose
actions are returned in round `j`, is a plan of the domain of round `j` and of the true domain. -/
theorem C123_job_curve (ho : GoodOrd ord) (hD : WFDomain D) (hT : WFTruth D truth) (hc : D.consts = [])
    (hG : GoodJointData D truth (joint.map Obs.comps)) (h : maRounds ord D n bound joint = .ok ms) {i j : Nat} (hij : i ≤ j) (hj : j < ms.length)
    (P : Problem) {plan : List Call} (hd : Distinct D.consts plan) (hret : ∀ c ∈ plan, c.name ∈ ms[j].1.base.dom.names)
    (hs : (returned (ms[i]'(by omega)).1.base.dom).Solves P plan) :
    (returned ms[j].1.base.dom).Solves P plan ∧ (real D truth).Solves P plan := by
  obtain ⟨pieces, hp, _, hl⟩ := C123_job_rounds h
  have e1 := hl i (by omega)
  have e2 := hl j hj
  have hGj := good_part hG (pieces_sub hp (j + 1))
  have := C123_plans_kept ho ho hD hT hc hGj (fun c hc => ?_) e1 e2 P hd hret hs
  · exact ⟨this, Props.Plans.C117_multi_agent_plans ho hD hT hc hGj e2 P hd this⟩
  · obtain ⟨cs, hcs, hc⟩ := List.mem_flatten.mp hc
    obtain ⟨w, hw, rfl⟩ := List.mem_map.mp hcs
    exact List.mem_flatten.mpr ⟨_, List.mem_map_of_mem (List.take_subset_take_left _ (by omega) hw), hc⟩

/-- **C123, both jobs.** On good joint trajectories, a plan with distinct objects of the domain that the single-agent baseline learns in a round, all of whose
actions MA-SAM returns in the same round, is a plan of the domain that MA-SAM learns in that round. -/
theorem C123_job_baseline (ho : GoodOrd ord) (hD : WFDomain D) (hT : WFTruth D truth) (hc : D.consts = [])
    (hG : GoodJointData D truth (joint.map Obs.comps)) (hreal : ∀ o ∈ joint, ∀ c ∈ o.comps, JointExplained truth c)
    (h : maRounds ord D n bound joint = .ok ms) {bs : List (Learner × List (String × Status))} (hb : samRounds D n bound joint = .ok bs) {i : Nat}
    (hi : i < ms.length) : ∃ hi' : i < bs.length, ∀ (P : Problem) (plan : List Call), Distinct D.consts plan →
      (∀ c ∈ plan, c.name ∈ ms[i].1.base.dom.names) → (returned (bs[i]'hi').1.dom).Solves P plan → (returned ms[i].1.base.dom).Solves P plan := by
  obtain ⟨pieces, hp, hlen, hl⟩ := C123_job_rounds h
  unfold samRounds samTraining at hb
  simp only [Bind.bind, Except.bind, hp] at hb
  cases hbl : pieces.mapM (fun o => baseline o.comps) with
  | error e => rw [hbl] at hb; simp at hb
  | ok xs =>
    rw [hbl] at hb
    simp only at hb
    cases hr : datasetRatio xs with
    | error e => rw [hr] at hb; simp at hb
    | ok q =>
      rw [hr] at hb
      simp only at hb
      obtain ⟨g1, g2⟩ := Curve.mapM_get hb
      obtain ⟨l1, l2⟩ := Curve.rounds_get (xs.map Baseline.comps) bound
      have hi' : i < bs.length := by omega
      have eB := g2 i (by omega) hi'
      rw [l2 i (by omega)] at eB
      have hall : baselineAll ((pieces.take (i + 1)).map Obs.comps) = .ok ((xs.map Baseline.comps).take (i + 1)) := by
        have ht := mapM_take (i + 1) hbl
        rw [← List.map_take]
        generalize pieces.take (i + 1) = ps at ht
        generalize xs.take (i + 1) = ys at ht
        unfold baselineAll
        clear * - ht
        induction ps generalizing ys with
        | nil => simp [pure, Except.pure] at ht; subst ht; simp [pure, Except.pure]
        | cons p ps ih =>
          rw [List.mapM_cons] at ht
          rw [List.map_cons, List.mapM_cons]
          simp only [Bind.bind, Except.bind] at ht ih ⊢
          cases hx : baseline p.comps with
          | error e => rw [hx] at ht; simp at ht
          | ok y =>
            rw [hx] at ht
            simp only at ht ⊢
            cases hps : ps.mapM (fun o => baseline o.comps) with
            | error e => rw [hps] at ht; simp at ht
            | ok zs =>
              rw [hps] at ht
              simp only [pure, Except.pure, Except.ok.injEq] at ht
              subst ht
              rw [ih zs hps]
              rfl
      refine ⟨hi', fun P plan hd hret hs => ?_⟩
      refine (C123_dominates_baseline ho hD hT hc (good_part hG (pieces_sub hp (i + 1))) (fun c hcc => ?_) (hl i hi) hall eB P hd hret hs).1
      obtain ⟨cs, hcs, hcc⟩ := List.mem_flatten.mp (pieces_sub hp (i + 1) c hcc)
      obtain ⟨w, hw, rfl⟩ := List.mem_map.mp hcs
      exact hreal w hw c hcc

end

namespace Case
open Limits MaLimits PlusLimits

noncomputable def maModels : List (MaLearner × List (String × Status)) :=
  (maRounds (ordOf (univP ["o1", "o2"])) D2 2 4 Curve.Case.data).toOption.getD []

theorem maReturns : maRounds (ordOf (univP ["o1", "o2"])) D2 2 4 Curve.Case.data = .ok maModels := by
  have h : (maRounds (ordOf (univP ["o1", "o2"])) D2 2 4 Curve.Case.data).toOption.isSome = true := by decide +kernel
  unfold maModels
  cases e : maRounds (ordOf (univP ["o1", "o2"])) D2 2 4 Curve.Case.data with
  | error x => rw [e] at h; cases h
  | ok y => rfl

/-- The hypotheses are met: three rounds; the plan of the baseline of the second round is one of MA-SAM in the second and in the third. -/
example : ∃ h1 : 1 < maModels.length, ∃ h2 : 2 < maModels.length,
    (returned (maModels[1]'h1).1.base.dom).Solves prob2 plan2 ∧ (returned (maModels[2]'h2).1.base.dom).Solves prob2 plan2 := by
  have hok : JointProblemOK D2 truth2 [joint] := by decide +kernel
  obtain ⟨k1, k2, k3⟩ := goodJointB_sound hok (by decide +kernel)
  have hl : maModels.length = 3 := by decide +kernel
  have hreal : ∀ o ∈ Curve.Case.data, ∀ c ∈ o.comps, JointExplained truth2 c := by
    intro o ho c hc
    simp only [Curve.Case.data, List.mem_singleton] at ho
    subst ho
    exact hok.sound.2.2 c (by simpa using hc)
  have hd : Distinct D2.consts plan2 := by intro c hc; simp [plan2] at hc; subst hc; simp [D2, dom2, Sig.names]
  have h1 : 1 < maModels.length := by omega
  have h2 : 2 < maModels.length := by omega
  have r1 : ∀ c ∈ plan2, c.name ∈ (maModels[1]'h1).1.base.dom.names := by decide +kernel +revert
  have r2 : ∀ c ∈ plan2, c.name ∈ (maModels[2]'h2).1.base.dom.names := by decide +kernel +revert
  have k3 : GoodJointData D2 truth2 (Curve.Case.data.map Obs.comps) := k3
  obtain ⟨hb, hbase⟩ := C123_job_baseline (ordOf_good _) k1 k2 rfl k3 hreal maReturns Curve.Case.returns h1
  have s1 := hbase prob2 plan2 hd r1 ⟨{A "p" ["o3"]}, ⟨{A "p" ["o3"]}, by clear hbase; decide +kernel +revert, rfl⟩, by show A "p" ["o3"] ∈ _; decide⟩
  exact ⟨h1, h2, s1, (C123_job_curve (ordOf_good _) k1 k2 rfl k3 maReturns (i := 1) (j := 2) (by omega) h2 prob2 hd r2 s1).1⟩

end Case
end MaCurve
end Props

import Verif.Props.MaCurveCase
import Verif.Props.NumSamGeneral

/-! C150: MA-SAM generalises from a sample of joint trajectories. -/
namespace Props
open Model Spec MeasureTheory

namespace MaGeneral

section
variable {D : Domain} {truth : String → Schema} {W : Finset (String × Lit)} {ord : Finset Lit → List Lit}

/-- A joint trajectory of the true domain within the limits of C22: every joint transition is real; those without repeated objects have
at most one call per action and, with several calls, a last call that covers the visible effects. -/
def TrueJoint (D : Domain) (truth : String → Schema) (o : List JointComponent) : Prop := GoodJointData D truth [o]

/-- The learned domain errs on the joint trajectory: in some joint action without repeated objects one of its returned actions is executed
whose learned version refuses the state before (precondition or inequality), or predicts other effects than the true action has. -/
def Errs (truth : String → Schema) (L : MaLearner) (o : List JointComponent) : Prop :=
  ∃ c ∈ o, JointComponent.NoDup c ∧ ∃ k ∈ c.calls, k.name ∈ L.base.dom.names ∧
    ¬ (applicable (L.base.dom.act k.name).pre (callSubst truth k) c.prev ∧ ineqHolds (L.base.dom.act k.name).ineq (callSubst truth k) ∧
      successor (L.base.dom.act k.name).eff (callSubst truth k) c.prev = successor (truth k.name).eff (callSubst truth k) c.prev)

/-- The joint trajectory shows that the literal is no precondition of the action. -/
def Shows (truth : String → Schema) (o : List JointComponent) (q : String × Lit) : Prop :=
  ∃ c ∈ o, JointComponent.NoDup c ∧ ∃ k ∈ c.calls, k.name = q.1 ∧ ¬ holds c.prev (ground (callSubst truth k) q.2)

theorem good_of {obs : List (List JointComponent)} (h : ∀ o ∈ obs, TrueJoint D truth o) : GoodJointData D truth obs := by
  have key : ∀ c ∈ obs.flatten, ∃ o ∈ obs, c ∈ [o].flatten := fun c hc => by
    obtain ⟨o, h1, h2⟩ := List.mem_flatten.mp hc
    exact ⟨o, h1, by simpa using h2⟩
  refine ⟨fun c hc => ?_, fun c hc => ?_, fun c hc => ?_⟩ <;> obtain ⟨o, h1, h2⟩ := key c hc
  · exact (h o h1).explained c h2
  · exact (h o h1).distinct c h2
  · exact (h o h1).covered c h2

theorem ineq_of (hD : WFDomain D) {a : String} (ha : a ∈ D.names) {ρ : String → String} (hinj : Spec.Injective D.consts (D.act a).sig ρ)
    {q : String × String} (hq : q ∈ sameTypePairs (D.act a).sig) : ρ q.1 ≠ ρ q.2 := by
  obtain ⟨tx, ty, hs, _⟩ := mem_sameTypePairs.mp (show (q.1, q.2) ∈ _ from hq)
  have hs' : [q.1, q.2].Sublist (Sig.names (D.act a).sig) := hs.map Prod.fst
  have hin : ∀ z ∈ [q.1, q.2], z ∈ Sig.names ((D.act a).sig ++ D.consts) := fun z hz => by
    rw [Sig.names, List.map_append]; exact List.mem_append_left _ (hs'.subset hz)
  intro e
  have := hinj _ (hin _ (by simp)) _ (hin _ (by simp)) e
  have hnd : [q.1, q.2].Nodup := List.Nodup.sublist hs' (List.Nodup.sublist (by rw [Sig.names, Sig.names, List.map_append]; exact List.sublist_append_left _ _) (hD.sigs a ha))
  simp [this] at hnd

/-- What an error shows: a literal that the training trajectories do not refute is refuted. -/
theorem errs_shows (ho : GoodOrd ord) (hD : WFDomain D) (hT : WFTruth D truth) (hc : D.consts = []) (hW : Covers D truth W)
    {obs : List (List JointComponent)} (hobs : ∀ o ∈ obs, TrueJoint D truth o) {L' : MaLearner} {rep : List (String × Status)}
    (h : (MaLearner.init D .noRemove).learn ord obs = .ok (L', rep)) {o : List JointComponent} (hx : TrueJoint D truth o) (he : Errs truth L' o) :
    ∃ q ∈ W, Shows truth o q ∧ ∀ o' ∈ obs, ¬ Shows truth o' q := by
  obtain ⟨c, hco, hn, k, hk, hret, hno⟩ := he
  have hG := good_of hobs
  have hF := ma_final ho hD hT hc hG h
  have haD := hF.names _ hret
  have hJ := hx.explained c (by simpa using hco) hn
  have hsub : ∀ {k' : Call}, k'.name = k.name → callSubst truth k' = subst (Sig.names (D.act k.name).sig) k'.params := by
    intro k' e
    unfold Spec.callSubst; rw [e, hT.params _ haD]
  have hgc : GoodCall D.consts (D.act k.name).sig k.params :=
    ⟨by rw [hJ.arity k hk, hT.params _ haD], hn k hk, fun o _ h => by rw [hc] at h; cases h⟩
  have hinj := subst_injective (hD.sigs _ haD) hgc
  have hpre : ¬ applicable (L'.base.dom.act k.name).pre (callSubst truth k) c.prev := by
    intro happ
    refine hno ⟨happ, ?_, ?_⟩
    · rw [hsub rfl]
      intro q hq
      obtain ⟨q1, _⟩ := ((ma_form hD h).1.ineq _ haD q).mp hq
      exact ineq_of hD haD hinj q1
    · have := (C22_returned_actions_safe_partial ho hD hT hc hG h hret _ _ happ).2
      rw [hsub rfl] at this ⊢
      exact this hinj
  unfold applicable at hpre
  push Not at hpre
  obtain ⟨l, hl, hf⟩ := hpre
  obtain ⟨t1, t2⟩ := (MaCurve.C123_preconditions hD hc h haD (MaCurve.good_arity hT hG haD) l).mp hl
  refine ⟨(k.name, l), hW _ haD l (by rw [hc, List.append_nil]; exact t1) (fun hp => hf (hJ.app k hk l hp)), ⟨c, hco, hn, k, hk, rfl, hf⟩, ?_⟩
  rintro o' ho' ⟨c', hc', hn', k', hk', e, hf'⟩
  apply hf'
  rw [hsub e]
  exact t2 c' (List.mem_flatten.mpr ⟨o', ho', hc'⟩) hn' k' hk' e

/-- **C150 (leave one out).** Of any number of joint trajectories at most `|W|` are ones on which the domain MA-SAM learns from the others
errs. -/
theorem C150_leave_one_out (ho : GoodOrd ord) (hD : WFDomain D) (hT : WFTruth D truth) (hc : D.consts = []) (hW : Covers D truth W) {n : ℕ}
    {o : Fin (n + 1) → List JointComponent} (hx : ∀ i, TrueJoint D truth (o i)) {L : Fin (n + 1) → MaLearner} {rep : Fin (n + 1) → List (String × Status)}
    (h : ∀ i, (MaLearner.init D .noRemove).learn ord (List.ofFn fun j => o (i.succAbove j)) = .ok (L i, rep i))
    {bad : Finset (Fin (n + 1))} (hbad : ∀ i ∈ bad, Errs truth (L i) (o i)) : bad.card ≤ W.card := by
  refine Pac.leave_one_out (contra := fun i q => Shows truth (o i) q) fun i hi => ?_
  obtain ⟨q, hq, h2, h3⟩ := errs_shows ho hD hT hc hW (by
    intro y hy
    obtain ⟨j, rfl⟩ := List.mem_ofFn.mp hy
    exact hx _) (h i) (hx i) (hbad i hi)
  refine ⟨q, hq, h2, fun j hj => ?_⟩
  obtain ⟨l, rfl⟩ := Fin.exists_succAbove_eq hj
  exact h3 _ (List.mem_ofFn.mpr ⟨l, rfl⟩)

section
variable {Ω : Type*} [MeasurableSpace Ω] {μ : Measure Ω} [IsProbabilityMeasure μ] {x : Ω → List JointComponent}

/-- **C150 (error).** Joint trajectories are drawn independently. The probability that the domain MA-SAM learns from `m` of them errs on a
further one with probability more than `ε` is at most `|W| (1 - ε / |W|) ^ m`. -/
theorem C150_error_bound (ho : GoodOrd ord) (hD : WFDomain D) (hT : WFTruth D truth) (hc : D.consts = []) (hW : Covers D truth W)
    (hx : ∀ ω, TrueJoint D truth (x ω)) (hmeas : ∀ A : Set (List JointComponent), MeasurableSet (x ⁻¹' A)) {m : ℕ}
    {L : (Fin m → Ω) → MaLearner} {rep : (Fin m → Ω) → List (String × Status)}
    (h : ∀ g, (MaLearner.init D .noRemove).learn ord (List.ofFn fun i => x (g i)) = .ok (L g, rep g)) {ε : ℝ} (h0 : 0 ≤ ε) (h1 : ε ≤ 1) :
    (Measure.pi fun _ : Fin m => μ).real {g | ε < μ.real {ω | Errs truth (L g) (x ω)}} ≤ W.card * (1 - ε / W.card) ^ m := by
  apply Pac.error_bound (contra := fun ω q => Shows truth (x ω) q) (fun q _ => hmeas {o | Shows truth o q}) _ h0 h1
  intro g ω hb
  obtain ⟨q, hq, h2, h3⟩ := errs_shows ho hD hT hc hW (by
    intro y hy
    obtain ⟨j, rfl⟩ := List.mem_ofFn.mp hy
    exact hx _) (h g) (hx ω) hb
  exact ⟨q, hq, h2, fun i => h3 _ (List.mem_ofFn.mpr ⟨i, rfl⟩)⟩

/-- **C150 (PAC).** `m ≥ (|W| / ε) log (|W| / δ)` joint trajectories make that probability at most `δ`. -/
theorem C150_pac (ho : GoodOrd ord) (hD : WFDomain D) (hT : WFTruth D truth) (hc : D.consts = []) (hW : Covers D truth W)
    (hx : ∀ ω, TrueJoint D truth (x ω)) (hmeas : ∀ A : Set (List JointComponent), MeasurableSet (x ⁻¹' A)) {m : ℕ}
    {L : (Fin m → Ω) → MaLearner} {rep : (Fin m → Ω) → List (String × Status)}
    (h : ∀ g, (MaLearner.init D .noRemove).learn ord (List.ofFn fun i => x (g i)) = .ok (L g, rep g)) {ε δ : ℝ} (h0 : 0 < ε) (h1 : ε ≤ 1) (hδ : 0 < δ)
    (hm : (W.card / ε) * Real.log (W.card / δ) ≤ m) :
    (Measure.pi fun _ : Fin m => μ).real {g | ε < μ.real {ω | Errs truth (L g) (x ω)}} ≤ δ :=
  (C150_error_bound ho hD hT hc hW hx hmeas h h0.le h1).trans (Pac.exp_bound h0 h1 hδ hm)

end
end

/-! ### A case -/
section
open MaCurve.Case Limits MaLimits PlusLimits Props.Triplets

/-- Two joint trajectories, one a part of the other. -/
def draw (n : ℕ) : List JointComponent := if n = 0 then part else joint

noncomputable def learnt (n : ℕ) : MaLearner := runMa (ordOf (univP ["o1", "o2"])) (MaLearner.init D2) [draw n]

theorem case_ok : WFDomain D2 ∧ WFTruth D2 truth2 ∧ D2.consts = [] ∧ (∀ n, TrueJoint D2 truth2 (draw n)) ∧
    ∀ n, ∃ rep, (MaLearner.init D2 .noRemove).learn (ordOf (univP ["o1", "o2"])) [draw n] = .ok (learnt n, rep) := by
  have hok : JointProblemOK D2 truth2 [joint] := by decide +kernel
  have hok' : JointProblemOK D2 truth2 [part] := by decide +kernel
  obtain ⟨h1, h2, h3⟩ := goodJointB_sound hok (by decide +kernel)
  obtain ⟨_, _, h3'⟩ := goodJointB_sound hok' (by decide +kernel)
  refine ⟨h1, h2, rfl, fun n => ?_, fun n => ?_⟩
  · unfold draw TrueJoint; split <;> assumption
  · unfold learnt draw
    split
    · exact runMa_eq (ord := ordOf (univP ["o1", "o2"])) (L := MaLearner.init D2) (obs := [part]) (by decide +kernel)
    · exact runMa_eq (ord := ordOf (univP ["o1", "o2"])) (L := MaLearner.init D2) (obs := [joint]) (by decide +kernel)

/-- The hypotheses of `C150_error_bound` and `C150_pac` are met for one sample of any distribution of these two trajectories. -/
example (μ : @Measure ℕ ⊤) [@IsProbabilityMeasure ℕ ⊤ μ] : letI : MeasurableSpace ℕ := ⊤
    ∃ W, Covers D2 truth2 W ∧
      (Measure.pi fun _ : Fin 1 => μ).real {g | 1 / 2 < μ.real {ω | Errs truth2 (learnt (g 0)) (draw ω)}} ≤ W.card * (1 - (1 / 2) / W.card) ^ 1 := by
  let _ : MeasurableSpace ℕ := ⊤
  obtain ⟨h1, h2, h3, h4, h5⟩ := case_ok
  obtain ⟨W, hW⟩ := NumSamGeneral.covers_exist h1 truth2
  choose rep hrep using h5
  exact ⟨W, hW, C150_error_bound (L := fun g : Fin 1 → ℕ => learnt (g 0)) (rep := fun g => rep (g 0)) (ordOf_good _) h1 h2 h3 hW h4 (fun _ => trivial)
    (fun g => by simpa using hrep (g 0)) (by norm_num) (by norm_num)⟩

/-- Those of `C150_leave_one_out` for the two. -/
example : ∃ W, Covers D2 truth2 W ∧ ∀ bad : Finset (Fin 2), (∀ i ∈ bad, Errs truth2 (learnt (1 - i.val)) (draw i.val)) → bad.card ≤ W.card := by
  obtain ⟨h1, h2, h3, h4, h5⟩ := case_ok
  obtain ⟨W, hW⟩ := NumSamGeneral.covers_exist h1 truth2
  choose rep hrep using h5
  refine ⟨W, hW, fun bad hb => C150_leave_one_out (ord := ordOf (univP ["o1", "o2"])) (L := fun i : Fin 2 => learnt (1 - i.val)) (rep := fun i => rep (1 - i.val)) (ordOf_good _) h1 h2 h3 hW
    (fun i => h4 i.val) (fun i => ?_) hb⟩
  have : (List.ofFn fun j : Fin 1 => draw (i.succAbove j).val) = [draw (1 - i.val)] := by fin_cases i <;> rfl
  rw [this]; exact hrep _
end
end MaGeneral
end Props

import Verif.Lemmas.Pac
import Verif.Spec.Sampling
import Verif.Props.SamConverge
import Verif.Props.Plans

/-! C144: SAM generalises from a sample of trajectories. -/
namespace Props
open Model Spec Spec.Plans MeasureTheory

namespace SamPac
open SamOptimal

section
variable {D : Domain} {truth : String → Schema} {inj : Bool} {W : Finset (String × Lit)}

/-- The trajectory shows that the literal is no precondition of the action. -/
def Contradicts (truth : String → Schema) (o : List Component) (q : String × Lit) : Prop :=
  ∃ c ∈ o, c.success = true ∧ c.call.params.Nodup ∧ c.call.name = q.1 ∧ ¬ holds c.prev (ground (substOf truth c) q.2)

theorem learns (hD : WFDomain D) {obs : List (List Component)} (ho : ∀ o ∈ obs, TrueTrajectory D truth o) :
    ∃ r, (Learner.init D .noRemove inj).learn obs = .ok r :=
  (learn_ok_iff (L0 := Learner.init D .noRemove inj) hD.names (init_sigs D _ inj)).mpr fun c hc hs => by
    obtain ⟨o, h1, h2⟩ := List.mem_flatten.mp hc
    exact (ho o h1).known c h2 hs

theorem cand_of (hT : WFTruth D truth) {obs : List (List Component)} (ho : ∀ o ∈ obs, TrueTrajectory D truth o) : Candidate D truth obs :=
  ⟨hT, fun c hc hs hd => by
    obtain ⟨o, h1, h2⟩ := List.mem_flatten.mp hc
    exact (ho o h1).explained c h2 hs hd⟩

theorem noConst_of {obs : List (List Component)} (ho : ∀ o ∈ obs, TrueTrajectory D truth o) :
    ∀ c ∈ obs.flatten, c.success = true → c.call.params.Nodup → ∀ x ∈ c.call.params, x ∉ Sig.names D.consts := by
  intro c hc hs hd
  obtain ⟨o, h1, h2⟩ := List.mem_flatten.mp hc
  exact (ho o h1).noConst c h2 hs hd

/-- A trajectory the learned domain does not handle contradicts a literal that no training trajectory contradicts. -/
theorem witness_noRemove (hD : WFDomain D) (hT : WFTruth D truth) (hW : Covers D truth W) {obs : List (List Component)} {L' : Learner} {rep}
    (ho : ∀ o ∈ obs, TrueTrajectory D truth o) (h : (Learner.init D .noRemove inj).learn obs = .ok (L', rep))
    {o : List Component} (hto : TrueTrajectory D truth o) (hbad : ¬ Handles truth (learned D L') o) :
    ∃ q ∈ W, Contradicts truth o q ∧ ∀ o' ∈ obs, ¬ Contradicts truth o' q := by
  have hcand := cand_of hT ho
  have hnc := noConst_of ho
  have hlc := C139_learned_is_candidate hD hcand hnc h
  unfold Handles at hbad
  push Not at hbad
  obtain ⟨c, hc, hs, hd, hno⟩ := hbad
  have ha := hto.known c hc hs
  have hx := hto.explained c hc hs hd
  have hna : ¬ applicable (learned D L' c.call.name).pre (substOf truth c) c.prev := by
    intro happ
    apply hno happ
    have hg := goodCall_of hT ha hx hd (hto.noConst c hc hs hd)
    have hρ : substOf truth c = subst (Sig.names (D.act c.call.name).sig) c.call.params := by unfold substOf; rw [hT.params _ ha]
    have hinj := subst_injective (hD.sigs _ ha) hg
    rw [← hρ] at hinj
    exact ((C139_safe hD hnc h ha hcand _ hinj _ happ).2).trans hx.next.symm
  unfold applicable at hna
  push Not at hna
  obtain ⟨l, hl, hf⟩ := hna
  refine ⟨(c.call.name, l), hW _ ha l ((hlc.wf.wf _ ha).pre l hl) (fun hp => hf (hx.app l hp)), ⟨c, hc, hs, hd, rfl, hf⟩, ?_⟩
  rintro o' ho' ⟨c', hc', hs', hd', hn', hf'⟩
  have hx' := hlc.explains c' (List.mem_flatten.mpr ⟨o', ho', hc'⟩) hs' hd'
  have hsub : substOf (learned D L') c' = substOf truth c' := by
    unfold substOf; rw [hT.params c'.call.name (hn' ▸ ha)]; rfl
  apply hf'
  rw [← hsub]
  apply hx'.app
  simp only at hn'
  rw [hn']; exact hl

/-- The same for every policy. -/
theorem witness {p : Policy} (hD : WFDomain D) (hT : WFTruth D truth) (hW : Covers D truth W) {obs : List (List Component)} {L' : Learner} {rep}
    (ho : ∀ o ∈ obs, TrueTrajectory D truth o) (h : (Learner.init D p inj).learn obs = .ok (L', rep))
    {o : List Component} (hto : TrueTrajectory D truth o) (hbad : ¬ Handles truth (learned D L') o) :
    ∃ q ∈ W, Contradicts truth o q ∧ ∀ o' ∈ obs, ¬ Contradicts truth o' q := by
  obtain ⟨⟨L₀, rep₀⟩, h₀⟩ := learn_ok_policy (q := .noRemove) hD.names h
  refine witness_noRemove hD hT hW ho h₀ hto fun hh => hbad fun c hc hs hd => ?_
  obtain ⟨f1, _, f3⟩ := policy_factor hD.names h h₀ _ (hto.known c hc hs)
  obtain ⟨k1, k2⟩ := hh c hc hs hd
  refine ⟨fun l hl => k1 l ((f3 l).mp hl).1, ?_⟩
  simp only [learned] at k2 ⊢
  rw [f1]; exact k2

variable {p : Policy}

/-- **C144 (leave one out).** Of any number of trajectories at most `|W|` are not handled by the domain learned from the
others. -/
theorem C144_leave_one_out (hD : WFDomain D) (hT : WFTruth D truth) (hW : Covers D truth W) {n : ℕ} {o : Fin (n + 1) → List Component}
    (ho : ∀ i, TrueTrajectory D truth (o i)) {L : Fin (n + 1) → Learner} {rep : Fin (n + 1) → List (String × Status)}
    (h : ∀ i, (Learner.init D p inj).learn (List.ofFn fun j => o (i.succAbove j)) = .ok (L i, rep i))
    {bad : Finset (Fin (n + 1))} (hbad : ∀ i ∈ bad, ¬ Handles truth (learned D (L i)) (o i)) : bad.card ≤ W.card := by
  apply Pac.leave_one_out (contra := fun i q => Contradicts truth (o i) q)
  intro i hi
  obtain ⟨q, hq, h1, h2⟩ := witness hD hT hW (by
    intro x hx
    obtain ⟨j, rfl⟩ := List.mem_ofFn.mp hx
    exact ho _) (h i) (ho i) (hbad i hi)
  refine ⟨q, hq, h1, fun j hj => ?_⟩
  obtain ⟨k, rfl⟩ := Fin.exists_succAbove_eq hj
  exact h2 _ (List.mem_ofFn.mpr ⟨k, rfl⟩)

variable {Ω : Type*} [MeasurableSpace Ω] {μ : Measure Ω} [IsProbabilityMeasure μ] {x : Ω → List Component}

/-- **C144 (sample complexity).** Trajectories of the true domain are drawn independently, `m` to learn from. The probability
that what is learned does not handle a further one with probability more than `ε` is at most `|W| (1 - ε/|W|)^m`. -/
theorem C144_error_bound (hD : WFDomain D) (hT : WFTruth D truth) (hW : Covers D truth W)
    (hx : ∀ ω, TrueTrajectory D truth (x ω)) (hmeas : ∀ A : Set (List Component), MeasurableSet (x ⁻¹' A)) {m : ℕ}
    {L : (Fin m → Ω) → Learner} {rep : (Fin m → Ω) → List (String × Status)}
    (h : ∀ g, (Learner.init D p inj).learn (List.ofFn fun i => x (g i)) = .ok (L g, rep g)) {ε : ℝ} (h0 : 0 ≤ ε) (h1 : ε ≤ 1) :
    (Measure.pi fun _ : Fin m => μ).real {g | ε < μ.real {ω | ¬ Handles truth (learned D (L g)) (x ω)}} ≤
      W.card * (1 - ε / W.card) ^ m := by
  apply Pac.error_bound (contra := fun ω q => Contradicts truth (x ω) q) (fun q _ => hmeas {o | Contradicts truth o q}) _ h0 h1
  intro g ω hb
  obtain ⟨q, hq, h2, h3⟩ := witness hD hT hW (by
    intro y hy
    obtain ⟨j, rfl⟩ := List.mem_ofFn.mp hy
    exact hx _) (h g) (hx ω) hb
  exact ⟨q, hq, h2, fun i => h3 _ (List.mem_ofFn.mpr ⟨i, rfl⟩)⟩

/-- **C144 (PAC).** With `m ≥ (|W|/ε) ln(|W|/δ)` trajectories, with probability at least `1 - δ` what is learned handles a
further trajectory with probability at least `1 - ε`. -/
theorem C144_pac (hD : WFDomain D) (hT : WFTruth D truth) (hW : Covers D truth W)
    (hx : ∀ ω, TrueTrajectory D truth (x ω)) (hmeas : ∀ A : Set (List Component), MeasurableSet (x ⁻¹' A)) {m : ℕ}
    {L : (Fin m → Ω) → Learner} {rep : (Fin m → Ω) → List (String × Status)}
    (h : ∀ g, (Learner.init D p inj).learn (List.ofFn fun i => x (g i)) = .ok (L g, rep g))
    {ε δ : ℝ} (h0 : 0 < ε) (h1 : ε ≤ 1) (hδ : 0 < δ) (hm : (W.card / ε) * Real.log (W.card / δ) ≤ m) :
    1 - δ ≤ (Measure.pi fun _ : Fin m => μ).real {g | 1 - ε ≤ μ.real {ω | Handles truth (learned D (L g)) (x ω)}} := by
  have hb := (C144_error_bound hD hT hW hx hmeas h h0.le h1 (μ := μ)).trans (Pac.exp_bound h0 h1 hδ hm)
  have hset : {g : Fin m → Ω | 1 - ε ≤ μ.real {ω | Handles truth (learned D (L g)) (x ω)}} =
      {g | ε < μ.real {ω | ¬ Handles truth (learned D (L g)) (x ω)}}ᶜ := by
    ext g
    have hc : {ω | ¬ Handles truth (learned D (L g)) (x ω)} = {ω | Handles truth (learned D (L g)) (x ω)}ᶜ := rfl
    simp only [Set.mem_setOf_eq, Set.mem_compl_iff, not_lt]
    have hms : MeasurableSet {ω | Handles truth (learned D (L g)) (x ω)} := hmeas {o | Handles truth (learned D (L g)) o}
    rw [hc, probReal_compl_eq_one_sub hms]
    constructor <;> intro k <;> linarith
  rw [hset]
  have huniv : (1 : ℝ) ≤ (Measure.pi fun _ : Fin m => μ).real {g | ε < μ.real {ω | ¬ Handles truth (learned D (L g)) (x ω)}} +
      (Measure.pi fun _ : Fin m => μ).real {g | ε < μ.real {ω | ¬ Handles truth (learned D (L g)) (x ω)}}ᶜ := by
    rw [← probReal_univ (μ := Measure.pi fun _ : Fin m => μ), ← Set.union_compl_self {g | ε < μ.real {ω | ¬ Handles truth (learned D (L g)) (x ω)}}]
    exact measureReal_union_le _ _
  linarith

/-- A transition that the learned domain handles is a step of that domain. -/
theorem step_handled (hD : WFDomain D) (hT : WFTruth D truth) {obs : List (List Component)} {L' : Learner} {rep}
    (h : (Learner.init D p inj).learn obs = .ok (L', rep)) {o : List Component} (hto : TrueTrajectory D truth o)
    (hh : Handles truth (learned D L') o) {c : Component} (hc : c ∈ o) (hs : c.success = true) (hd : c.call.params.Nodup) :
    (returned L'.dom).step c.prev c.call c.next := by
  obtain ⟨hn, hsig⟩ := Plans.static hD h
  have hk := hto.known c hc hs
  have hp := hT.params _ hk
  have hex := hto.explained c hc hs hd
  obtain ⟨h1, h2⟩ := hh c hc hs hd
  have hinj := subst_injective (hD.sigs _ hk) ⟨by rw [← hp]; exact hex.arity, hd, hto.noConst c hc hs hd⟩
  have hb : (returned L'.dom).binding c.call = substOf truth c := by
    simp only [returned, Strips.binding, hsig, substOf, hp]
  refine ⟨by simpa [returned, hn] using hk, ?_, ?_, ?_, ?_⟩
  · simp only [returned, hsig]; rw [← hp]; exact hex.arity
  · rw [hb]; exact h1
  · rw [hb]
    rintro ⟨x, y⟩ hq he
    obtain ⟨tx, ty, hsub, _⟩ := mem_sameTypePairs.mp (((ineq_form hD h hk _).mp hq).1.2)
    have hxy : [x, y].Sublist (Sig.names (D.act c.call.name).sig) := hsub.map Prod.fst
    have hm : ∀ z ∈ [x, y], z ∈ Sig.names ((D.act c.call.name).sig ++ D.consts) := fun z hz => by
      simp only [Sig.names, List.map_append, List.mem_append]; exact Or.inl (hxy.subset hz)
    have hw : (Sig.names (D.act c.call.name).sig).Nodup := by
      have := hD.sigs _ hk
      simp only [WFSig, Sig.names, List.map_append] at this
      exact (List.nodup_append.mp this).1
    have e := hinj x (hm x (by simp)) y (hm y (by simp)) (by simpa [substOf, hp] using he)
    have h2 := hxy.nodup hw
    rw [e] at h2
    simp at h2
  · rw [hb]; exact h2.symm

theorem leads_handled (hD : WFDomain D) (hT : WFTruth D truth) {obs : List (List Component)} {L' : Learner} {rep}
    (h : (Learner.init D p inj).learn obs = .ok (L', rep)) {o : List Component} (hto : TrueTrajectory D truth o)
    (hh : Handles truth (learned D L') o) (hs : ∀ c ∈ o, c.success = true ∧ c.call.params.Nodup) {s s' : State} {plan : List Call}
    (hr : Recorded o s plan s') : Leads (returned L'.dom).step s plan s' := by
  obtain ⟨rfl, hl⟩ := hr
  have key : ∀ (t : List Component) (s : State), (∀ c ∈ t, c ∈ o) → Leads (fun s (c : Component) s' => c.prev = s ∧ c.next = s') s t s' →
      Leads (returned L'.dom).step s (t.map Component.call) s' := by
    intro t
    induction t with
    | nil => intro s _ hl; exact hl
    | cons c t ih =>
      rintro s hsub ⟨m, ⟨rfl, rfl⟩, h2⟩
      have hc := hsub c (by simp)
      exact ⟨c.next, step_handled hD hT h hto hh hc (hs c hc).1 (hs c hc).2, ih _ (fun b hb => hsub b (by simp [hb])) h2⟩
  exact key o s (fun c hc => hc) hl

/-- **C144 (solving).** Problems are drawn independently, each with the trajectory of a plan that solves it in the true domain
(distinct objects in every call). With `m ≥ (|W|/ε) ln(|W|/δ)` problems to learn from, with probability at least `1 - δ` the
learned domain admits the plan of a further problem, and so a solution, with probability at least `1 - ε`. -/
theorem C144_solves (hD : WFDomain D) (hT : WFTruth D truth) (hW : Covers D truth W)
    (hx : ∀ ω, TrueTrajectory D truth (x ω)) (hmeas : ∀ A : Set (List Component), MeasurableSet (x ⁻¹' A)) {m : ℕ}
    {L : (Fin m → Ω) → Learner} {rep : (Fin m → Ω) → List (String × Status)}
    (h : ∀ g, (Learner.init D p inj).learn (List.ofFn fun i => x (g i)) = .ok (L g, rep g))
    {P : Ω → Problem} {plan : Ω → List Call} (hs : ∀ ω, ∀ c ∈ x ω, c.success = true ∧ c.call.params.Nodup)
    (hrec : ∀ ω, ∃ s', Recorded (x ω) (P ω).init (plan ω) s' ∧ (P ω).goal s')
    {ε δ : ℝ} (h0 : 0 < ε) (h1 : ε ≤ 1) (hδ : 0 < δ) (hm : (W.card / ε) * Real.log (W.card / δ) ≤ m) :
    1 - δ ≤ (Measure.pi fun _ : Fin m => μ).real {g | 1 - ε ≤ μ.real {ω | (returned (L g).dom).Solves (P ω) (plan ω)}} := by
  refine (C144_pac hD hT hW hx hmeas h h0 h1 hδ hm (μ := μ)).trans (measureReal_mono ?_ (measure_ne_top _ _))
  intro g hg
  refine le_trans hg (measureReal_mono ?_ (measure_ne_top _ _))
  intro ω hω
  obtain ⟨s', hr, hgoal⟩ := hrec ω
  exact ⟨s', leads_handled hD hT (h g) (hx ω) hω (hs ω) hr, hgoal⟩

end

/-! ### Cases -/

section
open Props.Limits SamConverge

/-- Any distribution of the two transitions of `SamConverge.demo`: the hypotheses hold, and at most two trajectories in any
series are not handled by the domain learned from the others. -/
theorem demo_case (μ : @Measure ℕ ⊤) [@IsProbabilityMeasure ℕ ⊤ μ] : WFDomain D1 ∧ WFTruth D1 T1 ∧
    Covers D1 T1 ({("act", P "?x"), ("act", P "?x" false)} : Finset (String × Lit)) ∧
    (∀ i, TrueTrajectory D1 T1 [demo i]) ∧ (∀ A : Set (List Component), @MeasurableSet ℕ ⊤ ((fun i => [demo i]) ⁻¹' A)) ∧
    ∀ m (g : Fin m → ℕ), ∃ rep, (Learner.init D1).learn (List.ofFn fun i => [demo (g i)]) = .ok (runLearn (Learner.init D1) (List.ofFn fun i => [demo (g i)]), rep) := by
  have h1 : ProblemOK D1 T1 [[demo 0, demo 1]] := by decide +kernel
  have ht : ∀ i, TrueTrajectory D1 T1 [demo i] := by
    intro i
    refine ⟨?_, ?_, ?_⟩
    · intro c hc _
      rw [List.mem_singleton] at hc; subst hc
      simp [demo, comp, D1, dom]
    · intro c hc hs _
      rw [List.mem_singleton] at hc; subst hc
      apply h1.sound.2.2 _ _ hs
      rcases i with _ | i <;> simp [demo]
    · intro c _ _ _ y _; simp [D1, dom, Sig.names]
  refine ⟨h1.sound.1, h1.sound.2.1, ?_, ht, fun _ => trivial, ?_⟩
  · intro a ha l hl _
    have ha : a = "act" := by simpa [D1, dom] using ha
    subst ha
    have : l ∈ liftedVocab D1 sig1 := (liftedVocab_typed (h1.sound.1.sigs "act" (by decide))).mpr hl
    have hv : liftedVocab D1 sig1 = {P "?x", P "?x" false} := by decide +kernel
    rw [hv] at this
    simpa using this
  · intro m g
    apply runLearn_eq (D := D1) (p := .noRemove) (i := true) (by decide)
    intro c hc _
    obtain ⟨y, h2, h3⟩ := List.mem_flatten.mp hc
    obtain ⟨j, rfl⟩ := List.mem_ofFn.mp h2
    rw [List.mem_singleton] at h3; subst h3
    simp [demo, comp, D1, dom]

/-- The hypotheses of `C144_solves` on plans: the trajectory of `demo i` is that of a plan that makes `a` a `p`. -/
example (i : ℕ) : (∀ c ∈ [demo i], c.success = true ∧ c.call.params.Nodup) ∧
    ∃ s', Recorded [demo i] (⟨(demo i).prev, fun s => A "p" ["a"] ∈ s⟩ : Problem).init [(demo i).call] s' ∧ A "p" ["a"] ∈ s' := by
  refine ⟨?_, (demo i).next, ⟨rfl, ⟨(demo i).next, ⟨rfl, rfl⟩, rfl⟩⟩, ?_⟩
  · intro c hc
    rw [List.mem_singleton] at hc; subst hc
    exact ⟨rfl, by simp [demo, comp]⟩
  · simp [demo, comp]

end
end SamPac
end Props

import Verif.Props.NumSamGeneral
import Verif.Props.IncNumSamCase

/-! C149: which trajectories the actions incremental N-SAM learns from the others refuse. -/
namespace Props
open Model Spec

namespace IncSamGeneral
open NumOptimal NumSamGeneral Model.IncNumSam

section
variable {K : Type} [Field K] [LinearOrder K] [IsStrictOrderedRing K] [FloorRing K]
variable {cfg : NumCfg K} {D : Domain} {truth : String → Schema} {a : String} {A : NumSchema K} {W : Finset (String × Lit)}

/-- The action of the incremental learner refuses some successful execution in the trajectory (with distinct objects): its boolean
precondition or its numeric precondition is false in the state before. -/
def RefusesInc (cfg : NumCfg K) (D : Domain) (a : String) (N : IncLearner K) (o : List (NumComponent K)) : Prop :=
  ∃ c ∈ o, c.comp.success = true ∧ c.comp.call.name = a ∧ c.comp.call.params.Nodup ∧
    ∃ y, Lifts cfg.txt cfg.fns D.consts (D.act a).sig (subst (Sig.names (D.act a).sig) c.comp.call.params) (fun g => (c.prevN.lookup g).getD 0) y ∧
      ¬ (applicable (N.base.dom.act a).pre (subst (Sig.names (D.act a).sig) c.comp.call.params) c.comp.prev ∧ ∀ q ∈ (N.num a).pre, q.holds y)

/-- What incremental N-SAM needs to learn the action from the trajectories (as in C111 and C140). -/
structure LearntInc (cfg : NumCfg K) (D : Domain) (truth : String → Schema) (a : String) (A : NumSchema K)
    (obs : List (List (NumComponent K))) (N : IncLearner K) : Prop where
  good : GoodData D truth (obs.map fun o => o.map NumComponent.comp)
  run : ∃ info, (IncLearner.init D .noRemove).learn cfg obs = .ok (N, info)
  returned : a ∈ N.base.dom.names
  explained : NumGood cfg D a A obs
  libs : IncSetup cfg.lib cfg.digits polyExp (prevColumns cfg D a) (distinctRows (prevColumns cfg D a) [] (Props.IncNumSam.points cfg D a obs))

/-- A trajectory that is refused contradicts a literal, or a linear inequality, that the training trajectories do not contradict. -/
theorem refused_cases (hD : WFDomain D) (hT : WFTruth D truth) (haD : a ∈ D.names) (hW : Covers D truth W) (hfns : cfg.fns ≠ []) (hplain : cfg.plain = true)
    (ht : TextOK cfg.txt cfg.fns D.consts (D.act a).sig) (hsc : ∃ f, InScope cfg.fns D.consts (D.act a).sig f)
    (hrel : relevantOf cfg a ≠ .ok (some [])) {obs : List (List (NumComponent K))} {N : IncLearner K}
    (H : LearntInc cfg D truth a A obs N) {o : List (NumComponent K)}
    (hto : ∀ c ∈ o, c.comp.success = true → c.comp.call.params.Nodup → Explained truth c.comp) (hbad : RefusesInc cfg D a N o) :
    (∃ q ∈ W, SamPac.Contradicts truth (o.map NumComponent.comp) q ∧ ∀ o' ∈ obs, ¬ SamPac.Contradicts truth (o'.map NumComponent.comp) q) ∨
    ∃ coef b, HeldBefore cfg D a obs (fun v => linForm coef (prevColumns cfg D a) v ≤ b) ∧
      ∃ c ∈ o, c.comp.success = true ∧ c.comp.call.name = a ∧ c.comp.call.params.Nodup ∧
        ∃ y, Lifts cfg.txt cfg.fns D.consts (D.act a).sig (subst (Sig.names (D.act a).sig) c.comp.call.params) (fun g => (c.prevN.lookup g).getD 0) y ∧
          b < linForm coef (prevColumns cfg D a) (monoVal y) := by
  obtain ⟨c, hc, hs, hn, hd, y, hy, hno⟩ := hbad
  obtain ⟨info, h⟩ := H.run
  obtain ⟨L', al, HL⟩ := Props.IncNumSam.incLearn_spec hD.names hfns h
  obtain ⟨rep, hbase⟩ := HL.base
  have ha' := H.returned
  rw [HL.names] at ha'
  have hcand : Candidate D truth (obs.map fun o => o.map NumComponent.comp) := ⟨hT, fun c hc hs _ => H.good.explained c hc hs⟩
  have hbool := SamOptimal.C139_accepts_iff hD hcand (fun c hc hs hd => H.good.noConst c hc hs hd) hbase haD
  rw [C140_incremental_precondition_exact hD hT H.good hfns hplain h H.returned ht hsc H.explained hrel H.libs, HL.pre a ha', hbool] at hno
  rcases not_and_or.mp hno with hno | hno
  · left
    push Not at hno
    obtain ⟨M, hM, happ⟩ := hno
    unfold applicable at happ
    push Not at happ
    obtain ⟨l, hl, hf⟩ := happ
    have hsub : ∀ (T : String → Schema), WFTruth D T → ∀ c : Component, c.call.name = a → substOf T c = subst (Sig.names (D.act a).sig) c.call.params := by
      intro T hT' c hc
      unfold substOf; rw [hc, hT'.params a haD]
    have hx := hto c hc hs hd
    refine ⟨(a, l), hW a haD l (hM.wf.params a haD ▸ (hM.wf.wf a haD).pre l hl) (fun hp => hf ?_), ⟨c.comp, List.mem_map_of_mem hc, hs, hd, hn, ?_⟩, ?_⟩
    · rw [← hsub truth hT _ hn]
      exact hx.app l (by rw [hn]; exact hp)
    · rw [hsub truth hT _ hn]; exact hf
    · rintro o' ho' ⟨c', hc', hs', hd', hn', hf'⟩
      dsimp only at hn'
      have hx' := hM.explains c' (List.mem_flatten.mpr ⟨_, List.mem_map_of_mem ho', hc'⟩) hs' hd'
      apply hf'
      rw [hsub truth hT _ hn', ← hsub M hM.wf _ hn']
      exact hx'.app l (by rw [hn']; exact hl)
  · right
    push Not at hno
    obtain ⟨coef, b, hb, hlt⟩ := hno
    exact ⟨coef, b, hb, c, hc, hs, hn, hd, y, hy, hlt⟩

/-- **C149 (leave one out).** For an action with one numeric function, of any number of trajectories at most `|W| + 2` have an execution
that the action incremental N-SAM learns from the others, if it is returned, refuses. -/
theorem C149_leave_one_out (hD : WFDomain D) (hT : WFTruth D truth) (haD : a ∈ D.names) (hW : Covers D truth W) (hfns : cfg.fns ≠ []) (hplain : cfg.plain = true)
    (ht : TextOK cfg.txt cfg.fns D.consts (D.act a).sig) (hsc : ∃ f, InScope cfg.fns D.consts (D.act a).sig f)
    (hrel : relevantOf cfg a ≠ .ok (some [])) {f : List String} (hone : prevColumns cfg D a = [f])
    {n : ℕ} {o : Fin (n + 1) → List (NumComponent K)} {N : Fin (n + 1) → IncLearner K}
    (H : ∀ i, a ∈ (N i).base.dom.names → LearntInc cfg D truth a A (List.ofFn fun j => o (i.succAbove j)) (N i))
    (hto : ∀ i, ∀ c ∈ o i, c.comp.success = true → c.comp.call.params.Nodup → Explained truth c.comp)
    {bad : Finset (Fin (n + 1))} (hbad : ∀ i ∈ bad, a ∈ (N i).base.dom.names ∧ RefusesInc cfg D a (N i) (o i)) : bad.card ≤ W.card + 2 :=
  caught_count (cfg := cfg) (D := D) (truth := truth) (a := a) (f := f) fun i hi => caught_of_cases (by
    have := refused_cases hD hT haD hW hfns hplain ht hsc hrel (H i (hbad i hi).1) (hto i) (hbad i hi).2
    rwa [hone] at this)

/-- **C149 (random trajectories).** Trajectories are drawn independently from any distribution. The probability that the action is returned
for `m` of them and refuses an execution in a further one with probability more than `ε` is at most `B (1 - ε / B) ^ m`, `B = |W| + 2`. -/
theorem C149_error_bound (hD : WFDomain D) (hT : WFTruth D truth) (haD : a ∈ D.names) (hW : Covers D truth W) (hfns : cfg.fns ≠ []) (hplain : cfg.plain = true)
    (ht : TextOK cfg.txt cfg.fns D.consts (D.act a).sig) (hsc : ∃ f, InScope cfg.fns D.consts (D.act a).sig f)
    (hrel : relevantOf cfg a ≠ .ok (some [])) {f : List String} (hone : prevColumns cfg D a = [f])
    {Ω : Type*} [MeasurableSpace Ω] {μ : MeasureTheory.Measure Ω} [MeasureTheory.IsProbabilityMeasure μ] {o : Ω → List (NumComponent K)} {m : ℕ}
    {N : (Fin m → Ω) → IncLearner K}
    (H : ∀ g, a ∈ (N g).base.dom.names → LearntInc cfg D truth a A (List.ofFn fun j => o (g j)) (N g))
    (hto : ∀ ω, ∀ c ∈ o ω, c.comp.success = true → c.comp.call.params.Nodup → Explained truth c.comp)
    (hmeas : ∀ S : Set (List (NumComponent K)), MeasurableSet (o ⁻¹' S)) {ε : ℝ} (h0 : 0 < ε) (h1 : ε ≤ 1) :
    (MeasureTheory.Measure.pi fun _ : Fin m => μ).real {g | ε < μ.real {ω | a ∈ (N g).base.dom.names ∧ RefusesInc cfg D a (N g) (o ω)}} ≤
      (W.card + 2 : ℕ) * (1 - ε / (W.card + 2 : ℕ)) ^ m :=
  caught_error hmeas (fun g ω hb => caught_of_cases (by
    have := refused_cases hD hT haD hW hfns hplain ht hsc hrel (H g hb.1) (hto ω) hb.2
    rwa [hone] at this)) h0 h1

/-- **C149 (PAC).** `m ≥ (B / ε) log (B / δ)` trajectories make that probability at most `δ`. -/
theorem C149_pac (hD : WFDomain D) (hT : WFTruth D truth) (haD : a ∈ D.names) (hW : Covers D truth W) (hfns : cfg.fns ≠ []) (hplain : cfg.plain = true)
    (ht : TextOK cfg.txt cfg.fns D.consts (D.act a).sig) (hsc : ∃ f, InScope cfg.fns D.consts (D.act a).sig f)
    (hrel : relevantOf cfg a ≠ .ok (some [])) {f : List String} (hone : prevColumns cfg D a = [f])
    {Ω : Type*} [MeasurableSpace Ω] {μ : MeasureTheory.Measure Ω} [MeasureTheory.IsProbabilityMeasure μ] {o : Ω → List (NumComponent K)} {m : ℕ}
    {N : (Fin m → Ω) → IncLearner K}
    (H : ∀ g, a ∈ (N g).base.dom.names → LearntInc cfg D truth a A (List.ofFn fun j => o (g j)) (N g))
    (hto : ∀ ω, ∀ c ∈ o ω, c.comp.success = true → c.comp.call.params.Nodup → Explained truth c.comp)
    (hmeas : ∀ S : Set (List (NumComponent K)), MeasurableSet (o ⁻¹' S)) {ε δ : ℝ} (h0 : 0 < ε) (h1 : ε ≤ 1) (hδ : 0 < δ)
    (hm : ((W.card + 2 : ℕ) / ε) * Real.log ((W.card + 2 : ℕ) / δ) ≤ m) :
    (MeasureTheory.Measure.pi fun _ : Fin m => μ).real {g | ε < μ.real {ω | a ∈ (N g).base.dom.names ∧ RefusesInc cfg D a (N g) (o ω)}} ≤ δ :=
  (C149_error_bound hD hT haD hW hfns hplain ht hsc hrel hone H hto hmeas h0 h1).trans (Pac.exp_bound h0 h1 hδ hm)

end

section
open NumWorld hiding cfg
open World hiding obs
open Props.IncNumSam.Case (cfg)

/-- A trajectory of moves that cost fuel: incremental N-SAM returns `move`, and the single column is the fuel. -/
theorem fuel_case : ∃ N : IncLearner ℚ, LearntInc cfg D truth "move" truthN [[n1, n3, n2, n4]] N ∧ cfg.fns ≠ [] ∧ cfg.plain = true ∧
    TextOK cfg.txt cfg.fns D.consts (D.act "move").sig ∧ relevantOf cfg "move" ≠ .ok (some []) ∧ prevColumns cfg D "move" = [["(fuel ?o)"]] ∧
    ∀ c ∈ [n1, n3, n2, n4], c.comp.success = true → c.comp.call.params.Nodup → Explained truth c.comp := by
  have hrun : ∃ N' info, (IncLearner.init D .noRemove).learn cfg [[n1, n3, n2, n4]] = .ok (N', info) ∧ N'.base.dom.names = ["move"] := by
    have h : (match (IncLearner.init D .noRemove).learn cfg [[n1, n3, n2, n4]] with
      | .ok (N', _) => decide (N'.base.dom.names = ["move"])
      | .error _ => false) = true := by decide +kernel
    split at h
    · next N' info e => exact ⟨N', info, e, by simpa using h⟩
    · simp at h
  obtain ⟨N, info, h1, h2⟩ := hrun
  refine ⟨N, ⟨⟨good.explained, good.noConst⟩, ⟨info, h1⟩, by rw [h2]; simp, explained, Props.IncNumSam.Case.setup⟩, by simp [cfg, NumWorld.cfg], rfl, textOK,
    by simp [relevantOf, cfg, NumWorld.cfg], cols_eq, ?_⟩
  intro c hc hs _
  exact good.explained c.comp (by
    simp only [List.mem_cons, List.not_mem_nil, or_false] at hc
    simp only [obs, List.map_cons, List.map_nil, List.flatten_cons, List.flatten_nil, List.cons_append, List.nil_append, List.append_nil, List.mem_cons, List.not_mem_nil, or_false]
    rcases hc with rfl | rfl | rfl | rfl <;> simp) hs

/-- The hypotheses of `C149_leave_one_out` are met by two such trajectories. -/
example : ∃ (W : Finset (String × Lit)) (N : IncLearner ℚ), Covers D truth W ∧ "move" ∈ N.base.dom.names ∧
    ∀ bad : Finset (Fin 2), (∀ i ∈ bad, "move" ∈ N.base.dom.names ∧ RefusesInc cfg D "move" N [n1, n3, n2, n4]) → bad.card ≤ W.card + 2 := by
  obtain ⟨W, hW⟩ := covers_exist wfD truth
  obtain ⟨N, h1, h2, h3, h4, h5, h6, h7⟩ := fuel_case
  exact ⟨W, N, hW, h1.returned, fun bad hb => C149_leave_one_out (a := "move") (o := fun _ : Fin 2 => [n1, n3, n2, n4]) (N := fun _ => N) wfD wfT (by decide) hW h2 h3 h4
    ⟨_, scope_iff.mpr rfl⟩ h5 h6 (fun _ _ => h1) (fun _ => h7) hb⟩

/-- The hypotheses of `C149_error_bound` and `C149_pac` are met for one sample of these moves. -/
example (μ : @MeasureTheory.Measure ℕ ⊤) [@MeasureTheory.IsProbabilityMeasure ℕ ⊤ μ] : letI : MeasurableSpace ℕ := ⊤
    ∃ (W : Finset (String × Lit)) (N : (Fin 1 → ℕ) → IncLearner ℚ), Covers D truth W ∧ (∀ g, "move" ∈ (N g).base.dom.names) ∧
      (MeasureTheory.Measure.pi fun _ : Fin 1 => μ).real {g | 1 / 2 < μ.real {ω | "move" ∈ (N g).base.dom.names ∧
        RefusesInc cfg D "move" (N g) ((fun _ : ℕ => [n1, n3, n2, n4]) ω)}} ≤ (W.card + 2 : ℕ) * (1 - (1 / 2) / (W.card + 2 : ℕ)) ^ 1 := by
  let _ : MeasurableSpace ℕ := ⊤
  obtain ⟨W, hW⟩ := covers_exist wfD truth
  obtain ⟨N, h1, h2, h3, h4, h5, h6, h7⟩ := fuel_case
  exact ⟨W, fun _ => N, hW, fun _ => h1.returned, C149_error_bound (a := "move") (o := fun _ : ℕ => [n1, n3, n2, n4]) wfD wfT (by decide) hW h2 h3 h4
    ⟨_, scope_iff.mpr rfl⟩ h5 h6 (fun _ _ => h1) (fun _ => h7) (fun _ => trivial) (by norm_num) (by norm_num)⟩
end
end IncSamGeneral
end Props

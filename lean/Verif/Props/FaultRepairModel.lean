import Verif.Model.FaultRepair
import Verif.Props.NumSam

/-! C100: repairing the blamed action. -/
namespace Props
namespace Fault
open Model Model.Fault Spec

section
variable {D : Domain} {truth : String → Schema} {a : String}

/-- SAM started with the true preconditions and effects of an action: the effects stay exactly the true
ones, all true preconditions stay, and what stays held in all observations. -/
theorem learn_from_truth {obs : List (List Component)} {L' : Learner} {rep : List (String × Status)}
    (hnd : D.names.Nodup) (hw : WFSig D.consts (D.act a).sig) (hT : WFTruth D truth) (hG : GoodData D truth obs)
    (ha : a ∈ D.names) (hpre : (D.act a).pre = (truth a).pre) (heff : (D.act a).eff = (truth a).eff)
    (h : (Learner.init D).learn obs = .ok (L', rep)) :
    (L'.dom.act a).eff = (truth a).eff ∧ (truth a).pre ⊆ (L'.dom.act a).pre ∧
    (∀ c ∈ usable obs.flatten a, ∀ l ∈ (L'.dom.act a).pre, l ∈ obsPrev D c) := by
  obtain ⟨HL, _⟩ := learn_spec (L0 := Learner.init D) hnd (init_sigs D _ _) h
  have hF : ∀ c ∈ usable obs.flatten a, Fact D (truth a) c := by
    intro c hc
    obtain ⟨h1, h2, h3, h4⟩ := mem_usable.mp hc
    subst h3
    exact fact_of ha hw hT (hG.explained c h1 h2) h4 (hG.noConst c h1 h2 h4)
  refine ⟨?_, ?_, ?_⟩
  · ext l
    constructor
    · intro hl
      rcases HL.effSub a l hl with k | ⟨c, hc, k⟩
      · rw [← heff]; exact k
      · exact (hF c hc).effSound l k
    · intro hl
      refine HL.effSup a l (Or.inl (by rw [← heff] at hl; exact hl)) (Or.inr ⟨by simp [Learner.init], fun c hc _ => (hF c hc).effNext l hl⟩)
  · intro l hl
    rw [HL.pre a ha l]
    refine ⟨Or.inl ⟨fun k => by simp [Learner.init] at k, fun _ => ?_⟩, Or.inr (Or.inl rfl)⟩
    have hP : l ∈ ((Learner.init D).dom.act a).pre := by rw [← hpre] at hl; exact hl
    have hall : ∀ c ∈ usable obs.flatten a, l ∈ obsPrev D c := fun c hc => (hF c hc).pre l hl
    cases hu : usable obs.flatten a with
    | nil => exact hP
    | cons c cs => exact ⟨Or.inl hP, fun c' hc' => hall c' (by rw [hu]; exact List.mem_cons_of_mem _ hc')⟩
  · intro c hc l hl
    rw [HL.pre a ha l] at hl
    rcases hl.1 with k | ⟨⟨_, k⟩, _⟩
    · have k := k.2 (by simp [Learner.init])
      revert k
      have hall : ∀ c ∈ usable obs.flatten a, l ∈ (truth a).pre → l ∈ obsPrev D c := fun c hc => (hF c hc).pre l
      cases hu : usable obs.flatten a with
      | nil => rw [hu] at hc; simp at hc
      | cons c0 cs =>
        rintro ⟨k1, k2⟩
        rw [hu] at hc hall
        rcases List.mem_cons.mp hc with rfl | hc'
        · rcases k1 with k1 | k1
          · exact hall _ List.mem_cons_self (by rw [← hpre]; exact k1)
          · exact k1
        · exact k2 c hc'
    · rw [k] at hc; simp at hc

end

section
variable {K : Type} [Field K] [LinearOrder K] [IsStrictOrderedRing K] [FloorRing K]
variable {cfg : NumCfg K} {D : Domain} {truth : String → Schema} {f : String} {faulty R : NumDomain K} {A : NumSchema K}
variable {obs : List (List (NumComponent K))} {info : List (String × NumStatus)}

theorem repair_spec (h : repairModel cfg D faulty obs f = .ok (R, info)) :
    ∃ N' : NumLearner K, (NumLearner.init D).learn cfg obs = .ok (N', info) ∧ f ∈ N'.base.dom.names ∧
      R.dom.act f = N'.base.dom.act f ∧ R.num f = N'.num f ∧ f ∈ R.dom.names ∧
      (∀ b, b ∈ R.dom.names ↔ b = f ∨ b ∈ faulty.dom.names) ∧
      (∀ b, b ≠ f → R.dom.act b = faulty.dom.act b ∧ R.num b = faulty.num b) ∧
      R.dom.preds = faulty.dom.preds ∧ R.dom.consts = faulty.dom.consts := by
  unfold repairModel at h
  simp only [Bind.bind, Except.bind] at h
  cases hl : (NumLearner.init D).learn cfg obs with
  | error e => rw [hl] at h; cases h
  | ok r =>
    rw [hl] at h
    simp only at h
    by_cases hf : f ∈ r.1.base.dom.names
    · rw [if_pos hf] at h
      have h := Except.ok.inj h
      have e1 := congrArg Prod.fst h
      have e2 := congrArg Prod.snd h
      dsimp only at e1 e2
      subst e1 e2
      refine ⟨r.1, rfl, hf, ?_, ?_, ?_, ?_, ?_, rfl, rfl⟩
      · show (faulty.dom.setAct f (r.1.base.dom.act f)).act f = _
        rw [setAct_act, if_pos rfl]
      · simp
      · dsimp only; split <;> simp_all
      · intro b
        dsimp only
        split
        · rename_i hm
          exact ⟨Or.inr, fun k => k.elim (fun e => e ▸ hm) id⟩
        · simp [or_comm]
      · intro b hb
        refine ⟨?_, by simp [hb]⟩
        show (faulty.dom.setAct f (r.1.base.dom.act f)).act b = _
        rw [setAct_act, if_neg hb]
    · rw [if_neg hf] at h; cases h

/-- **C100.** The repair replaces the blamed action and nothing else. -/
theorem C100_only_that_action (h : repairModel cfg D faulty obs f = .ok (R, info)) :
    (∀ b, b ∈ R.dom.names ↔ b = f ∨ b ∈ faulty.dom.names) ∧
    (∀ b, b ≠ f → R.dom.act b = faulty.dom.act b ∧ R.num b = faulty.num b) ∧
    R.dom.preds = faulty.dom.preds ∧ R.dom.consts = faulty.dom.consts := by
  obtain ⟨N', _, _, _, _, _, h6, h7, h8, h9⟩ := repair_spec h
  exact ⟨h6, h7, h8, h9⟩

/-- C100: the repair fails with `KeyError` if N-SAM returns no such action, in particular if the action
was not observed in the valid observations. -/
theorem C100_unlearned (hnd : D.names.Nodup) (hfns : cfg.fns ≠ []) {N' : NumLearner K}
    (hl : (NumLearner.init D).learn cfg obs = .ok (N', info)) :
    ((∃ R, repairModel cfg D faulty obs f = .ok (R, info)) ↔ (f, NumStatus.ok) ∈ info) ∧
    ((f, NumStatus.ok) ∉ info → repairModel cfg D faulty obs f = .error (.py .keyError)) ∧
    ((∀ c ∈ obs.flatten, c.comp.success = true → c.comp.call.name = f → ¬ c.comp.call.params.Nodup) → (f, NumStatus.ok) ∉ info) := by
  obtain ⟨h1, h2, _, _⟩ := C63_returned_actions (policy := .noRemove) hnd hfns hl
  unfold repairModel
  simp only [Bind.bind, Except.bind, hl]
  refine ⟨?_, ?_, ?_⟩
  · rw [← h1 f]
    by_cases hf : f ∈ N'.base.dom.names
    · rw [if_pos hf]; exact ⟨fun _ => hf, fun _ => ⟨_, rfl⟩⟩
    · rw [if_neg hf]; exact ⟨fun ⟨_, k⟩ => (by cases k), fun k => absurd k hf⟩
  · intro hf
    rw [← h1 f] at hf
    rw [if_neg hf]
  · intro hc hf
    obtain ⟨_, c, hm, k1, k2, k3⟩ := (h2 f).mp ⟨_, hf⟩
    exact hc c hm k1 k2 k3

/-- **C100.** The repaired action is safe. Let the valid observations come from the true actions, the
model file state the true boolean parts of `f`, and the numeric part of `f` be learnable as in C62. Then
the repaired `f` has exactly the true boolean effects; whenever its preconditions hold the true ones
do; its numeric effects give the true values and change nothing else; and every observed state of `f`
meets its boolean preconditions. -/
theorem C100_repaired_safe (hnd : D.names.Nodup) (hw : WFSig D.consts (D.act f).sig) (hT : WFTruth D truth)
    (hG : GoodData D truth (obs.map fun o => o.map NumComponent.comp))
    (hpre : (D.act f).pre = (truth f).pre) (heff : (D.act f).eff = (truth f).eff)
    (hfns : cfg.fns ≠ []) (hplain : cfg.plain = true) (hallow : cfg.allowUnsafe = false) (hdig : cfg.digits ≤ 10)
    (hR : RegContract cfg.reg)
    (h : repairModel cfg D faulty obs f = .ok (R, info))
    (ht : TextOK cfg.txt cfg.fns D.consts (D.act f).sig) (hsc : ∃ g, InScope cfg.fns D.consts (D.act f).sig g)
    (hN : NumGood cfg D f A obs) {rel : Option (List (List String))} (hrel : relevantOf cfg f = .ok rel)
    (hC : NumConvex cfg.txt cfg.fns D.consts (D.act f).sig (usedCols rel (prevColumns cfg D f)) A)
    (hS : HullSetup cfg.lib cfg.digits polyExp (prevColumns cfg D f) (hullRows cfg D f obs) ∨
      ProjSetup cfg.lib cfg.digits polyExp (prevColumns cfg D f) (hullRows cfg D f obs))
    (hP : CoefficientsPrintable cfg.reg cfg.digits (usedCols rel (prevColumns cfg D f)) (usedCols rel (nextColumns cfg D f)) (regressionRows cfg D f obs))
    (hsd : ∀ e ∈ (R.num f).eff, e.op ≠ .scaleDown) :
    (R.dom.act f).eff = (truth f).eff ∧
    (∀ (ρ : String → String) (s : State), applicable (R.dom.act f).pre ρ s → applicable (truth f).pre ρ s) ∧
    (∀ x : String → K, (∀ q ∈ (R.num f).pre, q.holds x) → A.pre (monoVal x) ∧
      (∀ g, InScope cfg.fns D.consts (D.act f).sig g → applyNumeric (R.num f).eff x (cfg.txt g) = (A.eff g).value (monoVal x)) ∧
      (∀ n, (∀ g, InScope cfg.fns D.consts (D.act f).sig g → cfg.txt g ≠ n) → applyNumeric (R.num f).eff x n = x n)) ∧
    (∀ c ∈ obs.flatten, c.comp.success = true → c.comp.call.name = f → c.comp.call.params.Nodup →
      applicable (R.dom.act f).pre (subst (Sig.names (D.act f).sig) c.comp.call.params) c.comp.prev) := by
  obtain ⟨N', hl, hf, e1, e2, _, _, _, _, _⟩ := repair_spec h
  obtain ⟨L', al, HL⟩ := numLearn_spec hnd hfns hl
  obtain ⟨rep, hbase⟩ := HL.base
  have hf' := hf
  rw [HL.names] at hf'
  obtain ⟨p, hp, hpa⟩ := List.mem_map.mp hf'
  have hfD : f ∈ D.names := hpa ▸ (HL.allowed p hp).1
  obtain ⟨k1, k2, k3⟩ := learn_from_truth hnd hw hT hG hfD hpre heff hbase
  refine ⟨?_, ?_, ?_, ?_⟩
  · rw [e1, HL.eff f hf', k1]
  · intro ρ s hs l hlm
    refine hs l ?_
    rw [e1, HL.pre f hf']
    exact k2 hlm
  · intro x hx
    rw [e2] at hx hsd ⊢
    exact numeric_part_safe hnd hw hT hG hfns hplain hallow hdig hR hl hf ht hsc hN hrel hC hS hP hsd x hx
  · intro c hc hs hn hd l hlm
    rw [e1, HL.pre f hf'] at hlm
    have hmem : c.comp ∈ (obs.map fun o => o.map NumComponent.comp).flatten := by
      rw [← List.map_flatten]; exact List.mem_map.mpr ⟨c, hc, rfl⟩
    have := k3 c.comp (mem_usable.mpr ⟨hmem, hs, hn, hd⟩) l hlm
    have hcD : c.comp.call.name ∈ D.names := hn ▸ hfD
    have hg := goodCall_of hT hcD (hG.explained _ hmem hs) hd (hG.noConst _ hmem hs hd)
    rw [obsPrev_iff (by rw [hn]; exact hw) hg, hn] at this
    exact this.2

end
end Fault
end Props

import Verif.Lemmas.UniMatch

/-! Without the quantified part, the learner is `ConditionalSAM`. -/
namespace Model
open Spec

section
variable {ord : LitOrd} {K : CondLearner} {call : Call} {p n p' n' : Finset Lit}

theorem applyRules_congr (h1 : liftCall K.base.dom call p = liftCall K.base.dom call p')
    (h2 : liftCall K.base.dom call n = liftCall K.base.dom call n')
    (h3 : liftedEffects K.base.dom call p n = liftedEffects K.base.dom call p' n') :
    K.applyRules ord call p n = K.applyRules ord call p' n' := by
  unfold CondLearner.applyRules removeNonExisting removeExisting findLiterals
  simp only [h1, h2, h3]

theorem addNewPre_congr (h1 : liftCall K.base.dom call p = liftCall K.base.dom call p') :
    addNewPre K.base.dom call p = addNewPre K.base.dom call p' := by
  unfold addNewPre; rw [h1]

theorem updatePre_congr (h1 : liftCall K.base.dom call p = liftCall K.base.dom call p') :
    updatePre K.base.dom call p = updatePre K.base.dom call p' := by
  unfold updatePre; rw [h1]

theorem addNewPre_static (D : Domain) (call : Call) (p : Finset Lit) : SameStatic D (addNewPre D call p) := sameStatic_setAct rfl
theorem updatePre_static (D : Domain) (call : Call) (p : Finset Lit) : SameStatic D (updatePre D call p) := sameStatic_setAct rfl

theorem addNewAction_congr (h1 : liftCall K.base.dom call p = liftCall K.base.dom call p')
    (h2 : liftCall K.base.dom call n = liftCall K.base.dom call n')
    (h3 : liftedEffects K.base.dom call p n = liftedEffects K.base.dom call p' n') :
    K.addNewAction ord call p n = K.addNewAction ord call p' n' := by
  unfold CondLearner.addNewAction
  rw [addNewPre_congr h1]
  have hs := addNewPre_static K.base.dom call p'
  dsimp only
  rw [applyRules_congr (p := p) (p' := p') (n := n) (n' := n')]
  · simpa only [liftCall_static hs] using h1
  · simpa only [liftCall_static hs] using h2
  · simpa only [liftedEffects_static hs] using h3

theorem updateAction_congr (h1 : liftCall K.base.dom call p = liftCall K.base.dom call p')
    (h2 : liftCall K.base.dom call n = liftCall K.base.dom call n')
    (h3 : liftedEffects K.base.dom call p n = liftedEffects K.base.dom call p' n') :
    K.updateAction ord call p n = K.updateAction ord call p' n' := by
  unfold CondLearner.updateAction
  rw [updatePre_congr h1]
  have hs := updatePre_static K.base.dom call p'
  dsimp only
  rw [applyRules_congr (p := p) (p' := p') (n := n) (n' := n')]
  · simpa only [liftCall_static hs] using h1
  · simpa only [liftCall_static hs] using h2
  · simpa only [liftedEffects_static hs] using h3

theorem setAct_setAct (D : Domain) (a : String) (m m' : ActModel) : (D.setAct a m).setAct a m' = D.setAct a m' := by
  simp [Domain.setAct]

/-- The preconditions are not changed by doing it twice. -/
theorem addNewPre_twice (D : Domain) (call : Call) (p : Finset Lit) : addNewPre (addNewPre D call p) call p = addNewPre D call p := by
  have h := liftCall_static (addNewPre_static D call p) call p
  unfold addNewPre at h ⊢
  rw [h, setAct_setAct]
  simp [Domain.setAct]

theorem updatePre_twice (D : Domain) (call : Call) (p : Finset Lit) : updatePre (updatePre D call p) call p = updatePre D call p := by
  have h := liftCall_static (updatePre_static D call p) call p
  unfold updatePre at h ⊢
  dsimp only
  dsimp only at h
  rw [h, setAct_setAct]
  simp [Domain.setAct, Finset.filter_filter]

end

section
variable {ord : LitOrd} {U U' : UniLearner} {objs : Sig} {call : Call} {p n : Finset Lit}

/-- What the quantified rules leave alone. -/
structure SameCore (U U' : UniLearner) : Prop where
  base : U'.base = U.base
  types : U'.types = U.types
  umap : U'.umap = U.umap
  ueffs : U'.ueffs = U.ueffs
  uconds : U'.uconds = U.uconds

theorem SameCore.refl (U : UniLearner) : SameCore U U := ⟨rfl, rfl, rfl, rfl, rfl⟩
theorem SameCore.trans {U V W : UniLearner} (h : SameCore U V) (k : SameCore V W) : SameCore U W :=
  ⟨k.base.trans h.base, k.types.trans h.types, k.umap.trans h.umap, k.ueffs.trans h.ueffs, k.uconds.trans h.uconds⟩

theorem sameCore_foldl {α : Type} {f : UniLearner → α → UniLearner} (hf : ∀ U x, SameCore U (f U x)) (xs : List α) (U : UniLearner) :
    SameCore U (xs.foldl f U) := by
  induction xs generalizing U with
  | nil => exact SameCore.refl U
  | cons x xs ih => exact (hf U x).trans (ih _)

theorem initU_core (a : String) (ts : List String) (U : UniLearner) : SameCore U (U.initU ord a ts) :=
  sameCore_foldl (f := UniLearner.initType ord a) (fun U t => ⟨rfl, rfl, rfl, rfl, rfl⟩) _ U

theorem removeExistingU_core : SameCore U (U.removeExistingU ord objs call p n) := by
  unfold UniLearner.removeExistingU
  apply sameCore_foldl
  intro U tv
  split
  · exact SameCore.refl U
  · exact ⟨rfl, rfl, rfl, rfl, rfl⟩

theorem removeNonExistingU_core (h : U.removeNonExistingU ord objs call p n = .ok U') : SameCore U U' := by
  unfold UniLearner.removeNonExistingU at h
  simp only [Bind.bind, Except.bind] at h
  split at h
  · simp at h
  · simp only [Except.ok.injEq] at h
    subst h
    apply sameCore_foldl
    intro U e
    split
    · exact SameCore.refl U
    · exact ⟨rfl, rfl, rfl, rfl, rfl⟩

theorem updateObserved_core (h : U.updateObserved ord objs call p n = .ok U') : SameCore U U' := by
  unfold UniLearner.updateObserved at h
  simp only [Bind.bind, Except.bind] at h
  split at h
  · simp at h
  · simp only [Except.ok.injEq] at h
    subst h
    exact ⟨rfl, rfl, rfl, rfl, rfl⟩

theorem applyRulesU_core (h : U.applyRulesU ord objs call p n = .ok U') : SameCore U U' := by
  unfold UniLearner.applyRulesU at h
  simp only [Bind.bind, Except.bind] at h
  split at h
  · simp at h
  · rename_i V hV
    exact (updateObserved_core hV).trans (removeExistingU_core.trans (removeNonExistingU_core h))

/-- One component: the core goes through the step of `ConditionalSAM`. -/
theorem handle_base {c : Component} (hw : WFSig U.base.base.dom.consts (U.base.base.dom.act c.call.name).sig)
    (hx : ExactCall U.base.base.dom objs c) (h : U.handleComponent ord objs c = .ok U') :
    U.base.handleComponent ord c = .ok U'.base ∧ U'.types = U.types ∧ U'.umap = U.umap ∧ U'.ueffs = U.ueffs ∧ U'.uconds = U.uconds ∧
      c.call.name ∈ U.base.base.dom.names ∧ U.umap.lookup c.call.name ≠ none := by
  unfold UniLearner.handleComponent at h
  dsimp only at h
  unfold CondLearner.handleComponent
  by_cases hn : c.call.name ∈ U.base.base.dom.names
  · rw [if_neg (by simpa using hn)] at h ⊢
    cases hl : U.umap.lookup c.call.name with
    | none => rw [hl] at h; simp at h
    | some ts =>
      rw [hl] at h
      dsimp only at h ⊢
      obtain ⟨e1, e2, e3⟩ := lift_uniSnapshot (ts := ts) hw hx
      by_cases ho : c.call.name ∈ U.base.base.observed
      · rw [if_neg (by simpa using ho)] at h ⊢
        simp only [Bind.bind, Except.bind] at h
        split at h
        · simp at h
        · rename_i K' hK
          have hc := applyRulesU_core h
          have hK2 : U.base.updateAction ord c.call (uniSnapshot U.base.base.dom objs ts c).1 (uniSnapshot U.base.base.dom objs ts c).2 = .ok K' := by
            rw [← hK]
            by_cases hts : ts = []
            · rw [if_pos hts]
              unfold CondLearner.updateAction
              dsimp only
              rw [updatePre_twice]
            · rw [if_neg hts]
          rw [updateAction_congr (p' := (tripletSnapshot U.base.base.dom c).1) (n' := (tripletSnapshot U.base.base.dom c).2) e1 e2
            (e3.trans (liftedEffects_eq _ c).symm)] at hK2
          exact ⟨by rw [hK2, hc.base], hc.types, hc.umap, hc.ueffs, hc.uconds, hn, by simp⟩
      · rw [if_pos (by simpa using ho)] at h ⊢
        simp only [Bind.bind, Except.bind] at h
        split at h
        · simp at h
        · rename_i K' hK
          have hc := applyRulesU_core h
          have hi := initU_core (ord := ord) c.call.name ts { U with base := U.base.initDeps ord c.call.name }
          have hb : ({ U with base := U.base.initDeps ord c.call.name }.initU ord c.call.name ts).base = U.base.initDeps ord c.call.name := hi.base
          rw [hb] at hK
          have hK2 : (U.base.initDeps ord c.call.name).addNewAction ord c.call (uniSnapshot U.base.base.dom objs ts c).1
              (uniSnapshot U.base.base.dom objs ts c).2 = .ok K' := by
            rw [← hK]
            by_cases hts : ts = []
            · rw [if_pos hts]
              unfold CondLearner.addNewAction
              dsimp only
              rw [addNewPre_twice]
            · rw [if_neg hts]
          rw [addNewAction_congr (K := U.base.initDeps ord c.call.name) (p' := (tripletSnapshot U.base.base.dom c).1) (n' := (tripletSnapshot U.base.base.dom c).2) e1 e2
            (e3.trans (liftedEffects_eq _ c).symm)] at hK2
          exact ⟨by rw [hK2, hc.base], hc.types.trans hi.types, hc.umap.trans hi.umap, hc.ueffs.trans hi.ueffs, hc.uconds.trans hi.uconds, hn, by simp⟩
  · rw [if_pos (by simpa using hn)] at h
    simp at h

/-- Static data of another domain. -/
theorem ExactCall_static {D D' : Domain} (h : SameStatic D D') {c : Component} : ExactCall D' objs c ↔ ExactCall D objs c := by
  constructor
  · intro k
    exact ⟨by rw [← h.consts]; exact k.names, by rw [← h.sig]; exact k.exact, k.distinct⟩
  · intro k
    exact ⟨by rw [h.consts]; exact k.names, by rw [h.sig]; exact k.exact, k.distinct⟩

/-- One observation. -/
theorem observation_base (ho : EnumNodup ord) {D : Domain} (hD : WFDomain D) {iq} {m : Nat} {hs : List Component} : ∀ (cs : List Component)
    (U : UniLearner), CondInv ord D iq m hs U.base → (∀ c ∈ cs, ExactCall D objs c) →
    cs.foldlM (UniLearner.handleComponent ord objs) U = .ok U' →
    U.base.process ord cs = .ok U'.base ∧ U'.types = U.types ∧ U'.umap = U.umap ∧ U'.ueffs = U.ueffs ∧ U'.uconds = U.uconds ∧
      CondInv ord D iq m (hs ++ cs) U'.base ∧ ∀ c ∈ cs, c.call.name ∈ D.names ∧ U.umap.lookup c.call.name ≠ none := by
  intro cs
  induction cs generalizing hs with
  | nil =>
    intro U hI _ h
    cases h
    exact ⟨rfl, rfl, rfl, rfl, rfl, by simpa using hI, by simp⟩
  | cons c cs ih =>
    intro U hI hx h
    rw [List.foldlM_cons] at h
    simp only [Bind.bind, Except.bind] at h
    split at h
    · simp at h
    · rename_i V hV
      have hcn : c.call.name ∈ U.base.base.dom.names := by
        by_contra hn
        unfold UniLearner.handleComponent at hV
        dsimp only at hV
        rw [if_pos hn] at hV
        simp at hV
      have hcn' : c.call.name ∈ D.names := by rw [← hI.static.names]; exact hcn
      obtain ⟨e1, e2, e3, e4, e5, e6, e7⟩ := handle_base (U := U) (by rw [hI.static.consts, hI.static.sig]; exact hD.sigs _ hcn')
        ((ExactCall_static hI.static).mpr (hx c (by simp))) hV
      have hI2 : CondInv ord D iq m (hs ++ [c]) V.base := by
        by_cases hob : c.call.name ∈ U.base.base.observed
        · obtain ⟨K', f1, f2⟩ := hI.step_upd ho hob
          rw [e1] at f1; cases f1; exact f2
        · obtain ⟨K', f1, f2⟩ := hI.step_new ho hcn' hob
          rw [e1] at f1; cases f1; exact f2
      obtain ⟨g1, g2, g3, g4, g5, g6, g7⟩ := ih (hs := hs ++ [c]) V hI2 (fun x hx' => hx x (by simp [hx'])) h
      refine ⟨?_, g2.trans e2, g3.trans e3, g4.trans e4, g5.trans e5, by simpa using g6, ?_⟩
      · unfold CondLearner.process at g1 ⊢
        rw [List.foldlM_cons, e1]
        exact g1
      · intro x hx'
        rcases List.mem_cons.mp hx' with rfl | hx'
        · exact ⟨hcn', e7⟩
        · rw [← e3]; exact g7 x hx'

/-- All components of all observations. -/
def allComps (obs : List UniObs) : List Component := obs.flatMap Prod.snd

theorem process_base (ho : EnumNodup ord) {D : Domain} (hD : WFDomain D) {iq} {m : Nat} {hs : List Component} : ∀ (obs : List UniObs)
    (U : UniLearner), CondInv ord D iq m hs U.base → (∀ ob ∈ obs, ∀ c ∈ ob.2, ExactCall D ob.1 c) →
    U.process ord obs = .ok U' →
    U.base.process ord (allComps obs) = .ok U'.base ∧ U'.types = U.types ∧ U'.umap = U.umap ∧ U'.ueffs = U.ueffs ∧ U'.uconds = U.uconds ∧
      CondInv ord D iq m (hs ++ allComps obs) U'.base ∧ ∀ c ∈ allComps obs, c.call.name ∈ D.names ∧ U.umap.lookup c.call.name ≠ none := by
  intro obs
  induction obs generalizing hs with
  | nil =>
    intro U hI _ h
    cases h
    exact ⟨rfl, rfl, rfl, rfl, rfl, by simpa [allComps] using hI, by simp [allComps]⟩
  | cons ob obs ih =>
    intro U hI hx h
    unfold UniLearner.process at h
    rw [List.foldlM_cons] at h
    simp only [Bind.bind, Except.bind] at h
    split at h
    · simp at h
    · rename_i V hV
      obtain ⟨e1, e2, e3, e4, e5, e6, e7⟩ := observation_base ho hD ob.2 U hI (hx ob (by simp)) hV
      obtain ⟨g1, g2, g3, g4, g5, g6, g7⟩ := ih (hs := hs ++ ob.2) V e6 (fun x hx' => hx x (by simp [hx'])) h
      refine ⟨?_, g2.trans e2, g3.trans e3, g4.trans e4, g5.trans e5, by simpa [allComps] using g6, ?_⟩
      · unfold CondLearner.process at g1 e1 ⊢
        have : allComps (ob :: obs) = ob.2 ++ allComps obs := rfl
        rw [this, List.foldlM_append, e1]
        exact g1
      · intro x hx'
        rcases List.mem_append.mp (show x ∈ ob.2 ++ allComps obs from hx') with hx' | hx'
        · exact e7 x hx'
        · rw [← e3]; exact g7 x hx'

/-! ### Construction -/

variable {add : Cond → Cond → Cond} {deep : Bool}

/-- What the construction of the universal part of an action leaves alone. -/
structure SameBase (a : String) (U U' : UniLearner) : Prop where
  base : U'.base = U.base
  types : U'.types = U.types
  umap : U'.umap = U.umap
  addl : U'.addl = U.addl
  obsU : U'.obsU = U.obsU
  qOther : ∀ b, b ≠ a → U'.q b = U.q b
  ueffsOther : ∀ b, b ≠ a → U'.ueffs b = U.ueffs b
  ucondsOther : ∀ b, b ≠ a → U'.uconds b = U.uconds b

theorem SameBase.refl (a : String) (U : UniLearner) : SameBase a U U :=
  ⟨rfl, rfl, rfl, rfl, rfl, fun _ _ => rfl, fun _ _ => rfl, fun _ _ => rfl⟩
theorem SameBase.trans {a : String} {U V W : UniLearner} (h : SameBase a U V) (k : SameBase a V W) : SameBase a U W :=
  ⟨k.base.trans h.base, k.types.trans h.types, k.umap.trans h.umap, k.addl.trans h.addl, k.obsU.trans h.obsU,
    fun b hb => (k.qOther b hb).trans (h.qOther b hb), fun b hb => (k.ueffsOther b hb).trans (h.ueffsOther b hb),
    fun b hb => (k.ucondsOther b hb).trans (h.ucondsOther b hb)⟩

theorem sameBase_foldlM {α : Type} {a : String} {f : UniLearner → α → Except Err UniLearner} (hf : ∀ U x U', f U x = .ok U' → SameBase a U U')
    (xs : List α) (U : UniLearner) (h : xs.foldlM f U = .ok U') : SameBase a U U' := by
  induction xs generalizing U with
  | nil => cases h; exact SameBase.refl a _
  | cons x xs ih =>
    rw [List.foldlM_cons] at h
    simp only [Bind.bind, Except.bind] at h
    split at h
    · simp at h
    · rename_i V hV
      exact (hf U x V hV).trans (ih V h)

theorem update2_other {β : Type} {f : String → String → β} {a t b : String} {x : β} (h : b ≠ a) : update2 f a t x b = f b := by
  simp [update2, h]

theorem verifyU_base {a t v : String} {d : DepSet} {l : Lit} (h : U.verifyU add deep ord a t v d l = .ok U') : SameBase a U U' := by
  have key : ∀ (u : List UPre) (e : String → String → List CondEff), (∀ b, b ≠ a → e b = U.ueffs b) →
      SameBase a U { U with uconds := Function.update U.uconds a u, ueffs := e } := fun u e he =>
    ⟨rfl, rfl, rfl, rfl, rfl, fun _ _ => rfl, he, fun b hb => by simp [hb]⟩
  have key2 : ∀ (e : String → String → List CondEff), (∀ b, b ≠ a → e b = U.ueffs b) →
      SameBase a U { U with ueffs := e } := fun e he => ⟨rfl, rfl, rfl, rfl, rfl, fun _ _ => rfl, he, fun b hb => rfl⟩
  unfold UniLearner.verifyU at h
  simp only [Bind.bind, Except.bind] at h
  split at h
  · simp at h
  · split at h
    · split at h
      · simp at h
      · split at h
        · split at h
          · simp at h
          · cases h; exact key _ _ fun b hb => update2_other hb
        · cases h; exact key _ _ fun b hb => rfl
    · split at h
      · split at h
        · simp at h
        · cases h; exact key2 _ fun b hb => update2_other hb
      · cases h; exact SameBase.refl a _

theorem verifyType_base {a : String} {tv : String × String} (h : U.verifyType add deep ord a tv = .ok U') : SameBase a U U' := by
  unfold UniLearner.verifyType at h
  split at h
  · simp at h
  · exact sameBase_foldlM (fun _ _ _ => verifyU_base) _ _ h

theorem constructU_base {a : String} (h : U.constructU add deep ord a = .ok U') : SameBase a U U' := by
  unfold UniLearner.constructU at h
  simp only [Bind.bind, Except.bind] at h
  split at h
  · simp at h
  · rename_i V hV
    cases h
    refine (sameBase_foldlM (fun _ _ _ => verifyType_base) _ _ hV).trans ⟨rfl, rfl, rfl, rfl, rfl, fun _ _ => rfl, fun b hb => ?_, fun _ _ => rfl⟩
    simp [hb]

theorem removePreU_base (a : String) (U : UniLearner) : SameBase a U (U.removePreU deep ord a) :=
  ⟨rfl, rfl, rfl, rfl, rfl, fun b hb => by simp [UniLearner.removePreU, hb], fun _ _ => rfl, fun _ _ => rfl⟩

/-- One action: the core goes through the construction of `ConditionalSAM`. -/
theorem constructAction_base {a : String} (h : U.constructAction add deep ord a = .ok U') :
    U.base.constructAction add ord a = .ok U'.base ∧ SameBase a { U with base := U'.base } U' := by
  unfold UniLearner.constructAction at h
  simp only [Bind.bind, Except.bind] at h
  split at h
  · simp at h
  · rename_i K hK
    split at h
    · cases h; exact ⟨hK, SameBase.refl a _⟩
    · cases h; exact ⟨hK, SameBase.refl a _⟩
    · have h1 := (removePreU_base (deep := deep) (ord := ord) a { U with base := K }).trans (constructU_base h)
      have hb : U'.base = K := h1.base
      rw [hb]
      exact ⟨hK, h1⟩

theorem constructFold_base {names : List String} (h : names.foldlM (UniLearner.constructAction add deep ord) U = .ok U') :
    names.foldlM (CondLearner.constructAction add ord) U.base = .ok U'.base := by
  induction names generalizing U with
  | nil => cases h; rfl
  | cons a as ih =>
    rw [List.foldlM_cons] at h ⊢
    simp only [Bind.bind, Except.bind] at h ⊢
    split at h
    · simp at h
    · rename_i V hV
      rw [(constructAction_base hV).1]
      exact ih h

/-- **Agreement.** Without its quantified part, what is returned is what `ConditionalSAM` returns for the same transitions. -/
theorem learn_base (ho : EnumNodup ord) {D : Domain} (hD : WFDomain D) {types : List PType} {umap : List (String × List String)} {m : Nat}
    {pol : Policy} {obs : List UniObs} {rep} (hx : ∀ ob ∈ obs, ∀ c ∈ ob.2, ExactCall D ob.1 c)
    (h : (UniLearner.init D types umap m pol).learn add deep ord obs = .ok (U', rep)) :
    (CondLearner.init D m pol).learn add ord (obs.map Prod.snd) = .ok (U'.base, rep) ∧
      ∀ c ∈ allComps obs, c.call.name ∈ D.names ∧ umap.lookup c.call.name ≠ none := by
  unfold UniLearner.learn at h
  simp only [Bind.bind, Except.bind] at h
  split at h
  · simp at h
  · rename_i V hV
    split at h
    · simp at h
    · rename_i W hW
      simp only [Except.ok.injEq, Prod.mk.injEq] at h
      obtain ⟨rfl, rfl⟩ := h
      have hI := CondInv.start (ord := ord) hD m pol
      obtain ⟨e1, _, _, _, _, _, e7⟩ := process_base ho hD (hs := []) obs _ hI hx hV
      refine ⟨?_, e7⟩
      unfold CondLearner.learn
      simp only [Bind.bind, Except.bind]
      have e1' : ({ CondLearner.init D m pol with base := (CondLearner.init D m pol).base.deduceIneq } : CondLearner).process ord
          (obs.map Prod.snd).flatten = .ok V.base := by
        rw [← List.flatMap_def]; exact e1
      rw [e1']
      unfold UniLearner.constructSafe at hW
      have := constructFold_base hW
      unfold CondLearner.constructSafe
      dsimp only at this ⊢
      rw [this]

end
end Model

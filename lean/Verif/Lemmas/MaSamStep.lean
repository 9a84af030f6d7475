import Verif.Lemmas.MaSamInv

namespace Model
open Spec

/-- A joint component whose data is real and is not skipped by the learner. -/
structure JCtx (D : Domain) (truth : String → Schema) (c : JointComponent) : Prop where
  consts : D.consts = []
  wfD : WFDomain D
  wfT : WFTruth D truth
  names : ∀ k ∈ c.calls, k.name ∈ D.names
  real : JointExplained truth c
  nodup : ∀ k ∈ c.calls, k.params.Nodup

section
variable {D : Domain} {truth : String → Schema} {c : JointComponent} {L L' : MaLearner} {k : Call} {g e : Lit}

theorem JCtx.goodCall (h : JCtx D truth c) (hk : k ∈ c.calls) : GoodCall D.consts (D.act k.name).sig k.params :=
  ⟨by rw [h.real.arity k hk, h.wfT.params _ (h.names k hk)], h.nodup k hk, by rw [h.consts]; simp [Sig.names]⟩

theorem JCtx.subst_eq (h : JCtx D truth c) (hk : k ∈ c.calls) :
    callSubst truth k = subst (Sig.names (D.act k.name).sig) k.params := by
  unfold callSubst; rw [h.wfT.params _ (h.names k hk)]

theorem JCtx.effSub (h : JCtx D truth c) (hk : k ∈ c.calls) (he : e ∈ (truth k.name).eff) :
    ∀ x ∈ e.args, x ∈ Sig.names (D.act k.name).sig := by
  intro x hx
  have := typed_sub ((h.wfT.wf _ (h.names k hk)).eff e he) x hx
  rwa [h.consts, List.append_nil, h.wfT.params _ (h.names k hk)] at this

/-- The ground literal of a true effect only mentions objects of its call. -/
theorem JCtx.effIn (h : JCtx D truth c) (hk : k ∈ c.calls) (he : e ∈ (truth k.name).eff)
    (hg : ground (callSubst truth k) e = g) : ∀ o ∈ g.args, o ∈ k.params := by
  intro o ho
  rw [← hg, h.subst_eq hk] at ho
  obtain ⟨x, hx, rfl⟩ := List.mem_map.mp ho
  exact bind_mem_call (h.wfD.sigs _ (h.names k hk)).params (by simp [(h.goodCall hk).len]) (h.effSub hk he x hx)

/-- The match of the ground literal of a true effect is that effect. -/
theorem JCtx.matchEff (h : JCtx D truth c) (hs : SameStatic D L.base.dom) (hk : k ∈ c.calls) (he : e ∈ (truth k.name).eff)
    (hg : ground (callSubst truth k) e = g) (hnd : g.args.Nodup) : L.matchOf k g = some e := by
  obtain ⟨l, h1, h2, h3⟩ := matchOf_some (L := L) h.consts hs (h.wfD.sigs _ (h.names k hk)) (h.goodCall hk) hnd (h.effIn hk he hg)
  have hw := h.wfD.sigs _ (h.names k hk)
  have hgc := h.goodCall hk
  rw [h.consts] at hw hgc
  rw [h.subst_eq hk, ← h2] at hg
  rw [h1, ground_inj hw hgc h3 (h.effSub hk he) hg.symm]

theorem jointClause_ok {cs : List Call} (h : ∀ k ∈ cs, ∃ l, L.matchOf k g = some l) :
    L.jointClause cs g = .ok (cs.map fun k => (k.name, (L.matchOf k g).getD g)) := by
  unfold MaLearner.jointClause
  induction cs with
  | nil => rfl
  | cons k cs ih =>
    obtain ⟨l, hl⟩ := h k (by simp)
    rw [List.mapM_cons, hl, ih (fun k hk => h k (by simp [hk]))]
    simp [hl, Bind.bind, Except.bind, Pure.pure, Except.pure]

theorem handleConcurrent_ok (h0 : L.base.dom.consts = []) {calls : List Call}
    (h : ∀ k ∈ calls, (∀ o ∈ g.args, o ∈ k.params) → ∃ l, L.matchOf k g = some l) :
    L.handleConcurrent g calls = .ok (L.updCnf (keyOf g) (·.addPossible
      ((calls.filter fun c => g.args.all fun o => c.params.contains o).map fun k => (k.name, (L.matchOf k g).getD g))), calls) := by
  unfold MaLearner.handleConcurrent
  simp only [h0, computeInteracting_nil]
  have hcs : ∀ k ∈ calls.filter (fun c => g.args.all fun o => c.params.contains o), ∃ l, L.matchOf k g = some l := by
    intro k hk
    rw [List.mem_filter] at hk
    exact h k hk.1 (by simpa using hk.2)
  revert hcs
  generalize calls.filter (fun c => g.args.all fun o => c.params.contains o) = cs
  intro hcs
  split
  · rename_i k
    obtain ⟨l, hl⟩ := hcs k (by simp)
    simp [MaLearner.addMustBe, hl]
  · rw [jointClause_ok hcs]; rfl

theorem JCtx.concurrent (h : JCtx D truth c) (hdist : DistinctActions c) (hs : SameStatic D L.base.dom)
    (hok : ∀ k, CnfOk (TrueEff truth) (L.cnf k)) (hnd : g.args.Nodup) (h1 : holds c.next g) (h2 : ¬ holds c.prev g) :
    ∃ L', L.handleConcurrent g c.calls = .ok (L', c.calls) ∧ CnfStep (TrueEff truth) L L' ∧
      ∀ k ∈ c.calls, ∀ e ∈ (truth k.name).eff, ground (callSubst truth k) e = g →
        ∃ d ∈ (L'.cnf (keyOf e)).clauses, (k.name, e) ∈ d := by
  have hex : ∀ k ∈ c.calls, (∀ o ∈ g.args, o ∈ k.params) → ∃ l, L.matchOf k g = some l := by
    intro k hk hin
    obtain ⟨l, hl, _⟩ := matchOf_some (L := L) h.consts hs (h.wfD.sigs _ (h.names k hk)) (h.goodCall hk) hnd hin
    exact ⟨l, hl⟩
  refine ⟨_, handleConcurrent_ok (by rw [hs.consts, h.consts]) hex, ?_, ?_⟩
  · apply CnfStep.possible
    · intro _
      obtain ⟨k, hk, e, he, hg⟩ := h.real.frame g h1 h2
      refine ⟨(k.name, e), List.mem_map.mpr ⟨k, List.mem_filter.mpr ⟨hk, ?_⟩, ?_⟩, he⟩
      · simpa using h.effIn hk he hg
      · rw [h.matchEff hs hk he hg hnd]; rfl
    · intro a l m hl hm
      obtain ⟨k, hk, e1⟩ := List.mem_map.mp hl
      obtain ⟨k', hk', e2⟩ := List.mem_map.mp hm
      simp only [Prod.mk.injEq] at e1 e2
      have hkk : k = k' := List.inj_on_of_nodup_map hdist (List.mem_filter.mp hk).1 (List.mem_filter.mp hk').1
        (e1.1.trans e2.1.symm)
      subst hkk
      exact e1.2.symm.trans e2.2
  · intro k hk e he hg
    have hkey : keyOf e = keyOf g := by rw [← hg]; rfl
    rw [hkey]
    refine possible_adds L _ (hok _) (p := (k.name, e)) ?_ he
    refine List.mem_map.mpr ⟨k, List.mem_filter.mpr ⟨hk, ?_⟩, ?_⟩
    · simpa using h.effIn hk he hg
    · rw [h.matchEff hs hk he hg hnd]; rfl

theorem JCtx.concurrentAll (h : JCtx D truth c) (hdist : DistinctActions c) : ∀ (gs : List Lit) (L : MaLearner),
    SameStatic D L.base.dom → (∀ k, CnfOk (TrueEff truth) (L.cnf k)) →
    (∀ g ∈ gs, g.args.Nodup ∧ holds c.next g ∧ ¬ holds c.prev g) →
    ∃ L', L.concurrentAll c.calls gs = .ok L' ∧ CnfStep (TrueEff truth) L L' ∧
      ∀ g ∈ gs, ∀ k ∈ c.calls, ∀ e ∈ (truth k.name).eff, ground (callSubst truth k) e = g →
        ∃ d ∈ (L'.cnf (keyOf e)).clauses, (k.name, e) ∈ d := by
  intro gs
  induction gs with
  | nil => intro L _ _ _; exact ⟨L, rfl, CnfStep.refl _ _, by simp⟩
  | cons g gs ih =>
    intro L hs hok hgs
    obtain ⟨g1, g2, g3⟩ := hgs g (by simp)
    obtain ⟨L1, e1, s1, a1⟩ := h.concurrent hdist hs hok g1 g2 g3
    obtain ⟨L2, e2, s2, a2⟩ := ih L1 (by rw [s1.base]; exact hs) (s1.ok hok) (fun g hg => hgs g (by simp [hg]))
    refine ⟨L2, ?_, s1.trans s2, ?_⟩
    · unfold MaLearner.concurrentAll
      rw [e1]; exact e2
    · intro g' hg' k hk e he hge
      rcases List.mem_cons.mp hg' with rfl | hg'
      · exact s2.keep _ _ he (a1 k hk e he hge)
      · exact a2 g' hg' k hk e he hge

/-- With no executed action only empty clauses are added. -/
theorem concurrentAll_nil : ∀ (gs : List Lit) (L : MaLearner), L.base.dom.consts = [] →
    ∃ L', L.concurrentAll [] gs = .ok L' ∧ CnfStep (TrueEff truth) L L' := by
  intro gs
  induction gs with
  | nil => intro L _; exact ⟨L, rfl, CnfStep.refl _ _⟩
  | cons g gs ih =>
    intro L h0
    have e1 := handleConcurrent_ok (g := g) h0 (calls := []) (by simp)
    simp only [List.filter_nil, List.map_nil] at e1
    have s1 : CnfStep (TrueEff truth) L (L.updCnf (keyOf g) (·.addPossible [])) :=
      CnfStep.possible L _ (by simp) (by simp)
    obtain ⟨L2, e2, s2⟩ := ih _ (show (L.updCnf (keyOf g) (·.addPossible [])).base.dom.consts = [] from h0)
    refine ⟨L2, ?_, s1.trans s2⟩
    unfold MaLearner.concurrentAll
    rw [e1]; exact e2

/-- Not-effects recorded for a call are not true effects. -/
theorem JCtx.notEffects (h : JCtx D truth c) (hs : SameStatic D L.base.dom) (hk : k ∈ c.calls) {objs : Sig} {lits : List Lit}
    (hl : ∀ g ∈ lits, g ∈ stateSnapshot D c.next objs) :
    CnfStep (TrueEff truth) L (L.addNotEffects (relevantNotEffects L.base.dom.consts k lits).1
      (relevantNotEffects L.base.dom.consts k lits).2) ∧ (relevantNotEffects L.base.dom.consts k lits).1 = k := by
  rw [hs.consts, h.consts, relevantNotEffects_nil]
  refine ⟨addNotEffects_step _ _ ?_, rfl⟩
  intro g hg l hm ht
  obtain ⟨hg, _⟩ := List.mem_filter.mp hg
  obtain ⟨g', hg', rfl⟩ := List.mem_map.mp hg
  have hsn := mem_stateSnapshot.mp (hl g' hg')
  have hnd : g'.neg.args.Nodup := hsn.1.nodup
  obtain ⟨h1, _⟩ := matchOf_sound h.consts hs (h.wfD.sigs _ (h.names k hk)) (h.goodCall hk).len hnd hm
  have := h.real.effects k hk l ht
  rw [h.subst_eq hk, h1] at this
  exact holds_neg.mp this hsn.2

theorem JCtx.notEffectsOfAll (h : JCtx D truth c) (ord : Finset Lit → List Lit) {objs : Sig}
    (hl : ∀ g ∈ ord (stateSnapshot D c.next objs), g ∈ stateSnapshot D c.next objs) :
    ∀ (cs : List Call) (L : MaLearner), (∀ k ∈ cs, k ∈ c.calls) → SameStatic D L.base.dom →
      L.snap.2 = stateSnapshot D c.next objs →
      CnfStep (TrueEff truth) L (L.notEffectsOfAll ord cs).1 ∧ (L.notEffectsOfAll ord cs).2 = cs := by
  intro cs
  induction cs with
  | nil => intro L _ _ _; exact ⟨CnfStep.refl _ _, rfl⟩
  | cons k cs ih =>
    intro L hk hs hsn
    obtain ⟨s1, e1⟩ := h.notEffects (L := L) hs (hk k (by simp)) (lits := ord L.snap.2) (objs := objs) (by rw [hsn]; exact hl)
    obtain ⟨s2, e2⟩ := ih (L.addNotEffects (relevantNotEffects L.base.dom.consts k (ord L.snap.2)).1
      (relevantNotEffects L.base.dom.consts k (ord L.snap.2)).2) (fun k hk' => hk k (by simp [hk']))
      (by rw [s1.base]; exact hs) (by rw [s1.snap]; exact hsn)
    unfold MaLearner.notEffectsOfAll
    simp only
    exact ⟨s1.trans s2, by rw [e2, e1]⟩

end
end Model

import Verif.Lemmas.MaSamStep

namespace Model
open Spec

/-- Invariant in the middle of a component: `done` are the calls whose preconditions were updated. -/
structure MaMid (D : Domain) (truth : String → Schema) (c : JointComponent) (done : List Call) (L : MaLearner) : Prop where
  policy : L.base.policy = .noRemove
  static : SameStatic D L.base.dom
  obsNames : ∀ a ∈ L.base.observed, a ∈ D.names
  cnfOk : ∀ k, CnfOk (TrueEff truth) (L.cnf k)
  effEmpty : ∀ a, (L.base.dom.act a).eff = (D.act a).eff
  preComplete : ∀ a ∈ L.base.observed, (truth a).pre ⊆ (L.base.dom.act a).pre
  cover : ∀ a ∈ L.base.observed, ∀ e ∈ (truth a).eff,
    e ∈ (L.base.dom.act a).pre ∨ (∃ d ∈ (L.cnf (keyOf e)).clauses, (a, e) ∈ d) ∨
    ∃ k ∈ done, k.name = a ∧ ¬ holds c.prev (ground (callSubst truth k) e)
  unobs : ∀ a, a ∉ L.base.observed → (L.base.dom.act a).pre = (D.act a).pre

section
variable {D : Domain} {truth : String → Schema} {c : JointComponent} {L L' : MaLearner} {k : Call}

theorem MaInv.mid (h : MaInv D truth L) : MaMid D truth c [] L :=
  ⟨h.policy, h.static, h.obsNames, h.cnfOk, h.effEmpty, h.preComplete,
    fun a ha e he => (h.cover a ha e he).elim Or.inl (fun x => Or.inr (Or.inl x)), h.unobs⟩

theorem MaMid.cnfStep {done : List Call} (h : MaMid D truth c done L) (s : CnfStep (TrueEff truth) L L') :
    MaMid D truth c done L' := by
  refine ⟨by rw [s.base]; exact h.policy, by rw [s.base]; exact h.static, by rw [s.base]; exact h.obsNames, s.ok h.cnfOk, by rw [s.base]; exact h.effEmpty,
    by rw [s.base]; exact h.preComplete, ?_, by rw [s.base]; exact h.unobs⟩
  rw [s.base]
  intro a ha e he
  rcases h.cover a ha e he with k | k | k
  · exact Or.inl k
  · exact Or.inr (Or.inl (s.keep _ _ he k))
  · exact Or.inr (Or.inr k)

theorem MaMid.inv {done : List Call} (h : MaMid D truth c done L)
    (hd : ∀ k ∈ done, ∀ e ∈ (truth k.name).eff, ¬ holds c.prev (ground (callSubst truth k) e) →
      ∃ d ∈ (L.cnf (keyOf e)).clauses, (k.name, e) ∈ d) : MaInv D truth L := by
  refine ⟨h.policy, h.static, h.obsNames, h.cnfOk, h.effEmpty, h.preComplete, ?_, h.unobs⟩
  intro a ha e he
  rcases h.cover a ha e he with k | k | ⟨k, hk, rfl, hh⟩
  · exact Or.inl k
  · exact Or.inr k
  · exact Or.inr (hd k hk e he hh)

/-- The component of one call. -/
def single (c : JointComponent) (k : Call) : Component := ⟨c.prev, k, c.next, true⟩

theorem updatePreconds_new (ho : k.name ∉ L.base.observed) :
    ((L.takeSnapshot c k).updatePreconds k).base = { L.base with
      dom := (L.base.dom.setAct k.name { L.base.dom.act k.name with
        pre := (L.base.dom.act k.name).pre ∪ obsPrev L.base.dom (single c k) }),
      observed := L.base.observed ++ [k.name] } ∧
    ((L.takeSnapshot c k).updatePreconds k).snap = tripletSnapshot L.base.dom (single c k) ∧
    ((L.takeSnapshot c k).updatePreconds k).cnf = L.cnf ∧
    ((L.takeSnapshot c k).updatePreconds k).unsafeActs = L.unsafeActs := by
  unfold MaLearner.updatePreconds
  rw [if_pos (by exact ho)]
  exact ⟨rfl, rfl, rfl, rfl⟩

theorem updatePreconds_upd (ho : k.name ∈ L.base.observed) :
    ((L.takeSnapshot c k).updatePreconds k).base = { L.base with
      dom := (L.base.dom.setAct k.name { L.base.dom.act k.name with
        pre := (L.base.dom.act k.name).pre.filter (fun l => l ∈ obsPrev L.base.dom (single c k)) }) } ∧
    ((L.takeSnapshot c k).updatePreconds k).snap = tripletSnapshot L.base.dom (single c k) ∧
    ((L.takeSnapshot c k).updatePreconds k).cnf = L.cnf ∧
    ((L.takeSnapshot c k).updatePreconds k).unsafeActs = L.unsafeActs := by
  unfold MaLearner.updatePreconds
  rw [if_neg (fun hn => hn ho)]
  exact ⟨rfl, rfl, rfl, rfl⟩

theorem JCtx.preObs (h : JCtx D truth c) (hk : k ∈ c.calls) : ∀ l ∈ (truth k.name).pre, l ∈ obsPrev D (single c k) := by
  intro l hl
  rw [obsPrev_iff (c := single c k) (h.wfD.sigs _ (h.names k hk)) (h.goodCall hk)]
  refine ⟨?_, ?_⟩
  · exact (h.wfT.params _ (h.names k hk)) ▸ (h.wfT.wf _ (h.names k hk)).pre l hl
  · have := h.real.app k hk l hl
    rwa [h.subst_eq hk] at this

theorem JCtx.effObs (h : JCtx D truth c) (hk : k ∈ c.calls) {e : Lit} (he : e ∈ (truth k.name).eff) :
    e ∈ obsPrev D (single c k) ∨ ¬ holds c.prev (ground (callSubst truth k) e) := by
  rw [obsPrev_iff (c := single c k) (h.wfD.sigs _ (h.names k hk)) (h.goodCall hk), h.subst_eq hk]
  by_cases hh : holds c.prev (ground (subst (Sig.names (D.act k.name).sig) k.params) e)
  · refine Or.inl ⟨?_, hh⟩
    exact (h.wfT.params _ (h.names k hk)) ▸ (h.wfT.wf _ (h.names k hk)).eff e he
  · exact Or.inr hh

theorem MaMid.step {done : List Call} (h : JCtx D truth c) (hk : k ∈ c.calls) (hm : MaMid D truth c done L) :
    MaMid D truth c (done ++ [k]) ((L.takeSnapshot c k).updatePreconds k) ∧
    ((L.takeSnapshot c k).updatePreconds k).snap = tripletSnapshot D (single c k) ∧
    ((L.takeSnapshot c k).updatePreconds k).unsafeActs = L.unsafeActs := by
  by_cases ho : k.name ∈ L.base.observed
  · obtain ⟨e1, e2, e3, e4⟩ := updatePreconds_upd (c := c) ho
    refine ⟨?_, by rw [e2, tripletSnapshot_static hm.static], e4⟩
    rw [obsPrev_static hm.static] at e1
    constructor
    · rw [e1]; exact hm.policy
    · rw [e1]; exact hm.static.trans (sameStatic_setAct rfl)
    · rw [e1]; exact hm.obsNames
    · rw [e3]; exact hm.cnfOk
    · intro a; rw [e1]; simp only [setAct_act]
      split
      · rename_i e; subst e; exact hm.effEmpty _
      · exact hm.effEmpty a
    · intro a ha l hl
      rw [e1] at ha ⊢; simp only [setAct_act] at ha ⊢
      split
      · rename_i e; subst e
        exact Finset.mem_filter.mpr ⟨hm.preComplete _ ha hl, h.preObs hk l hl⟩
      · exact hm.preComplete a ha hl
    · intro a ha e he
      rw [e1] at ha ⊢; rw [e3]; simp only [setAct_act] at ha ⊢
      by_cases hak : a = k.name
      · subst hak
        rw [if_pos rfl]
        rcases hm.cover _ ha e he with q | q | ⟨k', q1, q2⟩
        · rcases h.effObs hk he with r | r
          · exact Or.inl (Finset.mem_filter.mpr ⟨q, r⟩)
          · exact Or.inr (Or.inr ⟨k, by simp, rfl, r⟩)
        · exact Or.inr (Or.inl q)
        · exact Or.inr (Or.inr ⟨k', by simp [q1], q2⟩)
      · rw [if_neg hak]
        rcases hm.cover _ ha e he with q | q | ⟨k', q1, q2⟩
        · exact Or.inl q
        · exact Or.inr (Or.inl q)
        · exact Or.inr (Or.inr ⟨k', by simp [q1], q2⟩)
    · intro a ha
      rw [e1] at ha ⊢; simp only [setAct_act] at ha ⊢
      have : a ≠ k.name := by rintro rfl; exact ha ho
      rw [if_neg this]; exact hm.unobs a ha
  · obtain ⟨e1, e2, e3, e4⟩ := updatePreconds_new (c := c) ho
    refine ⟨?_, by rw [e2, tripletSnapshot_static hm.static], e4⟩
    rw [obsPrev_static hm.static] at e1
    constructor
    · rw [e1]; exact hm.policy
    · rw [e1]; exact hm.static.trans (sameStatic_setAct rfl)
    · rw [e1]; intro a ha
      rcases List.mem_append.mp ha with ha | ha
      · exact hm.obsNames a ha
      · rw [List.mem_singleton.mp ha]; exact h.names k hk
    · rw [e3]; exact hm.cnfOk
    · intro a; rw [e1]; simp only [setAct_act]
      split
      · rename_i e; subst e; exact hm.effEmpty _
      · exact hm.effEmpty a
    · intro a ha l hl
      rw [e1] at ha ⊢; simp only [setAct_act] at ha ⊢
      split
      · rename_i e; subst e
        exact Finset.mem_union_right _ (h.preObs hk l hl)
      · rename_i hne
        rcases List.mem_append.mp ha with ha | ha
        · exact hm.preComplete a ha hl
        · exact absurd (List.mem_singleton.mp ha) hne
    · intro a ha e he
      rw [e1] at ha ⊢; rw [e3]; simp only [setAct_act] at ha ⊢
      by_cases hak : a = k.name
      · subst hak
        rw [if_pos rfl]
        rcases h.effObs hk he with r | r
        · exact Or.inl (Finset.mem_union_right _ r)
        · exact Or.inr (Or.inr ⟨k, by simp, rfl, r⟩)
      · rw [if_neg hak]
        have ha' : a ∈ L.base.observed := (List.mem_append.mp ha).resolve_right (fun x => hak (List.mem_singleton.mp x))
        rcases hm.cover _ ha' e he with q | q | ⟨k', q1, q2⟩
        · exact Or.inl q
        · exact Or.inr (Or.inl q)
        · exact Or.inr (Or.inr ⟨k', by simp [q1], q2⟩)
    · intro a ha
      rw [e1] at ha ⊢; simp only [setAct_act, List.mem_append, List.mem_singleton, not_or] at ha ⊢
      rw [if_neg ha.2]; exact hm.unobs a ha.1

theorem MaMid.steps (h : JCtx D truth c) : ∀ (cs done : List Call) (L : MaLearner),
    (∀ k ∈ cs, k ∈ c.calls) → MaMid D truth c done L →
    MaMid D truth c (done ++ cs) (cs.foldl (fun L call => (L.takeSnapshot c call).updatePreconds call) L) ∧
    (∀ last, cs.getLast? = some last →
      (cs.foldl (fun L call => (L.takeSnapshot c call).updatePreconds call) L).snap = tripletSnapshot D (single c last)) ∧
    (cs.foldl (fun L call => (L.takeSnapshot c call).updatePreconds call) L).unsafeActs = L.unsafeActs := by
  intro cs
  induction cs with
  | nil => intro done L _ hm; simpa using hm
  | cons k cs ih =>
    intro done L hk hm
    obtain ⟨h1, h2, h3⟩ := hm.step h (hk k (by simp))
    obtain ⟨k1, k2, k3⟩ := ih (done ++ [k]) _ (fun k' hk' => hk k' (by simp [hk'])) h1
    rw [List.foldl_cons]
    refine ⟨by simpa using k1, ?_, k3.trans h3⟩
    intro last hl
    cases cs with
    | nil =>
      simp only [List.getLast?_singleton, Option.some.injEq] at hl
      subst hl; exact h2
    | cons k' cs' => exact k2 last (by simpa using hl)

theorem JCtx.covered (h : JCtx D truth c) {last : Call} (hlast : c.calls.getLast? = some last)
    (hcov : LastCovers D truth c) (hk : k ∈ c.calls) {e : Lit} (he : e ∈ (truth k.name).eff)
    (hh : ¬ holds c.prev (ground (callSubst truth k) e)) :
    ground (callSubst truth k) e ∈ (extractEffects (tripletSnapshot D (single c last)).1 (tripletSnapshot D (single c last)).2).1 ∪
      (extractEffects (tripletSnapshot D (single c last)).1 (tripletSnapshot D (single c last)).2).2 := by
  have hl : last ∈ c.calls := List.mem_of_getLast? hlast
  unfold tripletSnapshot
  rw [mem_extractEffects]
  refine ⟨?_, h.real.effects k hk e he, hh⟩
  have := hcov last hlast k hk e he hh
  rw [h.wfT.params _ (h.names last hl)] at this
  unfold callObjects
  rw [h.consts] at this ⊢
  simpa [single] using this

theorem changed_of_mem {ord : Finset Lit → List Lit} (ho : GoodOrd ord) {last : Call} {g : Lit}
    (hg : g ∈ ord ((extractEffects (tripletSnapshot D (single c last)).1 (tripletSnapshot D (single c last)).2).1 ∪
      (extractEffects (tripletSnapshot D (single c last)).1 (tripletSnapshot D (single c last)).2).2)) :
    g.args.Nodup ∧ holds c.next g ∧ ¬ holds c.prev g := by
  rw [ho] at hg
  unfold tripletSnapshot at hg
  rw [mem_extractEffects] at hg
  exact ⟨hg.1.nodup, hg.2.1, hg.2.2⟩

/-- One joint component with several executed actions. -/
theorem MaInv.multiple {ord : Finset Lit → List Lit} (ho : GoodOrd ord) (h : JCtx D truth c) (hI : MaInv D truth L)
    (hdist : DistinctActions c) (hcov : LastCovers D truth c) :
    ∃ L', L.updateMultiple ord c = .ok L' ∧ MaInv D truth L' ∧ L'.unsafeActs = L.unsafeActs := by
  obtain ⟨m1, m2, m3⟩ := MaMid.steps h c.calls [] L (fun _ hk => hk) hI.mid
  unfold MaLearner.updateMultiple
  simp only
  revert m1 m2 m3
  generalize c.calls.foldl (fun L call => (L.takeSnapshot c call).updatePreconds call) L = L1
  intro m1 m2 m3
  cases hl : c.calls.getLast? with
  | none =>
    rw [List.getLast?_eq_none_iff] at hl
    rw [hl]
    obtain ⟨L2, e2, s2⟩ := concurrentAll_nil (truth := truth)
      (ord ((extractEffects L1.snap.1 L1.snap.2).1 ∪ (extractEffects L1.snap.1 L1.snap.2).2)) L1 (by rw [m1.static.consts, h.consts])
    refine ⟨L2, e2, (m1.cnfStep s2).inv ?_, s2.uns.trans m3⟩
    rw [hl]; simp
  | some last =>
    have hsn := m2 last hl
    obtain ⟨s2, e2⟩ := h.notEffectsOfAll ord (objs := callObjects D (D.act last.name).sig last.params)
      (fun g hg => (ho _ _).mp hg) c.calls L1 (fun _ hk => hk) m1.static (by rw [hsn]; rfl)
    have m2' := m1.cnfStep s2
    obtain ⟨L3, e3, s3, a3⟩ := h.concurrentAll hdist (ord ((extractEffects L1.snap.1 L1.snap.2).1 ∪ (extractEffects L1.snap.1 L1.snap.2).2))
      (L1.notEffectsOfAll ord c.calls).1 m2'.static m2'.cnfOk
      (fun g hg => changed_of_mem (D := D) (last := last) ho (by rw [hsn] at hg; exact hg))
    refine ⟨L3, by rw [e2]; exact e3, (m2'.cnfStep s3).inv ?_, s3.uns.trans (s2.uns.trans m3)⟩
    intro k hk e he hh
    simp only [List.nil_append] at hk
    refine a3 _ ?_ k hk e he rfl
    rw [ho, hsn]; exact h.covered hl hcov hk he hh

/-- One component with a single executed action. -/
theorem MaInv.single {ord : Finset Lit → List Lit} (ho : GoodOrd ord) (h : JCtx D truth c) (hI : MaInv D truth L)
    (hc : c.calls = [k]) :
    MaInv D truth ((L.takeSnapshot c k).updateSingle ord k) ∧ ((L.takeSnapshot c k).updateSingle ord k).unsafeActs = L.unsafeActs := by
  have hk : k ∈ c.calls := by rw [hc]; simp
  obtain ⟨m1, m2, m3⟩ := (hI.mid (c := c)).step h hk
  unfold MaLearner.updateSingle
  simp only
  revert m1 m2 m3
  generalize (L.takeSnapshot c k).updatePreconds k = L1
  intro m1 m2 m3
  have hchg : ∀ g ∈ ord ((extractEffects L1.snap.1 L1.snap.2).1 ∪ (extractEffects L1.snap.1 L1.snap.2).2),
      g.args.Nodup ∧ holds c.next g ∧ ¬ holds c.prev g := fun g hg =>
    changed_of_mem (D := D) (last := k) ho (by rw [m2] at hg; exact hg)
  have hmatch : ∀ g ∈ ord ((extractEffects L1.snap.1 L1.snap.2).1 ∪ (extractEffects L1.snap.1 L1.snap.2).2),
      ∀ l, L1.matchOf k g = some l → TrueEff truth k.name l := by
    intro g hg l hl
    obtain ⟨g1, g2, g3⟩ := hchg g hg
    obtain ⟨k', hk', e, he, hge⟩ := h.real.frame g g2 g3
    rw [hc, List.mem_singleton] at hk'
    subst hk'
    rw [h.matchEff m1.static hk he hge g1] at hl
    simp only [Option.some.injEq] at hl
    subst hl; exact he
  obtain ⟨s2, a2⟩ := addMustBe_step (T := TrueEff truth) _ L1 hmatch
  have m2' := m1.cnfStep s2
  obtain ⟨s3, e3⟩ := h.notEffects (L := L1.addMustBe k (ord ((extractEffects L1.snap.1 L1.snap.2).1 ∪ (extractEffects L1.snap.1 L1.snap.2).2)))
    m2'.static hk (objs := callObjects D (D.act k.name).sig k.params)
    (lits := ord (L1.addMustBe k (ord ((extractEffects L1.snap.1 L1.snap.2).1 ∪ (extractEffects L1.snap.1 L1.snap.2).2))).snap.2)
    (fun g hg => by rw [ho, s2.snap, m2] at hg; exact hg)
  refine ⟨(m2'.cnfStep s3).inv ?_, s3.uns.trans (s2.uns.trans m3)⟩
  intro k' hk' e he hh
  simp only [List.nil_append, List.mem_singleton] at hk'
  subst hk'
  refine s3.keep _ (k'.name, e) he ?_
  have hlast : c.calls.getLast? = some k' := by rw [hc]; rfl
  have hw := h.wfD.sigs _ (h.names k' hk)
  have hcov : LastCovers D truth c := by
    intro last hl k'' hk'' e' he' _
    rw [hlast, Option.some.injEq] at hl; subst hl
    rw [hc, List.mem_singleton] at hk''; subst hk''
    have ht : TypedLit D.preds ((D.act k''.name).sig ++ D.consts) e' :=
      (h.wfT.params _ (h.names k'' hk)) ▸ (h.wfT.wf _ (h.names k'' hk)).eff e' he'
    have := (typed_ground hw (h.goodCall hk) (fun x hx => Or.inl (h.effSub hk he' x hx))).mpr ht
    rw [h.subst_eq hk, h.wfT.params _ (h.names k'' hk)]
    unfold callObjects at this
    rw [h.consts] at this ⊢
    simpa using this
  have hmem := h.covered hlast hcov hk he hh
  have hin : ground (callSubst truth k') e ∈ ord ((extractEffects L1.snap.1 L1.snap.2).1 ∪ (extractEffects L1.snap.1 L1.snap.2).2) := by
    rw [ho, m2]; exact hmem
  exact a2 m1.cnfOk _ hin e (h.matchEff m1.static hk he rfl (hchg _ hin).1)

end
end Model

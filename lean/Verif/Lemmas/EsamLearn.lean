import Verif.Lemmas.Esam
import Verif.Lemmas.SamLearn
import Verif.Lemmas.SamPolicy

/-! What `learn_action_model` of the extended SAM learner leaves, and its clauses on real data. -/
namespace Model
open Spec

theorem report_of_safe_nil {L : Learner} (hs : L.safe = []) (hnn : L.dom.names.Nodup) :
    (L.report.map Prod.fst).Nodup ∧
    ∀ a st, (a, st) ∈ L.report ↔
      a ∈ L.dom.names ∧ ((st = .notSafe ∧ a ∈ L.observed) ∨ (st = .unobserved ∧ a ∉ L.observed)) := by
  have hnd : (((L.dom.names.filter (· ∈ L.observed.toFinset \ (∅ : Finset String))).map (·, Status.notSafe)
    ++ (L.dom.names.filter (· ∈ L.dom.names.toFinset \ L.observed.toFinset)).map (·, Status.unobserved)).map Prod.fst).Nodup := by
    rw [List.map_append, List.map_map, List.map_map]
    have e1 : (Prod.fst ∘ fun x : String => (x, Status.notSafe)) = id := rfl
    have e2 : (Prod.fst ∘ fun x : String => (x, Status.unobserved)) = id := rfl
    rw [e1, e2, List.map_id, List.map_id, List.nodup_append]
    refine ⟨hnn.filter _, hnn.filter _, ?_⟩
    rintro x hx y hy rfl
    simp only [List.mem_filter, Finset.mem_sdiff, decide_eq_true_eq] at hx hy
    exact hy.2.2 hx.2.1
  have hrep : L.report = (L.dom.names.filter (· ∈ L.observed.toFinset \ (∅ : Finset String))).map (·, Status.notSafe)
    ++ (L.dom.names.filter (· ∈ L.dom.names.toFinset \ L.observed.toFinset)).map (·, Status.unobserved) := by
    unfold Learner.report
    simp only [hs, List.map_nil, List.nil_append, List.toFinset_nil]
    exact Py.dictOf_of_nodup hnd
  rw [hrep]
  refine ⟨hnd, fun a st => ?_⟩
  simp only [List.mem_append, List.mem_map, List.mem_filter, Finset.mem_sdiff, decide_eq_true_eq, List.mem_toFinset,
    Finset.notMem_empty, not_false_eq_true, and_true, Prod.mk.injEq]
  constructor
  · rintro (⟨b, ⟨h1, h2⟩, rfl, rfl⟩ | ⟨b, ⟨h1, _, h2⟩, rfl, rfl⟩)
    · exact ⟨h1, Or.inl ⟨rfl, h2⟩⟩
    · exact ⟨h1, Or.inr ⟨rfl, h2⟩⟩
  · rintro ⟨h1, ⟨rfl, h2⟩ | ⟨rfl, h2⟩⟩
    · exact Or.inl ⟨a, ⟨h1, h2⟩, rfl, rfl⟩
    · exact Or.inr ⟨a, ⟨h1, h1, h2⟩, rfl, rfl⟩

/-- The final state, in terms of the data. `pre₁`: the observed preconditions the policy kept. -/
structure ELearned (D : Domain) (p : Policy) (hs : List Component) (E E' : Esam) : Prop where
  inv : EInv D p hs E
  static : SameStatic D E'.base.dom
  observed : E'.base.observed = E.base.observed
  safe : E'.base.safe = []
  base : E'.base.cannotBe = fun _ => ∅
  sigs : E'.base.sigs = D.names.map fun a => (a, (D.act a).sig)
  unobs : ∀ a ∈ D.names, a ∉ E.base.observed → (E'.base.dom.act a).eff = ∅ ∧
    (E'.base.dom.act a).pre = liftedVocab D (D.act a).sig
  obs : ∀ a ∈ E.base.observed, ∃ pre₁ P, Chosen (E.clauses a) (E.cannotBe a) pre₁ P ∧
    (∀ l, l ∈ pre₁ ↔ l ∈ (E.base.dom.act a).pre ∧ polKeep p ∅ l) ∧
    (E'.base.dom.act a).eff = P ∧
    (E'.base.dom.act a).pre = pre₁ ∪ (formulaVars (effFormula (E.clauses a) (E.cannotBe a)) \ P)

/-- The learner before the actions are built. -/
theorem before_construct {D : Domain} {p : Policy} {hs : List Component} {E : Esam} (hD : WFDomain D)
    (h : EInv D p hs E) :
    SameStatic D (E.base.applyPolicy.handleUnobserved).dom ∧
    (E.base.applyPolicy.handleUnobserved).observed = E.base.observed ∧
    (E.base.applyPolicy.handleUnobserved).safe = [] ∧
    (E.base.applyPolicy.handleUnobserved).cannotBe = E.base.cannotBe ∧
    (E.base.applyPolicy.handleUnobserved).sigs = E.base.sigs ∧
    (∀ a ∈ D.names, ((E.base.applyPolicy.handleUnobserved).dom.act a).eff = ∅) ∧
    (∀ a ∈ D.names, a ∉ E.base.observed →
      ((E.base.applyPolicy.handleUnobserved).dom.act a).pre = liftedVocab D (D.act a).sig) ∧
    ∀ a ∈ D.names, a ∈ E.base.observed → ∀ l, l ∈ ((E.base.applyPolicy.handleUnobserved).dom.act a).pre ↔
      l ∈ (E.base.dom.act a).pre ∧ polKeep p ∅ l := by
  have hn : E.base.dom.names.Nodup := by rw [h.static.names]; exact hD.names
  obtain ⟨p1, p2, p3, p4, p5, p6, p7, p8⟩ := policy_spec (L := E.base) hn
  have hn' : E.base.applyPolicy.dom.names.Nodup := by rw [p1.names]; exact hn
  obtain ⟨u1, u2, u3, u4, u5, u6, u7, u8⟩ := unobserved_spec (L := E.base.applyPolicy) hn'
  have hs2 : SameStatic D E.base.applyPolicy.dom := h.static.trans p1
  refine ⟨hs2.trans u1, u3.trans p3, (u8.trans p8).trans h.safe, u4.trans p4, u7.trans p7, ?_, ?_, ?_⟩
  · intro a ha; rw [(u2 a).1, (p2 a).1]; exact h.eff a ha
  · intro a ha hno
    rw [(u2 a).2.2, if_pos ⟨by rw [hs2.names]; exact ha, by rw [p3]; exact hno⟩, hs2.sig, liftedVocab_static hs2]
    have : (E.base.applyPolicy.dom.act a).pre = ∅ := by
      rw [Finset.eq_empty_iff_forall_notMem]
      intro l hl
      rw [(p2 a).2.2, h.pre a ha] at hl
      exact hno ((h.observed a).mpr hl.1.1)
    rw [this, Finset.empty_union]
  · intro a ha ho l
    rw [(u2 a).2.2, if_neg (by rintro ⟨_, k⟩; exact k (by rw [p3]; exact ho)), Finset.union_empty, (p2 a).2.2,
      h.policy, h.eff a ha]
    rw [h.static.names]
    exact ⟨fun k => ⟨k.1, k.2 ha⟩, fun k => ⟨k.1, fun _ => k.2⟩⟩

theorem handleFixed_base {E E' : Esam} {c : Component} (h : E.handleFixed c = .ok E') :
    E'.base.cannotBe = E.base.cannotBe ∧ E'.base.sigs = E.base.sigs := by
  unfold Esam.handleFixed at h
  by_cases hn : c.call.name ∉ E.base.dom.names
  · rw [if_pos hn] at h; cases h
  rw [if_neg hn] at h
  simp only at h
  split at h
  · have := Except.ok.inj h; subst this; exact ⟨rfl, rfl⟩
  · have := Except.ok.inj h; subst this; exact ⟨rfl, rfl⟩

theorem fold_base {cs : List Component} {E E' : Esam} (h : cs.foldlM Esam.handleFixed E = .ok E') :
    E'.base.cannotBe = E.base.cannotBe ∧ E'.base.sigs = E.base.sigs := by
  induction cs generalizing E with
  | nil => simp only [List.foldlM_nil, pure, Except.pure, Except.ok.injEq] at h; subst h; exact ⟨rfl, rfl⟩
  | cons c cs ih =>
    rw [List.foldlM_cons] at h
    simp only [Bind.bind, Except.bind] at h
    split at h
    · cases h
    · rename_i E1 h1
      obtain ⟨a1, a2⟩ := handleFixed_base h1
      obtain ⟨b1, b2⟩ := ih h
      exact ⟨b1.trans a1, b2.trans a2⟩

theorem esamConstruct_base {as : List String} {E E' : Esam}
    (h : as.foldlM (fun E a => Esam.constructAction E a) E = .ok E') :
    E'.base.cannotBe = E.base.cannotBe ∧ E'.base.sigs = E.base.sigs := by
  induction as generalizing E with
  | nil => simp only [List.foldlM_nil, pure, Except.pure, Except.ok.injEq] at h; subst h; exact ⟨rfl, rfl⟩
  | cons x xs ih =>
    rw [List.foldlM_cons] at h
    simp only [Bind.bind, Except.bind] at h
    split at h
    · cases h
    · rename_i E1 h1
      obtain ⟨P, _, e⟩ := esamConstruct_spec h1
      obtain ⟨b1, b2⟩ := ih h
      subst e
      exact ⟨b1, b2⟩

theorem learnFixed_spec {D : Domain} {p : Policy} {obs : List (List Component)} {E' : Esam} {rep}
    (hD : WFDomain D) (h : (Esam.init D p).learnFixed obs = .ok (E', rep)) :
    ∃ E, ELearned D p obs.flatten E E' ∧ rep = E'.base.report := by
  unfold Esam.learnFixed Esam.learnWith at h
  have hc : ({ Esam.init D p with base := (Esam.init D p).base.completeMissing } : Esam) = Esam.init D p := by
    have : (Esam.init D p).base.completeMissing = (Esam.init D p).base := complete_id (L := (Esam.init D p).base) (init_sigs D p true)
    rw [this]
  simp only [hc, Bind.bind, Except.bind] at h
  split at h
  · cases h
  · rename_i E1 h1
    have hI : EInv D p obs.flatten E1 := by simpa using (EInv.init hD p).fold _ h1
    split at h
    · cases h
    · rename_i E2 h2
      have h' := Except.ok.inj h
      have e1 := congrArg Prod.fst h'
      have e2 := congrArg Prod.snd h'
      simp only at e1 e2
      subst e1
      refine ⟨E1, ?_, e2.symm⟩
      obtain ⟨b1, b2, b3, b4, b5, b6, b7, b8⟩ := before_construct hD hI
      unfold Esam.construct at h2
      have hnd : (E1.base.applyPolicy.handleUnobserved).observed.Nodup := by rw [b2]; exact hI.nodup
      obtain ⟨c1, c2, c3, c4, c5, c6, c7, c8⟩ := esamConstruct_fold hnd h2
      obtain ⟨k1, k2⟩ := esamConstruct_base h2
      obtain ⟨f1, f2⟩ := fold_base h1
      refine ⟨hI, b1.trans c1, c2.trans b2, c3.trans b3, ?_, ?_, ?_, ?_⟩
      · rw [k1]; show (E1.base.applyPolicy.handleUnobserved).cannotBe = _
        rw [b4, f1]; rfl
      · rw [k2]; show (E1.base.applyPolicy.handleUnobserved).sigs = _
        rw [b5, f2]; rfl
      · intro a ha hno
        rw [c7 a (by rw [b2]; exact hno)]
        exact ⟨b6 a ha, b7 a ha hno⟩
      · intro a ho
        have haD : a ∈ D.names := by
          have := (hI.observed a).mp ho
          obtain ⟨c, hc⟩ := List.exists_mem_of_ne_nil _ this
          rw [mem_compsOf] at hc
          rw [← hc.2]; exact hI.known c hc.1
        obtain ⟨P, q1, q2, q3⟩ := c8 a (by rw [b2]; exact ho)
        exact ⟨_, P, q1, b8 a haD ho, q2, q3⟩

end Model

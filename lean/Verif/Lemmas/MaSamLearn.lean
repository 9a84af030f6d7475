import Verif.Lemmas.MaSamComp

namespace Model
open Spec

section
variable {D : Domain} {truth : String → Schema} {L L' : MaLearner}

/-- Only inequality preconditions differ. -/
structure IneqStep (L L' : MaLearner) : Prop where
  static : SameStatic L.base.dom L'.base.dom
  pre : ∀ a, (L'.base.dom.act a).pre = (L.base.dom.act a).pre
  eff : ∀ a, (L'.base.dom.act a).eff = (L.base.dom.act a).eff
  obs : L'.base.observed = L.base.observed
  cnf : L'.cnf = L.cnf
  uns : L'.unsafeActs = L.unsafeActs
  policy : L'.base.policy = L.base.policy

theorem IneqStep.refl (L : MaLearner) : IneqStep L L := ⟨SameStatic.refl _, fun _ => rfl, fun _ => rfl, rfl, rfl, rfl, rfl⟩
theorem IneqStep.trans {A B C : MaLearner} (h : IneqStep A B) (k : IneqStep B C) : IneqStep A C :=
  ⟨h.static.trans k.static, fun a => (k.pre a).trans (h.pre a), fun a => (k.eff a).trans (h.eff a), k.obs.trans h.obs,
    k.cnf.trans h.cnf, k.uns.trans h.uns, k.policy.trans h.policy⟩

theorem MaInv.ineq (h : MaInv D truth L) (s : IneqStep L L') : MaInv D truth L' := by
  refine ⟨s.policy.trans h.policy, h.static.trans s.static, by rw [s.obs]; exact h.obsNames, by rw [s.cnf]; exact h.cnfOk,
    fun a => (s.eff a).trans (h.effEmpty a), ?_, ?_, ?_⟩
  · intro a ha; rw [s.obs] at ha; rw [s.pre]; exact h.preComplete a ha
  · intro a ha e he; rw [s.obs] at ha; rw [s.pre, s.cnf]; exact h.cover a ha e he
  · intro a ha; rw [s.obs] at ha; rw [s.pre]; exact h.unobs a ha

theorem verifyDuplication_step (call : Call) : IneqStep L { L with base := (L.base.verifyDuplication call).1 } := by
  unfold Learner.verifyDuplication
  split
  · refine ⟨sameStatic_setAct rfl, fun a => ?_, fun a => ?_, rfl, rfl, rfl, rfl⟩
    · simp only [setAct_act]; split
      · rename_i e; rw [e]
      · rfl
    · simp only [setAct_act]; split
      · rename_i e; rw [e]
      · rfl
  · exact IneqStep.refl _

theorem verifyAll_spec : ∀ (cs : List Call) (L L' : MaLearner) (b : Bool), L.verifyAll cs = .ok (L', b) →
    IneqStep L L' ∧ (b = false → L' = L ∧ ∀ k ∈ cs, k.params.Nodup) ∧ (b = true → ∃ k ∈ cs, ¬ k.params.Nodup) := by
  intro cs
  induction cs with
  | nil =>
    intro L L' b h
    simp only [MaLearner.verifyAll, Except.ok.injEq, Prod.mk.injEq] at h
    obtain ⟨rfl, rfl⟩ := h
    exact ⟨IneqStep.refl _, by simp, by simp⟩
  | cons k cs ih =>
    intro L L' b h
    unfold MaLearner.verifyAll at h
    split at h
    · simp at h
    · simp only [Bind.bind, Except.bind] at h
      split at h
      · simp at h
      · rename_i r hr
        obtain ⟨L2, b2⟩ := r
        simp only [Except.ok.injEq, Prod.mk.injEq] at h
        obtain ⟨rfl, rfl⟩ := h
        obtain ⟨h1, h2, h3⟩ := ih _ _ _ hr
        refine ⟨(verifyDuplication_step k).trans h1, ?_, ?_⟩
        · intro hb
          simp only [Bool.or_eq_false_iff] at hb
          obtain ⟨e, hcs⟩ := h2 hb.2
          have hd : containsDuplicates k.params = false := by
            have := hb.1
            unfold Learner.verifyDuplication at this
            split at this
            · simp at this
            · rename_i hq; exact Bool.not_eq_true _ ▸ hq
          refine ⟨?_, ?_⟩
          · rw [e]
            unfold Learner.verifyDuplication
            rw [hd]; rfl
          · intro k' hk'
            rcases List.mem_cons.mp hk' with rfl | hk'
            · exact containsDuplicates_false.mp hd
            · exact hcs k' hk'
        · intro hb
          rw [Bool.or_eq_true] at hb
          rcases hb with hb | hb
          · refine ⟨k, by simp, fun hn => ?_⟩
            unfold Learner.verifyDuplication at hb
            rw [containsDuplicates_false.mpr hn] at hb
            simp at hb
          · obtain ⟨k', hk', hn⟩ := h3 hb
            exact ⟨k', by simp [hk'], hn⟩

theorem MaInv.component {ord : Finset Lit → List Lit} (ho : GoodOrd ord) {c : JointComponent} (hc : D.consts = [])
    (hD : WFDomain D) (hT : WFTruth D truth) (hI : MaInv D truth L)
    (h1 : JointComponent.NoDup c → JointExplained truth c) (h2 : JointComponent.NoDup c → DistinctActions c)
    (h3 : JointComponent.NoDup c → c.calls.length ≠ 1 → LastCovers D truth c)
    (h : L.handleComponent ord c = .ok L') :
    MaInv D truth L' ∧ L'.unsafeActs = L.unsafeActs ∧
      (JointComponent.NoDup c → ∀ k ∈ c.calls, k.name ∈ D.names) := by
  unfold MaLearner.handleComponent at h
  simp only [Bind.bind, Except.bind] at h
  split at h
  · simp at h
  · rename_i r hr
    obtain ⟨L1, b⟩ := r
    obtain ⟨v1, v2, v3⟩ := verifyAll_spec _ _ _ _ hr
    simp only at h
    cases b with
    | true =>
      simp only [if_pos, Except.ok.injEq] at h
      subst h
      refine ⟨hI.ineq v1, v1.uns, fun hn => ?_⟩
      obtain ⟨k, hk, hk'⟩ := v3 rfl
      exact absurd (hn k hk) hk'
    | false =>
      obtain ⟨rfl, hn⟩ := v2 rfl
      simp only [Bool.false_eq_true, if_false] at h
      split at h
      · simp at h
      · rename_i hnames
        have hnm : ∀ k ∈ c.calls, k.name ∈ D.names := by
          intro k hk
          by_contra hk'
          exact hnames ⟨k, hk, by rw [hI.static.names]; exact hk'⟩
        have hj : JCtx D truth c := ⟨hc, hD, hT, hnm, h1 hn, hn⟩
        split at h
        · rename_i call hcalls
          simp only [Except.ok.injEq] at h
          subst h
          obtain ⟨s1, s2⟩ := hI.single ho hj hcalls
          exact ⟨s1, s2, fun _ => hnm⟩
        · rename_i hne
          have hlen : c.calls.length ≠ 1 := by
            intro hl
            obtain ⟨k, hk⟩ := List.length_eq_one_iff.mp hl
            exact hne k hk
          obtain ⟨L2, e, s1, s2⟩ := hI.multiple ho hj (h2 hn) (h3 hn hlen)
          rw [h] at e
          simp only [Except.ok.injEq] at e
          subst e
          exact ⟨s1, s2, fun _ => hnm⟩

theorem MaInv.components {ord : Finset Lit → List Lit} (ho : GoodOrd ord) (hc : D.consts = [])
    (hD : WFDomain D) (hT : WFTruth D truth) : ∀ (cs : List JointComponent) (L L' : MaLearner),
    (∀ c ∈ cs, JointComponent.NoDup c → JointExplained truth c) → (∀ c ∈ cs, JointComponent.NoDup c → DistinctActions c) →
    (∀ c ∈ cs, JointComponent.NoDup c → c.calls.length ≠ 1 → LastCovers D truth c) → MaInv D truth L →
    cs.foldlM (fun L c => L.handleComponent ord c) L = .ok L' →
    MaInv D truth L' ∧ L'.unsafeActs = L.unsafeActs := by
  intro cs
  induction cs with
  | nil =>
    intro L L' _ _ _ hI h
    simp only [List.foldlM_nil, Pure.pure, Except.pure, Except.ok.injEq] at h
    subst h; exact ⟨hI, rfl⟩
  | cons c cs ih =>
    intro L L' h1 h2 h3 hI h
    rw [List.foldlM_cons] at h
    simp only [Bind.bind, Except.bind] at h
    split at h
    · simp at h
    · rename_i L1 hL1
      obtain ⟨s1, s2, _⟩ := hI.component ho hc hD hT (h1 c (by simp)) (h2 c (by simp)) (h3 c (by simp)) hL1
      obtain ⟨t1, t2⟩ := ih L1 L' (fun c hc => h1 c (by simp [hc])) (fun c hc => h2 c (by simp [hc]))
        (fun c hc => h3 c (by simp [hc])) s1 h
      exact ⟨t1, t2.trans s2⟩

/-! ### The construction of the returned actions -/

theorem constructOne_static (L : MaLearner) (a : String) : SameStatic L.base.dom (L.constructOne a).base.dom ∧
    (L.constructOne a).cnf = L.cnf ∧ (L.constructOne a).base.observed = L.base.observed ∧
    (L.constructOne a).base.policy = L.base.policy ∧
    (∀ b, ((L.constructOne a).base.dom.act b).pre = (L.base.dom.act b).pre) ∧
    (∀ b, ((L.constructOne a).base.dom.act b).ineq = (L.base.dom.act b).ineq) ∧
    (∀ b, b ≠ a → (L.constructOne a).base.dom.act b = L.base.dom.act b) := by
  unfold MaLearner.constructOne
  simp only
  split
  · refine ⟨sameStatic_setAct rfl, rfl, rfl, rfl, fun b => ?_, fun b => ?_, fun b hb => ?_⟩
    · simp only [setAct_act]; split
      · rename_i e; rw [e]
      · rfl
    · simp only [setAct_act]; split
      · rename_i e; rw [e]
      · rfl
    · simp only [setAct_act]; rw [if_neg hb]
  · exact ⟨SameStatic.refl _, rfl, rfl, rfl, fun _ => rfl, fun _ => rfl, fun _ _ => rfl⟩

theorem isActionSafe_congr {L L' : MaLearner} (h1 : SameStatic L.base.dom L'.base.dom) (h2 : L'.cnf = L.cnf) (a pre) :
    L'.isActionSafe a pre = L.isActionSafe a pre := by
  unfold MaLearner.isActionSafe; rw [h1.preds, h2]

theorem cnfEffects_congr {L L' : MaLearner} (h1 : SameStatic L.base.dom L'.base.dom) (h2 : L'.cnf = L.cnf) (a pre) :
    L'.cnfEffects a pre = L.cnfEffects a pre := by
  unfold MaLearner.cnfEffects; rw [h1.preds, h2]

/-- The loop over the actions. -/
theorem constructFold (xs : List String) (hx : xs.Nodup) : ∀ (L : MaLearner),
    SameStatic L.base.dom (xs.foldl MaLearner.constructOne L).base.dom ∧
    (xs.foldl MaLearner.constructOne L).cnf = L.cnf ∧
    (xs.foldl MaLearner.constructOne L).base.observed = L.base.observed ∧
    (xs.foldl MaLearner.constructOne L).base.policy = L.base.policy ∧
    (∀ b, ((xs.foldl MaLearner.constructOne L).base.dom.act b).pre = (L.base.dom.act b).pre) ∧
    (∀ b, ((xs.foldl MaLearner.constructOne L).base.dom.act b).eff = (L.base.dom.act b).eff ∪
      (if b ∈ xs ∧ L.isActionSafe b (L.base.dom.act b).pre = true then L.cnfEffects b (L.base.dom.act b).pre else ∅)) ∧
    (∀ b, b ∈ (xs.foldl MaLearner.constructOne L).unsafeActs ↔
      b ∈ L.unsafeActs ∨ (b ∈ xs ∧ L.isActionSafe b (L.base.dom.act b).pre = false)) ∧
    (xs.foldl MaLearner.constructOne L).base.safe = L.base.safe ++
      xs.filter fun b => L.isActionSafe b (L.base.dom.act b).pre := by
  induction xs with
  | nil => intro L; exact ⟨SameStatic.refl _, rfl, rfl, rfl, fun _ => rfl, fun _ => by simp, fun _ => by simp, by simp⟩
  | cons a xs ih =>
    intro L
    rw [List.nodup_cons] at hx
    obtain ⟨s1, s2, s3, s4, s5, _, s6⟩ := constructOne_static L a
    obtain ⟨t1, t2, t3, t4, t5, t6, t7, t8⟩ := ih hx.2 (L.constructOne a)
    rw [List.foldl_cons]
    have hsafe : ∀ b, (L.constructOne a).isActionSafe b ((L.constructOne a).base.dom.act b).pre = L.isActionSafe b (L.base.dom.act b).pre :=
      fun b => by rw [isActionSafe_congr s1 s2, s5]
    have heff : ∀ b, (L.constructOne a).cnfEffects b ((L.constructOne a).base.dom.act b).pre = L.cnfEffects b (L.base.dom.act b).pre :=
      fun b => by rw [cnfEffects_congr s1 s2, s5]
    refine ⟨s1.trans t1, t2.trans s2, t3.trans s3, t4.trans s4, fun b => (t5 b).trans (s5 b), fun b => ?_, fun b => ?_, ?_⟩
    · rw [t6, hsafe, heff]
      by_cases hb : b = a
      · subst hb
        simp only [hx.1, false_and, if_false, Finset.union_empty, List.mem_cons, true_or, true_and]
        unfold MaLearner.constructOne
        simp only
        split
        · simp [setAct_act, *]
        · simp [*]
      · rw [s6 b hb]
        simp only [List.mem_cons, hb, false_or]
    · rw [t7, hsafe]
      unfold MaLearner.constructOne
      simp only
      split
      · rename_i hs
        simp only [List.mem_cons]
        constructor
        · rintro (h | h)
          · exact Or.inl h
          · exact Or.inr ⟨Or.inr h.1, h.2⟩
        · rintro (h | ⟨h | h, h'⟩)
          · exact Or.inl h
          · subst h; rw [hs] at h'; simp at h'
          · exact Or.inr ⟨h, h'⟩
      · rename_i hs
        simp only [List.mem_cons, List.mem_append, List.not_mem_nil, or_false]
        constructor
        · rintro ((h | h) | h)
          · exact Or.inl h
          · subst h; exact Or.inr ⟨Or.inl rfl, by simpa using hs⟩
          · exact Or.inr ⟨Or.inr h.1, h.2⟩
        · rintro (h | ⟨h | h, h'⟩)
          · exact Or.inl (Or.inl h)
          · exact Or.inl (Or.inr h)
          · exact Or.inr ⟨h, h'⟩
    · rw [t8]
      simp only [hsafe, List.filter_cons]
      unfold MaLearner.constructOne
      simp only
      split
      · rename_i hs
        simp
      · rename_i hs
        rfl

theorem mem_cnfEffects {L : MaLearner} {a : String} {pre : Finset Lit} {l : Lit} :
    l ∈ L.cnfEffects a pre ↔ ∃ pd ∈ L.base.dom.preds, ∃ b, [(a, l)] ∈ (L.cnf (pd.name, b)).clauses ∧ l ∉ pre := by
  unfold MaLearner.cnfEffects
  simp only [List.mem_toFinset, List.mem_flatMap, mem_extractEffects', List.mem_cons, List.not_mem_nil, or_false,
    exists_eq_or_imp, exists_eq_left, Bool.exists_bool]
  constructor
  · rintro ⟨pd, h1, h2 | h2⟩
    · exact ⟨pd, h1, Or.inr h2⟩
    · exact ⟨pd, h1, Or.inl h2⟩
  · rintro ⟨pd, h1, h2 | h2⟩
    · exact ⟨pd, h1, Or.inr h2⟩
    · exact ⟨pd, h1, Or.inl h2⟩

theorem maSafe_iff {L : MaLearner} {a : String} {pre : Finset Lit} (h : L.isActionSafe a pre = true) {pd} (hp : pd ∈ L.base.dom.preds)
    (b : Bool) : (L.cnf (pd.name, b)).isActing a = false ∨ (L.cnf (pd.name, b)).isActionSafe a pre = true := by
  unfold MaLearner.isActionSafe at h
  rw [List.all_eq_true] at h
  have := h pd hp
  rw [List.all_eq_true] at this
  have := this b (by cases b <;> simp)
  simpa [Bool.or_eq_true] using this

/-- What is known of the learner after `learn_combined_action_model`. -/
structure MaFinal (D : Domain) (truth : String → Schema) (L : MaLearner) : Prop where
  policy : L.base.policy = .noRemove
  names : ∀ a ∈ L.base.dom.names, a ∈ D.names
  sig : ∀ a, (L.base.dom.act a).sig = (D.act a).sig
  effSound : ∀ a ∈ D.names, (L.base.dom.act a).eff ⊆ (truth a).eff
  preComplete : ∀ a ∈ L.base.observed, (truth a).pre ⊆ (L.base.dom.act a).pre
  effComplete : ∀ a ∈ L.base.dom.names, a ∈ L.base.observed → ∀ e ∈ (truth a).eff,
    e ∈ (L.base.dom.act a).pre ∨ e ∈ (L.base.dom.act a).eff
  unobs : ∀ a ∈ D.names, a ∉ L.base.observed → liftedVocab D (D.act a).sig ⊆ (L.base.dom.act a).pre

theorem MaInv.final (hD : WFDomain D) (hT : WFTruth D truth) (hI : MaInv D truth L) (hu : L.unsafeActs = []) :
    MaFinal D truth L.constructSafe := by
  unfold MaLearner.constructSafe
  simp only
  have hn : L.base.dom.names.Nodup := by rw [hI.static.names]; exact hD.names
  obtain ⟨u1, u2, u3, _, u5, _⟩ := unobserved_spec hn
  have hn2 : L.base.handleUnobserved.dom.names.Nodup := by rw [u1.names]; exact hn
  obtain ⟨c1, c2, c3, c4, c5, c6, c7, _⟩ := constructFold L.base.handleUnobserved.dom.names hn2
    { L with base := L.base.handleUnobserved }
  simp only at c1 c2 c3 c4 c5 c6 c7
  generalize L.base.handleUnobserved.dom.names.foldl MaLearner.constructOne { L with base := L.base.handleUnobserved } = L2 at *
  have hnames : L.base.handleUnobserved.dom.names = D.names := by rw [u1.names, hI.static.names]
  have hpreds : L.base.handleUnobserved.dom.preds = D.preds := by rw [u1.preds, hI.static.preds]
  have hpre : ∀ a, (L.base.dom.act a).pre ⊆ (L2.base.dom.act a).pre := by
    intro a; rw [c5, (u2 a).2.2]; exact Finset.subset_union_left
  constructor
  · exact c4.trans (u5.trans hI.policy)
  · intro a ha
    simp only [List.mem_filter] at ha
    rw [c1.names, hnames] at ha; exact ha.1
  · intro a; exact (c1.sig a).trans ((u1.sig a).trans (hI.static.sig a))
  · intro a ha e he
    simp only at he
    rw [c6, (u2 a).1, hI.effEmpty, (hD.empty a ha).2.1, Finset.empty_union] at he
    split at he
    · rw [mem_cnfEffects] at he
      obtain ⟨pd, _, b, hcl, _⟩ := he
      obtain ⟨p, hp, ht⟩ := (hI.cnfOk (pd.name, b)).sound _ hcl (by simp)
      rw [List.mem_singleton.mp hp] at ht
      exact ht
    · simp at he
  · intro a ha l hl
    simp only at ha ⊢
    rw [c3, u3] at ha
    exact hpre a (hI.preComplete a ha hl)
  · intro a ha hao e he
    simp only [List.mem_filter, Bool.not_eq_true', ← Bool.not_eq_true, List.contains_iff_mem] at ha hao ⊢
    rw [c3, u3] at hao
    rw [c1.names, hnames, c7, hu] at ha
    simp only [List.not_mem_nil, false_or, not_and, Bool.not_eq_false] at ha
    have hsafe := ha.2 (by rw [hnames]; exact ha.1)
    rcases hI.cover a hao e he with k | ⟨c, hc, hm⟩
    · exact Or.inl (hpre a k)
    · by_cases hep : e ∈ (L2.base.dom.act a).pre
      · exact Or.inl hep
      · right
        rw [c6, if_pos ⟨by rw [hnames]; exact ha.1, hsafe⟩, Finset.mem_union]
        right
        obtain ⟨pd, hpd, hpn, _⟩ := ((hT.wf a ha.1).eff e he).decl
        rw [c5] at hep
        rw [mem_cnfEffects]
        have hkey : keyOf e = (pd.name, e.pos) := by rw [hpn]; rfl
        rw [hkey] at hc
        refine ⟨pd, by rw [hpreds]; exact hpd, e.pos, ?_, hep⟩
        rcases maSafe_iff hsafe (pd := pd) (by rw [hpreds]; exact hpd) e.pos with k | k
        · have := isActing_of_mem hc hm
          simp only at k
          rw [this] at k; simp at k
        · rw [isActionSafe_iff] at k
          by_cases hlen : c.length = 1
          · obtain ⟨p, rfl⟩ := List.length_eq_one_iff.mp hlen
            rw [List.mem_singleton] at hm; subst hm; exact hc
          · rcases k c hc (List.mem_map.mpr ⟨_, hm, rfl⟩) hlen with ⟨l, k1, k2⟩ | k
            · have hel := (hI.cnfOk _).single c hc a e l hm k2
              rw [← hel] at k1; exact k1
            · exact absurd (k e hm) hep
  · intro a ha hao l hl
    simp only at hao ⊢
    rw [c3, u3] at hao
    rw [c5, (u2 a).2.2, Finset.mem_union]
    right
    rw [if_pos ⟨by rw [hI.static.names]; exact ha, hao⟩, liftedVocab_static hI.static, hI.static.sig]
    exact hl

theorem MaInv.init (hD : WFDomain D) :
    MaInv D truth { MaLearner.init D with cnf := fun _ => Cnf.empty, base := (MaLearner.init D).base.deduceIneq } := by
  have hn : (Learner.init D .noRemove true).dom.names.Nodup := hD.names
  obtain ⟨d1, d2, d3, d4, d5, _⟩ := deduce_spec (L := Learner.init D .noRemove true) hn
  refine ⟨d5, d1, ?_, fun _ => CnfOk.empty _, fun a => (d2 a).2.1, ?_, ?_, fun a _ => (d2 a).1⟩
  · intro a ha; rw [show (MaLearner.init D).base.deduceIneq.observed = [] from d3] at ha; simp at ha
  · intro a ha; rw [show (MaLearner.init D).base.deduceIneq.observed = [] from d3] at ha; simp at ha
  · intro a ha; rw [show (MaLearner.init D).base.deduceIneq.observed = [] from d3] at ha; simp at ha

end
end Model

import Verif.Lemmas.SamInv

/-! The phases of `learn_action_model` around the loop. -/
namespace Model
open Spec

/-- A loop that rewrites the actions of a list one after the other. -/
theorem foldl_setAct (f : Domain → ActModel → ActModel)
    (hf : ∀ D D' m, SameStatic D D' → f D' m = f D m) (hsig : ∀ D m, (f D m).sig = m.sig)
    (xs : List String) (hx : xs.Nodup) (D : Domain) :
    SameStatic D (xs.foldl (fun D a => D.setAct a (f D (D.act a))) D) ∧
    ∀ a, (xs.foldl (fun D a => D.setAct a (f D (D.act a))) D).act a = if a ∈ xs then f D (D.act a) else D.act a := by
  induction xs generalizing D with
  | nil => exact ⟨SameStatic.refl D, by simp⟩
  | cons x xs ih =>
    rw [List.nodup_cons] at hx
    have hs : SameStatic D (D.setAct x (f D (D.act x))) := sameStatic_setAct (hsig _ _)
    obtain ⟨h1, h2⟩ := ih hx.2 (D.setAct x (f D (D.act x)))
    refine ⟨hs.trans h1, fun a => ?_⟩
    rw [List.foldl_cons, h2, hf _ _ _ hs, setAct_act]
    by_cases ha : a = x
    · subst ha; simp [hx.1]
    · simp [ha]

section
variable {L : Learner}

theorem deduce_spec (hn : L.dom.names.Nodup) :
    SameStatic L.dom L.deduceIneq.dom ∧
    (∀ a, (L.deduceIneq.dom.act a).pre = (L.dom.act a).pre ∧ (L.deduceIneq.dom.act a).eff = (L.dom.act a).eff ∧
      (L.deduceIneq.dom.act a).ineq = (L.dom.act a).ineq ∪
        (if L.injective = true ∧ a ∈ L.dom.names then sameTypePairs (L.dom.act a).sig else ∅)) ∧
    L.deduceIneq.observed = L.observed ∧ L.deduceIneq.cannotBe = L.cannotBe ∧ L.deduceIneq.policy = L.policy ∧
    L.deduceIneq.injective = L.injective ∧ L.deduceIneq.sigs = L.sigs ∧ L.deduceIneq.safe = L.safe := by
  unfold Learner.deduceIneq
  cases hi : L.injective with
  | false => simp [hi, SameStatic.refl]
  | true =>
    obtain ⟨h1, h2⟩ := foldl_setAct (fun _ m => { m with ineq := m.ineq ∪ sameTypePairs m.sig })
      (fun _ _ _ _ => rfl) (fun _ _ => rfl) L.dom.names hn L.dom
    refine ⟨by simpa using h1, fun a => ?_, by simp, by simp, by simp, by simp [hi], by simp, by simp⟩
    simp only [Bool.not_true, Bool.false_eq_true, if_false, true_and]
    rw [h2 a]
    split <;> simp

theorem complete_id (h : ∀ p ∈ L.sigs, p.1 ∈ L.dom.names) : L.completeMissing = L := by
  unfold Learner.completeMissing
  suffices hs : ∀ (ss : List (String × Sig)) (D : Domain), (∀ p ∈ ss, p.1 ∈ D.names) →
      ss.foldl (fun D p => if D.names.contains p.1 then D
      else { (D.setAct p.1 (ActModel.fresh p.2)) with names := D.names ++ [p.1] }) D = D by
    rw [hs _ _ h]
  intro ss
  induction ss with
  | nil => intros; rfl
  | cons p ss ih =>
    intro D hD
    rw [List.foldl_cons, if_pos (List.contains_iff_mem.mpr (hD p (by simp)))]
    exact ih D fun q hq => hD q (by simp [hq])

theorem unobserved_spec (hn : L.dom.names.Nodup) :
    SameStatic L.dom L.handleUnobserved.dom ∧
    (∀ a, (L.handleUnobserved.dom.act a).eff = (L.dom.act a).eff ∧ (L.handleUnobserved.dom.act a).ineq = (L.dom.act a).ineq ∧
      (L.handleUnobserved.dom.act a).pre = (L.dom.act a).pre ∪
        (if a ∈ L.dom.names ∧ a ∉ L.observed then liftedVocab L.dom (L.dom.act a).sig else ∅)) ∧
    L.handleUnobserved.observed = L.observed ∧ L.handleUnobserved.cannotBe = L.cannotBe ∧ L.handleUnobserved.policy = L.policy ∧
    L.handleUnobserved.injective = L.injective ∧ L.handleUnobserved.sigs = L.sigs ∧ L.handleUnobserved.safe = L.safe := by
  obtain ⟨h1, h2⟩ := foldl_setAct (fun D m => { m with pre := m.pre ∪ liftedVocab D m.sig })
      (fun _ _ _ hs => by simp only [liftedVocab_static hs]) (fun _ _ => rfl)
      (L.dom.names.filter fun a => !(L.observed.contains a)) (hn.filter _) L.dom
  refine ⟨h1, fun a => ?_, rfl, rfl, rfl, rfl, rfl, rfl⟩
  simp only [Learner.handleUnobserved]
  rw [h2 a]
  simp only [List.mem_filter, Bool.not_eq_true', ← Bool.not_eq_true, List.contains_iff_mem]
  split <;> simp_all

/-- Which literals the policy keeps. -/
def polKeep (p : Policy) (eff : Finset Lit) (l : Lit) : Prop :=
  l.pos = true ∨ p = .noRemove ∨ (p = .soft ∧ l.neg ∉ eff)

theorem keepPre_iff {p : Policy} {eff : Finset Lit} {l : Lit} (hp : p ≠ .noRemove) :
    keepPre p eff l = true ↔ polKeep p eff l := by
  unfold keepPre polKeep
  cases hl : l.pos
  · cases p <;> simp_all
  · simp

theorem policy_spec (hn : L.dom.names.Nodup) :
    SameStatic L.dom L.applyPolicy.dom ∧
    (∀ a, (L.applyPolicy.dom.act a).eff = (L.dom.act a).eff ∧ (L.applyPolicy.dom.act a).ineq = (L.dom.act a).ineq ∧
      ∀ l, l ∈ (L.applyPolicy.dom.act a).pre ↔ l ∈ (L.dom.act a).pre ∧
        (a ∈ L.dom.names → polKeep L.policy (L.dom.act a).eff l)) ∧
    L.applyPolicy.observed = L.observed ∧ L.applyPolicy.cannotBe = L.cannotBe ∧ L.applyPolicy.policy = L.policy ∧
    L.applyPolicy.injective = L.injective ∧ L.applyPolicy.sigs = L.sigs ∧ L.applyPolicy.safe = L.safe := by
  unfold Learner.applyPolicy
  split
  · rename_i hp
    obtain ⟨h1, h2⟩ := foldl_setAct (fun _ m => { m with pre := m.pre.filter (fun l => keepPre L.policy m.eff l = true) })
      (fun _ _ _ _ => rfl) (fun _ _ => rfl) L.dom.names hn L.dom
    refine ⟨h1, fun a => ?_, rfl, rfl, rfl, rfl, rfl, rfl⟩
    simp only [Learner.removeNegative]
    rw [h2 a]
    split
    · rename_i ha
      refine ⟨rfl, rfl, fun l => ?_⟩
      simp only [Finset.mem_filter, keepPre_iff hp, ha, true_imp_iff]
    · rename_i ha; simp [ha]
  · rename_i hp
    simp only [ne_eq, not_not] at hp
    refine ⟨SameStatic.refl _, fun a => ⟨rfl, rfl, fun l => ?_⟩, rfl, rfl, rfl, rfl, rfl, rfl⟩
    simp [polKeep, hp]

end

/-- Everything one call of `learn_action_model` does. -/
structure Learned (L0 : Learner) (cs : List Component) (L' : Learner) : Prop where
  static : SameStatic L0.dom L'.dom
  policy : L'.policy = L0.policy
  injective : L'.injective = L0.injective
  sigs : L'.sigs = L0.sigs
  safe : L'.safe = L0.safe
  known : ∀ c ∈ cs, c.success = true → c.call.name ∈ L0.dom.names
  observed : ∀ a, a ∈ L'.observed ↔ a ∈ L0.observed ∨ usable cs a ≠ []
  obsNames : ∀ a ∈ L'.observed, a ∈ L0.observed ∨ a ∈ L0.dom.names
  pre : ∀ a ∈ L0.dom.names, ∀ l, l ∈ (L'.dom.act a).pre ↔
    (PreForm L0.dom (a ∈ L0.observed) (L0.dom.act a).pre (usable cs a) l ∨
      ((a ∉ L0.observed ∧ usable cs a = []) ∧ l ∈ liftedVocab L0.dom (L0.dom.act a).sig)) ∧
    polKeep L0.policy (L'.dom.act a).eff l
  effSub : ∀ a l, l ∈ (L'.dom.act a).eff → l ∈ (L0.dom.act a).eff ∨ ∃ c ∈ usable cs a, l ∈ obsEff L0.dom c
  effSup : ∀ a l, (l ∈ (L0.dom.act a).eff ∨ ∃ c ∈ usable cs a, l ∈ obsEff L0.dom c) →
    (L0.dom.consts = [] ∨ l ∉ L0.cannotBe a ∧ ∀ c ∈ usable cs a, l ∈ liftedVocab L0.dom (L0.dom.act a).sig → l ∈ obsNext L0.dom c) →
    l ∈ (L'.dom.act a).eff
  cannotBe : ∀ a l, l ∈ L'.cannotBe a → l ∈ L0.cannotBe a ∨
    ∃ c ∈ usable cs a, l ∈ liftedVocab L0.dom (L0.dom.act a).sig ∧ l ∉ obsNext L0.dom c
  effExact : ∀ a, (a ∈ L'.observed, (L'.dom.act a).eff, L'.cannotBe a) =
    (usable cs a).foldl (effStep L0.dom (L0.dom.act a).sig) (a ∈ L0.observed, (L0.dom.act a).eff, L0.cannotBe a)
  ineq : ∀ a p, p ∈ (L'.dom.act a).ineq ↔
    (p ∈ (L0.dom.act a).ineq ∨ (L0.injective = true ∧ a ∈ L0.dom.names ∧ p ∈ sameTypePairs (L0.dom.act a).sig)) ∧
    ∀ c ∈ cs, c.success = true → c.call.name = a → ¬ c.call.params.Nodup →
      p ∉ duplicatePairs (L0.dom.act a).sig c.call.params

theorem effStep_static {D D' : Domain} (h : SameStatic D D') (sig : Sig) : effStep D' sig = effStep D sig := by
  funext st c
  unfold effStep
  have e : (st.1 ∧ D'.consts.length > 0) = (st.1 ∧ D.consts.length > 0) := by rw [h.consts]
  simp only [obsEff_static h, obsNext_static h, liftedVocab_static h]
  by_cases k : st.1 ∧ D.consts.length > 0
  · rw [if_pos k, if_pos (e ▸ k)]
  · rw [if_neg k, if_neg (e ▸ k)]

theorem learn_spec {L0 : Learner} {obs : List (List Component)} {L' : Learner} {rep : List (String × Status)}
    (hn : L0.dom.names.Nodup) (hs : ∀ p ∈ L0.sigs, p.1 ∈ L0.dom.names)
    (h : L0.learn obs = .ok (L', rep)) : Learned L0 obs.flatten L' ∧ rep = L'.report := by
  obtain ⟨d1, d2, d3, d4, d5, d6, d7, d8⟩ := deduce_spec hn
  have hc : L0.deduceIneq.completeMissing = L0.deduceIneq :=
    complete_id (by rw [d7, d1.names]; exact hs)
  unfold Learner.learn at h
  simp only [hc] at h
  cases hp : L0.deduceIneq.processComponents obs.flatten with
  | error e => rw [hp] at h; simp [Bind.bind, Except.bind] at h
  | ok L1 =>
    rw [hp] at h
    simp only [Bind.bind, Except.bind, Except.ok.injEq, Prod.mk.injEq] at h
    obtain ⟨h1, h2⟩ := h
    have inv := Inv.process obs.flatten [] _ _ (Inv.refl _) hp
    rw [List.nil_append] at inv
    have hn1 : L1.dom.names.Nodup := by rw [inv.static.names, d1.names]; exact hn
    obtain ⟨u1, u2, u3, u4, u5, u6, u7, u8⟩ := unobserved_spec hn1
    have hn2 : L1.handleUnobserved.dom.names.Nodup := by rw [u1.names]; exact hn1
    obtain ⟨p1, p2, p3, p4, p5, p6, p7, p8⟩ := policy_spec hn2
    have hst1 : SameStatic L0.dom L1.dom := d1.trans inv.static
    refine ⟨?_, by rw [← h2, h1]⟩
    subst h1
    refine ⟨(hst1.trans u1).trans p1, by rw [p5, u5, inv.policy, d5], by rw [p6, u6, inv.injective, d6],
      by rw [p7, u7, inv.sigs, d7], by rw [p8, u8, inv.safe, d8], ?_, ?_, ?_, ?_, ?_, ?_, ?_, ?_, ?_⟩
    · simpa only [d1.names] using inv.known
    · intro a; rw [p3, u3, inv.observed, d3]
    · intro a ha; rw [p3, u3] at ha; rw [← d1.names, ← d3]; exact inv.obsNames a ha
    · intro a ha l
      rw [(p2 a).2.2, (u2 a).2.2, (p2 a).1, (u2 a).1]
      have hpf : ∀ us l, PreForm L0.deduceIneq.dom (a ∈ L0.observed) (L0.dom.act a).pre us l ↔
          PreForm L0.dom (a ∈ L0.observed) (L0.dom.act a).pre us l := by
        intro us l; unfold PreForm; simp only [obsPrev_static d1]
      rw [u5, inv.policy, d5, u1.names, hst1.names]
      simp only [ha, true_imp_iff, true_and, Finset.mem_union, inv.pre, d3, (d2 a).1, hpf]
      apply and_congr_left; intro _
      apply or_congr Iff.rfl
      have ho := inv.observed a
      rw [d3] at ho
      rw [liftedVocab_static hst1, hst1.sig]
      split
      · rename_i k; rw [ho, not_or, not_not] at k; simp [k]
      · rename_i k; rw [ho, not_not] at k
        simp only [Finset.notMem_empty, false_iff]
        rintro ⟨⟨k1, k2⟩, _⟩
        rcases k with k | k
        · exact k1 k
        · exact k k2
    · intro a l hl
      rw [(p2 a).1, (u2 a).1] at hl
      have := inv.effSub a l hl
      simpa only [(d2 a).2.1, obsEff_static d1] using this
    · intro a l hl hl2
      rw [(p2 a).1, (u2 a).1]
      apply inv.effSup
      · simpa only [(d2 a).2.1, obsEff_static d1] using hl
      · simpa only [d1.consts, d4, liftedVocab_static d1, d1.sig, obsNext_static d1] using hl2
    · intro a l hl
      rw [p4, u4] at hl
      have := inv.cannotBe a l hl
      simpa only [d4, liftedVocab_static d1, d1.sig, obsNext_static d1] using this
    · intro a
      rw [p3, u3, p4, u4, (p2 a).1, (u2 a).1, inv.effExact, d3, d4, (d2 a).2.1, d1.sig, effStep_static d1]
    · intro a p
      rw [(p2 a).2.1, (u2 a).2.1, inv.ineq, (d2 a).2.2, d1.sig]
      apply and_congr_left; intro _
      rw [Finset.mem_union]
      apply or_congr Iff.rfl
      split
      · rename_i k; simp [k]
      · rename_i k
        simp only [Finset.notMem_empty, false_iff]
        rintro ⟨k1, k2, _⟩; exact k ⟨k1, k2⟩

/-- `learn_action_model` succeeds exactly when all successful components name domain actions. -/
theorem learn_ok_iff {L0 : Learner} {obs : List (List Component)}
    (hn : L0.dom.names.Nodup) (hs : ∀ p ∈ L0.sigs, p.1 ∈ L0.dom.names) :
    (∃ r, L0.learn obs = .ok r) ↔ ∀ c ∈ obs.flatten, c.success = true → c.call.name ∈ L0.dom.names := by
  obtain ⟨d1, d2, d3, d4, d5, d6, d7, d8⟩ := deduce_spec hn
  have hc : L0.deduceIneq.completeMissing = L0.deduceIneq :=
    complete_id (by rw [d7, d1.names]; exact hs)
  rw [← d1.names, ← process_ok_iff]
  unfold Learner.learn
  simp only [hc]
  constructor
  · rintro ⟨r, h⟩
    cases hp : L0.deduceIneq.processComponents obs.flatten with
    | error e => rw [hp] at h; simp [Bind.bind, Except.bind] at h
    | ok L1 => exact ⟨L1, rfl⟩
  · rintro ⟨L1, h⟩
    rw [h]; exact ⟨_, rfl⟩

end Model

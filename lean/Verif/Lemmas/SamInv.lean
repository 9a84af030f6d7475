import Verif.Model.Sam
import Verif.Lemmas.Lift

/-! Closed form of the state of `SAMLearner` after any list of components. -/
namespace Model
open Spec

/-- Two domains agree on everything learning never changes. -/
structure SameStatic (D D' : Domain) : Prop where
  preds : D'.preds = D.preds
  consts : D'.consts = D.consts
  names : D'.names = D.names
  sig : ∀ a, (D'.act a).sig = (D.act a).sig

theorem SameStatic.refl (D : Domain) : SameStatic D D := ⟨rfl, rfl, rfl, fun _ => rfl⟩
theorem SameStatic.trans {A B C : Domain} (h : SameStatic A B) (k : SameStatic B C) : SameStatic A C :=
  ⟨k.1.trans h.1, k.2.trans h.2, k.3.trans h.3, fun a => (k.4 a).trans (h.4 a)⟩

@[simp] theorem setAct_preds (D : Domain) (a m) : (D.setAct a m).preds = D.preds := rfl
@[simp] theorem setAct_consts (D : Domain) (a m) : (D.setAct a m).consts = D.consts := rfl
@[simp] theorem setAct_names (D : Domain) (a m) : (D.setAct a m).names = D.names := rfl
theorem setAct_act (D : Domain) (a b m) : (D.setAct a m).act b = if b = a then m else D.act b := by
  simp [Domain.setAct, Function.update_apply]

theorem sameStatic_setAct {D : Domain} {a : String} {m : ActModel} (h : m.sig = (D.act a).sig) :
    SameStatic D (D.setAct a m) := by
  refine ⟨rfl, rfl, rfl, fun b => ?_⟩
  rw [setAct_act]; split
  · rename_i e; rw [e, h]
  · rfl

/-- What an observation says about the previous state, the next state and the effects, lifted. -/
def obsPrev (D : Domain) (c : Component) : Finset Lit := liftCall D c.call (tripletSnapshot D c).1
def obsNext (D : Domain) (c : Component) : Finset Lit := liftCall D c.call (tripletSnapshot D c).2
def obsEff (D : Domain) (c : Component) : Finset Lit :=
  (actionEffects D c.call (tripletSnapshot D c).1 (tripletSnapshot D c).2).1 ∪
  (actionEffects D c.call (tripletSnapshot D c).1 (tripletSnapshot D c).2).2

theorem stateSnapshot_static {D D' : Domain} (h : SameStatic D D') (s objs) :
    stateSnapshot D' s objs = stateSnapshot D s objs := by
  unfold stateSnapshot groundedVocab; rw [h.preds, h.consts]

theorem tripletSnapshot_static {D D' : Domain} (h : SameStatic D D') (c) :
    tripletSnapshot D' c = tripletSnapshot D c := by
  unfold tripletSnapshot callObjects
  simp only [h.consts, h.sig, stateSnapshot_static h]

theorem liftCall_static {D D' : Domain} (h : SameStatic D D') (call S) :
    liftCall D' call S = liftCall D call S := by
  unfold liftCall; rw [h.consts, h.sig]

theorem actionEffects_static {D D' : Domain} (h : SameStatic D D') (call S T) :
    actionEffects D' call S T = actionEffects D call S T := by
  unfold actionEffects; simp only [liftCall_static h]

theorem obsPrev_static {D D' : Domain} (h : SameStatic D D') (c) : obsPrev D' c = obsPrev D c := by
  unfold obsPrev; rw [liftCall_static h, tripletSnapshot_static h]
theorem obsNext_static {D D' : Domain} (h : SameStatic D D') (c) : obsNext D' c = obsNext D c := by
  unfold obsNext; rw [liftCall_static h, tripletSnapshot_static h]
theorem obsEff_static {D D' : Domain} (h : SameStatic D D') (c) : obsEff D' c = obsEff D c := by
  unfold obsEff; rw [tripletSnapshot_static h, actionEffects_static h]
theorem liftedVocab_static {D D' : Domain} (h : SameStatic D D') (p m) : liftedVocab D' p m = liftedVocab D p m := by
  unfold liftedVocab; rw [h.preds, h.consts]

/-- The usable observations of an action: successful, without a repeated object. -/
def usable (hs : List Component) (a : String) : List Component :=
  hs.filter fun c => c.success && decide (c.call.name = a) && !containsDuplicates c.call.params

theorem mem_usable {hs : List Component} {a : String} {c : Component} :
    c ∈ usable hs a ↔ c ∈ hs ∧ c.success = true ∧ c.call.name = a ∧ c.call.params.Nodup := by
  simp only [usable, List.mem_filter, Bool.and_eq_true, decide_eq_true_eq, Bool.not_eq_true', containsDuplicates_false, and_assoc]

theorem usable_append (hs ks : List Component) (a) : usable (hs ++ ks) a = usable hs a ++ usable ks a := by
  simp [usable]

theorem usable_single_of {c : Component} {a : String} (h : c.success = true) (hn : c.call.name = a)
    (hd : c.call.params.Nodup) : usable [c] a = [c] := by
  simp [usable, h, hn, containsDuplicates_false.mpr hd]

theorem usable_single_not {c : Component} {a : String}
    (h : ¬ (c.success = true ∧ c.call.name = a ∧ c.call.params.Nodup)) : usable [c] a = [] := by
  rw [List.eq_nil_iff_forall_not_mem]
  intro x hx
  obtain ⟨h1, h2⟩ := mem_usable.mp hx
  simp only [List.mem_singleton] at h1
  subst h1; exact h h2

/-- Preconditions after the usable observations `us`, starting from the set `P`. -/
def PreForm (D : Domain) (obs0 : Prop) (P : Finset Lit) (us : List Component) (l : Lit) : Prop :=
  (obs0 → l ∈ P ∧ ∀ c ∈ us, l ∈ obsPrev D c) ∧
  (¬ obs0 → match us with
    | [] => l ∈ P
    | c :: cs => (l ∈ P ∨ l ∈ obsPrev D c) ∧ ∀ c' ∈ cs, l ∈ obsPrev D c')

/-- Effects of one action: (already observed, effects, literals that cannot be effects) after one more
usable observation. -/
noncomputable def effStep (D : Domain) (sig : Sig) (st : Prop × Finset Lit × Finset Lit) (c : Component) :
    Prop × Finset Lit × Finset Lit :=
  open Classical in
  if st.1 ∧ D.consts.length > 0 then
    (True, (st.2.1 ∪ obsEff D c) \ (st.2.2 ∪ (liftedVocab D sig).filter (fun l => l ∉ obsNext D c)),
      st.2.2 ∪ (liftedVocab D sig).filter (fun l => l ∉ obsNext D c))
  else (True, st.2.1 ∪ obsEff D c, st.2.2)

/-- The learner `L` reached from `L0` by the components `hs`. -/
structure Inv (L0 : Learner) (hs : List Component) (L : Learner) : Prop where
  static : SameStatic L0.dom L.dom
  policy : L.policy = L0.policy
  injective : L.injective = L0.injective
  sigs : L.sigs = L0.sigs
  safe : L.safe = L0.safe
  known : ∀ c ∈ hs, c.success = true → c.call.name ∈ L0.dom.names
  observed : ∀ a, a ∈ L.observed ↔ a ∈ L0.observed ∨ usable hs a ≠ []
  obsNames : ∀ a ∈ L.observed, a ∈ L0.observed ∨ a ∈ L0.dom.names
  pre : ∀ a l, l ∈ (L.dom.act a).pre ↔
    PreForm L0.dom (a ∈ L0.observed) (L0.dom.act a).pre (usable hs a) l
  effSub : ∀ a l, l ∈ (L.dom.act a).eff → l ∈ (L0.dom.act a).eff ∨ ∃ c ∈ usable hs a, l ∈ obsEff L0.dom c
  effSup : ∀ a l, (l ∈ (L0.dom.act a).eff ∨ ∃ c ∈ usable hs a, l ∈ obsEff L0.dom c) →
    (L0.dom.consts = [] ∨ l ∉ L0.cannotBe a ∧ ∀ c ∈ usable hs a, l ∈ liftedVocab L0.dom (L0.dom.act a).sig → l ∈ obsNext L0.dom c) →
    l ∈ (L.dom.act a).eff
  cannotBe : ∀ a l, l ∈ L.cannotBe a → l ∈ L0.cannotBe a ∨
    ∃ c ∈ usable hs a, l ∈ liftedVocab L0.dom (L0.dom.act a).sig ∧ l ∉ obsNext L0.dom c
  effExact : ∀ a, (a ∈ L.observed, (L.dom.act a).eff, L.cannotBe a) =
    (usable hs a).foldl (effStep L0.dom (L0.dom.act a).sig) (a ∈ L0.observed, (L0.dom.act a).eff, L0.cannotBe a)
  ineq : ∀ a p, p ∈ (L.dom.act a).ineq ↔ p ∈ (L0.dom.act a).ineq ∧
    ∀ c ∈ hs, c.success = true → c.call.name = a → ¬ c.call.params.Nodup →
      p ∉ duplicatePairs (L0.dom.act a).sig c.call.params

theorem Inv.refl (L : Learner) : Inv L [] L where
  static := SameStatic.refl _
  policy := rfl
  injective := rfl
  sigs := rfl
  safe := rfl
  known := by simp
  observed := by simp [usable]
  obsNames := fun a h => Or.inl h
  pre := by intro a l; by_cases h : a ∈ L.observed <;> simp [PreForm, usable, h]
  effSub := fun a l h => Or.inl h
  effSup := fun a l h _ => by simpa [usable] using h
  cannotBe := fun a l h => Or.inl h
  effExact := fun a => by simp [usable]
  ineq := by simp

/-! #### One component -/

theorem handle_dup {L : Learner} {c : Component} (hn : c.call.name ∈ L.dom.names) (hd : ¬ c.call.params.Nodup) :
    L.handleComponent c = .ok { L with dom := (L.dom.setAct c.call.name
      { L.dom.act c.call.name with
        ineq := (L.dom.act c.call.name).ineq \ (duplicatePairs (L.dom.act c.call.name).sig c.call.params).toFinset }) } := by
  have := containsDuplicates_iff.mpr hd
  simp [Learner.handleComponent, hn, Learner.verifyDuplication, this]

theorem handle_new {L : Learner} {c : Component} (hn : c.call.name ∈ L.dom.names) (hd : c.call.params.Nodup)
    (ho : c.call.name ∉ L.observed) :
    ∃ L', L.handleComponent c = .ok L' ∧
      L'.dom = (L.dom.setAct c.call.name { L.dom.act c.call.name with
        pre := (L.dom.act c.call.name).pre ∪ obsPrev L.dom c,
        eff := (L.dom.act c.call.name).eff ∪ obsEff L.dom c }) ∧
      L'.observed = L.observed ++ [c.call.name] ∧ L'.cannotBe = L.cannotBe ∧ L'.policy = L.policy ∧
      L'.injective = L.injective ∧ L'.sigs = L.sigs ∧ L'.safe = L.safe := by
  have := containsDuplicates_false.mpr hd
  refine ⟨L.addNewAction c.call (tripletSnapshot L.dom c).1 (tripletSnapshot L.dom c).2,
    by simp [Learner.handleComponent, hn, Learner.verifyDuplication, this, ho], ?_, rfl, rfl, rfl, rfl, rfl, rfl⟩
  simp only [Learner.addNewAction]
  have hs : SameStatic L.dom (addNewPre L.dom c.call (tripletSnapshot L.dom c).1) := by
    unfold addNewPre; exact sameStatic_setAct rfl
  unfold addEffects
  simp only [actionEffects_static hs]
  unfold addNewPre
  simp only [Domain.setAct, Function.update_self, Function.update_idem]
  rfl

theorem handle_upd {L : Learner} {c : Component} (hn : c.call.name ∈ L.dom.names) (hd : c.call.params.Nodup)
    (ho : c.call.name ∈ L.observed) :
    ∃ L' cb, L.handleComponent c = .ok L' ∧
      L'.dom = (L.dom.setAct c.call.name { L.dom.act c.call.name with
        pre := (L.dom.act c.call.name).pre.filter (fun l => l ∈ obsPrev L.dom c),
        eff := ((L.dom.act c.call.name).eff ∪ obsEff L.dom c) \ cb }) ∧
      (L.dom.consts = [] → cb = ∅) ∧
      (∀ l ∈ cb, l ∈ L.cannotBe c.call.name ∨ (l ∈ liftedVocab L.dom (L.dom.act c.call.name).sig ∧ l ∉ obsNext L.dom c)) ∧
      (∀ a l, l ∈ L'.cannotBe a → l ∈ L.cannotBe a ∨ (a = c.call.name ∧ l ∈ cb)) ∧
      (cb = if L.dom.consts.length > 0 then L.cannotBe c.call.name ∪
        (liftedVocab L.dom (L.dom.act c.call.name).sig).filter (fun l => l ∉ obsNext L.dom c) else ∅) ∧
      (∀ a, L'.cannotBe a = if a = c.call.name ∧ L.dom.consts.length > 0 then cb else L.cannotBe a) ∧
      L'.observed = L.observed ∧ L'.policy = L.policy ∧
      L'.injective = L.injective ∧ L'.sigs = L.sigs ∧ L'.safe = L.safe := by
  have hdup := containsDuplicates_false.mpr hd
  have hs1 : SameStatic L.dom (updatePre L.dom c.call (tripletSnapshot L.dom c).1) := by
    unfold updatePre; exact sameStatic_setAct rfl
  have hdom : addEffects (updatePre L.dom c.call (tripletSnapshot L.dom c).1) c.call (tripletSnapshot L.dom c).1 (tripletSnapshot L.dom c).2
      = L.dom.setAct c.call.name { L.dom.act c.call.name with
        pre := (L.dom.act c.call.name).pre.filter (fun l => l ∈ obsPrev L.dom c),
        eff := ((L.dom.act c.call.name).eff ∪ obsEff L.dom c) } := by
    unfold addEffects
    simp only [actionEffects_static hs1]
    unfold updatePre
    simp only [Domain.setAct, Function.update_self, Function.update_idem]
    rfl
  by_cases hc : L.dom.consts.length > 0
  · refine ⟨_, L.cannotBe c.call.name ∪ (liftedVocab L.dom (L.dom.act c.call.name).sig).filter (fun l => l ∉ obsNext L.dom c), by
      simp [Learner.handleComponent, hn, Learner.verifyDuplication, hdup, ho]; rfl, ?_⟩
    have hs2 : SameStatic L.dom (L.dom.setAct c.call.name { L.dom.act c.call.name with
        pre := (L.dom.act c.call.name).pre.filter (fun l => l ∈ obsPrev L.dom c),
        eff := ((L.dom.act c.call.name).eff ∪ obsEff L.dom c) }) := sameStatic_setAct rfl
    simp only [Learner.updateAction, hdom, setAct_consts, hc, if_true, Learner.handleConstsInEffects,
      liftCall_static hs2, liftedVocab_static hs2]
    refine ⟨?_, ?_, ?_, ?_, by trivial, ?_, by simp, by simp, by simp, by simp, by simp⟩
    · simp only [Domain.setAct, Function.update_self, Function.update_idem]; rfl
    · intro h; rw [h] at hc; simp at hc
    · intro l hl
      rw [Finset.mem_union, Finset.mem_filter] at hl
      exact hl
    · intro a l hl
      rw [Function.update_apply] at hl
      split at hl
      · rename_i e
        refine Or.inr ⟨e, ?_⟩
        simp only [Domain.setAct, Function.update_self] at hl
        exact hl
      · exact Or.inl hl
    · intro a
      rw [Function.update_apply]
      simp only [and_true]
      split
      · simp only [Domain.setAct, Function.update_self]; rfl
      · rfl
  · refine ⟨_, ∅, by
      simp [Learner.handleComponent, hn, Learner.verifyDuplication, hdup, ho]; rfl, ?_⟩
    simp only [Learner.updateAction, hdom, setAct_consts, hc, if_false, Finset.sdiff_empty]
    refine ⟨?_, ?_, ?_, ?_, ?_, ?_, ?_, ?_, ?_, ?_, ?_⟩ <;> simp

theorem handle_unknown {L : Learner} {c : Component} (hn : c.call.name ∉ L.dom.names) :
    L.handleComponent c = .error .keyError := by simp [Learner.handleComponent, hn]

section step
variable {L0 L L' : Learner} {hs : List Component} {c : Component}

theorem Inv.skip (h : Inv L0 hs L) (hc : c.success = false) : Inv L0 (hs ++ [c]) L := by
  have hu : ∀ a, usable (hs ++ [c]) a = usable hs a := fun a => by
    rw [usable_append, usable_single_not (by simp [hc]), List.append_nil]
  refine ⟨h.static, h.policy, h.injective, h.sigs, h.safe, ?_, ?_, h.obsNames, ?_, ?_, ?_, ?_, ?_, ?_⟩
  · intro x hx; rcases List.mem_append.mp hx with hx | hx
    · exact h.known x hx
    · simp at hx; subst hx; simp [hc]
  · simpa only [hu] using h.observed
  · simpa only [hu] using h.pre
  · simpa only [hu] using h.effSub
  · simpa only [hu] using h.effSup
  · simpa only [hu] using h.cannotBe
  · simpa only [hu] using h.effExact
  · intro a p
    rw [h.ineq]
    apply and_congr_right; intro _
    constructor
    · intro k x hx; rcases List.mem_append.mp hx with hx | hx
      · exact k x hx
      · simp at hx; subst hx; simp [hc]
    · intro k x hx; exact k x (by simp [hx])

theorem PreForm.snoc {D : Domain} {o : Prop} {P : Finset Lit} {us : List Component} {l : Lit} {c : Component}
    (ho : o ∨ us ≠ []) :
    PreForm D o P (us ++ [c]) l ↔ PreForm D o P us l ∧ l ∈ obsPrev D c := by
  unfold PreForm
  by_cases h : o
  · simp only [h, true_imp_iff, not_true_eq_false, false_imp_iff, and_true]
    simp only [List.mem_append, List.mem_singleton]
    constructor
    · rintro ⟨h1, h2⟩; exact ⟨⟨h1, fun x hx => h2 x (Or.inl hx)⟩, h2 c (Or.inr rfl)⟩
    · rintro ⟨⟨h1, h2⟩, h3⟩; refine ⟨h1, ?_⟩; rintro x (hx | rfl); exacts [h2 x hx, h3]
  · cases us with
    | nil => simp [h] at ho
    | cons u us =>
      simp only [h, false_imp_iff, true_and, not_false_eq_true, true_imp_iff, List.cons_append,
        List.mem_append, List.mem_singleton]
      constructor
      · rintro ⟨h1, h2⟩; exact ⟨⟨h1, fun x hx => h2 x (Or.inl hx)⟩, h2 c (Or.inr rfl)⟩
      · rintro ⟨⟨h1, h2⟩, h3⟩; refine ⟨h1, ?_⟩; rintro x (hx | rfl); exacts [h2 x hx, h3]

theorem Inv.step (h : Inv L0 hs L) (hc : c.success = true) (hr : L.handleComponent c = .ok L') :
    Inv L0 (hs ++ [c]) L' := by
  by_cases hn : c.call.name ∈ L.dom.names
  swap
  · rw [handle_unknown hn] at hr; simp at hr
  have hn0 : c.call.name ∈ L0.dom.names := h.static.names ▸ hn
  have hknown : ∀ x ∈ hs ++ [c], x.success = true → x.call.name ∈ L0.dom.names := by
    intro x hx hxs; rcases List.mem_append.mp hx with hx | hx
    · exact h.known x hx hxs
    · simp at hx; subst hx; exact hn0
  by_cases hd : c.call.params.Nodup
  · have hu : usable (hs ++ [c]) c.call.name = usable hs c.call.name ++ [c] := by
      rw [usable_append, usable_single_of hc rfl hd]
    have hune : ∀ a, a ≠ c.call.name → usable (hs ++ [c]) a = usable hs a := fun a ha => by
      rw [usable_append, usable_single_not (fun k => ha k.2.1.symm), List.append_nil]
    have hineq : ∀ a p, (p ∈ (L0.dom.act a).ineq ∧ ∀ x ∈ hs ++ [c], x.success = true → x.call.name = a →
        ¬ x.call.params.Nodup → p ∉ duplicatePairs (L0.dom.act a).sig x.call.params) ↔ p ∈ (L.dom.act a).ineq := by
      intro a p
      rw [h.ineq]
      apply and_congr_right; intro _
      constructor
      · intro k x hx; exact k x (by simp [hx])
      · intro k x hx; rcases List.mem_append.mp hx with hx | hx
        · exact k x hx
        · simp at hx; subst hx; intro _ _ k; exact absurd hd k
    by_cases ho : c.call.name ∈ L.observed
    · obtain ⟨L'', cb, e, e1, e2, e3, e4, f1, f2, e5, e6, e7, e8, e9⟩ := handle_upd hn hd ho
      rw [e] at hr; simp only [Except.ok.injEq] at hr; subst hr
      have hst : SameStatic L0.dom L''.dom := by rw [e1]; exact h.static.trans (sameStatic_setAct rfl)
      have ho' := (h.observed c.call.name).mp ho
      refine ⟨hst, e6.trans h.policy, e7.trans h.injective, e8.trans h.sigs, e9.trans h.safe, hknown, ?_, ?_, ?_, ?_, ?_, ?_, ?_, ?_⟩
      · intro a; rw [e5, h.observed]
        by_cases ha : a = c.call.name
        · subst ha; rw [hu]; simp only [ne_eq, List.append_eq_nil_iff, List.cons_ne_self, and_false, not_false_eq_true, or_true, iff_true]; exact ho'
        · rw [hune a ha]
      · rw [e5]; exact h.obsNames
      · intro a l
        rw [e1, setAct_act]
        split
        · rename_i ha; subst ha
          simp only [Finset.mem_filter, h.pre, hu, PreForm.snoc ho', obsPrev_static h.static]
        · rename_i ha; rw [hune a ha]; exact h.pre a l
      · intro a l
        rw [e1, setAct_act]
        split
        · rename_i ha; subst ha
          simp only [Finset.mem_sdiff, Finset.mem_union, hu, List.mem_append, List.mem_singleton, obsEff_static h.static]
          rintro ⟨k | k, _⟩
          · rcases h.effSub _ _ k with k | ⟨x, hx, k⟩
            · exact Or.inl k
            · exact Or.inr ⟨x, Or.inl hx, k⟩
          · exact Or.inr ⟨c, Or.inr rfl, k⟩
        · rename_i ha; rw [hune a ha]; exact h.effSub a l
      · intro a l
        rw [e1, setAct_act]
        split
        · rename_i ha; subst ha
          simp only [Finset.mem_sdiff, Finset.mem_union, hu, List.mem_append, List.mem_singleton, obsEff_static h.static]
          intro k1 k2
          constructor
          · by_cases hlc : l ∈ obsEff L0.dom c
            · exact Or.inr hlc
            · left
              apply h.effSup
              · rcases k1 with k | ⟨x, hx | rfl, k⟩
                · exact Or.inl k
                · exact Or.inr ⟨x, hx, k⟩
                · exact absurd k hlc
              · rcases k2 with k | ⟨k, k'⟩
                · exact Or.inl k
                · exact Or.inr ⟨k, fun x hx => k' x (Or.inl hx)⟩
          · intro hcb
            rcases k2 with k | ⟨k, k'⟩
            · rw [e2 (h.static.consts ▸ k)] at hcb; simp at hcb
            · rcases e3 l hcb with hl | ⟨hl1, hl2⟩
              · rcases h.cannotBe _ _ hl with hl | ⟨x, hx, hl1, hl2⟩
                · exact k hl
                · exact hl2 (k' x (Or.inl hx) hl1)
              · rw [liftedVocab_static h.static, h.static.sig] at hl1
                rw [obsNext_static h.static] at hl2
                exact hl2 (k' c (Or.inr rfl) hl1)
        · rename_i ha; rw [hune a ha]; exact h.effSup a l
      · intro a l hl
        have base : l ∈ L.cannotBe a → l ∈ L0.cannotBe a ∨
            ∃ x ∈ usable (hs ++ [c]) a, l ∈ liftedVocab L0.dom (L0.dom.act a).sig ∧ l ∉ obsNext L0.dom x := by
          intro hl
          rcases h.cannotBe a l hl with k | ⟨x, hx, k⟩
          · exact Or.inl k
          · exact Or.inr ⟨x, by rw [usable_append]; simp [hx], k⟩
        rcases e4 a l hl with hl | ⟨rfl, hlc⟩
        · exact base hl
        · rcases e3 l hlc with hl | ⟨h1, h2⟩
          · exact base hl
          · right
            rw [liftedVocab_static h.static, h.static.sig] at h1
            rw [obsNext_static h.static] at h2
            exact ⟨c, by rw [hu]; simp, h1, h2⟩
      · intro a
        by_cases ha : a = c.call.name
        · subst ha
          rw [hu, List.foldl_append, ← h.effExact]
          simp only [List.foldl_cons, List.foldl_nil, effStep, ho, true_and, e5]
          rw [f2, e1, setAct_act, f1, h.static.consts, h.static.sig, liftedVocab_static h.static, obsNext_static h.static,
            obsEff_static h.static]
          by_cases hcc : L0.dom.consts.length > 0
          · simp [hcc]
          · simp [hcc]
        · rw [hune a ha, ← h.effExact, e1, setAct_act, f2, e5]
          simp [ha]
      · intro a p
        rw [hineq, e1, setAct_act]
        split
        · rename_i ha; subst ha; rfl
        · rfl
    · obtain ⟨L'', e, e1, e5, e4, e6, e7, e8, e9⟩ := handle_new hn hd ho
      rw [e] at hr; simp only [Except.ok.injEq] at hr; subst hr
      have hst : SameStatic L0.dom L''.dom := by rw [e1]; exact h.static.trans (sameStatic_setAct rfl)
      have ho' := (not_congr (h.observed c.call.name)).mp ho
      rw [not_or, not_not] at ho'
      refine ⟨hst, e6.trans h.policy, e7.trans h.injective, e8.trans h.sigs, e9.trans h.safe, hknown, ?_, ?_, ?_, ?_, ?_, ?_, ?_, ?_⟩
      · intro a; rw [e5, List.mem_append, h.observed, List.mem_singleton]
        by_cases ha : a = c.call.name
        · subst ha; rw [hu]; simp
        · rw [hune a ha]; simp [ha]
      · rw [e5]; intro a ha
        rcases List.mem_append.mp ha with ha | ha
        · exact h.obsNames a ha
        · simp at ha; subst ha; exact Or.inr hn0
      · intro a l
        rw [e1, setAct_act]
        split
        · rename_i ha; subst ha
          simp only [Finset.mem_union, h.pre, hu, ho'.2, obsPrev_static h.static, PreForm, ho'.1, false_imp_iff,
            true_and, not_false_eq_true, true_imp_iff, List.nil_append]
          simp
        · rename_i ha; rw [hune a ha]; exact h.pre a l
      · intro a l
        rw [e1, setAct_act]
        split
        · rename_i ha; subst ha
          simp only [Finset.mem_union, hu, List.mem_append, List.mem_singleton, obsEff_static h.static]
          rintro (k | k)
          · rcases h.effSub _ _ k with k | ⟨x, hx, k⟩
            · exact Or.inl k
            · exact Or.inr ⟨x, Or.inl hx, k⟩
          · exact Or.inr ⟨c, Or.inr rfl, k⟩
        · rename_i ha; rw [hune a ha]; exact h.effSub a l
      · intro a l
        rw [e1, setAct_act]
        split
        · rename_i ha; subst ha
          simp only [Finset.mem_union, hu, List.mem_append, List.mem_singleton, obsEff_static h.static]
          intro k1 k2
          by_cases hlc : l ∈ obsEff L0.dom c
          · exact Or.inr hlc
          · left
            apply h.effSup
            · rcases k1 with k | ⟨x, hx | rfl, k⟩
              · exact Or.inl k
              · exact Or.inr ⟨x, hx, k⟩
              · exact absurd k hlc
            · rcases k2 with k | ⟨k, k'⟩
              · exact Or.inl k
              · exact Or.inr ⟨k, fun x hx => k' x (Or.inl hx)⟩
        · rename_i ha; rw [hune a ha]; exact h.effSup a l
      · intro a l hl
        rw [e4] at hl
        rcases h.cannotBe a l hl with k | ⟨x, hx, k⟩
        · exact Or.inl k
        · exact Or.inr ⟨x, by rw [usable_append]; simp [hx], k⟩
      · intro a
        by_cases ha : a = c.call.name
        · subst ha
          rw [hu, List.foldl_append, ← h.effExact]
          simp only [List.foldl_cons, List.foldl_nil, effStep, ho, false_and, if_false, e5]
          rw [e4, e1, setAct_act, obsEff_static h.static]
          simp
        · rw [hune a ha, ← h.effExact, e1, setAct_act, e4, e5]
          simp [ha]
      · intro a p
        rw [hineq, e1, setAct_act]
        split
        · rename_i ha; subst ha; rfl
        · rfl
  · rw [handle_dup hn hd] at hr; simp only [Except.ok.injEq] at hr; subst hr
    have hu : ∀ a, usable (hs ++ [c]) a = usable hs a := fun a => by
      rw [usable_append, usable_single_not (fun k => hd k.2.2), List.append_nil]
    have hact : ∀ a, ((L.dom.setAct c.call.name
      { L.dom.act c.call.name with
        ineq := (L.dom.act c.call.name).ineq \ (duplicatePairs (L.dom.act c.call.name).sig c.call.params).toFinset }).act a).pre
        = (L.dom.act a).pre ∧ ((L.dom.setAct c.call.name
      { L.dom.act c.call.name with
        ineq := (L.dom.act c.call.name).ineq \ (duplicatePairs (L.dom.act c.call.name).sig c.call.params).toFinset }).act a).eff
        = (L.dom.act a).eff := by
      intro a; rw [setAct_act]; split
      · rename_i e; subst e; exact ⟨rfl, rfl⟩
      · exact ⟨rfl, rfl⟩
    refine ⟨h.static.trans (sameStatic_setAct rfl), h.policy, h.injective, h.sigs, h.safe, hknown, ?_, h.obsNames, ?_, ?_, ?_, ?_, ?_, ?_⟩
    · simpa only [hu] using h.observed
    · simpa only [hu, (hact _).1] using h.pre
    · simpa only [hu, (hact _).2] using h.effSub
    · simpa only [hu, (hact _).2] using h.effSup
    · simpa only [hu] using h.cannotBe
    · simpa only [hu, (hact _).2] using h.effExact
    · intro a p
      have split_last : (∀ x ∈ hs ++ [c], x.success = true → x.call.name = a → ¬ x.call.params.Nodup →
          p ∉ duplicatePairs (L0.dom.act a).sig x.call.params) ↔
          (∀ x ∈ hs, x.success = true → x.call.name = a → ¬ x.call.params.Nodup →
          p ∉ duplicatePairs (L0.dom.act a).sig x.call.params) ∧
          (c.call.name = a → p ∉ duplicatePairs (L0.dom.act a).sig c.call.params) := by
        constructor
        · intro k; exact ⟨fun x hx => k x (by simp [hx]), fun e => k c (by simp) hc e hd⟩
        · rintro ⟨k1, k2⟩ x hx
          rcases List.mem_append.mp hx with hx | hx
          · exact k1 x hx
          · simp at hx; subst hx; intro _ e _; exact k2 e
      rw [split_last, ← and_assoc, ← h.ineq]
      simp only [setAct_act]
      split
      · rename_i e; subst e
        simp only [Finset.mem_sdiff, List.mem_toFinset, h.static.sig, true_imp_iff]
      · rename_i e
        have : c.call.name = a → p ∉ duplicatePairs (L0.dom.act a).sig c.call.params := fun k => absurd k.symm e
        exact ⟨fun k => ⟨k, this⟩, fun k => k.1⟩

end step

theorem Inv.process {L0 : Learner} : ∀ (cs hs : List Component) (L L' : Learner), Inv L0 hs L →
    L.processComponents cs = .ok L' → Inv L0 (hs ++ cs) L' := by
  intro cs
  induction cs with
  | nil =>
    intro hs L L' h hr
    simp only [Learner.processComponents, List.foldlM_nil, pure, Except.pure, Except.ok.injEq] at hr
    subst hr; simpa using h
  | cons c cs ih =>
    intro hs L L' h hr
    simp only [Learner.processComponents, List.foldlM_cons] at hr
    cases hc : c.success with
    | true =>
      simp only [hc, if_true] at hr
      cases hs' : L.handleComponent c with
      | error e => rw [hs'] at hr; simp [bind, Except.bind] at hr
      | ok L1 =>
        rw [hs'] at hr
        simp only [bind, Except.bind] at hr
        have := ih (hs ++ [c]) L1 L' (h.step hc hs') hr
        simpa using this
    | false =>
      simp only [hc] at hr
      have hr' : L.processComponents cs = .ok L' := by
        simpa [Learner.processComponents, bind, Except.bind] using hr
      have := ih (hs ++ [c]) L L' (h.skip hc) hr'
      simpa using this

/-- The loop fails exactly when some successful component names an unknown action. -/
theorem process_ok_iff {L : Learner} {cs : List Component} :
    (∃ L', L.processComponents cs = .ok L') ↔ ∀ c ∈ cs, c.success = true → c.call.name ∈ L.dom.names := by
  constructor
  · rintro ⟨L', h⟩
    have := Inv.process cs [] L L' (Inv.refl L) h
    simpa using this.known
  · induction cs generalizing L with
    | nil => intro _; exact ⟨L, rfl⟩
    | cons c cs ih =>
      intro h
      cases hc : c.success with
      | true =>
        have hn := h c (by simp) hc
        have : ∃ L1, L.handleComponent c = .ok L1 := by
          by_cases hd : c.call.params.Nodup
          · by_cases ho : c.call.name ∈ L.observed
            · obtain ⟨L1, _, e, _⟩ := handle_upd hn hd ho; exact ⟨L1, e⟩
            · obtain ⟨L1, e, _⟩ := handle_new hn hd ho; exact ⟨L1, e⟩
          · exact ⟨_, handle_dup hn hd⟩
        obtain ⟨L1, e⟩ := this
        have hst := ((Inv.refl L).step hc e).static
        obtain ⟨L', hL'⟩ := ih (L := L1) (fun x hx hxs => by rw [hst.names]; exact h x (by simp [hx]) hxs)
        refine ⟨L', ?_⟩
        simp only [Learner.processComponents, List.foldlM_cons, hc, if_true, e]
        exact hL'
      | false =>
        obtain ⟨L', hL'⟩ := ih (L := L) (fun x hx hxs => h x (by simp [hx]) hxs)
        refine ⟨L', ?_⟩
        simp only [Learner.processComponents, List.foldlM_cons, hc]
        exact hL'

end Model

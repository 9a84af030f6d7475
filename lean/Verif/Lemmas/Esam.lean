import Verif.Model.Esam
import Verif.Lemmas.SamSafe

/-! The state of the extended SAM learner after any list of components. -/
namespace Model
open Spec

/-- The grounded literals that became true, in the snapshot of a component. -/
def obsChange (D : Domain) (c : Component) : Finset Lit :=
  (extractEffects (tripletSnapshot D c).1 (tripletSnapshot D c).2).1 ∪
  (extractEffects (tripletSnapshot D c).1 (tripletSnapshot D c).2).2

/-- The components of an action. -/
def compsOf (hs : List Component) (a : String) : List Component := hs.filter fun c => decide (c.call.name = a)

theorem mem_compsOf {hs : List Component} {a : String} {c : Component} : c ∈ compsOf hs a ↔ c ∈ hs ∧ c.call.name = a := by
  simp [compsOf]

theorem compsOf_append (hs ks : List Component) (a : String) : compsOf (hs ++ ks) a = compsOf hs a ++ compsOf ks a := by
  simp [compsOf]

/-- The learner `E` reached from a fresh one over `D` by the components `hs`. -/
structure EInv (D : Domain) (p : Policy) (hs : List Component) (E : Esam) : Prop where
  static : SameStatic D E.base.dom
  policy : E.base.policy = p
  safe : E.base.safe = []
  known : ∀ c ∈ hs, c.call.name ∈ D.names
  nodup : E.base.observed.Nodup
  observed : ∀ a, a ∈ E.base.observed ↔ compsOf hs a ≠ []
  pre : ∀ a ∈ D.names, ∀ l, l ∈ (E.base.dom.act a).pre ↔ compsOf hs a ≠ [] ∧ ∀ c ∈ compsOf hs a, l ∈ obsPrev D c
  eff : ∀ a ∈ D.names, (E.base.dom.act a).eff = ∅
  clauses : ∀ a cl, cl ∈ E.clauses a ↔ ∃ c ∈ compsOf hs a, ∃ g ∈ obsChange D c, cl = effClause D c.call g
  cannotBe : ∀ a g, g ∈ E.cannotBe a ↔ ∃ c ∈ compsOf hs a, g.neg ∈ (tripletSnapshot D c).2

theorem EInv.init {D : Domain} (hD : WFDomain D) (p : Policy) : EInv D p [] (Esam.init D p) where
  static := SameStatic.refl _
  policy := rfl
  safe := rfl
  known := by simp
  nodup := by simp [Esam.init, Learner.init]
  observed := by simp [Esam.init, Learner.init, compsOf]
  pre := by intro a ha l; simp [Esam.init, Learner.init, compsOf, (hD.empty a ha).1]
  eff := by intro a ha; simp [Esam.init, Learner.init, (hD.empty a ha).2.1]
  clauses := by simp [Esam.init, compsOf]
  cannotBe := by simp [Esam.init, compsOf]

theorem effClause_static {D D' : Domain} (h : SameStatic D D') (call g) : effClause D' call g = effClause D call g := by
  unfold effClause; rw [h.consts, h.sig]

theorem mem_extractNot {S : Finset Lit} {g : Lit} : g ∈ extractNotEffects S ↔ g.neg ∈ S := by
  unfold extractNotEffects
  rw [Finset.mem_image]
  constructor
  · rintro ⟨x, hx, rfl⟩; rwa [Lit.neg_neg]
  · intro h; exact ⟨_, h, Lit.neg_neg g⟩

theorem EInv.step {D : Domain} {p : Policy} {hs : List Component} {E E' : Esam} {c : Component}
    (h : EInv D p hs E) (hstep : E.handleFixed c = .ok E') : EInv D p (hs ++ [c]) E' := by
  unfold Esam.handleFixed at hstep
  by_cases hn : c.call.name ∉ E.base.dom.names
  · rw [if_pos hn] at hstep; cases hstep
  rw [if_neg hn] at hstep
  rw [not_not, h.static.names] at hn
  simp only at hstep
  have hcomps : ∀ a, a ≠ c.call.name → compsOf (hs ++ [c]) a = compsOf hs a := by
    intro a ha
    rw [compsOf_append]
    simp [compsOf, Ne.symm ha]
  have hcomp : compsOf (hs ++ [c]) c.call.name = compsOf hs c.call.name ++ [c] := by
    rw [compsOf_append]; simp [compsOf]
  -- what `handle_effects` adds
  have hcl : ∀ (F : Esam), SameStatic D F.base.dom → F.clauses = E.clauses → F.cannotBe = E.cannotBe →
      (∀ a cl, cl ∈ (F.handleEffects c.call (tripletSnapshot E.base.dom c).1 (tripletSnapshot E.base.dom c).2).clauses a ↔
        ∃ c' ∈ compsOf (hs ++ [c]) a, ∃ g ∈ obsChange D c', cl = effClause D c'.call g) ∧
      (∀ a g, g ∈ (F.handleEffects c.call (tripletSnapshot E.base.dom c).1 (tripletSnapshot E.base.dom c).2).cannotBe a ↔
        ∃ c' ∈ compsOf (hs ++ [c]) a, g.neg ∈ (tripletSnapshot D c').2) := by
    intro F hF h1 h2
    constructor
    · intro a cl
      simp only [Esam.handleEffects, Function.update_apply]
      by_cases ha : a = c.call.name
      · subst ha
        rw [if_pos rfl, Finset.mem_union, h1, h.clauses, hcomp, Finset.mem_image]
        simp only [List.mem_append, List.mem_singleton, or_and_right, exists_or, exists_eq_left]
        apply or_congr Iff.rfl
        rw [tripletSnapshot_static h.static]
        constructor
        · rintro ⟨g, hg, rfl⟩; exact ⟨g, hg, by rw [effClause_static hF]⟩
        · rintro ⟨g, hg, rfl⟩; exact ⟨g, hg, by rw [effClause_static hF]⟩
      · rw [if_neg ha, h1, h.clauses, hcomps a ha]
    · intro a g
      simp only [Esam.handleEffects, Function.update_apply]
      by_cases ha : a = c.call.name
      · subst ha
        rw [if_pos rfl, Finset.mem_union, h2, h.cannotBe, hcomp, mem_extractNot]
        simp only [List.mem_append, List.mem_singleton, or_and_right, exists_or, exists_eq_left]
        rw [tripletSnapshot_static h.static]
      · rw [if_neg ha, h2, h.cannotBe, hcomps a ha]
  have hknown : ∀ c' ∈ hs ++ [c], c'.call.name ∈ D.names := by
    intro c' hc'
    rcases List.mem_append.mp hc' with k | k
    · exact h.known c' k
    · simp at k; subst k; exact hn
  by_cases ho : c.call.name ∈ E.base.observed
  · rw [if_pos ho] at hstep
    have hE := Except.ok.inj hstep
    subst hE
    have hne : compsOf hs c.call.name ≠ [] := (h.observed _).mp ho
    have hs1 : SameStatic D (updatePre E.base.dom c.call (tripletSnapshot E.base.dom c).1) :=
      h.static.trans (by unfold updatePre; exact sameStatic_setAct rfl)
    obtain ⟨k1, k2⟩ := hcl { E with base := { E.base with dom := updatePre E.base.dom c.call (tripletSnapshot E.base.dom c).1 } }
      hs1 rfl rfl
    refine ⟨hs1, h.policy, h.safe, hknown, h.nodup, ?_, ?_, ?_, k1, k2⟩
    · intro a
      show a ∈ E.base.observed ↔ _
      by_cases ha : a = c.call.name
      · subst ha; rw [hcomp]; simp [ho]
      · rw [hcomps a ha]; exact h.observed a
    · intro a haD l
      show l ∈ ((updatePre E.base.dom c.call (tripletSnapshot E.base.dom c).1).act a).pre ↔ _
      unfold updatePre
      simp only [setAct_act]
      by_cases ha : a = c.call.name
      · subst ha
        rw [if_pos rfl, hcomp]
        simp only [Finset.mem_filter]
        rw [h.pre _ haD]
        have e : liftCall E.base.dom c.call (tripletSnapshot E.base.dom c).1 = obsPrev D c := obsPrev_static h.static c
        rw [e]
        constructor
        · rintro ⟨⟨h1, h2⟩, h3⟩
          refine ⟨by simp, fun c' hc' => ?_⟩
          rcases List.mem_append.mp hc' with k | k
          · exact h2 c' k
          · simp at k; subst k; exact h3
        · rintro ⟨_, h2⟩
          exact ⟨⟨hne, fun c' hc' => h2 c' (by simp [hc'])⟩, h2 c (by simp)⟩
      · rw [if_neg ha, hcomps a ha]; exact h.pre a haD l
    · intro a haD
      show ((updatePre E.base.dom c.call (tripletSnapshot E.base.dom c).1).act a).eff = ∅
      unfold updatePre
      simp only [setAct_act]
      by_cases ha : a = c.call.name
      · subst ha; rw [if_pos rfl]; exact h.eff _ haD
      · rw [if_neg ha]; exact h.eff a haD
  · rw [if_neg ho] at hstep
    have hE := Except.ok.inj hstep
    subst hE
    have hne : compsOf hs c.call.name = [] := by
      by_contra k; exact ho ((h.observed _).mpr k)
    have hs1 : SameStatic D (addNewPre E.base.dom c.call (tripletSnapshot E.base.dom c).1) :=
      h.static.trans (by unfold addNewPre; exact sameStatic_setAct rfl)
    obtain ⟨k1, k2⟩ := hcl (E.addNewAction c.call (tripletSnapshot E.base.dom c).1).1 hs1 rfl rfl
    refine ⟨hs1, h.policy, h.safe, hknown, ?_, ?_, ?_, ?_, k1, k2⟩
    · show (E.base.observed ++ [c.call.name]).Nodup
      rw [List.nodup_append]
      refine ⟨h.nodup, by simp, ?_⟩
      intro a ha b hb
      simp at hb; subst hb; rintro rfl; exact ho ha
    · intro a
      show a ∈ E.base.observed ++ [c.call.name] ↔ _
      by_cases ha : a = c.call.name
      · subst ha; rw [hcomp]; simp
      · rw [hcomps a ha, ← h.observed a]; simp [ha]
    · intro a haD l
      show l ∈ ((addNewPre E.base.dom c.call (tripletSnapshot E.base.dom c).1).act a).pre ↔ _
      unfold addNewPre
      simp only [setAct_act]
      by_cases ha : a = c.call.name
      · subst ha
        rw [if_pos rfl, hcomp, hne]
        simp only [Finset.mem_union]
        rw [h.pre _ haD, hne]
        have e : liftCall E.base.dom c.call (tripletSnapshot E.base.dom c).1 = obsPrev D c := obsPrev_static h.static c
        rw [e]; simp
      · rw [if_neg ha, hcomps a ha]; exact h.pre a haD l
    · intro a haD
      show ((addNewPre E.base.dom c.call (tripletSnapshot E.base.dom c).1).act a).eff = ∅
      unfold addNewPre
      simp only [setAct_act]
      by_cases ha : a = c.call.name
      · subst ha; rw [if_pos rfl]; exact h.eff _ haD
      · rw [if_neg ha]; exact h.eff a haD

theorem EInv.fold {D : Domain} {p : Policy} (cs : List Component) {hs : List Component} {E E' : Esam}
    (h : EInv D p hs E) (hf : cs.foldlM Esam.handleFixed E = .ok E') : EInv D p (hs ++ cs) E' := by
  induction cs generalizing hs E with
  | nil => simp only [List.foldlM_nil, pure, Except.pure, Except.ok.injEq] at hf; subst hf; simpa using h
  | cons c cs ih =>
    rw [List.foldlM_cons] at hf
    simp only [Bind.bind, Except.bind] at hf
    split at hf
    · cases hf
    · rename_i E1 h1
      have := ih (h.step h1) hf
      simpa using this

theorem fold_ok {D : Domain} {p : Policy} (cs : List Component) {hs : List Component} {E : Esam}
    (h : EInv D p hs E) (hk : ∀ c ∈ cs, c.call.name ∈ D.names) : ∃ E', cs.foldlM Esam.handleFixed E = .ok E' := by
  induction cs generalizing hs E with
  | nil => exact ⟨E, rfl⟩
  | cons c cs ih =>
    have : ∃ E1, E.handleFixed c = .ok E1 := by
      unfold Esam.handleFixed
      rw [if_neg (by rw [h.static.names, not_not]; exact hk c (by simp))]
      simp only
      split
      · exact ⟨_, rfl⟩
      · exact ⟨_, rfl⟩
    obtain ⟨E1, h1⟩ := this
    obtain ⟨E', h2⟩ := ih (h.step h1) (fun c' hc' => hk c' (by simp [hc']))
    refine ⟨E', ?_⟩
    rw [List.foldlM_cons]
    simp only [Bind.bind, Except.bind, h1]
    exact h2

/-! #### Building the actions -/

/-- What the construction of one observed action gives. -/
structure Chosen (C : Finset (Finset Lit)) (forgotten pre : Finset Lit) (P : Finset Lit) : Prop where
  model : P ∈ proxyModels pre (effFormula C forgotten)
  only : ∀ Q ∈ proxyModels pre (effFormula C forgotten), Q = P

theorem esamConstruct_spec {E E' : Esam} {a : String} (h : E.constructAction a = .ok E') :
    ∃ P, Chosen (E.clauses a) (E.cannotBe a) (E.base.dom.act a).pre P ∧
      E' = { E with base := { E.base with
        dom := E.base.dom.setAct a { E.base.dom.act a with
          pre := (E.base.dom.act a).pre ∪ (formulaVars (effFormula (E.clauses a) (E.cannotBe a)) \ P), eff := P } } } := by
  unfold Esam.constructAction at h
  simp only at h
  split at h
  · cases h
  · rename_i hc
    obtain ⟨P, hP⟩ := Finset.card_eq_one.mp hc
    refine ⟨P, ⟨by rw [hP]; simp, by rw [hP]; simp⟩, ?_⟩
    rw [hP] at h
    simpa using (Except.ok.inj h).symm
  · cases h

theorem esamConstruct_ok {E : Esam} {a : String} {P : Finset Lit}
    (h : Chosen (E.clauses a) (E.cannotBe a) (E.base.dom.act a).pre P) : ∃ E', E.constructAction a = .ok E' := by
  have : (proxyModels (E.base.dom.act a).pre (effFormula (E.clauses a) (E.cannotBe a))).card = 1 := by
    rw [Finset.card_eq_one]
    refine ⟨P, ?_⟩
    ext Q
    rw [Finset.mem_singleton]
    exact ⟨h.only Q, fun e => e ▸ h.model⟩
  unfold Esam.constructAction
  simp only [this]
  exact ⟨_, rfl⟩

theorem esamConstruct_fold {as : List String} (hn : as.Nodup) {E E' : Esam}
    (h : as.foldlM (fun E a => Esam.constructAction E a) E = .ok E') :
    SameStatic E.base.dom E'.base.dom ∧ E'.base.observed = E.base.observed ∧ E'.base.safe = E.base.safe ∧
    E'.base.policy = E.base.policy ∧ E'.clauses = E.clauses ∧ E'.cannotBe = E.cannotBe ∧
    (∀ a ∉ as, E'.base.dom.act a = E.base.dom.act a) ∧
    ∀ a ∈ as, ∃ P, Chosen (E.clauses a) (E.cannotBe a) (E.base.dom.act a).pre P ∧
      (E'.base.dom.act a).eff = P ∧
      (E'.base.dom.act a).pre = (E.base.dom.act a).pre ∪ (formulaVars (effFormula (E.clauses a) (E.cannotBe a)) \ P) := by
  induction as generalizing E with
  | nil =>
    simp only [List.foldlM_nil, pure, Except.pure, Except.ok.injEq] at h; subst h
    exact ⟨SameStatic.refl _, rfl, rfl, rfl, rfl, rfl, fun _ _ => rfl, by simp⟩
  | cons x xs ih =>
    rw [List.nodup_cons] at hn
    rw [List.foldlM_cons] at h
    simp only [Bind.bind, Except.bind] at h
    split at h
    · cases h
    · rename_i E1 h1
      obtain ⟨P, hP, rfl⟩ := esamConstruct_spec h1
      obtain ⟨i1, i2, i3, i4, i5, i6, i7, i8⟩ := ih hn.2 h
      refine ⟨SameStatic.trans ?_ i1, i2, i3, i4, i5, i6, ?_, ?_⟩
      · exact sameStatic_setAct rfl
      · intro a ha
        rw [List.mem_cons, not_or] at ha
        rw [i7 a ha.2]
        show (E.base.dom.setAct x _).act a = _
        rw [setAct_act, if_neg ha.1]
      · intro a ha
        by_cases hax : a = x
        · subst hax
          refine ⟨P, hP, ?_⟩
          rw [i7 a hn.1]
          constructor
          · show ((E.base.dom.setAct a _).act a).eff = P
            rw [setAct_act, if_pos rfl]
          · show ((E.base.dom.setAct a _).act a).pre = _
            rw [setAct_act, if_pos rfl]
        · have hax' : a ∈ xs := by simpa [hax] using ha
          obtain ⟨Q, q1, q2, q3⟩ := i8 a hax'
          have e : ∀ m, (E.base.dom.setAct x m).act a = E.base.dom.act a := by
            intro m; rw [setAct_act, if_neg hax]
          simp only [e] at q1 q3
          exact ⟨Q, q1, q2, q3⟩

theorem esamConstructs_ok {as : List String} (hn : as.Nodup) {E : Esam}
    (h : ∀ a ∈ as, ∃ P, Chosen (E.clauses a) (E.cannotBe a) (E.base.dom.act a).pre P) :
    ∃ E', as.foldlM (fun E a => Esam.constructAction E a) E = (.ok E' : Except Err Esam) := by
  induction as generalizing E with
  | nil => exact ⟨E, rfl⟩
  | cons x xs ih =>
    rw [List.nodup_cons] at hn
    obtain ⟨P, hP⟩ := h x (by simp)
    obtain ⟨E1, h1⟩ := esamConstruct_ok hP
    obtain ⟨Q, _, e⟩ := esamConstruct_spec h1
    have : ∀ a ∈ xs, ∃ P, Chosen (E1.clauses a) (E1.cannotBe a) (E1.base.dom.act a).pre P := by
      intro a ha
      obtain ⟨R, hR⟩ := h a (by simp [ha])
      refine ⟨R, ?_⟩
      have hax : a ≠ x := by rintro rfl; exact hn.1 ha
      rw [e]
      simp only [setAct_act, if_neg hax]
      exact hR
    obtain ⟨E', h2⟩ := ih hn.2 this
    refine ⟨E', ?_⟩
    rw [List.foldlM_cons]
    simp only [Bind.bind, Except.bind, h1]
    exact h2

end Model

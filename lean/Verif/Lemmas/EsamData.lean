import Verif.Lemmas.EsamLearn

/-! The clauses of the extended SAM learner on real data, and on data with distinct objects. -/
namespace Model
open Spec

variable {D : Domain} {truth : String → Schema} {c : Component}

/-- A literal that became true comes from a true effect. -/
theorem change_cause {T : Finset Lit} {ρ : String → String} {s : State} {g : Lit}
    (h1 : holds (successor T ρ s) g) (h2 : ¬ holds s g) : ∃ l ∈ T, ground ρ l = g := by
  unfold holds at h1 h2
  rw [mem_successor] at h1
  obtain ⟨n, args, p⟩ := g
  cases p with
  | true =>
    simp only [Lit.atom, true_iff] at h1 h2
    rcases h1 with h | ⟨m, hm, hmp, e⟩
    · exact absurd h.1 h2
    · refine ⟨m, hm, ?_⟩
      obtain ⟨mn, ma, mp⟩ := m
      simp only at hmp; subst hmp
      simp only [Lit.atom, ground, Atom.mk.injEq] at e
      simp [ground, e.1, e.2]
  | false =>
    simp only [Lit.atom, Bool.false_eq_true, false_iff, not_not] at h1 h2
    by_contra hno
    apply h1
    left
    refine ⟨h2, ?_⟩
    rintro ⟨m, hm, hmp, e⟩
    apply hno
    refine ⟨m, hm, ?_⟩
    obtain ⟨mn, ma, mp⟩ := m
    simp only at hmp; subst hmp
    simp only [Lit.atom, ground, Atom.mk.injEq] at e
    simp [ground, e.1, e.2]

theorem mem_obsChange {g : Lit} : g ∈ obsChange D c ↔
    TypedLit D.preds (callObjects D (D.act c.call.name).sig c.call.params ++ D.consts) g ∧ holds c.next g ∧ ¬ holds c.prev g :=
  mem_extractEffects

theorem mem_effClause (hw : WFSig D.consts (D.act c.call.name).sig) (hlen : c.call.params.length = (D.act c.call.name).sig.length)
    {g l : Lit} (hg : g.args.Nodup) : l ∈ effClause D c.call g ↔
      ground (subst (Sig.names (D.act c.call.name).sig) c.call.params) l = g ∧ l.args.Nodup ∧
        ∀ x ∈ l.args, x ∈ Sig.names (D.act c.call.name).sig ∨ x ∈ Sig.names D.consts := by
  unfold effClause
  rw [List.mem_toFinset]
  exact mem_matchLits hw.params hw.disj hlen (hg.filter _)

theorem substOf_eq (hT : WFTruth D truth) (hn : c.call.name ∈ D.names) :
    substOf truth c = subst (Sig.names (D.act c.call.name).sig) c.call.params := by
  unfold substOf; rw [hT.params _ hn]

/-- Every clause of a real transition contains a true effect that explains the change. -/
theorem clause_true (hD : WFDomain D) (hT : WFTruth D truth) (hn : c.call.name ∈ D.names) (he : Explained truth c)
    {g : Lit} (hg : g ∈ obsChange D c) :
    ∃ l ∈ effClause D c.call g, l ∈ (truth c.call.name).eff ∧ ground (substOf truth c) l = g := by
  obtain ⟨ht, h1, h2⟩ := mem_obsChange.mp hg
  rw [he.next] at h1
  obtain ⟨l, hl, e⟩ := change_cause h1 h2
  have hlen : c.call.params.length = (D.act c.call.name).sig.length := by rw [he.arity, hT.params _ hn]
  refine ⟨l, (mem_effClause (hD.sigs _ hn) hlen ht.nodup).mpr ⟨by rw [← substOf_eq hT hn]; exact e, ?_, ?_⟩, hl, e⟩
  · exact ((hT.wf _ hn).eff l hl).nodup
  · intro x hx
    have := typed_sub ((hT.wf _ hn).eff l hl) x hx
    rwa [hT.params _ hn, names_append, List.mem_append] at this

/-! #### Formulas -/

theorem mem_effFormula {C : Finset (Finset Lit)} {F : Finset Lit} {d : Finset Lit} :
    d ∈ effFormula C F ↔ (d ∈ C ∧ Disjoint d F) ∧ ∀ e ∈ C, Disjoint e F → e ⊆ d → e = d := by
  unfold effFormula minimalClauses
  simp only [Finset.mem_filter, and_imp]

theorem mem_formulaVars {M : Finset (Finset Lit)} {l : Lit} : l ∈ formulaVars M ↔ ∃ d ∈ M, l ∈ d := by
  unfold formulaVars; simp

theorem mem_formulaModels {M : Finset (Finset Lit)} {P : Finset Lit} :
    P ∈ formulaModels M ↔ P ⊆ formulaVars M ∧ ∀ d ∈ M, ∃ l ∈ d, l ∈ P := by
  unfold formulaModels
  rw [Finset.mem_filter, Finset.mem_powerset]
  simp only [Finset.not_disjoint_iff]

theorem mem_proxyModels {pre : Finset Lit} {M : Finset (Finset Lit)} {P : Finset Lit} :
    P ∈ proxyModels pre M ↔ (P ⊆ formulaVars M ∧ ∀ d ∈ M, ∃ l ∈ d, l ∈ P) ∧
      ∀ l ∈ formulaVars M, l ∉ P → l.neg ∉ pre := by
  unfold proxyModels isContradiction
  rw [Finset.mem_filter, mem_formulaModels, decide_eq_false_iff_not]
  simp only [Finset.mem_sdiff, not_exists, not_and, and_imp]

/-- Every set of clauses has a minimal one below each. -/
theorem exists_minimal {C : Finset (Finset Lit)} {F d : Finset Lit} (hd : d ∈ C) (hF : Disjoint d F) :
    ∃ e ∈ effFormula C F, e ⊆ d := by
  induction d using Finset.strongInduction with
  | H d ih =>
    by_cases hm : ∀ e ∈ C, Disjoint e F → e ⊆ d → e = d
    · exact ⟨d, mem_effFormula.mpr ⟨⟨hd, hF⟩, hm⟩, subset_rfl⟩
    · push Not at hm
      obtain ⟨e, he, heF, hed, hne⟩ := hm
      obtain ⟨e', h1, h2⟩ := ih e (Finset.ssubset_iff_subset_ne.mpr ⟨hed, hne⟩) he heF
      exact ⟨e', h1, h2.trans hed⟩

/-- Clauses with one literal each, none forgotten: the formula has one model, its variables. -/
theorem chosen_singletons {C : Finset (Finset Lit)} {F pre E : Finset Lit}
    (hC : ∀ d, d ∈ C ↔ ∃ l ∈ E, d = {l}) (hF : ∀ l ∈ E, l ∉ F) :
    formulaVars (effFormula C F) = E ∧ Chosen C F pre E := by
  have hM : ∀ d, d ∈ effFormula C F ↔ ∃ l ∈ E, d = {l} := by
    intro d
    rw [mem_effFormula]
    constructor
    · rintro ⟨⟨h, _⟩, _⟩; exact (hC d).mp h
    · rintro ⟨l, hl, rfl⟩
      refine ⟨⟨(hC _).mpr ⟨l, hl, rfl⟩, by rw [Finset.disjoint_singleton_left]; exact hF l hl⟩, ?_⟩
      intro e he _ hs
      obtain ⟨m, hm, rfl⟩ := (hC e).mp he
      rw [Finset.singleton_subset_singleton] at hs
      rw [hs]
  have hV : formulaVars (effFormula C F) = E := by
    ext l
    rw [mem_formulaVars]
    constructor
    · rintro ⟨d, hd, hl⟩
      obtain ⟨m, hm, rfl⟩ := (hM d).mp hd
      rw [Finset.mem_singleton] at hl; rw [hl]; exact hm
    · intro hl; exact ⟨{l}, (hM _).mpr ⟨l, hl, rfl⟩, by simp⟩
  refine ⟨hV, ?_, ?_⟩
  · rw [mem_proxyModels, hV]
    refine ⟨⟨subset_rfl, fun d hd => ?_⟩, fun l h1 h2 => absurd h1 h2⟩
    obtain ⟨m, hm, rfl⟩ := (hM d).mp hd
    exact ⟨m, by simp, hm⟩
  · intro Q hQ
    rw [mem_proxyModels, hV] at hQ
    apply le_antisymm hQ.1.1
    intro l hl
    obtain ⟨m, hm, hmQ⟩ := hQ.1.2 {l} ((hM _).mpr ⟨l, hl, rfl⟩)
    rw [Finset.mem_singleton] at hm; rwa [← hm]

/-! #### Distinct objects -/

theorem effClause_good (hw : WFSig D.consts (D.act c.call.name).sig)
    (hg : GoodCall D.consts (D.act c.call.name).sig c.call.params)
    (hne : ∀ g ∈ obsChange D c, ∃ l, l ∈ effClause D c.call g) (cl : Finset Lit) :
    (∃ g ∈ obsChange D c, cl = effClause D c.call g) ↔ ∃ l ∈ obsEff D c, cl = {l} := by
  have key : ∀ g l, g ∈ obsChange D c → l ∈ effClause D c.call g → l ∈ obsEff D c ∧ effClause D c.call g = {l} := by
    intro g l hgc hl
    obtain ⟨ht, h1, h2⟩ := mem_obsChange.mp hgc
    obtain ⟨e, hn, hs⟩ := (mem_effClause hw hg.len ht.nodup).mp hl
    constructor
    · rw [obsEff_iff hw hg, e]
      refine ⟨?_, h1, h2⟩
      rw [← typed_ground hw hg hs, e]; exact ht
    · ext m
      rw [Finset.mem_singleton, mem_effClause hw hg.len ht.nodup]
      constructor
      · rintro ⟨e', _, hs'⟩
        have hinj := subst_injective hw hg
        have hnm : m.name = l.name ∧ m.args = l.args := by
          apply atom_inj (ρ := subst (Sig.names (D.act c.call.name).sig) c.call.params)
            (S := fun x => x ∈ Sig.names ((D.act c.call.name).sig ++ D.consts)) (fun x y hx hy => hinj x hx y hy)
          · intro x hx; rw [names_append, List.mem_append]; exact hs' x hx
          · intro x hx; rw [names_append, List.mem_append]; exact hs x hx
          · rw [e, e']
        have hp : m.pos = l.pos := by
          have := congrArg Lit.pos (e'.trans e.symm)
          simpa using this
        obtain ⟨n1, a1, p1⟩ := m
        obtain ⟨n2, a2, p2⟩ := l
        simp only at hnm hp
        simp [hnm.1, hnm.2, hp]
      · rintro rfl; exact ⟨e, hn, hs⟩
  constructor
  · rintro ⟨g, hgc, rfl⟩
    obtain ⟨ht, h1, h2⟩ := mem_obsChange.mp hgc
    obtain ⟨l, hl⟩ := hne g hgc
    obtain ⟨k1, k2⟩ := key g l hgc hl
    exact ⟨l, k1, k2⟩
  · rintro ⟨l, hl, rfl⟩
    have hl' := hl
    rw [obsEff_iff hw hg] at hl'
    have hs : ∀ x ∈ l.args, x ∈ Sig.names (D.act c.call.name).sig ∨ x ∈ Sig.names D.consts := by
      intro x hx; have := typed_sub hl'.1 x hx; rwa [names_append, List.mem_append] at this
    have hgc : ground (subst (Sig.names (D.act c.call.name).sig) c.call.params) l ∈ obsChange D c :=
      mem_obsChange.mpr ⟨(typed_ground hw hg hs).mpr hl'.1, hl'.2.1, hl'.2.2⟩
    refine ⟨_, hgc, (key _ l hgc ?_).2.symm⟩
    exact (mem_effClause hw hg.len (mem_obsChange.mp hgc).1.nodup).mpr ⟨rfl, hl'.1.nodup, hs⟩

/-- The clauses of an action on data with distinct objects: one for each observed effect. -/
theorem clauses_good {p : Policy} {hs : List Component} {E : Esam} (hD : WFDomain D) (hT : WFTruth D truth)
    (hI : EInv D p hs E) (hd : DistinctData D truth hs) (a : String) (cl : Finset Lit) :
    cl ∈ E.clauses a ↔ ∃ l, (∃ c ∈ compsOf hs a, l ∈ obsEff D c) ∧ cl = {l} := by
  have key : ∀ c ∈ compsOf hs a, ∀ cl, (∃ g ∈ obsChange D c, cl = effClause D c.call g) ↔ ∃ l ∈ obsEff D c, cl = {l} := by
    intro c hc cl
    have hch := (mem_compsOf.mp hc).1
    have hn := hI.known c hch
    apply effClause_good (hD.sigs _ hn) (goodCall_of hT hn (hd.explained c hch) (hd.nodup c hch) (hd.noConst c hch))
    intro g hg
    obtain ⟨l, hl, _⟩ := clause_true hD hT hn (hd.explained c hch) hg
    exact ⟨l, hl⟩
  rw [hI.clauses]
  constructor
  · rintro ⟨c, hc, k⟩
    obtain ⟨l, hl, e⟩ := (key c hc cl).mp k
    exact ⟨l, ⟨c, hc, hl⟩, e⟩
  · rintro ⟨l, ⟨c, hc, hl⟩, e⟩
    exact ⟨c, hc, (key c hc cl).mpr ⟨l, hl, e⟩⟩

/-- A forgotten representation is a literal over call objects and constants. -/
theorem forgotten_not_eff {p : Policy} {hs : List Component} {E : Esam} (hD : WFDomain D) (hT : WFTruth D truth)
    (hI : EInv D p hs E) (hd : DistinctData D truth hs) {a : String} {l : Lit} (hl : l ∈ (truth a).eff) :
    l ∉ E.cannotBe a := by
  rw [hI.cannotBe]
  rintro ⟨c, hc, hg⟩
  obtain ⟨hch, rfl⟩ := mem_compsOf.mp hc
  have hn := hI.known c hch
  obtain ⟨ht, hh⟩ := mem_stateSnapshot.mp hg
  have he := hd.explained c hch
  have hargs : ∀ x ∈ l.args, x ∉ Sig.names (D.act c.call.name).sig := by
    intro x hx hxs
    have := typed_sub ht x (by simpa [Lit.neg] using hx)
    rw [names_append, List.mem_append] at this
    have hcn : x ∉ Sig.names D.consts := (hD.sigs _ hn).disj x hxs
    rcases this with k | k
    · unfold callObjects at k
      rw [names_append, List.mem_append] at k
      rcases k with k | k
      · simp only [Sig.names, List.mem_map] at k
        obtain ⟨q, hq, rfl⟩ := k
        exact hd.fresh c hch _ (List.of_mem_zip hq).1 hxs
      · exact hcn k
    · exact hcn k
  have hgr : ground (subst (Sig.names (D.act c.call.name).sig) c.call.params) l = l := by
    obtain ⟨n, as, ps⟩ := l
    simp only [ground, Lit.mk.injEq, true_and, and_true]
    conv_rhs => rw [← List.map_id as]
    apply List.map_congr_left
    intro x hx
    exact bind_of_not_mem (hargs x hx)
  have hf := (fact_of hn (hD.sigs _ hn) hT he (hd.nodup c hch) (hd.noConst c hch)).effNext l hl
  rw [obsNext_iff (hD.sigs _ hn) (goodCall_of hT hn he (hd.nodup c hch) (hd.noConst c hch)), hgr] at hf
  exact holds_neg.mp hh hf.2

/-- The effects seen in the data. -/
noncomputable def seenEff (D : Domain) (hs : List Component) (a : String) : Finset Lit :=
  ((compsOf hs a).map (obsEff D)).foldr (· ∪ ·) ∅

theorem mem_seenEff {hs : List Component} {a : String} {l : Lit} :
    l ∈ seenEff D hs a ↔ ∃ c ∈ compsOf hs a, l ∈ obsEff D c := by
  unfold seenEff
  induction compsOf hs a with
  | nil => simp
  | cons c cs ih => simp [ih]

theorem seenEff_sound {hs : List Component} (hD : WFDomain D) (hT : WFTruth D truth)
    (hk : ∀ c ∈ hs, c.call.name ∈ D.names) (hd : DistinctData D truth hs) {a : String} : seenEff D hs a ⊆ (truth a).eff := by
  intro l hl
  obtain ⟨c, hc, h⟩ := mem_seenEff.mp hl
  obtain ⟨hch, rfl⟩ := mem_compsOf.mp hc
  have hn := hk c hch
  exact (fact_of hn (hD.sigs _ hn) hT (hd.explained c hch) (hd.nodup c hch) (hd.noConst c hch)).effSound l h

theorem chosen_good {p : Policy} {hs : List Component} {E : Esam} (hD : WFDomain D) (hT : WFTruth D truth)
    (hI : EInv D p hs E) (hd : DistinctData D truth hs) (a : String) (pre : Finset Lit) :
    formulaVars (effFormula (E.clauses a) (E.cannotBe a)) = seenEff D hs a ∧
    Chosen (E.clauses a) (E.cannotBe a) pre (seenEff D hs a) := by
  apply chosen_singletons
  · intro d
    rw [clauses_good hD hT hI hd]
    simp only [mem_seenEff]
  · intro l hl
    exact forgotten_not_eff hD hT hI hd (seenEff_sound hD hT hI.known hd hl)

/-- On data with distinct objects the learner returns. -/
theorem learnFixed_ok {p : Policy} {obs : List (List Component)} (hD : WFDomain D) (hT : WFTruth D truth)
    (hk : ∀ c ∈ obs.flatten, c.call.name ∈ D.names) (hd : DistinctData D truth obs.flatten) :
    ∃ E' rep, (Esam.init D p).learnFixed obs = .ok (E', rep) := by
  obtain ⟨E1, h1⟩ := fold_ok obs.flatten (EInv.init hD p) hk
  have hI : EInv D p obs.flatten E1 := by simpa using (EInv.init hD p).fold _ h1
  obtain ⟨b1, b2, b3, b4, b5, b6, b7, b8⟩ := before_construct hD hI
  have hnd : (E1.base.applyPolicy.handleUnobserved).observed.Nodup := by rw [b2]; exact hI.nodup
  obtain ⟨E2, h2⟩ := esamConstructs_ok (E := { E1 with base := E1.base.applyPolicy.handleUnobserved }) hnd
    (fun a _ => ⟨_, (chosen_good hD hT hI hd a _).2⟩)
  refine ⟨E2, E2.base.report, ?_⟩
  unfold Esam.learnFixed Esam.learnWith
  have hc : ({ Esam.init D p with base := (Esam.init D p).base.completeMissing } : Esam) = Esam.init D p := by
    have : (Esam.init D p).base.completeMissing = (Esam.init D p).base := complete_id (L := (Esam.init D p).base) (init_sigs D p true)
    rw [this]
  simp only [hc, Bind.bind, Except.bind, h1, Esam.construct]
  rw [h2]

end Model

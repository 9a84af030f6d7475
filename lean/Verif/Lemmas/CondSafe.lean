import Verif.Lemmas.CondLearn

/-! Conditional SAM against the true action. -/
namespace Model
open Spec

/-- The returned action. -/
def CondLearner.action (K : CondLearner) (a : String) : LearnedAction :=
  ⟨(K.base.dom.act a).pre, (K.base.dom.act a).ineq, K.conds a, (K.base.dom.act a).eff, K.condEffs a⟩

section
variable {D : Domain} {n : Nat} {truth : String → CondSchema} {cs : List Component} {a : String}

/-- Every call has the right number of different objects that are not constants. -/
def CallsOK (D : Domain) (cs : List Component) : Prop := ∀ c ∈ cs, GoodCall D.consts (D.act c.call.name).sig c.call.params

theorem _root_.Spec.CondData.calls (hG : CondData D truth cs) : CallsOK D cs := fun c hc =>
  ⟨hG.arity c hc, hG.distinct c hc, hG.noConst c hc⟩

section
variable (hD : WFDomain D) (hG : CallsOK D cs) (ha : a ∈ D.names)
include hD hG ha

theorem mem_obsPrev {c : Component} (hc : c ∈ of cs a) {l : Lit} :
    l ∈ obsPrev D c ↔ TypedLit D.preds ((D.act a).sig ++ D.consts) l ∧ before D c l := by
  obtain ⟨h1, rfl⟩ := mem_of.mp hc
  exact obsPrev_iff (hD.sigs _ ha) (hG _ h1)

theorem mem_obsNext {c : Component} (hc : c ∈ of cs a) {l : Lit} :
    l ∈ obsNext D c ↔ TypedLit D.preds ((D.act a).sig ++ D.consts) l ∧ after D c l := by
  obtain ⟨h1, rfl⟩ := mem_of.mp hc
  exact obsNext_iff (hD.sigs _ ha) (hG _ h1)

theorem mem_obsEff {c : Component} (hc : c ∈ of cs a) {l : Lit} :
    l ∈ obsEff D c ↔ TypedLit D.preds ((D.act a).sig ++ D.consts) l ∧ after D c l ∧ ¬ before D c l := by
  obtain ⟨h1, rfl⟩ := mem_of.mp hc
  exact obsEff_iff (hD.sigs _ ha) (hG _ h1)

omit hD hG ha in
theorem before_neg {c : Component} {l : Lit} : before D c l.neg ↔ ¬ before D c l := by
  unfold before; rw [← holds_neg]; rfl

omit hD hG ha in
theorem after_neg {c : Component} {l : Lit} : after D c l.neg ↔ ¬ after D c l := by
  unfold after; rw [← holds_neg]; rfl

theorem surv_iff {l : Lit} (hl : TypedLit D.preds ((D.act a).sig ++ D.consts) l) {A : Finset Lit}
    (hA : ∀ x ∈ A, TypedLit D.preds ((D.act a).sig ++ D.consts) x) :
    (∀ c ∈ of cs a, Surv D c l A) ↔ Explains D cs a A l := by
  have key : ∀ c ∈ of cs a, (Surv D c l A ↔
      ((∀ x ∈ A, before D c x) → after D c l) ∧ (¬ before D c l → after D c l → ∀ x ∈ A, before D c x)) := by
    intro c hc
    unfold Surv
    rw [mem_obsNext hD hG ha hc, mem_obsEff hD hG ha hc, after_neg]
    have h1 : A ⊆ obsPrev D c ↔ ∀ x ∈ A, before D c x :=
      ⟨fun h x hx => ((mem_obsPrev hD hG ha hc).mp (h hx)).2, fun h x hx => (mem_obsPrev hD hG ha hc).mpr ⟨hA x hx, h x hx⟩⟩
    have h2 : (∀ x ∈ A, x.neg ∉ obsPrev D c) ↔ ∀ x ∈ A, before D c x := by
      refine forall₂_congr fun x hx => ?_
      rw [mem_obsPrev hD hG ha hc, before_neg]
      have := typed_neg.mpr (hA x hx)
      tauto
    rw [h1, h2]
    have := typed_neg.mpr hl
    tauto
  constructor
  · intro h c hc e; exact (key c (mem_of.mpr ⟨hc, e⟩)).mp (h c (mem_of.mpr ⟨hc, e⟩))
  · intro h c hc; exact (key c hc).mpr (h c (mem_of.mp hc).1 (mem_of.mp hc).2)

theorem mem_pre {P : Finset Lit} (hP : ∀ l, l ∈ P ↔ ∀ c ∈ of cs a, l ∈ obsPrev D c) (hobs : ∃ c ∈ cs, c.call.name = a) {l : Lit} :
    l ∈ P ↔ TypedLit D.preds ((D.act a).sig ++ D.consts) l ∧ AlwaysBefore D cs a l := by
  rw [hP]
  constructor
  · intro h
    obtain ⟨c, hc, e⟩ := hobs
    exact ⟨((mem_obsPrev hD hG ha (mem_of.mpr ⟨hc, e⟩)).mp (h c (mem_of.mpr ⟨hc, e⟩))).1,
      fun c hc e => ((mem_obsPrev hD hG ha (mem_of.mpr ⟨hc, e⟩)).mp (h c (mem_of.mpr ⟨hc, e⟩))).2⟩
  · intro h c hc
    exact (mem_obsPrev hD hG ha hc).mpr ⟨h.1, h.2 c (mem_of.mp hc).1 (mem_of.mp hc).2⟩

theorem mem_obs {O : Finset Lit} (hO : ∀ l, l ∈ O ↔ ∃ c ∈ of cs a, l ∈ obsEff D c) {l : Lit} :
    l ∈ O ↔ TypedLit D.preds ((D.act a).sig ++ D.consts) l ∧ Became D cs a l := by
  rw [hO]
  constructor
  · rintro ⟨c, hc, h⟩
    obtain ⟨h1, h2, h3⟩ := (mem_obsEff hD hG ha hc).mp h
    exact ⟨h1, c, (mem_of.mp hc).1, (mem_of.mp hc).2, h3, h2⟩
  · rintro ⟨h1, c, hc, e, h2, h3⟩
    exact ⟨c, mem_of.mpr ⟨hc, e⟩, (mem_obsEff hD hG ha (mem_of.mpr ⟨hc, e⟩)).mpr ⟨h1, h3, h2⟩⟩

end

/-- The lifted view of what remained possible. -/
structure View (add : Cond → Cond → Cond) (ord : LitOrd) (D : Domain) (n : Nat) (cs : List Component) (K : CondLearner) (a : String)
    (d : DepSet) (O : Finset Lit) : Prop where
  pre : ∀ l, l ∈ (K.base.dom.act a).pre ↔ TypedLit D.preds ((D.act a).sig ++ D.consts) l ∧ AlwaysBefore D cs a l
  obs : ∀ l, l ∈ O ↔ TypedLit D.preds ((D.act a).sig ++ D.consts) l ∧ Became D cs a l
  ok : d.OK
  some : ∀ l, TypedLit D.preds ((D.act a).sig ++ D.consts) l → ¬ AlwaysBefore D cs a l → ∃ cands, d.possible.lookup l = some cands
  cand : ∀ l cands, d.possible.lookup l = Option.some cands →
    TypedLit D.preds ((D.act a).sig ++ D.consts) l ∧ ¬ AlwaysBefore D cs a l ∧ ∀ A, A ∈ cands ↔ Possible D cs a n l A
  built : Built add ord d (K.base.dom.act a).pre O (K.base.dom.act a).eff (K.conds a) (K.condEffs a)

theorem view_of {add : Cond → Cond → Cond} {ord : LitOrd} (ho : EnumNodup ord) (hD : WFDomain D) (hG : CallsOK D cs)
    {K : CondLearner} (ha : a ∈ D.names) (hobs : ∃ c ∈ cs, c.call.name = a) (h : CondOutcome add ord D n cs K a) :
    ∃ d obs, View add ord D n cs K a d obs := by
  obtain ⟨d, obs, h1, h2, h3, h4⟩ := h.built
  have hpre := fun l => mem_pre hD hG ha h.pre hobs (l := l)
  have hvoc := fun l => liftedVocab_typed (D := D) (hD.sigs a ha) (l := l)
  refine ⟨d, obs, hpre, fun l => mem_obs hD hG ha h1, h2, ?_, ?_, h4⟩
  · intro l hl hnl
    rw [h3 l, if_neg (by rw [hpre]; tauto), if_pos ((hvoc l).mpr hl)]
    exact ⟨_, rfl⟩
  · intro l cands hlk
    rw [h3] at hlk
    split at hlk
    · simp at hlk
    · rename_i hnp
      split at hlk
      · rename_i hv
        have hl := (hvoc l).mp hv
        refine ⟨hl, fun hal => hnp ((hpre l).mpr ⟨hl, hal⟩), fun A => ?_⟩
        simp only [Option.some.injEq] at hlk
        rw [← hlk]
        simp only [List.mem_filter, mem_createCnf ho, decide_eq_true_eq]
        constructor
        · rintro ⟨⟨⟨g1, g2, g3⟩, g4⟩, g5⟩
          have hA : ∀ x ∈ A, TypedLit D.preds ((D.act a).sig ++ D.consts) x := fun x hx => (hvoc x).mp (g1 hx)
          exact ⟨g2, g3, hA, fun x hx hal => g5 x hx ((hpre x).mpr ⟨hA x hx, hal⟩), (surv_iff hD hG ha hl hA).mp g4⟩
        · intro g
          exact ⟨⟨⟨fun x hx => (hvoc x).mpr (g.typed x hx), g.ne, g.card⟩, (surv_iff hD hG ha hl g.typed).mpr g.explains⟩,
            fun x hx hp => g.fresh x hx ((hpre x).mp hp).2⟩
      · simp at hlk

section
variable (hD : WFDomain D) (hT : WFCondTruth D n truth) (hG : CondData D truth cs) (ha : a ∈ D.names)
include hD hT hG ha

theorem objSubst_inj {c : Component} (hc : c ∈ cs) (e : c.call.name = a) : Injective D.consts (D.act a).sig (objSubst D c) := by
  subst e; exact subst_injective (hD.sigs _ ha) (hG.calls _ hc)

omit hD hG in
theorem fired_args {ρ : String → String} {s : State} : ∀ l ∈ fired (truth a).effs ρ s, ∀ x ∈ l.args,
    x ∈ Sig.names ((D.act a).sig ++ D.consts) := by
  intro l hl x hx
  obtain ⟨e, he, _, hr⟩ := mem_fired.mp hl
  have := (hT.wf a ha).res e he l hr
  rw [hT.params a ha] at this
  exact typed_sub this x hx

/-- A true effect whose antecedent held holds afterwards. -/
theorem true_after {c : Component} (hc : c ∈ cs) (hn : c.call.name = a) {e : CondEff} (he : e ∈ (truth a).effs) {l : Lit}
    (hl : l ∈ e.res) (hb : ∀ x ∈ e.ante, before D c x) : after D c l := by
  have hinj := objSubst_inj hD hT hG ha hc hn
  have happ := hG.app c hc
  have hnext := hG.next c hc
  rw [hn] at happ hnext
  unfold after
  rw [hnext]
  refine holds_successor (S := fun x => x ∈ Sig.names ((D.act a).sig ++ D.consts)) (fun x y hx hy e => hinj x hx y hy e)
    (fired_args hT ha) ?_ (mem_fired.mpr ⟨e, he, hb, hl⟩)
  have := (hT.wf a ha).consistent (objSubst D c) c.prev
  rw [hT.params a ha] at this
  exact this hinj happ

/-- What became true is a true effect whose antecedent held. -/
theorem true_became {c : Component} (hc : c ∈ cs) (hn : c.call.name = a) {l : Lit}
    (hl : TypedLit D.preds ((D.act a).sig ++ D.consts) l) (h1 : ¬ before D c l) (h2 : after D c l) :
    ∃ e ∈ (truth a).effs, l ∈ e.res ∧ ∀ x ∈ e.ante, before D c x := by
  have hinj := objSubst_inj hD hT hG ha hc hn
  have hnext := hG.next c hc
  rw [hn] at hnext
  unfold after at h2
  rw [hnext] at h2
  have := eff_of_change (S := fun x => x ∈ Sig.names ((D.act a).sig ++ D.consts)) (fun x y hx hy e => hinj x hx y hy e)
    (fired_args hT ha) (typed_sub hl) h2 h1
  obtain ⟨e, he, hb, hr⟩ := mem_fired.mp this
  exact ⟨e, he, hr, hb⟩

/-- What the data say about the effects `A` of the action `a`. -/
structure CondFacts (D : Domain) (n : Nat) (cs : List Component) (a : String) (A : CondSchema) : Prop where
  pre : ∀ l ∈ A.pre, TypedLit D.preds ((D.act a).sig ++ D.consts) l
  ante : ∀ e ∈ A.effs, ∀ l ∈ e.ante, TypedLit D.preds ((D.act a).sig ++ D.consts) l
  res : ∀ e ∈ A.effs, ∀ l ∈ e.res, TypedLit D.preds ((D.act a).sig ++ D.consts) l
  bounded : ∀ e ∈ A.effs, e.ante.card ≤ n
  uniq : ∀ e ∈ A.effs, ∀ e' ∈ A.effs, ∀ l, l ∈ e.res → l ∈ e'.res → e.ante = e'.ante
  app : ∀ c ∈ cs, c.call.name = a → ∀ l ∈ A.pre, before D c l
  fires : ∀ c ∈ cs, c.call.name = a → ∀ e ∈ A.effs, ∀ l ∈ e.res, (∀ x ∈ e.ante, before D c x) → after D c l
  became : ∀ c ∈ cs, c.call.name = a → ∀ l, TypedLit D.preds ((D.act a).sig ++ D.consts) l → ¬ before D c l → after D c l →
    ∃ e ∈ A.effs, l ∈ e.res ∧ ∀ x ∈ e.ante, before D c x

theorem condFacts : CondFacts D n cs a (truth a) := by
  have hp := hT.params a ha
  have hw := hT.wf a ha
  refine ⟨?_, ?_, ?_, hw.bounded, hw.uniq, fun c hc hn l hl => ?_, fun c hc hn e he l hl h => true_after hD hT hG ha hc hn he hl h,
    fun c hc hn l hl h1 h2 => true_became hD hT hG ha hc hn hl h1 h2⟩
  · rw [← hp]; exact hw.pre
  · rw [← hp]; exact hw.ante
  · rw [← hp]; exact hw.res
  · have := hG.app c hc; rw [hn] at this; exact this l hl

end

section
variable {tr : CondSchema} (hF : CondFacts D n cs a tr)
include hF

/-- A true antecedent is never refuted. -/
theorem true_explains {e : CondEff} (he : e ∈ tr.effs) {l : Lit} (hl : l ∈ e.res) : Explains D cs a e.ante l := by
  intro c hc hn
  refine ⟨hF.fires c hc hn e he l hl, fun h1 h2 => ?_⟩
  have hty := hF.res e he l hl
  obtain ⟨e', he', hl', hb⟩ := hF.became c hc hn l hty h1 h2
  rw [hF.uniq e he e' he' l hl hl']
  exact hb

/-- ... even after the literals that were always true are dropped from it. -/
theorem true_possible {P : Finset Lit}
    (hP : ∀ l, l ∈ P ↔ TypedLit D.preds ((D.act a).sig ++ D.consts) l ∧ AlwaysBefore D cs a l)
    {e : CondEff} (he : e ∈ tr.effs) {l : Lit} (hl : l ∈ e.res) (hne : e.ante \ P ≠ ∅) :
    Possible D cs a n l (e.ante \ P) := by
  have hty : ∀ x ∈ e.ante, TypedLit D.preds ((D.act a).sig ++ D.consts) x := by
    exact hF.ante e he
  have key : ∀ c ∈ cs, c.call.name = a → ((∀ x ∈ e.ante \ P, before D c x) ↔ ∀ x ∈ e.ante, before D c x) := by
    intro c hc hn
    refine ⟨fun h x hx => ?_, fun h x hx => h x (Finset.mem_sdiff.mp hx).1⟩
    by_cases hp : x ∈ P
    · exact ((hP x).mp hp).2 c hc hn
    · exact h x (Finset.mem_sdiff.mpr ⟨hx, hp⟩)
  refine ⟨hne, (Finset.card_le_card Finset.sdiff_subset).trans (hF.bounded e he),
    fun x hx => hty x (Finset.mem_sdiff.mp hx).1, fun x hx hal => ?_, fun c hc hn => ?_⟩
  · obtain ⟨h1, h2⟩ := Finset.mem_sdiff.mp hx
    exact h2 ((hP x).mpr ⟨hty x h1, hal⟩)
  · rw [key c hc hn]; exact true_explains hF he hl c hc hn

/-- The true preconditions are learned. -/
theorem true_pre {P : Finset Lit}
    (hP : ∀ l, l ∈ P ↔ TypedLit D.preds ((D.act a).sig ++ D.consts) l ∧ AlwaysBefore D cs a l) : tr.pre ⊆ P := by
  intro l hl
  refine (hP l).mpr ⟨hF.pre l hl, fun c hc hn => ?_⟩
  exact hF.app c hc hn l hl

omit hF in
theorem applicable_sdiff {A P : Finset Lit} {ρ : String → String} {s : State} (hP : applicable P ρ s)
    (h : applicable (A \ P) ρ s) : applicable A ρ s := by
  intro x hx
  by_cases hp : x ∈ P
  · exact hP x hp
  · exact h x (Finset.mem_sdiff.mpr ⟨hx, hp⟩)

/-- Everything the learned action makes true, the true action makes true. -/
theorem makes_true {add : Cond → Cond → Cond} {ord : LitOrd} {K : CondLearner} {d : DepSet} {obs : Finset Lit}
    (hv : View add ord D n cs K a d obs) {ρ : String → String} {s : State}
    (hacc : applicable (K.base.dom.act a).pre ρ s) : (K.action a).makes ρ s ⊆ fired tr.effs ρ s := by
  intro l hl
  have step : ∀ cands, d.possible.lookup l = some cands → l ∈ obs → applicable (unionAll cands) ρ s →
      l ∈ fired tr.effs ρ s := by
    intro cands hlk hob hap
    obtain ⟨hty, c, hc, hn, h1, h2⟩ := (hv.obs l).mp hob
    obtain ⟨e, he, hr, _⟩ := hF.became c hc hn l hty h1 h2
    refine mem_fired.mpr ⟨e, he, applicable_sdiff hacc ?_, hr⟩
    by_cases hne : e.ante \ (K.base.dom.act a).pre = ∅
    · rw [hne]; intro x hx; simp at hx
    · have := (hv.cand l cands hlk).2.2 _ |>.mpr (true_possible hF hv.pre he hr hne)
      intro x hx
      exact hap x (mem_unionAll.mpr ⟨_, this, hx⟩)
  unfold LearnedAction.makes CondLearner.action at hl
  rw [Finset.mem_union] at hl
  rcases hl with hl | hl
  · obtain ⟨cands, h1, h2, h3⟩ := (hv.built.eff l).mp hl
    refine step cands h1 h2 ?_
    rw [List.length_eq_zero_iff.mp h3]
    intro x hx; simp [unionAll] at hx
  · obtain ⟨cands, h1, h2, h3, _⟩ := hv.built.fires ρ s l hl
    exact step cands h1 h2 h3

/-- Completeness: a true effect that is not yet true is made by the learned action, under the stated conditions. -/
theorem true_makes {add : Cond → Cond → Cond} {ord : LitOrd} (hadd : AddOK add) (ho : EnumNodup ord) {K : CondLearner} {d : DepSet}
    {obs : Finset Lit} (hv : View add ord D n cs K a d obs) {ρ : String → String} {s : State}
    (hacc : (K.action a).accepts ρ s)
    (H1 : (∀ l l', Ambiguous D cs a n l → Ambiguous D cs a n l' → l = l') ∨
      ∀ c ∈ K.conds a, ∀ x ∈ Cond.lits c, holds s (ground ρ x))
    (H2 : ∀ l l', Became D cs a l → Ambiguous D cs a n l → Became D cs a l' → ¬ Determined D cs a n l')
    {l : Lit} (H3 : Became D cs a l ∨ NeverUndone D cs a l) (hl : l ∈ fired tr.effs ρ s) (hnl : ¬ holds s (ground ρ l)) : l ∈ (K.action a).makes ρ s := by
  obtain ⟨e, he, hap, hr⟩ := mem_fired.mp hl
  have hty : TypedLit D.preds ((D.act a).sig ++ D.consts) l := hF.res e he l hr
  have hnal : ¬ AlwaysBefore D cs a l := fun h => hnl (hacc.1 l ((hv.pre l).mpr ⟨hty, h⟩))
  obtain ⟨cands, hlk⟩ := hv.some l hty hnal
  obtain ⟨_, _, hcand⟩ := hv.cand l cands hlk
  have hnd : cands.Nodup := (hv.ok l cands hlk).nodup
  let P := (K.base.dom.act a).pre
  have hv' : Valuation fun x => holds s (ground ρ x) := fun x => by rw [← holds_neg]; rfl
  -- the antecedent without the preconditions
  have hR : e.ante \ P ≠ ∅ → e.ante \ P ∈ cands := fun h => (hcand _).mpr (true_possible hF hv.pre he hr h)
  have hRap : applicable (e.ante \ P) ρ s := fun x hx => hap x (Finset.mem_sdiff.mp hx).1
  have hempty : e.ante \ P = ∅ → ∀ c ∈ cs, c.call.name = a → after D c l := by
    intro h c hc hn
    refine hF.fires c hc hn e he l hr fun x hx => ?_
    have hp : x ∈ P := by
      by_contra hp
      have : x ∈ e.ante \ P := Finset.mem_sdiff.mpr ⟨hx, hp⟩
      rw [h] at this; simp at this
    exact ((hv.pre x).mp hp).2 c hc hn
  -- a candidate that holds
  have hneg : e.ante \ P = ∅ → ∀ B ∈ cands, ({l.neg} : Finset Lit) ∈ cands := by
    intro h B hB
    have pB := (hcand B).mp hB
    have hbpos : 1 ≤ n := le_trans (Finset.card_pos.mpr (Finset.nonempty_iff_ne_empty.mpr pB.ne)) pB.card
    refine (hcand _).mpr ⟨by simp, by simpa using hbpos, ?_, ?_, ?_⟩
    · intro x hx; rw [Finset.mem_singleton] at hx; subst hx; exact typed_neg.mpr hty
    · intro x hx hal; rw [Finset.mem_singleton] at hx; subst hx
      obtain ⟨y, hy⟩ := Finset.nonempty_iff_ne_empty.mpr pB.ne
      exact pB.fresh y hy fun c hc hn =>
        (pB.explains c hc hn).2 (before_neg.mp (hal c hc hn)) (hempty h c hc hn) y hy
    · intro c hc hn
      refine ⟨fun _ => hempty h c hc hn, fun h1 _ x hx => ?_⟩
      rw [Finset.mem_singleton] at hx; subst hx; exact before_neg.mpr h1
  have hnegap : applicable ({l.neg} : Finset Lit) ρ s := by
    intro x hx; rw [Finset.mem_singleton] at hx; subst hx
    exact (hv' l).mpr hnl
  have hholds : cands ≠ [] → ∃ B ∈ cands, applicable B ρ s := by
    intro hne
    by_cases h : e.ante \ P = ∅
    · obtain ⟨B, hB⟩ := List.exists_mem_of_ne_nil _ hne
      exact ⟨_, hneg h B hB, hnegap⟩
    · exact ⟨_, hR h, hRap⟩
  -- the added condition
  have hcond : 2 ≤ cands.length → l ∈ obs ∧ applicable (unionAll cands) ρ s := by
    intro h2
    obtain ⟨j, r, e1, e2, e3⟩ := hv.built.conds l cands hlk h2
    obtain ⟨r', f1, f2⟩ := restrictive_spec hadd ho.mem d (P ∪ (Cond.litsAll ((K.conds a).take j)).toFinset) l
      (decide (l ∈ obs)) cands hlk (fun c hc => ((hv.ok l cands hlk).bounds c hc).1)
    have : r' = r := by
      have h9 := f1.symm.trans e1
      exact Except.ok.inj h9
    subst this
    have amb : ∀ x cx, d.possible.lookup x = some cx → 2 ≤ cx.length → Ambiguous D cs a n x := by
      intro x cx hx hx2
      obtain ⟨g1, g2, g3⟩ := hv.cand x cx hx
      have hxn := (hv.ok x cx hx).nodup
      match cx, hx2 with
      | A :: B :: t, _ =>
        refine ⟨g1, g2, A, B, ?_, (g3 A).mp (by simp), (g3 B).mp (by simp)⟩
        rintro rfl; simp at hxn
    have hlits : ∀ x ∈ P ∪ (Cond.litsAll ((K.conds a).take j)).toFinset, holds s (ground ρ x) := by
      intro x hx
      rw [Finset.mem_union] at hx
      rcases hx with hx | hx
      · exact hacc.1 x hx
      · rcases e3 with rfl | ⟨l', cs', hne, hl', h2'⟩
        · simp [Cond.litsAll] at hx
        · rcases H1 with H1 | H1
          · exact absurd (H1 l' l (amb l' cs' hl' h2') (amb l cands hlk h2)) hne
          · rw [List.mem_toFinset] at hx
            have : ∀ ks : List Cond, x ∈ Cond.litsAll ks → ∃ c ∈ ks, x ∈ Cond.lits c := by
              intro ks
              induction ks with
              | nil => intro h; simp [Cond.litsAll] at h
              | cons k ks ih =>
                intro h
                unfold Cond.litsAll at h
                rw [List.mem_append] at h
                rcases h with h | h
                · exact ⟨k, by simp, h⟩
                · obtain ⟨c, hc, h⟩ := ih h; exact ⟨c, by simp [hc], h⟩
            obtain ⟨c, hc, hxc⟩ := this _ hx
            exact H1 c (List.mem_of_mem_take hc) x hxc
    have hallow : Allows (fun x => holds s (ground ρ x)) r' := by
      cases r' with
      | none => trivial
      | some c => exact hacc.2.2 c (e2 c (by simp))
    rcases (f2 _ hv' hlits).mp hallow with h | h | ⟨h, h'⟩
    · exact absurd h hnl
    · obtain ⟨B, hB, hBa⟩ := hholds (by rintro rfl; simp at h2)
      exact absurd hBa (h B hB)
    · refine ⟨by simpa using h, fun x hx => ?_⟩
      obtain ⟨A, hA, hx⟩ := mem_unionAll.mp hx
      exact h' A hA x hx
  unfold LearnedAction.makes CondLearner.action
  rw [Finset.mem_union]
  by_cases hbec : Became D cs a l
  · have hob : l ∈ obs := (hv.obs l).mpr ⟨hty, hbec⟩
    match hcands : cands with
    | [] => exact Or.inl ((hv.built.eff l).mpr ⟨_, hlk, hob, rfl⟩)
    | [B] =>
      right
      refine hv.built.single l B ρ s hlk hob ?_
      obtain ⟨B', hB', hap'⟩ := hholds (by simp)
      rw [List.mem_singleton] at hB'; subst hB'; exact hap'
    | B :: B' :: t =>
      right
      obtain ⟨_, hun⟩ := hcond (by simp)
      refine hv.built.many l _ ρ s hlk (by simp) hob hun fun l' A hl' hob' => ?_
      obtain ⟨g1, g2, g3⟩ := hv.cand l' _ hl'
      have hamb : Ambiguous D cs a n l := by
        refine ⟨hty, hnal, B, B', ?_, (hcand B).mp (by simp), (hcand B').mp (by simp)⟩
        rintro rfl; simp at hnd
      refine H2 l l' hbec hamb ((hv.obs l').mp hob').2 ⟨g2, A, (g3 A).mp (by simp), fun B hB => ?_⟩
      simpa using (g3 B).mpr hB
  · exfalso
    have hRne : e.ante \ P ≠ ∅ := by
      intro h
      refine hnal fun c hc hn => ?_
      by_contra hb
      exact hbec ⟨c, hc, hn, hb, hempty h c hc hn⟩
    have hRc := hR hRne
    by_cases h2 : 2 ≤ cands.length
    · exact hbec ((hv.obs l).mp (hcond h2).1).2
    · have hund : NeverUndone D cs a l := H3.resolve_left hbec
      have hbpos : 1 ≤ n := le_trans (Finset.card_pos.mpr (Finset.nonempty_iff_ne_empty.mpr hRne))
        ((hcand _).mp hRc).card
      have hl1 : ({l} : Finset Lit) ∈ cands := by
        refine (hcand _).mpr ⟨by simp, by simpa using hbpos, ?_, ?_, ?_⟩
        · intro x hx; rw [Finset.mem_singleton] at hx; subst hx; exact hty
        · intro x hx hal; rw [Finset.mem_singleton] at hx; subst hx; exact hnal hal
        · intro c hc hn
          refine ⟨fun h => hund c hc hn (h l (by simp)), fun h1 h2 => absurd ⟨c, hc, hn, h1, h2⟩ hbec⟩
      match hcands : cands, h2 with
      | [], _ => simp at hRc
      | [B], _ =>
        rw [List.mem_singleton] at hRc hl1
        rw [hRc, ← hl1] at hRap
        exact hnl (hRap l (by simp))
      | _ :: _ :: _, h2 => simp at h2

end
end
end Model

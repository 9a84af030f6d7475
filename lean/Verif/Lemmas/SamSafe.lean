import Verif.Lemmas.SamLearn
import Verif.Lemmas.Strips
import Verif.Spec.Learning

namespace Model
open Spec

section
variable {D : Domain} {truth : String → Schema} {c : Component}

theorem goodCall_of (hT : WFTruth D truth) (hn : c.call.name ∈ D.names) (he : Explained truth c)
    (hd : c.call.params.Nodup) (hc : ∀ o ∈ c.call.params, o ∉ Sig.names D.consts) :
    GoodCall D.consts (D.act c.call.name).sig c.call.params :=
  ⟨by rw [he.arity, hT.params _ hn], hd, hc⟩

theorem obsPrev_iff (hw : WFSig D.consts (D.act c.call.name).sig)
    (hg : GoodCall D.consts (D.act c.call.name).sig c.call.params) {l : Lit} :
    l ∈ obsPrev D c ↔ TypedLit D.preds ((D.act c.call.name).sig ++ D.consts) l ∧
      holds c.prev (ground (subst (Sig.names (D.act c.call.name).sig) c.call.params) l) :=
  mem_lift_snapshot hw hg

theorem obsNext_iff (hw : WFSig D.consts (D.act c.call.name).sig)
    (hg : GoodCall D.consts (D.act c.call.name).sig c.call.params) {l : Lit} :
    l ∈ obsNext D c ↔ TypedLit D.preds ((D.act c.call.name).sig ++ D.consts) l ∧
      holds c.next (ground (subst (Sig.names (D.act c.call.name).sig) c.call.params) l) :=
  mem_lift_snapshot hw hg

theorem obsEff_iff (hw : WFSig D.consts (D.act c.call.name).sig)
    (hg : GoodCall D.consts (D.act c.call.name).sig c.call.params) {l : Lit} :
    l ∈ obsEff D c ↔ TypedLit D.preds ((D.act c.call.name).sig ++ D.consts) l ∧
      holds c.next (ground (subst (Sig.names (D.act c.call.name).sig) c.call.params) l) ∧
      ¬ holds c.prev (ground (subst (Sig.names (D.act c.call.name).sig) c.call.params) l) :=
  mem_lift_effects hw hg

theorem subst_injective {consts sig : Sig} {call : List String} (hw : WFSig consts sig) (hg : GoodCall consts sig call) :
    Spec.Injective consts sig (subst (Sig.names sig) call) := by
  intro x hx y hy e
  rw [names_append, List.mem_append] at hx hy
  exact bind_inj hw.params (by simp [hg.len]) hg.nodup hg.fresh hx hy e

/-- What one usable real transition tells. -/
structure Fact (D : Domain) (A : Schema) (c : Component) : Prop where
  pre : ∀ l ∈ A.pre, l ∈ obsPrev D c
  effNext : ∀ l ∈ A.eff, l ∈ obsNext D c
  effSound : ∀ l ∈ obsEff D c, l ∈ A.eff
  effSeen : ∀ l ∈ A.eff, l ∉ obsPrev D c → l ∈ obsEff D c

theorem fact_of (hn : c.call.name ∈ D.names) (hw : WFSig D.consts (D.act c.call.name).sig) (hT : WFTruth D truth)
    (he : Explained truth c) (hd : c.call.params.Nodup) (hc : ∀ o ∈ c.call.params, o ∉ Sig.names D.consts) :
    Fact D (truth c.call.name) c := by
  have hg := goodCall_of hT hn he hd hc
  have hp := hT.params _ hn
  have hwf := hT.wf _ hn
  have hρ : substOf truth c = subst (Sig.names (D.act c.call.name).sig) c.call.params := by unfold substOf; rw [hp]
  have hinj := subst_injective hw hg
  have hS : ∀ l ∈ (truth c.call.name).eff, ∀ x ∈ l.args, x ∈ Sig.names ((D.act c.call.name).sig ++ D.consts) := by
    intro l hl x hx; rw [← hp]; exact typed_sub (hwf.eff l hl) x hx
  have happ := he.app
  have hnext := he.next
  rw [hρ] at happ hnext
  have hEffNext : ∀ l ∈ (truth c.call.name).eff, holds c.next (ground (subst (Sig.names (D.act c.call.name).sig) c.call.params) l) := by
    intro l hl; rw [hnext]
    exact holds_successor (S := fun x => x ∈ Sig.names ((D.act c.call.name).sig ++ D.consts))
      (fun x y hx hy => hinj x hx y hy) hS hwf.consistent hl
  refine ⟨?_, ?_, ?_, ?_⟩
  · intro l hl
    rw [obsPrev_iff hw hg]
    exact ⟨hp ▸ hwf.pre l hl, happ l hl⟩
  · intro l hl
    rw [obsNext_iff hw hg]
    exact ⟨hp ▸ hwf.eff l hl, hEffNext l hl⟩
  · intro l hl
    rw [obsEff_iff hw hg] at hl
    rw [hnext] at hl
    exact eff_of_change (S := fun x => x ∈ Sig.names ((D.act c.call.name).sig ++ D.consts))
      (fun x y hx hy => hinj x hx y hy) hS (typed_sub hl.1) hl.2.1 hl.2.2
  · intro l hl hnp
    rw [obsPrev_iff hw hg] at hnp
    rw [obsEff_iff hw hg]
    have ht : TypedLit D.preds ((D.act c.call.name).sig ++ D.consts) l := hp ▸ hwf.eff l hl
    exact ⟨ht, hEffNext l hl, fun h => hnp ⟨ht, h⟩⟩

end

/-- Safety invariant of the learner between calls. -/
structure SafeInv (D : Domain) (truth : String → Schema) (L : Learner) : Prop where
  static : SameStatic D L.dom
  sigs : ∀ p ∈ L.sigs, p.1 ∈ D.names
  obsNames : ∀ a ∈ L.observed, a ∈ D.names
  noBan : ∀ a ∈ D.names, ∀ l ∈ (truth a).eff, l ∉ L.cannotBe a
  effSound : ∀ a ∈ D.names, (L.dom.act a).eff ⊆ (truth a).eff
  preComplete : ∀ a ∈ L.observed, (truth a).pre ⊆ (L.dom.act a).pre
  effComplete : ∀ a ∈ L.observed, ∀ e ∈ (truth a).eff, e ∈ (L.dom.act a).eff ∨ e ∈ (L.dom.act a).pre
  preTyped : ∀ a ∈ D.names, ∀ l ∈ (L.dom.act a).pre, TypedLit D.preds ((D.act a).sig ++ D.consts) l
  effEmpty : ∀ a ∈ D.names, a ∉ L.observed → (L.dom.act a).eff = ∅

theorem SafeInv.init {D : Domain} {truth : String → Schema} (hD : WFDomain D) (p : Policy) (i : Bool) :
    SafeInv D truth (Learner.init D p i) where
  static := SameStatic.refl _
  sigs := by intro q hq; simp only [Learner.init, List.mem_map] at hq; obtain ⟨a, ha, rfl⟩ := hq; exact ha
  obsNames := by simp [Learner.init]
  noBan := by simp [Learner.init]
  effSound := by intro a ha; simp [Learner.init, (hD.empty a ha).2.1]
  preComplete := by simp [Learner.init]
  effComplete := by simp [Learner.init]
  preTyped := by intro a ha l hl; simp [Learner.init, (hD.empty a ha).1] at hl
  effEmpty := by intro a ha _; simp [Learner.init, (hD.empty a ha).2.1]

theorem liftedVocab_typed {D : Domain} {sig : Sig} (hw : WFSig D.consts sig) {l : Lit} :
    l ∈ liftedVocab D sig ↔ TypedLit D.preds (sig ++ D.consts) l := by
  rw [mem_liftedVocab hw]; simp [mustOk]

/-- A call of `learn_action_model` with the policy that removes nothing keeps the invariant. -/
theorem SafeInv.learn {D : Domain} {truth : String → Schema} {L L' : Learner} {obs : List (List Component)} {rep}
    (hD : WFDomain D) (hT : WFTruth D truth) (hG : GoodData D truth obs) (hI : SafeInv D truth L)
    (hpol : L.policy = .noRemove) (h : L.learn obs = .ok (L', rep)) :
    SafeInv D truth L' ∧ L'.policy = .noRemove ∧
      ∀ a ∈ D.names, a ∉ L'.observed → liftedVocab D (D.act a).sig ⊆ (L'.dom.act a).pre := by
  have hn : L.dom.names.Nodup := by rw [hI.static.names]; exact hD.names
  obtain ⟨hl, _⟩ := learn_spec hn (by rw [hI.static.names]; exact hI.sigs) h
  have hkn : ∀ c ∈ obs.flatten, c.success = true → c.call.name ∈ D.names := by
    intro c hc hs; rw [← hI.static.names]; exact hl.known c hc hs
  have hfact : ∀ a, ∀ c ∈ usable obs.flatten a, Fact L.dom (truth a) c := by
    intro a c hc
    obtain ⟨h1, h2, h3, h4⟩ := mem_usable.mp hc
    have hk := hkn c h1 h2
    subst h3
    have hf := fact_of hk (hD.sigs _ hk) hT (hG.explained c h1 h2) h4 (hG.noConst c h1 h2 h4)
    exact ⟨fun l k => by rw [obsPrev_static hI.static]; exact hf.pre l k,
      fun l k => by rw [obsNext_static hI.static]; exact hf.effNext l k,
      fun l k => by rw [obsEff_static hI.static] at k; exact hf.effSound l k,
      fun l k k' => by rw [obsPrev_static hI.static] at k'; rw [obsEff_static hI.static]; exact hf.effSeen l k k'⟩
  have htyped : ∀ a ∈ D.names, ∀ c ∈ usable obs.flatten a, ∀ l ∈ obsPrev L.dom c, TypedLit D.preds ((D.act a).sig ++ D.consts) l := by
    intro a ha c hc l hlc
    obtain ⟨h1, h2, h3, h4⟩ := mem_usable.mp hc
    subst h3
    have hk := hkn c h1 h2
    rw [obsPrev_static hI.static, obsPrev_iff (hD.sigs _ hk)
      (goodCall_of hT hk (hG.explained c h1 h2) h4 (hG.noConst c h1 h2 h4))] at hlc
    exact hlc.1
  have hkeep : ∀ a l, polKeep L.policy (L'.dom.act a).eff l := fun a l => Or.inr (Or.inl hpol)
  have heffUp : ∀ a ∈ D.names, ∀ e ∈ (truth a).eff, (e ∈ (L.dom.act a).eff ∨ ∃ c ∈ usable obs.flatten a, e ∈ obsEff L.dom c) →
      e ∈ (L'.dom.act a).eff := by
    intro a ha e he k
    exact hl.effSup a e k (Or.inr ⟨hI.noBan a ha e he, fun c hc _ => (hfact a c hc).effNext e he⟩)
  refine ⟨⟨hI.static.trans hl.static, ?_, ?_, ?_, ?_, ?_, ?_, ?_, ?_⟩, hl.policy.trans hpol, ?_⟩
  · rw [hl.sigs]; exact hI.sigs
  · intro a ha
    rcases hl.obsNames a ha with k | k
    · exact hI.obsNames a k
    · rwa [hI.static.names] at k
  · intro a ha e he k
    rcases hl.cannotBe a e k with k | ⟨c, hc, _, k⟩
    · exact hI.noBan a ha e he k
    · exact k ((hfact a c hc).effNext e he)
  · intro a ha e he
    rcases hl.effSub a e he with k | ⟨c, hc, k⟩
    · exact hI.effSound a ha k
    · exact (hfact a c hc).effSound e k
  · intro a ha l hlp
    have hn' : a ∈ L.dom.names := by
      rcases hl.obsNames a ha with k | k
      · rw [hI.static.names]; exact hI.obsNames a k
      · exact k
    rw [hl.pre a hn']
    refine ⟨Or.inl ?_, hkeep a l⟩
    refine ⟨fun ho => ⟨hI.preComplete a ho hlp, fun c hc => (hfact a c hc).pre l hlp⟩, fun ho => ?_⟩
    have hu := (hl.observed a).mp ha
    cases hus : usable obs.flatten a with
    | nil => simp [hus, ho] at hu
    | cons c cs =>
      have := hfact a
      rw [hus] at this
      exact ⟨Or.inr ((this c (by simp)).pre l hlp), fun c' hc' => (this c' (by simp [hc'])).pre l hlp⟩
  · intro a ha e he
    have hn' : a ∈ L.dom.names := by
      rcases hl.obsNames a ha with k | k
      · rw [hI.static.names]; exact hI.obsNames a k
      · exact k
    have hnD : a ∈ D.names := by rwa [hI.static.names] at hn'
    by_cases hall : ∀ c ∈ usable obs.flatten a, e ∈ obsPrev L.dom c
    · by_cases ho : a ∈ L.observed
      · rcases hI.effComplete a ho e he with k | k
        · exact Or.inl (heffUp a hnD e he (Or.inl k))
        · right
          rw [hl.pre a hn']
          exact ⟨Or.inl ⟨fun _ => ⟨k, hall⟩, fun k' => absurd ho k'⟩, hkeep a e⟩
      · right
        rw [hl.pre a hn']
        refine ⟨Or.inl ⟨fun k' => absurd k' ho, fun _ => ?_⟩, hkeep a e⟩
        have hu := (hl.observed a).mp ha
        cases hus : usable obs.flatten a with
        | nil => simp [hus, ho] at hu
        | cons c cs =>
          rw [hus] at hall
          exact ⟨Or.inr (hall c (by simp)), fun c' hc' => hall c' (by simp [hc'])⟩
    · simp only [not_forall] at hall
      obtain ⟨c, hc, hnp⟩ := hall
      exact Or.inl (heffUp a hnD e he (Or.inr ⟨c, hc, (hfact a c hc).effSeen e he hnp⟩))
  · intro a ha l hlp
    rw [hl.pre a (by rw [hI.static.names]; exact ha)] at hlp
    rcases hlp.1 with k | ⟨_, k⟩
    · by_cases ho : a ∈ L.observed
      · exact hI.preTyped a ha l (k.1 ho).1
      · have := k.2 ho
        cases hus : usable obs.flatten a with
        | nil => rw [hus] at this; exact hI.preTyped a ha l this
        | cons c cs =>
          rw [hus] at this
          rcases this.1 with k | k
          · exact hI.preTyped a ha l k
          · exact htyped a ha c (by rw [hus]; simp) l k
    · rw [liftedVocab_static hI.static, hI.static.sig] at k
      exact (liftedVocab_typed (hD.sigs a ha)).mp k
  · intro a ha ho
    have hu := (not_congr (hl.observed a)).mp ho
    rw [not_or, not_not] at hu
    ext e
    simp only [Finset.notMem_empty, iff_false]
    intro he
    rcases hl.effSub a e he with k | ⟨c, hc, _⟩
    · rw [hI.effEmpty a ha hu.1] at k; simp at k
    · rw [hu.2] at hc; simp at hc
  · intro a ha ho l hlv
    have hu := (not_congr (hl.observed a)).mp ho
    rw [not_or, not_not] at hu
    rw [hl.pre a (by rw [hI.static.names]; exact ha)]
    refine ⟨Or.inr ⟨hu, ?_⟩, hkeep a l⟩
    rw [liftedVocab_static hI.static, hI.static.sig]; exact hlv

end Model

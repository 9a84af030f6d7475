import Verif.Lemmas.UniSafe

/-! Universal conditional SAM: the learned quantified effects against the true ones. -/
namespace Model
open Spec

/-- The lifted view of what remained possible for the literals about the additional object. `P`: the literals removed from the antecedents. -/
structure QView (E : Domain) (W : List Component) (n : Nat) (a v : String) (P : Finset Lit) (d : DepSet) (O : Finset Lit) : Prop where
  obs : ∀ l, l ∈ O ↔ TypedLit E.preds ((E.act a).sig ++ E.consts) l ∧ v ∈ l.args ∧ Became E W a l
  ok : d.OK
  some : ∀ l, TypedLit E.preds ((E.act a).sig ++ E.consts) l → v ∈ l.args → l ∉ P → ∃ cands, d.possible.lookup l = some cands
  cand : ∀ l cands, d.possible.lookup l = Option.some cands →
    TypedLit E.preds ((E.act a).sig ++ E.consts) l ∧ v ∈ l.args ∧ l ∉ P ∧ ∀ A, A ∈ cands ↔
      A ≠ ∅ ∧ A.card ≤ n ∧ (∀ x ∈ A, TypedLit E.preds ((E.act a).sig ++ E.consts) x) ∧ (∀ x ∈ A, x ∉ P) ∧ Explains E W a A l

theorem mem_vocab_about {D : Domain} {sig : Sig} {v : String} (hw : WFSig D.consts sig) (hv : v ≠ "") {l : Lit} :
    l ∈ liftedVocab D sig (some v) ↔ TypedLit D.preds (sig ++ D.consts) l ∧ v ∈ l.args := by
  rw [mem_liftedVocab hw, ← liftedVocab_typed hw, mem_liftedVocab hw]
  simp only [mustOk]
  constructor
  · rintro ⟨h1, h2⟩; exact ⟨h1, h2.resolve_left hv⟩
  · rintro ⟨h1, h2⟩; exact ⟨h1, Or.inr h2⟩

section
variable {add : Cond → Cond → Cond} {deep : Bool} {ord : LitOrd} (ho : EnumNodup ord)
variable {D : Domain} {n : Nat} {obs : List UniObs} {a : String} {types : List PType} {T : PType} {v : String}
  (hD : WFDomain D) (hO : ObjsOK D types (flat obs)) (ha : a ∈ D.names) (hT : T ∈ types)
  (hv : v ∉ Sig.names (D.act a).sig) (hv0 : v ≠ "")
include ho hD hO ha hT hv hv0

theorem qview_of {U' : UniLearner} {d : DepSet} (h : QuantOutcome add deep ord D n obs U' a T v d) :
    QView (extend D a v T) (withObjects a T obs) n a v (U'.base.preLits a) d (U'.obsU a T.name) := by
  have hwf := with_wf hD hO ha hT hv
  have hcalls := with_calls hD hO ha hT hv
  have haE : a ∈ (extend D a v T).names := by simp [extend]
  have htab := ext_table (a := a) (v := v) (T := T) hO
  have hsig : WFSig D.consts ((D.act a).sig ++ [(v, T)]) := by rw [hO.noConsts]; exact wfSig_extend (uni_sig hD hO ha) hv
  have hvoc : ∀ l, l ∈ liftedVocab D ((D.act a).sig ++ [(v, T)]) (some v) ↔
      TypedLit (extend D a v T).preds (((extend D a v T).act a).sig ++ (extend D a v T).consts) l ∧ v ∈ l.args := by
    intro l
    rw [mem_vocab_about hsig hv0, htab, hO.noConsts, List.append_nil]; rfl
  have hvoc2 : ∀ l, l ∈ liftedVocab D ((D.act a).sig ++ [(v, T)]) ↔
      TypedLit (extend D a v T).preds (((extend D a v T).act a).sig ++ (extend D a v T).consts) l := by
    intro l
    rw [liftedVocab_typed hsig, htab, hO.noConsts, List.append_nil]; rfl
  have hof : ∀ c, c ∈ of (withObjects a T obs) a ↔ c ∈ withObjects a T obs := by
    intro c
    rw [mem_of]
    refine ⟨fun h => h.1, fun h => ⟨h, ?_⟩⟩
    obtain ⟨objs, c, o, _, rfl, hE, rfl⟩ := mem_with hD hO ha hT hv h
    rfl
  refine ⟨?_, h.ok, ?_, ?_⟩
  · intro l
    rw [h.obsU]
    constructor
    · rintro ⟨h1, c, hc, h2⟩
      obtain ⟨k1, k2⟩ := (mem_obs hwf hcalls haE (O := (withObjects a T obs).foldr (fun c acc => obsEff (extend D a v T) c ∪ acc) ∅)
        (fun l => by rw [mem_foldr_union]; simp only [hof])).mp (mem_foldr_union.mpr ⟨c, hc, h2⟩)
      exact ⟨k1, h1, k2⟩
    · rintro ⟨h1, h2, h3⟩
      have := (mem_obs hwf hcalls haE (O := (withObjects a T obs).foldr (fun c acc => obsEff (extend D a v T) c ∪ acc) ∅)
        (fun l => by rw [mem_foldr_union]; simp only [hof])).mpr ⟨h1, h3⟩
      obtain ⟨c, hc, h4⟩ := mem_foldr_union.mp this
      exact ⟨h2, c, hc, h4⟩
  · intro l h1 h2 h3
    rw [h.lookup, if_neg h3, if_pos ((hvoc l).mpr ⟨h1, h2⟩)]
    exact ⟨_, rfl⟩
  · intro l cands hlk
    rw [h.lookup] at hlk
    split at hlk
    · simp at hlk
    rename_i hnp
    split at hlk
    · rename_i hvl
      obtain ⟨hl, hva⟩ := (hvoc l).mp hvl
      refine ⟨hl, hva, hnp, fun A => ?_⟩
      simp only [Option.some.injEq] at hlk
      rw [← hlk]
      simp only [List.mem_filter, mem_createCnf ho, decide_eq_true_eq]
      have hs : (∀ x ∈ A, TypedLit (extend D a v T).preds (((extend D a v T).act a).sig ++ (extend D a v T).consts) x) →
          ((∀ c ∈ withObjects a T obs, Surv (extend D a v T) c l A) ↔ Explains (extend D a v T) (withObjects a T obs) a A l) := by
        intro hA
        rw [← surv_iff hwf hcalls haE hl hA]
        simp only [hof]
      constructor
      · rintro ⟨⟨⟨g1, g2, g3⟩, g4⟩, g5⟩
        have hA := fun x hx => (hvoc2 x).mp (g1 hx)
        exact ⟨g2, g3, hA, g5, (hs hA).mp g4⟩
      · rintro ⟨g2, g3, hA, g5, g4⟩
        exact ⟨⟨⟨fun x hx => (hvoc2 x).mpr (hA x hx), g2, g3⟩, (hs hA).mpr g4⟩, g5⟩
    · simp at hlk

end

section
variable {add : Cond → Cond → Cond} {deep : Bool} {ord : LitOrd}
variable {E : Domain} {W : List Component} {n : Nat} {a v : String} {P : Finset Lit} {d : DepSet} {O : Finset Lit} {tr : CondSchema}
  (hF : CondFacts E n W a tr) (hq : QView E W n a v P d O)
include hF hq

/-- The antecedent without what was removed explains as well, if what was removed was always true. -/
theorem quant_possible {e : CondEff} (he : e ∈ tr.effs) (hP : ∀ x ∈ e.ante, x ∈ P → AlwaysBefore E W a x) {l : Lit} (hl : l ∈ e.res)
    {cands : List (Finset Lit)} (hlk : d.possible.lookup l = some cands) (hne : e.ante \ P ≠ ∅) : e.ante \ P ∈ cands := by
  have key : ∀ c ∈ W, c.call.name = a → ((∀ x ∈ e.ante \ P, before E c x) ↔ ∀ x ∈ e.ante, before E c x) := by
    intro c hc hn
    refine ⟨fun h x hx => ?_, fun h x hx => h x (Finset.mem_sdiff.mp hx).1⟩
    by_cases hp : x ∈ P
    · exact hP x hx hp c hc hn
    · exact h x (Finset.mem_sdiff.mpr ⟨hx, hp⟩)
  refine ((hq.cand l cands hlk).2.2.2 _).mpr ⟨hne, (Finset.card_le_card Finset.sdiff_subset).trans (hF.bounded e he),
    fun x hx => hF.ante e he x (Finset.mem_sdiff.mp hx).1, fun x hx => (Finset.mem_sdiff.mp hx).2, fun c hc hn => ?_⟩
  rw [key c hc hn]
  exact true_explains hF he hl c hc hn

/-- A learned quantified effect that fires is a true one that fires. -/
theorem quant_sound {pres : List UPre} {t : String} {effs : List CondEff} (hb : QBuilt add deep ord P pres d v t O effs)
    {σ : String → String} {s : State} (hpre : ∀ e ∈ tr.effs, ∀ x ∈ e.ante, x ∈ P → AlwaysBefore E W a x ∧ holds s (ground σ x))
    {l : Lit} (hl : l ∈ fired effs σ s) : l ∈ fired tr.effs σ s := by
  obtain ⟨cands, h1, h2, h3⟩ := (hb.fires σ s l).mp hl
  obtain ⟨hty, _, c, hc, hn, h4, h5⟩ := (hq.obs l).mp h2
  obtain ⟨e, he, hr, _⟩ := hF.became c hc hn l hty h4 h5
  refine mem_fired.mpr ⟨e, he, fun x hx => ?_, hr⟩
  by_cases hp : x ∈ P
  · exact (hpre e he x hx hp).2
  · have hne : e.ante \ P ≠ ∅ := by
      intro h0
      have : x ∈ e.ante \ P := Finset.mem_sdiff.mpr ⟨hx, hp⟩
      rw [h0] at this; simp at this
    have := quant_possible hF hq he (fun x hx hp => (hpre e he x hx hp).1) hr h1 hne
    exact h3 x (mem_unionAll.mpr ⟨_, this, Finset.mem_sdiff.mpr ⟨hx, hp⟩⟩)

/-- A true quantified effect that is not yet true is made, under the stated conditions. -/
theorem quant_complete (hadd : AddOK add) (ho : EnumNodup ord) {pres : List UPre} {t : String} {effs : List CondEff}
    (hb : QBuilt add deep ord P pres d v t O effs) (hone : deep = false ∨ pres.length ≤ 1) (hn1 : 1 ≤ n)
    {σ : String → String} {s : State} (hPn : ∀ x ∈ P, v ∉ x.args) (hPA : ∀ x ∈ P, AlwaysBefore E W a x) (hPs : ∀ x ∈ P, holds s (ground σ x))
    (hacc : ∀ u ∈ pres, u.var = v → u.type = t → Allows (fun x => holds s (ground σ x)) u.cond)
    {e : CondEff} (he : e ∈ tr.effs) {l : Lit} (hl : l ∈ e.res) (hvl : v ∈ l.args) (hH : Became E W a l ∨ NeverUndone E W a l)
    (hap : applicable e.ante σ s) (hnl : ¬ holds s (ground σ l)) : l ∈ fired effs σ s := by
  have hty := hF.res e he l hl
  have hlP : l ∉ P := fun h => hPn l h hvl
  have hlP' : l.neg ∉ P := fun h => hPn _ h hvl
  obtain ⟨cands, hlk⟩ := hq.some l hty hvl hlP
  obtain ⟨_, _, _, hcand⟩ := hq.cand l cands hlk
  have hnd := (hq.ok l cands hlk).nodup
  have hv' : Valuation fun x => holds s (ground σ x) := fun x => by rw [← holds_neg]; rfl
  have hR : e.ante \ P ≠ ∅ → e.ante \ P ∈ cands := fun h => quant_possible hF hq he (fun x _ hp => hPA x hp) hl hlk h
  have hRap : applicable (e.ante \ P) σ s := fun x hx => hap x (Finset.mem_sdiff.mp hx).1
  have hempty : e.ante \ P = ∅ → ∀ c ∈ W, c.call.name = a → after E c l := by
    intro h c hc hn
    refine hF.fires c hc hn e he l hl fun x hx => ?_
    have hp : x ∈ P := by
      by_contra hp
      have : x ∈ e.ante \ P := Finset.mem_sdiff.mpr ⟨hx, hp⟩
      rw [h] at this; simp at this
    exact hPA x hp c hc hn
  have hneg : e.ante \ P = ∅ → ({l.neg} : Finset Lit) ∈ cands := by
    intro h
    refine (hcand _).mpr ⟨by simp, by simpa using hn1, ?_, ?_, ?_⟩
    · intro x hx; rw [Finset.mem_singleton] at hx; subst hx; exact typed_neg.mpr hty
    · intro x hx; rw [Finset.mem_singleton] at hx; subst hx; exact hlP'
    · intro c hc hn
      refine ⟨fun _ => hempty h c hc hn, fun h1 _ x hx => ?_⟩
      rw [Finset.mem_singleton] at hx; subst hx; exact before_neg.mpr h1
  have hnegap : applicable ({l.neg} : Finset Lit) σ s := by
    intro x hx; rw [Finset.mem_singleton] at hx; subst hx
    exact (hv' l).mpr hnl
  obtain ⟨B, hB, hBap⟩ : ∃ B ∈ cands, applicable B σ s := by
    by_cases h : e.ante \ P = ∅
    · exact ⟨_, hneg h, hnegap⟩
    · exact ⟨_, hR h, hRap⟩
  have hl1 : ¬ Became E W a l → NeverUndone E W a l → ({l} : Finset Lit) ∈ cands := by
    intro hbec hund
    refine (hcand _).mpr ⟨by simp, by simpa using hn1, ?_, ?_, ?_⟩
    · intro x hx; rw [Finset.mem_singleton] at hx; subst hx; exact hty
    · intro x hx; rw [Finset.mem_singleton] at hx; subst hx; exact hlP
    · intro c hc hn
      exact ⟨fun h => hund c hc hn (h l (by simp)), fun h1 h2 => absurd ⟨c, hc, hn, h1, h2⟩ hbec⟩
  rw [hb.fires]
  by_cases h2 : 2 ≤ cands.length
  · obtain ⟨j, hj, r, e1, e2⟩ := hb.conds l cands hlk h2
    have hj0 : (P ∪ if deep then upreLits (pres.take j) else ∅) = P := by
      rcases hone with h | h
      · simp [h]
      · have : j = 0 := by omega
        subst this
        simp [upreLits, Cond.litsAll]
    rw [hj0] at e1
    obtain ⟨r', f1, f2⟩ := restrictive_spec hadd ho.mem d P l (decide (l ∈ O)) cands hlk
      (fun c hc => ((hq.ok l cands hlk).bounds c hc).1)
    have : r' = r := Except.ok.inj (f1.symm.trans e1)
    subst this
    rcases (f2 _ hv' hPs).mp (hacc _ e2 rfl rfl) with h | h | ⟨h, h'⟩
    · exact absurd h hnl
    · exact absurd hBap (h B hB)
    · refine ⟨cands, hlk, by simpa using h, fun x hx => ?_⟩
      obtain ⟨A, hA, hx⟩ := mem_unionAll.mp hx
      exact h' A hA x hx
  · match hcs : cands, h2 with
    | [], _ => simp at hB
    | [B'], _ =>
      rw [List.mem_singleton] at hB
      subst hB
      refine ⟨_, hlk, ?_, by simpa [unionAll] using hBap⟩
      rw [hq.obs]
      refine ⟨hty, hvl, ?_⟩
      by_contra hbec
      have hmem := hl1 hbec (hH.resolve_left hbec)
      rw [List.mem_singleton] at hmem
      rw [← hmem] at hBap
      exact hnl (hBap l (by simp))
    | _ :: _ :: _, h2 => simp at h2

end
end Model

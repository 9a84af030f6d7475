import Verif.Lemmas.UniExact

/-! Universal conditional SAM: the returned action and the true one. -/
namespace Model
open Spec

theorem isSub_refl (T : PType) : T.isSub T = true := by simp [PType.isSub]

/-- The name that stands for an additional object. -/
def addVar (D : Domain) (a : String) (T : PType) : String := additionalName (D.act a).sig T

theorem _root_.Spec.UniCalls.objs {D : Domain} {types : List PType} {obs : List UniObs} (h : UniCalls D types obs) :
    ObjsOK D types (flat obs) := by
  refine ⟨h.noConsts, h.typeNames, fun x hx => ?_, fun x hx => ?_⟩
  · obtain ⟨ob, h1, h2, h3⟩ := mem_flat.mp hx
    rw [← h2]; exact h.known ob h1 (List.ne_nil_of_mem h3)
  · obtain ⟨ob, h1, h2, h3⟩ := mem_flat.mp hx
    rw [← h2]; exact h.exact ob h1 _ h3

section
variable {add : Cond → Cond → Cond} {deep : Bool} {ord : LitOrd} (hadd : AddOK add) (ho : EnumNodup ord)
variable {D : Domain} (hD : WFDomain D) {n : Nat} {p : Policy} {types : List PType} {umap : List (String × List String)}
  {obs : List UniObs} {U : UniLearner} {rep : List (String × Status)}

section
include hadd ho hD

theorem uni_outcome (hC : UniCalls D types obs) (h : (UniLearner.init D types umap n p).learn add deep ord obs = .ok (U, rep)) :
    rep = U.base.base.report ∧ (CondLearner.init D n p).learn add ord (obs.map Prod.snd) = .ok (U.base, rep) ∧ U.types = types ∧
      U.base.base.dom.names = U.base.base.observed ∧
      (∀ a, a ∈ U.base.base.observed ↔ ∃ c ∈ allComps obs, c.call.name = a) ∧ (∀ a ∈ U.base.base.observed, a ∈ D.names) ∧
      ∀ a ∈ U.base.base.observed, ∃ ts, UniOutcome add deep ord D types umap n obs U a ts := by
  obtain ⟨V, hV⟩ : ∃ V, ({ UniLearner.init D types umap n p with base := { CondLearner.init D n p with
      base := (Learner.init D p).deduceIneq } } : UniLearner).process ord obs = .ok V := by
    unfold UniLearner.learn at h
    simp only [Bind.bind, Except.bind] at h
    split at h
    · simp at h
    · rename_i V hV; exact ⟨V, hV⟩
  obtain ⟨U', h1, h2, h3, _, h5, h6, h7⟩ := uniLearn_spec (deep := deep) hadd ho hD hC.objs hV
  rw [h] at h1
  simp only [Except.ok.injEq, Prod.mk.injEq] at h1
  obtain ⟨rfl, rfl⟩ := h1
  obtain ⟨K', k1, k2, _⟩ := condLearn_spec hadd ho hD n p (obs.map Prod.snd) (by
    intro c hc
    have : c ∈ allComps obs := by unfold allComps; rwa [List.flatMap_def]
    exact h6 _ ((h5 _).mpr ⟨c, this, rfl⟩))
  have hK : K' = U.base := by
    have := h2.symm.trans k1
    simp only [Except.ok.injEq, Prod.mk.injEq] at this
    exact this.1.symm
  subst hK
  exact ⟨rfl, h2, h3, k2, h5, h6, h7⟩

end

theorem callsOK_all (hC : UniCalls D types obs) : CallsOK D (allComps obs) := by
  intro c hc
  obtain ⟨objs, _, h2⟩ := mem_all hC.objs hc
  exact h2.good

/-- A literal over the parameters that was always true, with the additional object in the call. -/
theorem always_with (hD : WFDomain D) (hC : UniCalls D types obs) {a : String} (ha : a ∈ D.names) {T : PType} (hT : T ∈ types) {x : Lit}
    (hx : ∀ y ∈ x.args, y ∈ Sig.names (D.act a).sig) :
    AlwaysBefore D (allComps obs) a x → AlwaysBefore (extend D a (addVar D a T) T) (withObjects a T obs) a x := by
  intro h c' hc' _
  obtain ⟨objs, c, o, h1, rfl, hE, rfl⟩ := mem_with hD hC.objs ha hT (additionalName_fresh _ _) hc'
  have := h c (by rw [← map_snd_flat]; exact List.mem_map.mpr ⟨_, h1, rfl⟩) rfl
  rw [show addVar D c.call.name T = additionalName (D.act c.call.name).sig T from rfl, hE.before, ground_congr (σ := objSubst D c)]
  · exact this
  · intro y hy
    exact bindVar_agree (additionalName_fresh _ _) y (hx y hy)

/-- What the action does over parameters and an object of the type (or a subtype), it does. -/
theorem withObject_fires {A : UniSchema} {objs : Sig} {ρ : String → String} {s : State} {v : String} {T : PType}
    (effsOver : ∀ e ∈ A.effs, ∀ l ∈ e.ante ∪ e.res, ∀ x ∈ l.args, x ∈ Sig.names A.params)
    (over : ∀ u ∈ A.foralls, ∀ e ∈ u.effs, ∀ l ∈ e.ante ∪ e.res, ∀ x ∈ l.args, x = u.var ∨ x ∈ Sig.names A.params)
    (hW : World A.params objs ρ) (hv : v ∉ Sig.names A.params) {o : String × PType} (ho : o ∈ objs)
    (hsub : ∀ u ∈ A.foralls, T.isSub u.type = true → o.2.isSub u.type = true)
    {l : Lit} (hl : l ∈ fired (A.withObject v T).effs (bindVar ρ v o.1) s) : ground (bindVar ρ v o.1) l ∈ A.makes objs ρ s := by
  obtain ⟨e, he, hap, hle⟩ := mem_fired.mp hl
  have hag := bindVar_agree (ρ := ρ) (o := o.1) hv
  rcases mem_withObject.mp he with h | ⟨u, hu, q, hq, hs, h⟩
  · exact effOver_fires effsOver over (ps := A.params) (σ := bindVar ρ v o.1) ⟨hW.names, fun p hp => by
      rw [hag p.1 (List.mem_map.mpr ⟨p, hp, rfl⟩)]; exact hW.typed p hp, fun x hx y hy => by
      rw [hag x hx, hag y hy]; exact hW.inj x hx y hy⟩ hag (Or.inl h) hap hle
  · obtain ⟨e', he', rfl⟩ := h
    obtain ⟨l', hl', rfl⟩ := Finset.mem_image.mp hle
    have hgr : ∀ l ∈ e'.ante ∪ e'.res, ground (bindVar ρ v o.1) (ground (bindVar id u.var q.1) l) =
        ground (bindVar ρ u.var (bindVar ρ v o.1 q.1)) l := fun l hl => ground_quant over hag hu he' hl q.1
    have hob : ∃ o' ∈ objs, o'.1 = bindVar ρ v o.1 q.1 ∧ o'.2.isSub u.type = true := by
      rcases List.mem_append.mp hq with hq | hq
      · exact ⟨_, hW.typed q hq, (hag q.1 (List.mem_map.mpr ⟨q, hq, rfl⟩)).symm, hs⟩
      · rw [List.mem_singleton] at hq; subst hq
        exact ⟨o, ho, by simp, hsub u hu hs⟩
    obtain ⟨o', ho', e1, e2⟩ := hob
    rw [mem_makes]
    right
    refine ⟨u, hu, o', ho', e2, e', he', fun x hx => ?_, l', hl', ?_⟩
    · rw [e1, ← hgr x (Finset.mem_union_left _ hx)]
      exact hap _ (Finset.mem_image_of_mem _ hx)
    · rw [e1, ← hgr l' (Finset.mem_union_right _ hl')]

/-- One object: what is made true for it, seen as an effect over the parameters and the additional object, if it is no parameter's object;
otherwise over the parameters. -/
theorem makes_cases {A : UniSchema} {objs : Sig} {ρ : String → String} {s : State} {g : Lit}
    (effsOver : ∀ e ∈ A.effs, ∀ l ∈ e.ante ∪ e.res, ∀ x ∈ l.args, x ∈ Sig.names A.params)
    (over : ∀ u ∈ A.foralls, ∀ e ∈ u.effs, ∀ l ∈ e.ante ∪ e.res, ∀ x ∈ l.args, x = u.var ∨ x ∈ Sig.names A.params)
    (about : ∀ u ∈ A.foralls, ∀ e ∈ u.effs, ∀ l ∈ e.res, u.var ∈ l.args)
    (hW : World A.params objs ρ) (hg : g ∈ A.makes objs ρ s) :
    (∃ e ∈ A.onParams.effs, applicable e.ante ρ s ∧ ∃ l ∈ e.res, ground ρ l = g) ∨
    ∃ u ∈ A.foralls, ∃ o ∈ objs, o.2.isSub u.type = true ∧ (∀ x ∈ Sig.names A.params, ρ x ≠ o.1) ∧
      ∀ v, v ∉ Sig.names A.params → ∃ e ∈ (A.withObject v o.2).effs, applicable e.ante (bindVar ρ v o.1) s ∧
        ∃ l ∈ e.res, v ∈ l.args ∧ ground (bindVar ρ v o.1) l = g := by
  rcases mem_makes.mp hg with ⟨e, he, ha, l, hl, heq⟩ | ⟨u, hu, o, ho, hs, e, he, ha, l, hl, heq⟩
  · exact Or.inl ⟨e, mem_onParams.mpr (Or.inl he), ha, l, hl, heq⟩
  · by_cases hpar : ∃ p ∈ A.params, ρ p.1 = o.1
    · left
      obtain ⟨p, hp, hpo⟩ := hpar
      have hop : o = (ρ p.1, p.2) := by
        have hnd := hW.names
        unfold Sig.names at hnd
        exact List.inj_on_of_nodup_map hnd ho (hW.typed p hp) hpo.symm
      have hgr : ∀ l ∈ e.ante ∪ e.res, ground ρ (ground (bindVar id u.var p.1) l) = ground (bindVar ρ u.var o.1) l := by
        intro l hl
        rw [ground_quant over (fun _ _ => rfl) hu he hl p.1, hpo]
      refine ⟨e.rename u.var p.1, mem_onParams.mpr (Or.inr ⟨u, hu, p, hp, ?_, e, he, rfl⟩), ?_, _,
        Finset.mem_image_of_mem _ hl, ?_⟩
      · rw [hop] at hs; exact hs
      · intro x hx
        obtain ⟨x', hx', rfl⟩ := Finset.mem_image.mp hx
        rw [hgr x' (Finset.mem_union_left _ hx')]; exact ha x' hx'
      · rw [hgr l (Finset.mem_union_right _ hl)]; exact heq
    · right
      refine ⟨u, hu, o, ho, hs, ?_, fun v hv => ?_⟩
      · intro x hx e
        obtain ⟨p, hp, rfl⟩ := List.mem_map.mp hx
        exact hpar ⟨p, hp, e⟩
      · have hag := bindVar_agree (ρ := ρ) (o := o.1) hv
        have hgr : ∀ l ∈ e.ante ∪ e.res, ground (bindVar ρ v o.1) (ground (bindVar id u.var v) l) = ground (bindVar ρ u.var o.1) l := by
          intro l hl
          rw [ground_quant over hag hu he hl v]; simp
        refine ⟨e.rename u.var v, mem_withObject.mpr (Or.inr ⟨u, hu, (v, o.2), by simp, hs, e, he, rfl⟩), ?_, _,
          Finset.mem_image_of_mem _ hl, ?_, ?_⟩
        · intro x hx
          obtain ⟨x', hx', rfl⟩ := Finset.mem_image.mp hx
          rw [hgr x' (Finset.mem_union_left _ hx')]; exact ha x' hx'
        · rw [ground_args, List.mem_map]
          exact ⟨u.var, about u hu e he l hl, by simp⟩
        · rw [hgr l (Finset.mem_union_right _ hl)]; exact heq

theorem mem_uniMakes {A : UniAction} {objs : Sig} {ρ : String → String} {s : State} {g : Lit} :
    g ∈ A.makes objs ρ s ↔ (∃ l ∈ A.core.makes ρ s, ground ρ l = g) ∨
      ∃ u ∈ A.foralls, ∃ o ∈ objs, o.2.isSub u.type = true ∧ ∃ l ∈ fired u.effs (bindVar ρ u.var o.1) s,
        ground (bindVar ρ u.var o.1) l = g := by
  unfold UniAction.makes
  rw [Finset.mem_union, mem_foldr_union (xs := A.foralls) (f := fun u => firedForall u.effs u.var u.type objs ρ s), Finset.mem_image]
  simp only [mem_firedForall, firedAt, Finset.mem_image]

theorem mem_uniForalls (hC : UniCalls D types obs) {a : String} {ts : List String} (hU : U.types = types)
    (h : UniOutcome add deep ord D types umap n obs U a ts) {u : Forall} :
    u ∈ (U.action a).foralls ↔ ∃ T ∈ learnedTypes types ts, u = ⟨addVar D a T, T, U.ueffs a T.name⟩ := by
  unfold UniLearner.action
  dsimp only
  rw [h.addl, hU]
  simp only [List.mem_map, exists_exists_and_eq_and]
  refine exists_congr fun T => and_congr_right fun hT => ?_
  rw [typeOf_mem hC.typeNames (mem_learnedTypes.mp hT).1]
  exact eq_comm

section
variable {a : String} {ts : List String} {truth : String → UniSchema}
include hadd ho hD

/-- Everything the returned action makes true, the true one makes true. -/
theorem uni_sound (hT : WFUniTruth D n types (addVar D) truth) (hG : UniData D types truth obs) (hU : U.types = types)
    (ha : a ∈ D.names) (hob : ∃ c ∈ allComps obs, c.call.name = a) (h : UniOutcome add deep ord D types umap n obs U a ts)
    {objs : Sig} {ρ : String → String} {s : State} (hW : World (D.act a).sig objs ρ) (hacc : applicable (U.action a).core.pre ρ s)
    (hnest : ∀ T ∈ learnedTypes types ts, ∀ e ∈ ((truth a).withObject (addVar D a T) T).effs, ∀ x ∈ e.ante,
      x ∈ Cond.litsAll (U.action a).core.conds → x ∈ (U.action a).core.pre)
    (hsub : ∀ o ∈ objs, ∀ T ∈ learnedTypes types ts, ∀ u ∈ (truth a).foralls, o.2.isSub T = true → T.isSub u.type = true →
      o.2.isSub u.type = true) :
    (U.action a).makes objs ρ s ⊆ (truth a).makes objs ρ s := by
  have hC := hG.toUniCalls
  have hO := hC.objs
  have hp := hT.params a ha
  have hw := hT.wf a ha
  have hF := base_facts hD hO hG.real ha hp hw
  obtain ⟨d0, O0, hv0⟩ := view_of ho hD (callsOK_all hC) ha hob h.base
  intro g hg
  have hW' : World (truth a).params objs ρ := by rw [hp]; exact hW
  rcases mem_uniMakes.mp hg with ⟨l, hl, rfl⟩ | ⟨u, hu, o, hoo, hs, l, hl, rfl⟩
  · have := makes_true hF hv0 hacc hl
    obtain ⟨e, he, hae, hle⟩ := mem_fired.mp this
    exact effOver_fires hw.effsOver hw.over hW' (fun _ _ => rfl) (mem_onParams.mp he) hae hle
  · obtain ⟨T, hTl, rfl⟩ := (mem_uniForalls hC hU h).mp hu
    dsimp only at hs hl ⊢
    have hTt := (mem_learnedTypes.mp hTl).1
    have hvf : addVar D a T ∉ Sig.names (D.act a).sig := additionalName_fresh _ _
    have hQ := quant_facts (T := T) (v := addVar D a T) hD hO ha hTt hvf hG.real hp hw (List.mem_map.mpr ⟨T, hTt, rfl⟩)
    obtain ⟨d, hq⟩ := h.quant T hTl
    have hqv := qview_of ho hD hO ha hTt hvf (additionalName_ne _ _) hq
    refine withObject_fires hw.effsOver hw.over hW' (by rw [hp]; exact hvf) hoo
      (fun u hu h' => hsub o hoo T hTl u hu hs h') ?_
    refine quant_sound hQ hqv hq.built (fun e he x hx hxP => ?_) hl
    have hxp : x ∈ (U.action a).core.pre := by
      rcases Finset.mem_union.mp hxP with h1 | h1
      · exact h1
      · exact hnest T hTl e he x hx (List.mem_toFinset.mp h1)
    obtain ⟨h1, h2⟩ := (hv0.pre x).mp hxp
    have hxa : ∀ y ∈ x.args, y ∈ Sig.names (D.act a).sig := by
      have := typed_sub h1; rwa [hC.noConsts, List.append_nil] at this
    refine ⟨always_with hD hC ha hTt hxa h2, ?_⟩
    rw [ground_congr fun y hy => bindVar_agree hvf y (hxa y hy)]
    exact hacc x hxp

omit hadd hD in
/-- Without ambiguous literals no condition is added. -/
theorem no_conds (hD : WFDomain D) (hC : UniCalls D types obs) (ha : a ∈ D.names) (hob : ∃ c ∈ allComps obs, c.call.name = a)
    {K : CondLearner} (h : CondOutcome add ord D n (allComps obs) K a)
    (hamb : ∀ l, ¬ Ambiguous D (allComps obs) a n l) : K.conds a = [] := by
  obtain ⟨d, O, hv⟩ := view_of ho hD (callsOK_all hC) ha hob h
  by_contra hne
  obtain ⟨c0, hc0⟩ := List.exists_mem_of_ne_nil _ hne
  obtain ⟨l, cs, _, h1, h2, _⟩ := hv.built.added c0 hc0
  obtain ⟨k1, k2, k3⟩ := hv.cand l cs h1
  have hnd := (hv.ok l cs h1).nodup
  match cs, h2, hnd, k3 with
  | A :: B :: t, _, hnd, k3 =>
    refine hamb l ⟨k1, k2, A, B, ?_, (k3 A).mp (by simp), (k3 B).mp (by simp)⟩
    rintro rfl
    simp at hnd

/-- What the true action makes true and is not yet true, the returned one makes true, under the stated conditions. -/
theorem uni_complete (hT : WFUniTruth D n types (addVar D) truth) (hG : UniData D types truth obs) (hU : U.types = types)
    (ha : a ∈ D.names) (hob : ∃ c ∈ allComps obs, c.call.name = a) (h : UniOutcome add deep ord D types umap n obs U a ts)
    {objs : Sig} {ρ : String → String} {s : State} (hW : World (D.act a).sig objs ρ) (hacc : (U.action a).accepts objs ρ s)
    (hamb : ∀ l, ¬ Ambiguous D (allComps obs) a n l) (hone : deep = false ∨ (U.uconds a).length ≤ 1) (hn1 : 1 ≤ n)
    {g : Lit}
    (hb : ∀ e ∈ (truth a).onParams.effs, ∀ l ∈ e.res, ground ρ l = g → Became D (allComps obs) a l ∨ NeverUndone D (allComps obs) a l)
    (hq : ∀ o ∈ objs, (∀ x ∈ Sig.names (D.act a).sig, ρ x ≠ o.1) → o.2 ∈ learnedTypes types ts → ∀ T, T = o.2 →
      ∀ e ∈ ((truth a).withObject (addVar D a T) T).effs, ∀ l ∈ e.res, addVar D a T ∈ l.args → ground (bindVar ρ (addVar D a T) o.1) l = g →
      Became (extend D a (addVar D a T) T) (withObjects a T obs) a l ∨ NeverUndone (extend D a (addVar D a T) T) (withObjects a T obs) a l)
    (hcov : ∀ u ∈ (truth a).foralls, ∀ o ∈ objs, o.2.isSub u.type = true → o.1 ∈ g.args →
      (∃ x ∈ Sig.names (D.act a).sig, ρ x = o.1) ∨ o.2 ∈ learnedTypes types ts)
    (hg : g ∈ (truth a).makes objs ρ s) (hng : ¬ holds s g) : g ∈ (U.action a).makes objs ρ s := by
  have hC := hG.toUniCalls
  have hO := hC.objs
  have hp := hT.params a ha
  have hw := hT.wf a ha
  have hF := base_facts hD hO hG.real ha hp hw
  obtain ⟨d0, O0, hv0⟩ := view_of ho hD (callsOK_all hC) ha hob h.base
  have hW' : World (truth a).params objs ρ := by rw [hp]; exact hW
  have hconds : U.base.conds a = [] := no_conds ho hD hC ha hob h.base hamb
  have hP : U.base.preLits a = (U.base.base.dom.act a).pre := by
    unfold CondLearner.preLits; rw [hconds]; simp [Cond.litsAll]
  rw [mem_uniMakes]
  rcases makes_cases hw.effsOver hw.over hw.about hW' hg with ⟨e, he, hae, l, hl, rfl⟩ | ⟨u, hu, o, hoo, hs, hout, hall⟩
  · left
    refine ⟨l, true_makes hF hadd ho hv0 hacc.1 (Or.inl fun l l' h => absurd h (hamb l)) (fun l l' _ h => absurd h (hamb l)) (hb e he l hl rfl)
      (mem_fired.mpr ⟨e, he, hae, hl⟩) hng, rfl⟩
  · right
    have hog : o.1 ∈ g.args := by
      obtain ⟨e, _, _, l, _, hvl, rfl⟩ := hall (addVar D a o.2) (by rw [hp]; exact additionalName_fresh _ _)
      rw [ground_args, List.mem_map]
      exact ⟨_, hvl, by simp⟩
    rw [hp] at hout
    rcases hcov u hu o hoo hs hog with ⟨x, hx, hxo⟩ | hTl
    · exact absurd hxo (hout x hx)
    · have hTt := (mem_learnedTypes.mp hTl).1
      have hvf : addVar D a o.2 ∉ Sig.names (D.act a).sig := additionalName_fresh _ _
      obtain ⟨e, he, hae, l, hl, hvl, rfl⟩ := hall (addVar D a o.2) (by rw [hp]; exact hvf)
      refine ⟨_, (mem_uniForalls hC hU h).mpr ⟨o.2, hTl, rfl⟩, o, hoo, isSub_refl _, l, ?_, rfl⟩
      have hQ := quant_facts (T := o.2) (v := addVar D a o.2) hD hO ha hTt hvf hG.real hp hw (List.mem_map.mpr ⟨o.2, hTt, rfl⟩)
      obtain ⟨d, hqo⟩ := h.quant o.2 hTl
      have hqv := qview_of ho hD hO ha hTt hvf (additionalName_ne _ _) hqo
      have hpa : ∀ x ∈ U.base.preLits a, (∀ y ∈ x.args, y ∈ Sig.names (D.act a).sig) ∧ AlwaysBefore D (allComps obs) a x ∧
          holds s (ground ρ x) := by
        intro x hx
        rw [hP] at hx
        obtain ⟨h1, h2⟩ := (hv0.pre x).mp hx
        refine ⟨?_, h2, hacc.1.1 x hx⟩
        have := typed_sub h1; rwa [hC.noConsts, List.append_nil] at this
      refine quant_complete hQ hqv hadd ho hqo.built hone hn1 (fun x hx hvx => hvf ((hpa x hx).1 _ hvx))
        (fun x hx => always_with hD hC ha hTt (hpa x hx).1 (hpa x hx).2.1) (fun x hx => ?_) (fun u hu hv ht => ?_) he hl hvl
        (hq o hoo hout hTl o.2 rfl e he l hl hvl rfl) hae hng
      · rw [ground_congr fun y hy => bindVar_agree hvf y ((hpa x hx).1 y hy)]
        exact (hpa x hx).2.2
      · cases hcd : u.cond with
        | none => exact trivial
        | some c =>
          refine hacc.2 (addVar D a o.2, o.2, c) ?_ o hoo (isSub_refl _)
          refine List.mem_filterMap.mpr ⟨u, hu, ?_⟩
          rw [hcd, hU, ht, typeOf_mem hC.typeNames hTt, hv]
          rfl

end
end
end Model

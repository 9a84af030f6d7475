import Verif.Lemmas.UniTruth

/-! Universal conditional SAM against the true action. -/
namespace Model
open Spec

/-- The type with a given name. -/
def typeOf (types : List PType) (t : String) : PType := (types.find? fun T => T.name == t).getD ⟨t, []⟩

theorem typeOf_mem {types : List PType} (hn : (types.map PType.name).Nodup) {T : PType} (hT : T ∈ types) : typeOf types T.name = T := by
  unfold typeOf
  induction types with
  | nil => simp at hT
  | cons x xs ih =>
    rw [List.map_cons, List.nodup_cons] at hn
    rw [List.find?_cons]
    rcases List.mem_cons.mp hT with rfl | hT
    · simp
    · have hne : (x.name == T.name) = false := by
        simp only [beq_eq_false_iff_ne]
        intro e; exact hn.1 (e ▸ List.mem_map.mpr ⟨T, hT, rfl⟩)
      rw [hne]
      exact ih hn.2 hT

/-- The returned action: the part without quantifiers, the universal preconditions (an empty one says nothing) and the universal effects. -/
def UniLearner.action (U : UniLearner) (a : String) : UniAction :=
  ⟨U.base.action a, (U.uconds a).filterMap fun u => u.cond.map fun c => (u.var, typeOf U.types u.type, c),
    (U.addl a).map fun tv => ⟨tv.2, typeOf U.types tv.1, U.ueffs a tv.1⟩⟩

section
variable {D : Domain} {n : Nat} {truth : String → UniSchema} {obs : List UniObs} {a : String} {types : List PType}
  {vars : List (String × PType)}

section
variable (hD : WFDomain D) (hO : ObjsOK D types (flat obs)) (hR : ∀ ob ∈ obs, ∀ c ∈ ob.2, RealUni D truth ob.1 c)
  (ha : a ∈ D.names) (hp : (truth a).params = (D.act a).sig) (hw : WFUni D.preds n vars (truth a))
include hD hO hR ha hp hw

omit hp hw hR in
theorem uni_sig : WFSig [] (D.act a).sig := by have := hD.sigs a ha; rwa [hO.noConsts] at this

omit hD ha hp hw hR in
theorem mem_all {c : Component} (hc : c ∈ allComps obs) : ∃ objs, (objs, c) ∈ flat obs ∧ ExactCall D objs c := by
  rw [← map_snd_flat, List.mem_map] at hc
  obtain ⟨⟨objs, c⟩, h1, rfl⟩ := hc
  exact ⟨objs, h1, hO.calls _ h1⟩

/-- The data without quantifiers. -/
theorem base_facts : CondFacts D n (allComps obs) a (truth a).onParams := by
  have hsig := uni_sig hD hO ha
  have hb := hw.base
  have hsg : (truth a).onParams.params = (D.act a).sig := hp
  have key : ∀ c ∈ allComps obs, c.call.name = a → ∃ objs, World (truth a).params objs (objSubst D c) ∧
      applicable (truth a).pre (objSubst D c) c.prev ∧ c.next = (truth a).next objs (objSubst D c) c.prev := by
    intro c hc hn
    obtain ⟨objs, h1, h2⟩ := mem_all hO hc
    obtain ⟨ob, g1, g2, g3⟩ := mem_flat.mp h1
    dsimp only at g2 g3
    have hr := hR ob g1 c g3
    subst hn
    refine ⟨objs, by rw [hp]; exact h2.world hO.noConsts hsig, hr.app, by rw [← g2]; exact hr.next⟩
  refine ⟨?_, ?_, ?_, hb.bounded, hb.uniq, ?_, ?_, ?_⟩
  · rw [hO.noConsts, List.append_nil, ← hsg]; exact hb.pre
  · rw [hO.noConsts, List.append_nil, ← hsg]; exact hb.ante
  · rw [hO.noConsts, List.append_nil, ← hsg]; exact hb.res
  · intro c hc hn l hl
    obtain ⟨objs, _, h2, _⟩ := key c hc hn
    exact h2 l hl
  · intro c hc hn e he l hl hbf
    obtain ⟨objs, h1, h2, h3⟩ := key c hc hn
    unfold after
    rw [h3]
    refine next_holds (hw.consistent objs _ _ h1 h2) ?_
    exact effOver_fires hw.effsOver hw.over h1 (fun _ _ => rfl) (mem_onParams.mp he) hbf hl
  · intro c hc hn l hl h1 h2
    obtain ⟨objs, k1, k2, k3⟩ := key c hc hn
    unfold after at h2
    rw [k3] at h2
    have hm := made_of_change h2 h1
    rw [hO.noConsts, List.append_nil, ← hp] at hl
    obtain ⟨e, he, hle, hae⟩ := effOver_of_makes hw.effsOver hw.over hw.about k1 (fun _ _ => rfl) (fun x hx => hx) (typed_sub hl) hm
    exact ⟨e, mem_onParams.mpr he, hle, hae⟩

end

/-- One more object in a world. -/
theorem world_extend {params objs : Sig} {ρ : String → String} (h : World params objs ρ) {v o : String} {T : PType}
    (hv : v ∉ Sig.names params) (ho : (o, T) ∈ objs) (hout : ∀ x ∈ Sig.names params, ρ x ≠ o) :
    World (params ++ [(v, T)]) objs (bindVar ρ v o) := by
  have hag : ∀ x ∈ Sig.names params, bindVar ρ v o x = ρ x := fun x hx => by
    have hne : x ≠ v := by rintro rfl; exact hv hx
    simp [hne]
  refine ⟨h.names, ?_, ?_⟩
  · intro p hp
    rcases List.mem_append.mp hp with hp | hp
    · rw [hag _ (List.mem_map.mpr ⟨p, hp, rfl⟩)]; exact h.typed p hp
    · rw [List.mem_singleton] at hp; subst hp; simp only [Function.update_self]; exact ho
  · intro x hx y hy e
    have hs : Sig.names (params ++ [(v, T)]) = Sig.names params ++ [v] := by simp [Sig.names]
    rw [hs] at hx hy
    rw [List.mem_append, List.mem_singleton] at hx hy
    rcases hx with hx | hx <;> rcases hy with hy | hy
    · rw [hag x hx, hag y hy] at e; exact h.inj x hx y hy e
    · rw [hag x hx, hy] at e; simp only [Function.update_self] at e
      exact absurd e (hout x hx)
    · rw [hag y hy, hx] at e; simp only [Function.update_self] at e
      exact absurd e.symm (hout y hy)
    · rw [hx, hy]

theorem bindVar_agree {params : Sig} {ρ : String → String} {v o : String} (hv : v ∉ Sig.names params) :
    ∀ x ∈ Sig.names params, bindVar ρ v o x = ρ x := fun x hx => by
  have hne : x ≠ v := by rintro rfl; exact hv hx
  simp [hne]

section
variable {T : PType} {v : String} (hD : WFDomain D) (hO : ObjsOK D types (flat obs)) (ha : a ∈ D.names) (hT : T ∈ types)
  (hv : v ∉ Sig.names (D.act a).sig)
include hD hO ha hT hv

/-- The extended transitions. -/
theorem mem_with {c' : Component} (hc : c' ∈ withObjects a T obs) : ∃ objs c o, (objs, c) ∈ flat obs ∧ c.call.name = a ∧
    Extra D objs c o v T ∧ c' = plus c o := by
  obtain ⟨⟨objs, c⟩, h1, h2, h3⟩ := mem_extras.mp (mem_withObjects.mp hc)
  obtain ⟨o, k1, k2, k3, k4⟩ := mem_news.mp h3
  dsimp only at h2 k1 k3 k4
  have hsig := uni_sig hD hO ha
  refine ⟨objs, c, o.1, h1, h2, ⟨hO.noConsts, by rw [h2]; exact hsig, hO.calls _ h1, ?_, k3, by rw [h2]; exact hv⟩, k4⟩
  rw [← hO.known _ h1 o k1 T hT k2]; exact k1

theorem with_calls : CallsOK (extend D a v T) (withObjects a T obs) := by
  intro c' hc
  obtain ⟨objs, c, o, _, rfl, hE, rfl⟩ := mem_with hD hO ha hT hv hc
  exact hE.good2

theorem with_wf : WFDomain (extend D a v T) := by
  refine ⟨by simp [extend], ?_, ?_⟩
  · intro b hb
    simp only [extend, List.mem_singleton] at hb
    subst hb
    rw [extend_act, show (extend D b v T).consts = [] from hO.noConsts]
    exact wfSig_extend (uni_sig hD hO ha) hv
  · intro b hb
    simp only [extend, List.mem_singleton] at hb
    subst hb
    simp [extend, ActModel.fresh]

omit hD ha hT hv in
theorem ext_table : ((extend D a v T).act a).sig ++ (extend D a v T).consts = (D.act a).sig ++ [(v, T)] := by
  rw [extend_act, show (extend D a v T).consts = [] from hO.noConsts, List.append_nil]

variable (hR : ∀ ob ∈ obs, ∀ c ∈ ob.2, RealUni D truth ob.1 c)
  (hp : (truth a).params = (D.act a).sig) (hw : WFUni D.preds n vars (truth a)) (hvT : (v, T) ∈ vars)
include hR hp hw hvT

/-- The data with one more object. -/
theorem quant_facts : CondFacts (extend D a v T) n (withObjects a T obs) a ((truth a).withObject v T) := by
  have hq : Regular D.preds n ((truth a).withObject v T) := hw.quant _ hvT
  have hsg : ((truth a).withObject v T).params = (D.act a).sig ++ [(v, T)] := by
    show (truth a).params ++ _ = _; rw [hp]
  have htab := ext_table (a := a) (v := v) (T := T) hO
  have key : ∀ c' ∈ withObjects a T obs, c'.call.name = a → ∃ objs ρ, objSubst (extend D a v T) c' = ρ ∧
      World ((truth a).params ++ [(v, T)]) objs ρ ∧ ∃ ρ0, (∀ x ∈ Sig.names (truth a).params, ρ x = ρ0 x) ∧ World (truth a).params objs ρ0 ∧
      applicable (truth a).pre ρ0 c'.prev ∧ c'.next = (truth a).next objs ρ0 c'.prev := by
    intro c' hc hn
    obtain ⟨objs, c, o, h1, rfl, hE, rfl⟩ := mem_with hD hO ha hT hv hc
    obtain ⟨ob, g1, g2, g3⟩ := mem_flat.mp h1
    dsimp only at g2 g3
    have hr := hR ob g1 c g3
    have hW : World (truth c.call.name).params objs (objSubst D c) := by rw [hp]; exact hE.call.world hO.noConsts hE.wf
    refine ⟨objs, _, hE.subst, world_extend hW (by rw [hp]; exact hv) hE.obj ?_, objSubst D c, bindVar_agree (by rw [hp]; exact hv), hW,
      hr.app, by rw [← g2]; exact hr.next⟩
    intro x hx he
    refine hE.out ?_
    rw [← he]
    rw [hp] at hx
    exact bind_mem_call (by have := hE.wf; unfold WFSig at this; rwa [List.append_nil] at this) (by rw [Sig.length_names]; exact hE.good0.len) hx
  have hsub : ∀ x ∈ Sig.names (truth a).params, x ∈ Sig.names ((truth a).params ++ [(v, T)]) := by
    intro x hx; simp only [Sig.names, List.map_append, List.mem_append]; exact Or.inl hx
  refine ⟨?_, ?_, ?_, hq.bounded, hq.uniq, ?_, ?_, ?_⟩
  · rw [htab, ← hsg]; exact hq.pre
  · rw [htab, ← hsg]; exact hq.ante
  · rw [htab, ← hsg]; exact hq.res
  · intro c hc hn l hl
    obtain ⟨objs, ρ, h1, _, ρ0, h3, _, h5, _⟩ := key c hc hn
    unfold before
    rw [h1, ground_congr (σ := ρ0)]
    · exact h5 l hl
    · intro x hx
      exact h3 x (typed_sub (hw.base.pre l hl) x hx)
  · intro c hc hn e he l hl hbf
    obtain ⟨objs, ρ, h1, h2, ρ0, h3, h4, h5, h6⟩ := key c hc hn
    unfold after
    rw [h1, h6]
    refine next_holds (hw.consistent objs _ _ h4 h5) ?_
    refine effOver_fires hw.effsOver hw.over h2 h3 (mem_withObject.mp he) ?_ hl
    intro x hx
    have := hbf x hx
    unfold before at this
    rwa [h1] at this
  · intro c hc hn l hl k1 k2
    obtain ⟨objs, ρ, h1, h2, ρ0, h3, h4, h5, h6⟩ := key c hc hn
    unfold after at k2
    unfold before at k1
    rw [h1] at k1 k2
    rw [h6] at k2
    have hm := made_of_change k2 k1
    rw [htab, ← hsg] at hl
    obtain ⟨e, he, hle, hae⟩ := effOver_of_makes hw.effsOver hw.over hw.about h2 h3 hsub (typed_sub hl) hm
    refine ⟨e, mem_withObject.mpr he, hle, ?_⟩
    intro x hx
    unfold before
    rw [h1]
    exact hae x hx

end

end
end Model

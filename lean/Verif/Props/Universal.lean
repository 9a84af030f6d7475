import Verif.Lemmas.CheckUni
import Verif.Props.CondSam

/-! C80-C84: learning universal conditional effects. -/
namespace Props
open Model Spec

section
variable {add : Cond → Cond → Cond} {deep : Bool} {ord : LitOrd} (hadd : AddOK add) (ho : EnumNodup ord)
variable {D : Domain} (hD : WFDomain D) {n : Nat} {p : Policy} {types : List PType} {umap : List (String × List String)}
  {obs : List UniObs} {truth : String → UniSchema} {U : UniLearner} {rep : List (String × Status)}

/-! ### C80: when learning returns -/

section
include hadd ho hD

/-- **C80.** Learning returns exactly if every called action is in the domain and in the map of universal types, and every changed literal (among
the objects of the call and of the listed types) has at most one object outside the call, whose type is among the types of the domain other
than `object`. -/
theorem C80_returns_iff (deep : Bool) (n : Nat) (p : Policy) (umap : List (String × List String)) (hC : UniCalls D types obs) :
    (∃ r, (UniLearner.init D types umap n p).learn add deep ord obs = .ok r) ↔
      ∀ ob ∈ obs, ∀ c ∈ ob.2, c.call.name ∈ D.names ∧ ∃ ts, umap.lookup c.call.name = some ts ∧ OneExtra D types ts ob.1 c := by
  rw [← process_isOk ho hD obs [] _ (UniInv.start (ord := ord) hD p n types umap) hC.objs]
  constructor
  · rintro ⟨r, h⟩
    unfold UniLearner.learn at h
    simp only [Bind.bind, Except.bind] at h
    split at h
    · simp at h
    · rename_i V hV; exact ⟨V, hV⟩
  · rintro ⟨V, hV⟩
    obtain ⟨U', h, _⟩ := uniLearn_spec (deep := deep) hadd ho hD hC.objs hV
    exact ⟨_, h⟩

end

/-- A real transition changes literals with at most one object outside the call. -/
theorem oneExtra_of_real {objs : Sig} {c : Component} {ts : List String} {vars : List (String × PType)}
    (hk : D.consts = []) (hsig : WFSig [] (D.act c.call.name).sig)
    (hp : (truth c.call.name).params = (D.act c.call.name).sig) (hw : WFUni D.preds n vars (truth c.call.name))
    (hknown : ∀ o ∈ objs, ∀ t ∈ types, o.2.name = t.name → o.2 = t) (hr : RealUni D truth objs c)
    (hts : ∀ t ∈ ts, t ≠ "object" ∧ ∃ T ∈ types, T.name = t) : OneExtra D types ts objs c := by
  intro g hg h1 h2
  have hlen : c.call.params.length = (Sig.names (D.act c.call.name).sig).length := by
    rw [Sig.length_names]; exact hr.exact.length_eq
  rw [hr.next] at h1
  have hm := made_of_change h1 h2
  have hcall : ∀ x ∈ Sig.names (truth c.call.name).params, objSubst D c x ∈ c.call.params := by
    intro x hx
    rw [hp] at hx
    exact bind_mem_call hsig.params hlen hx
  obtain ⟨o1, ho1⟩ : ∃ o1, ∀ o ∈ g.args, o ∉ c.call.params → o = o1 := by
    rcases mem_makes.mp hm with ⟨e, he, _, l, hl, rfl⟩ | ⟨u, hu, o, _, _, e, he, _, l, hl, rfl⟩
    · refine ⟨"", fun o hog hoc => absurd ?_ hoc⟩
      rw [ground_args, List.mem_map] at hog
      obtain ⟨x, hx, rfl⟩ := hog
      exact hcall x (hw.effsOver e he l (Finset.mem_union_right _ hl) x hx)
    · refine ⟨o.1, fun o' hog hoc => ?_⟩
      rw [ground_args, List.mem_map] at hog
      obtain ⟨x, hx, rfl⟩ := hog
      by_cases hxv : x = u.var
      · subst hxv; simp
      · exfalso
        rw [bindVar, Function.update_of_ne hxv] at hoc
        exact hoc (hcall x ((hw.over u hu e he l (Finset.mem_union_right _ hl) x hx).resolve_left hxv))
  refine ⟨fun o a o' a' b b' => (ho1 o a b).trans (ho1 o' a' b').symm, fun o hog hoc => ?_⟩
  obtain ⟨q, hq, rfl⟩ := List.mem_map.mp (typed_sub hg o hog)
  rw [List.mem_filter] at hq
  obtain ⟨hq1, hq2⟩ := hq
  have hqt : q.2.name ∈ ts := by
    simp only [Bool.or_eq_true, List.contains_iff_mem] at hq2
    exact hq2.resolve_left hoc
  obtain ⟨k1, T, k2, k3⟩ := hts _ hqt
  have : q.2 = T := hknown q hq1 T k2 k3.symm
  exact ⟨T, k2, by rw [k3]; exact k1, by rw [← this]; exact hq1⟩

include hadd ho hD in
/-- **C80.** On real transitions learning returns if the called actions are known and listed, with types of the domain other than `object`. -/
theorem C80_real_data_returns (deep : Bool) (p : Policy) (hT : WFUniTruth D n types (addVar D) truth) (hG : UniData D types truth obs)
    (hl : ∀ ob ∈ obs, ∀ c ∈ ob.2, c.call.name ∈ D.names ∧
      ∃ ts, umap.lookup c.call.name = some ts ∧ ∀ t ∈ ts, t ≠ "object" ∧ ∃ T ∈ types, T.name = t) :
    ∃ r, (UniLearner.init D types umap n p).learn add deep ord obs = .ok r := by
  rw [C80_returns_iff hadd ho hD deep n p umap hG.toUniCalls]
  intro ob hob c hc
  obtain ⟨h1, ts, h2, h3⟩ := hl ob hob c hc
  have hsig : WFSig [] (D.act c.call.name).sig := by have := hD.sigs _ h1; rwa [hG.noConsts] at this
  exact ⟨h1, ts, h2, oneExtra_of_real hG.noConsts hsig (hT.params _ h1) (hT.wf _ h1)
    (hG.known ob hob (List.ne_nil_of_mem hc)) (hG.real ob hob c hc) h3⟩

/-- **C80.** The first transition of an action that is not in the map of universal types (by default the map is empty) raises `KeyError`. -/
theorem C80_unlisted_raises (add : Cond → Cond → Cond) (deep : Bool) (ord : LitOrd) (D : Domain) (types : List PType) (n : Nat) (p : Policy)
    (objs : Sig) (c : Component) (cs : List Component) (rest : List UniObs) (h : umap.lookup c.call.name = none) :
    (UniLearner.init D types umap n p).learn add deep ord ((objs, c :: cs) :: rest) = .error .keyError := by
  unfold UniLearner.learn
  have hf : ({ UniLearner.init D types umap n p with base := { (UniLearner.init D types umap n p).base with
      base := (UniLearner.init D types umap n p).base.base.deduceIneq } } : UniLearner).handleComponent ord objs c = .error .keyError := by
    unfold UniLearner.handleComponent
    dsimp only
    split
    · rfl
    · rw [show ({ UniLearner.init D types umap n p with base := { (UniLearner.init D types umap n p).base with
        base := (UniLearner.init D types umap n p).base.base.deduceIneq } } : UniLearner).umap = umap from rfl, h]
  unfold UniLearner.process
  simp only [List.foldlM_cons, Bind.bind, Except.bind]
  rw [hf]

/-! ### C81: the part without quantifiers -/

section
include hadd ho hD

/-- **C81.** Everything but the universal effects and preconditions is what `ConditionalSAM` learns from the same transitions, and so is the
report. -/
theorem C81_same_as_conditional_sam (hC : UniCalls D types obs)
    (h : (UniLearner.init D types umap n p).learn add deep ord obs = .ok (U, rep)) :
    (CondLearner.init D n p).learn add ord (obs.map Prod.snd) = .ok (U.base, rep) ∧
    ∀ a, (U.action a).core = U.base.action a := by
  obtain ⟨_, h2, _⟩ := uni_outcome hadd ho hD hC h
  exact ⟨h2, fun a => rfl⟩

/-! ### C82: the universal effects -/

/-- A possible antecedent for `l` about an additional object: non-empty, of bounded size, well typed, without literals of `P`, and not
refuted by the transitions with each additional object. -/
structure PossibleQ (D : Domain) (obs : List UniObs) (a : String) (n : Nat) (v : String) (T : PType) (P : List Lit) (l : Lit) (A : Finset Lit) :
    Prop where
  ne : A ≠ ∅
  card : A.card ≤ n
  typed : ∀ x ∈ A, TypedLit D.preds ((D.act a).sig ++ [(v, T)]) x
  fresh : ∀ x ∈ A, x ∉ P
  explains : Explains (extend D a v T) (withObjects a T obs) a A l

/-- The literals of the precondition: its conjuncts and those nested in its added conditions. -/
noncomputable def preconditionLits (A : LearnedAction) : List Lit := A.pre.toList ++ Cond.litsAll A.conds

/-- **C82.** The returned action has one universal effect per learned type (a type of the domain other than `object` that is listed for the
action), for a variable that is no parameter. For an object bound to the variable it makes a literal true exactly if the literal is about the
object, was seen to become true for some object of exactly the type outside the call, and all antecedents the data leave possible hold. -/
theorem C82_universal_effects (hC : UniCalls D types obs) (h : (UniLearner.init D types umap n p).learn add deep ord obs = .ok (U, rep))
    {a : String} (ha : a ∈ U.base.base.dom.names) :
    ∃ ts, umap.lookup a = some ts ∧
      (U.action a).foralls.map Forall.type = types.filter (fun T => T.name ≠ "object" ∧ T.name ∈ ts) ∧
      ∀ u ∈ (U.action a).foralls, u.var ∉ Sig.names (D.act a).sig ∧ ∀ σ s l, l ∈ fired u.effs σ s ↔
        TypedLit D.preds ((D.act a).sig ++ [(u.var, u.type)]) l ∧ u.var ∈ l.args ∧
        Became (extend D a u.var u.type) (withObjects a u.type obs) a l ∧
        (∀ A, PossibleQ D obs a n u.var u.type (preconditionLits (U.action a).core) l A → applicable A σ s) ∧
        l ∉ preconditionLits (U.action a).core := by
  obtain ⟨_, _, h3, h4, h5, h6, h7⟩ := uni_outcome hadd ho hD hC h
  rw [h4] at ha
  obtain ⟨ts, hU⟩ := h7 a ha
  have hna := h6 a ha
  refine ⟨ts, hU.listed, ?_, ?_⟩
  · unfold UniLearner.action
    dsimp only
    rw [hU.addl, h3, List.map_map, List.map_map]
    have : ∀ T ∈ learnedTypes types ts, ((Forall.type ∘ (fun tv : String × String => (⟨tv.2, typeOf types tv.1, U.ueffs a tv.1⟩ : Forall))) ∘
        fun t : PType => (t.name, additionalName (D.act a).sig t)) T = id T := by
      intro T hT
      exact typeOf_mem hC.typeNames (mem_learnedTypes.mp hT).1
    rw [show (Forall.type ∘ fun tv : String × String => (⟨tv.2, typeOf types tv.1, U.ueffs a tv.1⟩ : Forall)) ∘
      (fun t : PType => (t.name, additionalName (D.act a).sig t)) = _ from rfl, List.map_congr_left this, List.map_id]
    unfold learnedTypes
    apply List.filter_congr
    intro T _
    by_cases h1 : T.name = "object" <;> by_cases h2 : T.name ∈ ts <;> simp [h1, h2]
  · intro u hu
    obtain ⟨T, hT, rfl⟩ := (mem_uniForalls hC h3 hU).mp hu
    have hvf : addVar D a T ∉ Sig.names (D.act a).sig := additionalName_fresh _ _
    have hTt := (mem_learnedTypes.mp hT).1
    refine ⟨hvf, fun σ s l => ?_⟩
    obtain ⟨d, hq⟩ := hU.quant T hT
    have hqv := qview_of ho hD hC.objs hna hTt hvf (additionalName_ne _ _) hq
    have htab := ext_table (a := a) (v := addVar D a T) (T := T) hC.objs
    have hP : ∀ x, x ∈ U.base.preLits a ↔ x ∈ preconditionLits (U.action a).core := by
      intro x
      unfold CondLearner.preLits preconditionLits
      rw [Finset.mem_union, List.mem_append, Finset.mem_toList, List.mem_toFinset]; rfl
    dsimp only
    rw [hq.built.fires]
    have hobs := hqv.obs l
    have hcand := hqv.cand l
    have hsome := hqv.some l
    rw [show additionalName (D.act a).sig T = addVar D a T from rfl] at *
    rw [htab] at hobs hcand hsome
    simp only [show (extend D a (addVar D a T) T).preds = D.preds from rfl] at hobs hcand hsome
    constructor
    · rintro ⟨cs, k1, k2, k3⟩
      obtain ⟨g1, g2, g3, g4⟩ := hcand cs k1
      refine ⟨g1, g2, (hobs.mp k2).2.2, fun A hA x hx => ?_, fun hc => g3 ((hP l).mpr hc)⟩
      refine k3 x (mem_unionAll.mpr ⟨A, (g4 A).mpr ⟨hA.ne, hA.card, hA.typed, fun y hy hc => hA.fresh y hy ((hP y).mp hc), hA.explains⟩, hx⟩)
    · rintro ⟨g1, g2, g3, g4, g5⟩
      obtain ⟨cs, k1⟩ := hsome g1 g2 (fun hc => g5 ((hP l).mp hc))
      refine ⟨cs, k1, hobs.mpr ⟨g1, g2, g3⟩, fun x hx => ?_⟩
      obtain ⟨A, hA, hx⟩ := mem_unionAll.mp hx
      obtain ⟨f1, f2, f3, f4, f5⟩ := ((hcand cs k1).2.2.2 A).mp hA
      exact g4 A ⟨f1, f2, f3, fun y hy hc => f4 y hy ((hP y).mpr hc), f5⟩ x hx

/-- **C82.** A true antecedent is never refuted: for a learned type it stays possible for each result about the object, unless it contains a
literal of the precondition. -/
theorem C82_true_antecedent_possible (hT : WFUniTruth D n types (addVar D) truth) (hG : UniData D types truth obs)
    (h : (UniLearner.init D types umap n p).learn add deep ord obs = .ok (U, rep))
    {a : String} (ha : a ∈ U.base.base.dom.names) {T : PType} (hTt : T ∈ types) {e : CondEff}
    (he : e ∈ ((truth a).withObject (addVar D a T) T).effs) {l : Lit} (hl : l ∈ e.res) (hne : e.ante ≠ ∅)
    (hpre : ∀ x ∈ e.ante, x ∉ preconditionLits (U.action a).core) :
    PossibleQ D obs a n (addVar D a T) T (preconditionLits (U.action a).core) l e.ante := by
  have hC := hG.toUniCalls
  obtain ⟨_, _, _, h4, _, h6, _⟩ := uni_outcome hadd ho hD hC h
  rw [h4] at ha
  have hna := h6 a ha
  have hvf : addVar D a T ∉ Sig.names (D.act a).sig := additionalName_fresh _ _
  have hQ := quant_facts (T := T) (v := addVar D a T) hD hC.objs hna hTt hvf hG.real (hT.params a hna) (hT.wf a hna)
    (List.mem_map.mpr ⟨T, hTt, rfl⟩)
  have htab := ext_table (a := a) (v := addVar D a T) (T := T) hC.objs
  refine ⟨hne, hQ.bounded e he, fun x hx => ?_, hpre, true_explains hQ he hl⟩
  have := hQ.ante e he x hx
  rwa [htab] at this

/-! ### C83: safety -/

/-- **C83.** Wherever the returned action is applicable, the true action is. -/
theorem C83_applicable (hT : WFUniTruth D n types (addVar D) truth) (hG : UniData D types truth obs)
    (h : (UniLearner.init D types umap n p).learn add deep ord obs = .ok (U, rep))
    {a : String} (ha : a ∈ U.base.base.dom.names) {objs : Sig} {ρ : String → String} {s : State}
    (hacc : (U.action a).accepts objs ρ s) : applicable (truth a).pre ρ s := by
  have hC := hG.toUniCalls
  obtain ⟨_, _, _, h4, h5, h6, h7⟩ := uni_outcome hadd ho hD hC h
  rw [h4] at ha
  obtain ⟨ts, hU⟩ := h7 a ha
  have hna := h6 a ha
  have hF := base_facts hD hC.objs hG.real hna (hT.params a hna) (hT.wf a hna)
  obtain ⟨d0, O0, hv0⟩ := view_of ho hD (callsOK_all hC) hna ((h5 a).mp ha) hU.base
  intro l hl
  exact hacc.1.1 l (true_pre hF hv0.pre hl)

/-- **C83.** In any world (distinct objects of exactly the types of the parameters, any other objects) in which the literal preconditions hold,
everything the returned action makes true, for its parameters and for all objects it quantifies over, is made true by the true action; provided
that no literal nested in the added conditions occurs in a true antecedent, unless it is a precondition. -/
theorem C83_no_spurious_effect (hT : WFUniTruth D n types (addVar D) truth) (hG : UniData D types truth obs)
    (h : (UniLearner.init D types umap n p).learn add deep ord obs = .ok (U, rep))
    {a : String} (ha : a ∈ U.base.base.dom.names) {objs : Sig} {ρ : String → String} {s : State} (hW : World (D.act a).sig objs ρ)
    (hacc : applicable (U.action a).core.pre ρ s)
    (hnest : ∀ T ∈ types, ∀ e ∈ ((truth a).withObject (addVar D a T) T).effs, ∀ x ∈ e.ante,
      x ∈ Cond.litsAll (U.action a).core.conds → x ∈ (U.action a).core.pre)
    (hsub : ∀ o ∈ objs, ∀ T ∈ types, ∀ u ∈ (truth a).foralls, o.2.isSub T = true → T.isSub u.type = true → o.2.isSub u.type = true) :
    (U.action a).makes objs ρ s ⊆ (truth a).makes objs ρ s := by
  have hC := hG.toUniCalls
  obtain ⟨_, _, h3, h4, h5, h6, h7⟩ := uni_outcome hadd ho hD hC h
  rw [h4] at ha
  obtain ⟨ts, hU⟩ := h7 a ha
  exact uni_sound hadd ho hD hT hG h3 (h6 a ha) ((h5 a).mp ha) hU hW hacc
    (fun T hT => hnest T (mem_learnedTypes.mp hT).1) (fun o ho T hT => hsub o ho T (mem_learnedTypes.mp hT).1)

/-- **C83.** In particular if no literal over the parameters is ambiguous (then nothing is nested in added conditions). -/
theorem C83_no_spurious_effect_unambiguous (hT : WFUniTruth D n types (addVar D) truth) (hG : UniData D types truth obs)
    (h : (UniLearner.init D types umap n p).learn add deep ord obs = .ok (U, rep))
    {a : String} (ha : a ∈ U.base.base.dom.names) {objs : Sig} {ρ : String → String} {s : State} (hW : World (D.act a).sig objs ρ)
    (hacc : applicable (U.action a).core.pre ρ s) (hamb : ∀ l, ¬ Ambiguous D (allComps obs) a n l)
    (hsub : ∀ o ∈ objs, ∀ T ∈ types, ∀ u ∈ (truth a).foralls, o.2.isSub T = true → T.isSub u.type = true → o.2.isSub u.type = true) :
    (U.action a).makes objs ρ s ⊆ (truth a).makes objs ρ s := by
  have hC := hG.toUniCalls
  refine C83_no_spurious_effect hadd ho hD hT hG h ha hW hacc (fun T _ e _ x _ hx => ?_) hsub
  obtain ⟨_, _, h3, h4, h5, h6, h7⟩ := uni_outcome hadd ho hD hC h
  rw [h4] at ha
  obtain ⟨ts, hU⟩ := h7 a ha
  have hc : (U.action a).core.conds = [] := no_conds ho hD hC (h6 a ha) ((h5 a).mp ha) hU.base hamb
  rw [hc] at hx
  simp [Cond.litsAll] at hx

/-! ### C84: the next state -/

/-- **C84.** The returned action and the true action lead to the same state in every world in which the returned one is applicable, provided that
(1) no literal over the parameters is ambiguous; (2) at most one universal precondition was added (or iterating over the preconditions does not
descend into universal ones); (3) every true result over the parameters, and every one about an additional object of a learned type, was seen
to become true or never seen to become false; (4) every object subject to a true universal effect is bound to a parameter or its type
is learned. -/
theorem C84_exact_partial (hT : WFUniTruth D n types (addVar D) truth) (hG : UniData D types truth obs)
    (h : (UniLearner.init D types umap n p).learn add deep ord obs = .ok (U, rep))
    {a : String} (ha : a ∈ U.base.base.dom.names) {objs : Sig} {ρ : String → String} {s : State} (hW : World (D.act a).sig objs ρ)
    (hacc : (U.action a).accepts objs ρ s) (hn : 1 ≤ n)
    (H1 : ∀ l, ¬ Ambiguous D (allComps obs) a n l) (H2 : deep = false ∨ (U.uconds a).length ≤ 1)
    (H3 : ∀ e ∈ (truth a).onParams.effs, ∀ l ∈ e.res, Became D (allComps obs) a l ∨ NeverUndone D (allComps obs) a l)
    (H3' : ∀ T ∈ types, ∀ e ∈ ((truth a).withObject (addVar D a T) T).effs, ∀ l ∈ e.res, addVar D a T ∈ l.args →
      Became (extend D a (addVar D a T) T) (withObjects a T obs) a l ∨ NeverUndone (extend D a (addVar D a T) T) (withObjects a T obs) a l)
    (H4 : ∀ u ∈ (truth a).foralls, ∀ o ∈ objs, o.2.isSub u.type = true →
      (∃ x ∈ Sig.names (D.act a).sig, ρ x = o.1) ∨ o.2 ∈ (U.action a).foralls.map Forall.type)
    (hsub : ∀ o ∈ objs, ∀ T ∈ types, ∀ u ∈ (truth a).foralls, o.2.isSub T = true → T.isSub u.type = true → o.2.isSub u.type = true) :
    (U.action a).next objs ρ s = (truth a).next objs ρ s := by
  have hC := hG.toUniCalls
  have happ := C83_applicable hadd ho hD hT hG h ha hacc
  have hsound := C83_no_spurious_effect_unambiguous hadd ho hD hT hG h ha hW hacc.1.1 H1 hsub
  obtain ⟨_, _, h3, h4, h5, h6, h7⟩ := uni_outcome hadd ho hD hC h
  rw [h4] at ha
  obtain ⟨ts, hU⟩ := h7 a ha
  have hna := h6 a ha
  refine successor_eq_of (fun g hg => ?_) fun g hg hng => ?_
  · rw [ground_id]
    exact next_holds ((hT.wf a hna).consistent objs ρ s (by rw [hT.params a hna]; exact hW) happ) (hsound hg)
  · rw [ground_id] at hng
    refine uni_complete hadd ho hD hT hG h3 hna ((h5 a).mp ha) hU hW hacc H1 H2 hn (fun e he l hl _ => H3 e he l hl)
      (fun o _ _ hTl T e => by subst e; exact fun e he l hl hvl _ => H3' _ (mem_learnedTypes.mp hTl).1 e he l hl hvl)
      (fun u hu o hoo hs _ => ?_) hg hng
    refine (H4 u hu o hoo hs).imp id fun hm => ?_
    obtain ⟨w, hw, he⟩ := List.mem_map.mp hm
    obtain ⟨T, hTl, rfl⟩ := (mem_uniForalls hC h3 hU).mp hw
    rw [← he]; exact hTl

/-- C84: a universal precondition is only added for a literal about an additional object with several possible antecedents. -/
theorem C84_added_preconditions (hC : UniCalls D types obs) (h : (UniLearner.init D types umap n p).learn add deep ord obs = .ok (U, rep))
    {a : String} (ha : a ∈ U.base.base.dom.names) {q : String × PType × Cond} (hq : q ∈ (U.action a).pres) :
    ∃ u ∈ (U.action a).foralls, q.1 = u.var ∧ q.2.1 = u.type ∧ ∃ l A B, TypedLit D.preds ((D.act a).sig ++ [(u.var, u.type)]) l ∧
      u.var ∈ l.args ∧ A ≠ B ∧ PossibleQ D obs a n u.var u.type (preconditionLits (U.action a).core) l A ∧
      PossibleQ D obs a n u.var u.type (preconditionLits (U.action a).core) l B := by
  obtain ⟨_, _, h3, h4, h5, h6, h7⟩ := uni_outcome hadd ho hD hC h
  rw [h4] at ha
  obtain ⟨ts, hU⟩ := h7 a ha
  have hna := h6 a ha
  obtain ⟨w, hw, hwq⟩ := List.mem_filterMap.mp hq
  obtain ⟨T, hT, k1, k2, d, l, cs, hqo, k3, k4, _⟩ := hU.conds w hw
  have hTt := (mem_learnedTypes.mp hT).1
  have hvf : addVar D a T ∉ Sig.names (D.act a).sig := additionalName_fresh _ _
  have hqv := qview_of ho hD hC.objs hna hTt hvf (additionalName_ne _ _) hqo
  have htab := ext_table (a := a) (v := addVar D a T) (T := T) hC.objs
  refine ⟨_, (mem_uniForalls hC h3 hU).mpr ⟨T, hT, rfl⟩, ?_⟩
  obtain ⟨g1, g2, _, g4⟩ := hqv.cand l cs k3
  have hnd := (hqv.ok l cs k3).nodup
  have hP : ∀ x, x ∈ preconditionLits (U.action a).core → x ∈ U.base.preLits a := by
    intro x
    unfold CondLearner.preLits preconditionLits
    rw [Finset.mem_union, List.mem_append, Finset.mem_toList, List.mem_toFinset]; exact id
  have hpos : ∀ A ∈ cs, PossibleQ D obs a n (addVar D a T) T (preconditionLits (U.action a).core) l A := by
    intro A hA
    obtain ⟨f1, f2, f3, f4, f5⟩ := (g4 A).mp hA
    rw [htab] at f3
    exact ⟨f1, f2, f3, fun y hy hc => f4 y hy (hP y hc), f5⟩
  rw [htab] at g1
  cases hcw : w.cond with
  | none => rw [hcw] at hwq; simp at hwq
  | some cnd =>
    rw [hcw] at hwq
    simp only [Option.map_some, Option.some.injEq] at hwq
    subst hwq
    match cs, k4, hnd, hpos with
    | A :: B :: t, _, hnd, hpos =>
      refine ⟨k1, ?_, l, A, B, g1, g2, ?_, hpos A (by simp), hpos B (by simp)⟩
      · rw [k2, h3, typeOf_mem hC.typeNames hTt]
      · rintro rfl; simp at hnd

end
end
end Props

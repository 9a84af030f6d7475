import Verif.Props.UniversalCase
import Verif.Props.CondReplay

/-! C128: the returned actions with universal effects in the states in which they were observed. -/
namespace Props.UniReplay
open Model Spec

/-- The objects over which the returned action quantifies are, in this observation, of exactly the quantified type and not objects of the call. -/
def Apart (A : UniAction) (objs : Sig) (c : Component) : Prop :=
  ∀ u ∈ A.foralls, ∀ o ∈ objs, o.2.isSub u.type = true → o.2 = u.type ∧ o.1 ∉ c.call.params

/-- Everything that changed is about objects of the call and of types over which the returned action quantifies. -/
def Covered (A : UniAction) (objs : Sig) (c : Component) : Prop :=
  ∀ x ∈ (c.next \ c.prev) ∪ (c.prev \ c.next), ∀ o ∈ objs, o.1 ∈ x.args → o.1 ∈ c.call.params ∨ ∃ u ∈ A.foralls, u.type = o.2

instance {A : UniAction} {objs : Sig} {c : Component} : Decidable (Apart A objs c) := by unfold Apart; infer_instance
instance {A : UniAction} {objs : Sig} {c : Component} : Decidable (Covered A objs c) := by unfold Covered; infer_instance

section
variable {add : Cond → Cond → Cond} {deep : Bool} {ord : LitOrd} (hadd : AddOK add) (ho : EnumNodup ord)
variable {D : Domain} (hD : WFDomain D) {n : Nat} {p : Policy} {types : List PType} {umap : List (String × List String)}
  {obs : List UniObs} {U : UniLearner} {rep : List (String × Status)} {truth : String → UniSchema}

theorem mem_comps {ob : UniObs} (hob : ob ∈ obs) {c : Component} (hc : c ∈ ob.2) : c ∈ allComps obs := by
  unfold allComps
  exact List.mem_flatMap.mpr ⟨ob, hob, hc⟩

theorem mem_withObject {ob : UniObs} (hob : ob ∈ obs) {c : Component} (hc : c ∈ ob.2) {o : String × PType} (hoo : o ∈ ob.1)
    (hout : o.1 ∉ c.call.params) : plus c o.1 ∈ withObjects c.call.name o.2 obs := by
  rw [mem_withObjects, mem_extras]
  exact ⟨(ob.1, c), mem_flat.mpr ⟨ob, hob, rfl, hc⟩, rfl, mem_news.mpr ⟨o, hoo, rfl, hout, rfl⟩⟩

include hadd ho hD

/-- **C128.** The returned action accepts every state in which it was observed, if no literal over the parameters is ambiguous, at most one
universal precondition was added (or iterating over the preconditions does not descend into universal ones), and the objects over which it
quantifies are of exactly the quantified types and not objects of the call. -/
theorem C128_observed_states_accepted (hC : UniCalls D types obs)
    (h : (UniLearner.init D types umap n p).learn add deep ord obs = .ok (U, rep)) {ob : UniObs} (hob : ob ∈ obs) {c : Component} (hc : c ∈ ob.2)
    (H1 : ∀ l, ¬ Ambiguous D (allComps obs) c.call.name n l) (H2 : deep = false ∨ (U.uconds c.call.name).length ≤ 1)
    (H3 : Apart (U.action c.call.name) ob.1 c) : (U.action c.call.name).accepts ob.1 (objSubst D c) c.prev := by
  obtain ⟨_, _, h3, h4, h5, h6, h7⟩ := uni_outcome hadd ho hD hC h
  have hobs : c.call.name ∈ U.base.base.observed := (h5 _).mpr ⟨c, mem_comps hob hc, rfl⟩
  obtain ⟨ts, hU⟩ := h7 _ hobs
  have hna := h6 _ hobs
  have hO := hC.objs
  obtain ⟨d0, O0, hv0⟩ := view_of ho hD (callsOK_all hC) hna ((h5 _).mp hobs) hU.base
  have hconds : U.base.conds c.call.name = [] := no_conds ho hD hC hna ((h5 _).mp hobs) hU.base H1
  have hP : U.base.preLits c.call.name = (U.base.base.dom.act c.call.name).pre := by
    unfold CondLearner.preLits; rw [hconds]; simp [Cond.litsAll]
  have hpre : applicable (U.action c.call.name).core.pre (objSubst D c) c.prev :=
    fun l hl => ((hv0.pre l).mp hl).2 c (mem_comps hob hc) rfl
  have hE := hC.exact ob hob c hc
  have hW := hE.world hC.noConsts (uni_sig hD hO hna)
  refine ⟨⟨hpre, ?_, ?_⟩, ?_⟩
  · rintro ⟨x, y⟩ hq he
    have hi : (U.action c.call.name).core.ineq = _ := hU.base.ineq
    rw [hi] at hq
    obtain ⟨tx, ty, hsub, _⟩ := mem_sameTypePairs.mp hq
    have hxy : [x, y].Sublist (Sig.names (D.act c.call.name).sig) := hsub.map Prod.fst
    have := hW.inj x (hxy.subset (by simp)) y (hxy.subset (by simp)) he
    have h2 := hxy.nodup (hD.sigs _ hna).params
    rw [this] at h2
    simp at h2
  · intro cnd hcnd
    rw [show (U.action c.call.name).core.conds = [] from hconds] at hcnd
    simp at hcnd
  · rintro ⟨v, T0, cnd⟩ hq o hoo hs
    obtain ⟨w, hw, hwq⟩ := List.mem_filterMap.mp hq
    obtain ⟨T, hT, k1, k2, d, l, cs, hqo, k3, k4, j, hj, k5⟩ := hU.conds w hw
    have hTt := (mem_learnedTypes.mp hT).1
    have hvf : addVar D c.call.name T ∉ Sig.names (D.act c.call.name).sig := additionalName_fresh _ _
    cases hcd : w.cond with
    | none => rw [hcd] at hwq; simp at hwq
    | some cnd' =>
      rw [hcd, h3, k2, typeOf_mem hC.typeNames hTt, k1] at hwq
      simp only [Option.map_some, Option.some.injEq, Prod.mk.injEq] at hwq
      obtain ⟨rfl, rfl, rfl⟩ := hwq
      dsimp only at hs ⊢
      obtain ⟨hex, hout⟩ := H3 _ ((mem_uniForalls hC h3 hU).mpr ⟨T, hT, rfl⟩) o hoo hs
      dsimp only at hex
      subst hex
      have hEx : Extra D ob.1 c o.1 (addVar D c.call.name o.2) o.2 := ⟨hC.noConsts, uni_sig hD hO hna, hE, hoo, hout, hvf⟩
      have hqv := qview_of ho hD hO hna hTt hvf (additionalName_ne _ _) hqo
      have hj0 : (U.base.preLits c.call.name ∪ if deep then upreLits ((U.uconds c.call.name).take j) else ∅) =
          U.base.preLits c.call.name := by
        rcases H2 with h | h
        · simp [h]
        · have : j = 0 := by omega
          subst this
          simp [upreLits, Cond.litsAll]
      rw [hj0] at k5
      obtain ⟨r, f1, f2⟩ := restrictive_spec hadd ho.mem d (U.base.preLits c.call.name) l (decide (l ∈ U.obsU c.call.name o.2.name)) cs k3
        (fun c hc => ((hqv.ok l cs k3).bounds c hc).1)
      have hr : r = some cnd' := by rw [← hcd]; exact Except.ok.inj (f1.symm.trans k5)
      subst hr
      let σ := bindVar (objSubst D c) (addVar D c.call.name o.2) o.1
      have hv' : Valuation fun x => holds c.prev (ground σ x) := fun x => by rw [← holds_neg]; rfl
      refine (f2 _ hv' fun x hx => ?_).mpr ?_
      · rw [hP] at hx
        have hxa : ∀ y ∈ x.args, y ∈ Sig.names (D.act c.call.name).sig := by
          have := typed_sub ((hv0.pre x).mp hx).1; rwa [hC.noConsts, List.append_nil] at this
        rw [ground_congr fun y hy => bindVar_agree hvf y (hxa y hy)]
        exact hpre x hx
      · obtain ⟨g1, g2, _, g3⟩ := hqv.cand l cs k3
        have := observed_allowed (D := extend D c.call.name (addVar D c.call.name o.2) o.2) (mem_withObject hob hc hoo hout) rfl
          fun A hA => ((g3 A).mp hA).2.2.2.2
        simp only [NoCand, hEx.before] at this
        refine this.imp id (Or.imp id fun ⟨q1, q2⟩ => ⟨?_, q2⟩)
        rw [decide_eq_true_eq, hqv.obs]
        exact ⟨g1, g2, q1⟩

/-- **C128.** ... and if moreover everything that changed is about objects of the call and of types over which it quantifies, it leads to the
observed next state. -/
theorem C128_observed_transitions_reproduced (hT : WFUniTruth D n types (addVar D) truth) (hG : UniData D types truth obs) (hn : 1 ≤ n)
    (h : (UniLearner.init D types umap n p).learn add deep ord obs = .ok (U, rep)) {ob : UniObs} (hob : ob ∈ obs) {c : Component} (hc : c ∈ ob.2)
    (H1 : ∀ l, ¬ Ambiguous D (allComps obs) c.call.name n l) (H2 : deep = false ∨ (U.uconds c.call.name).length ≤ 1)
    (H3 : Apart (U.action c.call.name) ob.1 c) (H4 : Covered (U.action c.call.name) ob.1 c) :
    (U.action c.call.name).accepts ob.1 (objSubst D c) c.prev ∧ (U.action c.call.name).next ob.1 (objSubst D c) c.prev = c.next := by
  have hC := hG.toUniCalls
  have hacc := C128_observed_states_accepted hadd ho hD hC h hob hc H1 H2 H3
  refine ⟨hacc, ?_⟩
  obtain ⟨_, _, h3, h4, h5, h6, h7⟩ := uni_outcome hadd ho hD hC h
  have hobs : c.call.name ∈ U.base.base.observed := (h5 _).mpr ⟨c, mem_comps hob hc, rfl⟩
  obtain ⟨ts, hU⟩ := h7 _ hobs
  have hna := h6 _ hobs
  have hO := hC.objs
  have hE := hC.exact ob hob c hc
  have hsig := uni_sig hD hO hna
  have hW := hE.world hC.noConsts hsig
  have hR := hG.real ob hob c hc
  have hcons := (hT.wf _ hna).consistent ob.1 _ _ (by rw [hT.params _ hna]; exact hW) hR.app
  have hconds : (U.action c.call.name).core.conds = [] := no_conds ho hD hC hna ((h5 _).mp hobs) hU.base H1
  have hex : ∀ T ∈ learnedTypes types ts, ∀ o ∈ ob.1, o.2.isSub T = true → o.2 = T ∧ o.1 ∉ c.call.params :=
    fun T hT o hoo hs => H3 _ ((mem_uniForalls hC h3 hU).mpr ⟨T, hT, rfl⟩) o hoo hs
  rw [hR.next]
  refine successor_eq_of (fun g hg => ?_) fun g hg hng => ?_
  · rw [ground_id]
    refine next_holds hcons (uni_sound hadd ho hD hT hG h3 hna ((h5 _).mp hobs) hU hW hacc.1.1 (fun T _ e _ x _ hx => ?_)
      (fun o hoo T hT u _ hs hu => by rw [(hex T hT o hoo hs).1]; exact hu) hg)
    rw [hconds] at hx
    simp [Cond.litsAll] at hx
  · rw [ground_id] at hng
    have hnx : holds c.next g := by rw [hR.next]; exact next_holds hcons hg
    refine uni_complete hadd ho hD hT hG h3 hna ((h5 _).mp hobs) hU hW hacc H1 H2 hn (fun e _ l _ e1 => ?_)
      (fun o hoo hout hTl T e => ?_) (fun u _ o hoo _ hog => ?_) hg hng
    · subst e1
      exact Or.inl ⟨c, mem_comps hob hc, rfl, hng, hnx⟩
    · subst e
      intro e _ l _ _ e1
      subst e1
      have hout' := (hex _ hTl o hoo (isSub_refl _)).2
      have hEx : Extra D ob.1 c o.1 (addVar D c.call.name o.2) o.2 := ⟨hC.noConsts, hsig, hE, hoo, hout', additionalName_fresh _ _⟩
      exact Or.inl ⟨_, mem_withObject hob hc hoo hout', rfl, fun hb => hng (hEx.before.mp hb), hEx.after.mpr hnx⟩
    · have hch : g.atom ∈ (c.next \ c.prev) ∪ (c.prev \ c.next) := by
        unfold holds at hnx hng
        rw [Finset.mem_union, Finset.mem_sdiff, Finset.mem_sdiff]
        by_cases hb : g.pos = true
        · exact Or.inl ⟨hnx.mp hb, fun hm => hng ⟨fun _ => hm, fun _ => hb⟩⟩
        · refine Or.inr ⟨?_, fun hm => hb (hnx.mpr hm)⟩
          by_contra hm
          exact hng ⟨fun h => absurd h hb, fun h => absurd h hm⟩
      rcases H4 _ hch o hoo hog with hp | ⟨w, hw, e⟩
      · left
        exact exists_param (by have := hsig; unfold WFSig at this; rwa [List.append_nil] at this)
          (by rw [Sig.length_names]; exact hE.exact.length_eq) hp
      · right
        obtain ⟨T, hTl, rfl⟩ := (mem_uniForalls hC h3 hU).mp hw
        rw [← e]; exact hTl

end

/-! ### A case, and cases without the hypotheses -/
section
open UniCase

/-- The hypotheses are met: flooding rooms. -/
example : ∀ c ∈ comps, (run.action "flood").accepts objs (objSubst UniCase.D c) c.prev ∧
    (run.action "flood").next objs (objSubst UniCase.D c) c.prev = c.next := by
  intro c hc
  obtain ⟨rep, h⟩ := returned
  have hname : c.call.name = "flood" := by revert c; decide +kernel
  have hA : ∀ c ∈ comps, Apart (run.action "flood") objs c := by decide +kernel
  have hB : ∀ c ∈ comps, Covered (run.action "flood") objs c := by decide +kernel
  have := C128_observed_transitions_reproduced plainAdd_ok ordOK ok.sound.1 ok.sound.2.1 ok.sound.2.2 (Nat.le_refl 1) h
    (ob := (objs, comps)) (by simp [obs, comps]) hc (by rw [hname]; exact unambiguous) (Or.inl rfl)
    (by rw [hname]; exact hA c hc) (by rw [hname]; exact hB c hc)
  rwa [hname] at this

/-- An action that changes nothing, with the parameters `sig`; the properties `p` and `q` of balls. -/
def idleDom (sig : Sig) : Domain :=
  { preds := [⟨"p", [("?b", ball)]⟩, ⟨"q", [("?b", ball)]⟩], consts := [], names := ["go"], act := fun _ => .fresh sig }
def idle (sig : Sig) : String → UniSchema := fun _ => ⟨sig, ∅, [], []⟩
noncomputable def pqOrd : LitOrd :=
  enumOf (["p", "q"].flatMap fun q => ["b1", "b2", "?b", "?x", "?bl", "?ba"].flatMap fun x => [l1 q x, l1 q x false])

def two : Sig := [("b1", ball), ("b2", ball)]
def stay (ps : List String) (s : State) : Component := ⟨s, ⟨"go", ps⟩, s, true⟩
/-- The ball of the call in all four combinations; the other ball with neither property. -/
def fourObs : List UniObs :=
  [(two, [stay ["b1"] (UniCase.st []), stay ["b1"] (UniCase.st [("p", ["b1"])]), stay ["b1"] (UniCase.st [("q", ["b1"])]), stay ["b1"] (UniCase.st [("p", ["b1"]), ("q", ["b1"])])])]
noncomputable def fourRun : UniLearner :=
  runUni plainAdd false pqOrd (UniLearner.init (idleDom [("?x", ball)]) [ball] [("go", ["ball"])] 1) fourObs

/-- **C128 needs the objects of the call to be apart from the quantified ones.** The universal preconditions, learned from the objects that are
not in the call, quantify over those of the call as well: a state in which the action was observed is rejected. -/
theorem C128_needs_other_objects :
    UniProblemOK (idleDom [("?x", ball)]) 1 [ball] (idle [("?x", ball)]) fourObs ∧
    returns plainAdd false pqOrd (UniLearner.init (idleDom [("?x", ball)]) [ball] [("go", ["ball"])] 1) fourObs = true ∧
    ¬ (fourRun.action "go").accepts two (subst ["?x"] ["b1"]) (UniCase.st [("p", ["b1"])]) := by
  decide +kernel

/-- ... although no literal over the parameter is ambiguous and nothing ever changes. -/
example : ∀ l, ¬ Ambiguous (idleDom [("?x", ball)]) (allComps fourObs) "go" 1 l := by
  intro l hl
  have hok : UniProblemOK (idleDom [("?x", ball)]) 1 [ball] (idle [("?x", ball)]) fourObs := C128_needs_other_objects.1
  obtain ⟨h1, _, h3⟩ := notAmbiguous (ord := pqOrd) (enumOf_nodup (by decide)) (hok.sound.1.sigs "go" (by decide)) hl
  have key : ∀ l ∈ liftedVocab (idleDom [("?x", ball)]) ((idleDom [("?x", ball)]).act "go").sig,
      ¬ 2 ≤ (possibleList pqOrd (idleDom [("?x", ball)]) (allComps fourObs) "go" 1 l).length := by decide +kernel
  exact key l h1 h3

def red : PType := ⟨"red", ["ball", "object"]⟩
def redObjs : Sig := [("b1", ball), ("b2", red)]
noncomputable def redRun : UniLearner :=
  runUni plainAdd false pqOrd (UniLearner.init (idleDom []) [ball, red] [("go", ["ball"])] 1) [(redObjs, [stay [] (UniCase.st [("p", ["b2"])])])]

/-- **C128 needs the quantified objects to be of exactly the quantified types.** The universal preconditions, learned from the objects of exactly
the type, quantify over those of its subtypes as well. -/
theorem C128_needs_exact_types :
    UniProblemOK (idleDom []) 1 [ball, red] (idle []) [(redObjs, [stay [] (UniCase.st [("p", ["b2"])])])] ∧
    returns plainAdd false pqOrd (UniLearner.init (idleDom []) [ball, red] [("go", ["ball"])] 1)
      [(redObjs, [stay [] (UniCase.st [("p", ["b2"])])])] = true ∧
    ¬ (redRun.action "go").accepts redObjs id (UniCase.st [("p", ["b2"])]) := by
  decide +kernel

def xy0 : List CondEff := [⟨{l0 "x"}, {l0 "y"}⟩]
def xy1 : List CondEff := [⟨{l1 "x" "?x"}, {l1 "y" "?x"}⟩]
def st0 : List State := [UniCase.st [("p", [])], UniCase.st [("y", [])], UniCase.st [("x", [])]]
def st1 : List State := [UniCase.st [("p", ["b1"])], UniCase.st [("y", ["b1"])], UniCase.st [("x", ["b1"])]]

/-- **C128 needs unambiguous literals over the parameters** (as C85). -/
theorem C128_needs_unambiguous :
    UniProblemOK (propsDom ["x", "y", "p"] []) 1 [ball] (propsTruth xy0 []) (propsObs xy0 [] st0) ∧
    returns plainAdd false (propsOrd ["x", "y", "p"] []) (UniLearner.init (propsDom ["x", "y", "p"] []) [ball] [("go", [])] 1)
      (propsObs xy0 [] st0) = true ∧ UniCase.st [("y", [])] ∈ st0 ∧
    ¬ ((propsRun false ["x", "y", "p"] [] xy0 [] st0 []).action "go").accepts one id (UniCase.st [("y", [])]) := by
  decide +kernel

/-- **C128 needs at most one universal precondition**, if iterating over the preconditions descends into them: literals nested in one were taken
for preconditions and left out of the next. -/
theorem C128_needs_one_precondition :
    UniProblemOK (propsDom [] ["x", "y", "p"]) 1 [ball] (propsTruth [] xy1) (propsObs [] xy1 st1) ∧
    returns plainAdd true (propsOrd [] ["x", "y", "p"]) (UniLearner.init (propsDom [] ["x", "y", "p"]) [ball] [("go", ["ball"])] 1)
      (propsObs [] xy1 st1) = true ∧ UniCase.st [("y", ["b1"])] ∈ st1 ∧
    ¬ ((propsRun true [] ["x", "y", "p"] [] xy1 st1 ["ball"]).action "go").accepts one id (UniCase.st [("y", ["b1"])]) ∧
    ((propsRun false [] ["x", "y", "p"] [] xy1 st1 ["ball"]).action "go").accepts one id (UniCase.st [("y", ["b1"])]) := by
  decide +kernel

/-- **C128 needs the types to be listed**: with no types for the action, an observed change is lost. -/
theorem C128_needs_listed_types :
    UniProblemOK (propsDom [] ["x", "p"]) 1 [ball] (propsTruth [] [⟨{l1 "p" "?x"}, {l1 "x" "?x"}⟩])
      (propsObs [] [⟨{l1 "p" "?x"}, {l1 "x" "?x"}⟩] [UniCase.st [("p", ["b1"])], UniCase.st []]) ∧
    ((propsRun false [] ["x", "p"] [] [⟨{l1 "p" "?x"}, {l1 "x" "?x"}⟩] [UniCase.st [("p", ["b1"])], UniCase.st []] []).action "go").next one id
      (UniCase.st [("p", ["b1"])]) ≠ (propsTruth [] [⟨{l1 "p" "?x"}, {l1 "x" "?x"}⟩] "go").next one id (UniCase.st [("p", ["b1"])]) :=
  ⟨C84_needs_listed_type.1, C84_needs_listed_type.2.2.2⟩

end
end Props.UniReplay

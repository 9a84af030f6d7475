import Verif.Props.CondSam
import Verif.Lemmas.SamIneq

/-! C85: the returned actions with conditional effects in the states in which they were observed. -/
namespace Props
open Model Spec

section
variable {add : Cond → Cond → Cond} {ord : LitOrd} (hadd : AddOK add) (ho : EnumNodup ord)
variable {D : Domain} (hD : WFDomain D) {n : Nat} {p : Policy} {truth : String → CondSchema}
variable {obs : List (List Component)} {K : CondLearner} {rep : List (String × Status)}

/-- Data of one literal decide its restrictive condition: in an observed state the literal held, or no candidate did, or all did and the
literal became true. -/
theorem observed_allowed {cs : List Component} {a : String} {cands : List (Finset Lit)} {l : Lit} {c : Component} (hc : c ∈ cs)
    (hn : c.call.name = a) (hex : ∀ A ∈ cands, Explains D cs a A l) :
    before D c l ∨ NoCand (before D c) cands ∨ (Became D cs a l ∧ ∀ A ∈ cands, ∀ x ∈ A, before D c x) := by
  by_cases h1 : before D c l
  · exact Or.inl h1
  by_cases h2 : after D c l
  · exact Or.inr (Or.inr ⟨⟨c, hc, hn, h1, h2⟩, fun A hA => (hex A hA c hc hn).2 h1 h2⟩)
  · exact Or.inr (Or.inl fun A hA h => h2 ((hex A hA c hc hn).1 h))

include hadd ho hD

/-- **C85.** If at most one literal of the action is ambiguous, the returned action is applicable in every state in which it was observed. -/
theorem C85_observed_states_accepted_partial (hG : CondData D truth obs.flatten)
    (h : (CondLearner.init D n p).learn add ord obs = .ok (K, rep)) {c : Component} (hc : c ∈ obs.flatten)
    (H1 : ∀ l l', Ambiguous D obs.flatten c.call.name n l → Ambiguous D obs.flatten c.call.name n l' → l = l') :
    (K.action c.call.name).accepts (objSubst D c) c.prev := by
  obtain ⟨hnd, hnames, _, hret⟩ := C49_returned hadd ho hD hG h
  have ha : c.call.name ∈ K.base.dom.names := (hnames _).mpr ⟨c, hc, rfl⟩
  obtain ⟨hna, ho', d, O, v⟩ := view_learned hadd ho hD hG h ha
  obtain ⟨hineq, hpre⟩ := hret _ ha
  have hP : applicable (K.action c.call.name).pre (objSubst D c) c.prev := fun l hl => ((hpre l).mp hl).2 c hc rfl
  have hv' : Valuation fun x => holds c.prev (ground (objSubst D c) x) := fun x => by rw [← holds_neg]; rfl
  have hlen : c.call.params.length = (Sig.names (D.act c.call.name).sig).length := by
    rw [Sig.length_names]; exact hG.arity c hc
  refine ⟨hP, ?_, fun cnd hcnd => ?_⟩
  · rw [hineq]
    rintro ⟨x, y⟩ hq he
    obtain ⟨tx, ty, hsub, _⟩ := mem_sameTypePairs.mp hq
    have hp := (hD.sigs _ hna).params
    have hxy : [x, y].Sublist (Sig.names (D.act c.call.name).sig) := hsub.map Prod.fst
    have := bind_inj_params hp hlen (hG.distinct c hc) (hxy.subset (by simp)) (hxy.subset (by simp)) he
    have h2 := hxy.nodup hp
    rw [show x = y from this] at h2
    simp at h2
  · obtain ⟨l, cs, j, e1, e2, e3, e4⟩ := v.built.added cnd hcnd
    have amb : ∀ x cx, d.possible.lookup x = some cx → 2 ≤ cx.length → Ambiguous D obs.flatten c.call.name n x := by
      intro x cx hx hx2
      obtain ⟨g1, g2, g3⟩ := v.cand x cx hx
      have hxn := (v.ok x cx hx).nodup
      match cx, hx2 with
      | A :: B :: t, _ =>
        refine ⟨g1, g2, A, B, ?_, (g3 A).mp (by simp), (g3 B).mp (by simp)⟩
        rintro rfl; simp at hxn
    have hj : j = 0 := by
      rcases e4 with e4 | ⟨l', cs', hne, hl', h2'⟩
      · exact e4
      · exact absurd (H1 l' l (amb l' cs' hl' h2') (amb l cs e1 e2)) hne
    subst hj
    obtain ⟨r, f1, f2⟩ := restrictive_spec hadd ho.mem d
      ((K.base.dom.act c.call.name).pre ∪ (Cond.litsAll ((K.conds c.call.name).take 0)).toFinset) l
      (decide (l ∈ O)) cs e1 (fun c hc => ((v.ok l cs e1).bounds c hc).1)
    have : r = some cnd := Except.ok.inj (f1.symm.trans e3)
    subst this
    have hlits : ∀ x ∈ (K.base.dom.act c.call.name).pre ∪ (Cond.litsAll ((K.conds c.call.name).take 0)).toFinset,
        holds c.prev (ground (objSubst D c) x) := by
      intro x hx
      simp only [List.take_zero, Cond.litsAll, List.toFinset_nil, Finset.union_empty] at hx
      exact hP x hx
    refine (f2 _ hv' hlits).mpr ?_
    obtain ⟨g1, g2, g3⟩ := v.cand l cs e1
    refine (observed_allowed (D := D) hc rfl fun A hA => ((g3 A).mp hA).explains).imp id (Or.imp id fun ⟨k1, k2⟩ => ⟨?_, k2⟩)
    rw [decide_eq_true_eq, v.obs]
    exact ⟨g1, k1⟩

/-- **C85.** ... and if moreover no observed effect is ambiguous when another one is determined, it reproduces every observed transition. -/
theorem C85_observed_transitions_reproduced_partial (hT : WFCondTruth D n truth) (hG : CondData D truth obs.flatten)
    (h : (CondLearner.init D n p).learn add ord obs = .ok (K, rep)) {c : Component} (hc : c ∈ obs.flatten)
    (H1 : ∀ l l', Ambiguous D obs.flatten c.call.name n l → Ambiguous D obs.flatten c.call.name n l' → l = l')
    (H2 : ∀ l l', Became D obs.flatten c.call.name l → Ambiguous D obs.flatten c.call.name n l → Became D obs.flatten c.call.name l' →
      ¬ Determined D obs.flatten c.call.name n l') :
    (K.action c.call.name).accepts (objSubst D c) c.prev ∧ (K.action c.call.name).next (objSubst D c) c.prev = c.next := by
  have hacc := C85_observed_states_accepted_partial hadd ho hD hG h hc H1
  have ha : c.call.name ∈ K.base.dom.names := ((C49_returned hadd ho hD hG h).2.1 _).mpr ⟨c, hc, rfl⟩
  refine ⟨hacc, ?_⟩
  obtain ⟨hna, ho', d, O, v⟩ := view_learned hadd ho hD hG h ha
  have hF := condFacts hD hT hG hna
  rw [hG.next c hc]
  refine successor_eq_of (fun l hl => ?_) fun l hl hnl => ?_
  · obtain ⟨e, he, hap, hr⟩ := mem_fired.mp (makes_true hF v hacc.1 hl)
    have := hF.fires c hc rfl e he l hr hap
    unfold after at this
    rwa [hG.next c hc] at this
  · obtain ⟨e, he, hap, hr⟩ := mem_fired.mp hl
    exact true_makes hF hadd ho v hacc (Or.inl H1) H2 (Or.inl ⟨c, hc, rfl, hnl, hF.fires c hc rfl e he l hr hap⟩) hl hnl

end

/-- The hypotheses are met: the example of C26 (`q` makes `p` true). -/
example : ∀ c ∈ propObs exEffs exStates, ((propRun ["p", "q"] exEffs exStates).action "go").accepts (objSubst (propDom ["p", "q"]) c) c.prev ∧
    ((propRun ["p", "q"] exEffs exStates).action "go").next (objSubst (propDom ["p", "q"]) c) c.prev = c.next := by
  intro c hc
  obtain ⟨h1, h2, h3, h4, rep, h5⟩ := propRun_eq (by decide) ∅ exEffs exStates ex_ok
  have key : ∀ l, Ambiguous (propDom ["p", "q"]) (propObs exEffs exStates) "go" 1 l → l = pos "q" := by
    intro l hl
    obtain ⟨h1, h2, h3⟩ := notAmbiguous h4 (ex_ok.sound.1.sigs "go" (by decide)) hl
    exact ex_possible l h1 h2 h3
  have hname : c.call.name = "go" := by
    simp only [propObs, List.mem_map] at hc
    obtain ⟨s, _, rfl⟩ := hc
    rfl
  have hf : [propObs exEffs exStates].flatten = propObs exEffs exStates := by simp
  have := C85_observed_transitions_reproduced_partial plainAdd_ok h4 h1 h2 h3 h5 (c := c) (by rw [hf]; exact hc)
    (by rw [hf, hname]; exact fun l l' h h' => (key l h).trans (key l' h').symm)
    (by
      rw [hf, hname]
      intro l l' hb h
      rw [key l h] at hb
      exact absurd hb (by decide +kernel))
  rwa [hname] at this

/-- **C85 is false with several ambiguous literals.** Truth: `x` makes `y` true. Transitions from `{p}`, `{y}` and `{x}`; the returned action is not
applicable in `{y}`, where it was observed: the literals nested in one added disjunction were taken for preconditions and left out of the
next. -/
theorem C85_observed_state_rejected :
    CondProblemOK (propDom ["x", "y", "p"]) 1 (propTruth ∅ [⟨{pos "x"}, {pos "y"}⟩])
      (propObs [⟨{pos "x"}, {pos "y"}⟩] [["p"], ["y"], ["x"]]) ∧
    ¬ ((propRun ["x", "y", "p"] [⟨{pos "x"}, {pos "y"}⟩] [["p"], ["y"], ["x"]]).action "go").accepts id (st ["y"]) := by
  decide +kernel

/-- **C85: an observed transition that is not reproduced**: the case of C48 with an ambiguous and a determined effect; the state `{p,q}` was
observed. -/
theorem C85_observed_transition_not_reproduced :
    ["p", "q"] ∈ ([[], ["p", "q"], ["x"], ["y"], ["p", "y"], ["x", "y"], ["x", "y", "p"], ["x", "y", "q"], ["p", "q", "x", "y"]] : List (List String)) ∧
    WrongNext ["x", "y", "p", "q"] [⟨{pos "p"}, {pos "x"}⟩, ⟨{pos "q"}, {pos "y"}⟩]
      [[], ["p", "q"], ["x"], ["y"], ["p", "y"], ["x", "y"], ["x", "y", "p"], ["x", "y", "q"], ["p", "q", "x", "y"]] (st ["p", "q"]) :=
  ⟨by decide, C48_needs_restriction_2.2⟩

end Props

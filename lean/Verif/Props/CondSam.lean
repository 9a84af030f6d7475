import Verif.Lemmas.CheckCond
import Verif.Props.World

/-! C26, C29, C46-C50: learning conditional effects. -/
namespace Props
open Model Spec

section
variable {add : Cond → Cond → Cond} {ord : LitOrd} (hadd : AddOK add) (ho : EnumNodup ord)
variable {D : Domain} (hD : WFDomain D) {n : Nat} {p : Policy} {truth : String → CondSchema}

/-! ### C26 -/

/-- The learner when it starts going through the observations. -/
def started (D : Domain) (n : Nat) (p : Policy) : CondLearner :=
  { CondLearner.init D n p with base := (Learner.init D p).deduceIneq }

section
include ho hD

/-- **C26.** After any sequence of real transitions, every non-empty antecedent of a true conditional effect of an observed
action is still a candidate for each of its results. -/
theorem C26_true_antecedent_kept {cs : List Component} {K : CondLearner} (hT : WFCondTruth D n truth)
    (hG : CondData D truth cs) (hrun : (started D n p).process ord cs = .ok K) {a : String}
    (hobs : ∃ c ∈ cs, c.call.name = a) {e : CondEff} (he : e ∈ (truth a).effs) (hne : e.ante ≠ ∅) {l : Lit} (hl : l ∈ e.res) :
    ∃ d cands, K.deps a = some d ∧ d.possible.lookup l = some cands ∧ e.ante ∈ cands := by
  have hinv := CondInv.start (ord := ord) hD n p
  have hn : ∀ c ∈ cs, c.call.name ∈ D.names := by
    by_contra hc
    push Not at hc
    have := condProcess_error ho hinv hc
    unfold started at hrun; rw [this] at hrun; simp at hrun
  obtain ⟨K1, e1, h1⟩ := hinv.process ho cs [] _ hn
  have hK : K1 = K := by unfold started at hrun; rw [e1] at hrun; simpa using hrun
  subst hK
  rw [List.nil_append] at h1
  have ha : a ∈ D.names := by obtain ⟨c, hc, rfl⟩ := hobs; exact hn c hc
  obtain ⟨d, d1, _, _, _, d5⟩ := h1.deps a ((h1.observed a).mpr hobs)
  have hty : TypedLit D.preds ((D.act a).sig ++ D.consts) l := by
    rw [← hT.params a ha]; exact (hT.wf a ha).res e he l hl
  have htyA : ∀ x ∈ e.ante, TypedLit D.preds ((D.act a).sig ++ D.consts) x := by
    intro x hx; rw [← hT.params a ha]; exact (hT.wf a ha).ante e he x hx
  refine ⟨d, _, d1, by rw [d5, if_pos ((liftedVocab_typed (hD.sigs a ha)).mpr hty)], ?_⟩
  simp only [List.mem_filter, mem_createCnf ho, decide_eq_true_eq]
  exact ⟨⟨fun x hx => (liftedVocab_typed (hD.sigs a ha)).mpr (htyA x hx), hne, (hT.wf a ha).bounded e he⟩,
    (surv_iff hD hG.calls ha hty htyA).mpr (true_explains (condFacts hD hT hG ha) he hl)⟩

/-- C26: the candidates are exactly the bounded antecedents that the data do not refute (the truth is only used for the
shape of the calls). -/
theorem C26_candidates_exact {cs : List Component} {K : CondLearner} (hG : CondData D truth cs)
    (hrun : (started D n p).process ord cs = .ok K) {a : String} (hobs : ∃ c ∈ cs, c.call.name = a) :
    ∃ d, K.deps a = some d ∧ ∀ l, (TypedLit D.preds ((D.act a).sig ++ D.consts) l ↔ ∃ cands, d.possible.lookup l = some cands) ∧
      ∀ cands, d.possible.lookup l = some cands → cands.Nodup ∧ ∀ A, A ∈ cands ↔
        A ≠ ∅ ∧ A.card ≤ n ∧ (∀ x ∈ A, TypedLit D.preds ((D.act a).sig ++ D.consts) x) ∧ Explains D cs a A l := by
  have hinv := CondInv.start (ord := ord) hD n p
  have hn : ∀ c ∈ cs, c.call.name ∈ D.names := by
    by_contra hc
    push Not at hc
    have := condProcess_error ho hinv hc
    unfold started at hrun; rw [this] at hrun; simp at hrun
  obtain ⟨K1, e1, h1⟩ := hinv.process ho cs [] _ hn
  have hK : K1 = K := by unfold started at hrun; rw [e1] at hrun; simpa using hrun
  subst hK
  rw [List.nil_append] at h1
  have ha : a ∈ D.names := by obtain ⟨c, hc, rfl⟩ := hobs; exact hn c hc
  obtain ⟨d, d1, _, _, _, d5⟩ := h1.deps a ((h1.observed a).mpr hobs)
  have hvoc := fun l => liftedVocab_typed (D := D) (hD.sigs a ha) (l := l)
  refine ⟨d, d1, fun l => ⟨?_, fun cands hc => ?_⟩⟩
  · rw [d5, ← hvoc]; split <;> simp_all
  · rw [d5] at hc
    split at hc
    · rename_i hl
      simp only [Option.some.injEq] at hc
      subst hc
      refine ⟨(createCnf_nodup ho _ _).filter _, fun A => ?_⟩
      simp only [List.mem_filter, mem_createCnf ho, decide_eq_true_eq]
      constructor
      · rintro ⟨⟨g1, g2, g3⟩, g4⟩
        have hA : ∀ x ∈ A, TypedLit D.preds ((D.act a).sig ++ D.consts) x := fun x hx => (hvoc x).mp (g1 hx)
        exact ⟨g2, g3, hA, (surv_iff hD hG.calls ha ((hvoc l).mp hl) hA).mp g4⟩
      · rintro ⟨g2, g3, hA, g4⟩
        exact ⟨⟨fun x hx => (hvoc x).mpr (hA x hx), g2, g3⟩, (surv_iff hD hG.calls ha ((hvoc l).mp hl) hA).mpr g4⟩
    · simp at hc

end

/-! ### C49: what is returned -/

variable {obs : List (List Component)} {K : CondLearner} {rep : List (String × Status)}

section
include hadd ho hD

/-- Learning never fails on calls of known actions, and fails with `KeyError` when an unknown action occurs. -/
theorem C49_total (n : Nat) (p : Policy) (obs : List (List Component)) :
    ((∃ r, (CondLearner.init D n p).learn add ord obs = .ok r) ↔ ∀ c ∈ obs.flatten, c.call.name ∈ D.names) ∧
    ∀ e, (CondLearner.init D n p).learn add ord obs = .error e → e = .keyError := by
  by_cases hn : ∀ c ∈ obs.flatten, c.call.name ∈ D.names
  · obtain ⟨K, h, _⟩ := condLearn_spec hadd ho hD n p obs hn
    exact ⟨⟨fun _ => hn, fun _ => ⟨_, h⟩⟩, fun e he => by rw [h] at he; simp at he⟩
  · have hc := hn
    push Not at hc
    have h := condProcess_error ho (CondInv.start (ord := ord) hD n p) hc
    have hl : (CondLearner.init D n p).learn add ord obs = .error .keyError := by
      unfold CondLearner.learn
      simp only [bind, Except.bind]
      rw [show ({ CondLearner.init D n p with base := (CondLearner.init D n p).base.deduceIneq } : CondLearner).process ord obs.flatten
        = .error .keyError from h]
    refine ⟨⟨fun ⟨r, hr⟩ => by rw [hl] at hr; simp at hr, fun h => absurd h hn⟩, fun e he => ?_⟩
    rw [hl] at he; simp only [Except.error.injEq] at he; exact he.symm

theorem learn_outcome (h : (CondLearner.init D n p).learn add ord obs = .ok (K, rep)) :
    (∀ c ∈ obs.flatten, c.call.name ∈ D.names) ∧ rep = K.base.report ∧ K.base.dom.names = K.base.observed ∧ K.base.observed.Nodup ∧
      K.base.safe = [] ∧ (∀ a, a ∈ K.base.observed ↔ ∃ c ∈ obs.flatten, c.call.name = a) ∧
      ∀ a ∈ K.base.observed, CondOutcome add ord D n obs.flatten K a := by
  have hn := (C49_total hadd ho hD n p obs).1.mp ⟨_, h⟩
  obtain ⟨K', h', h2⟩ := condLearn_spec hadd ho hD n p obs hn
  rw [h] at h'
  simp only [Except.ok.injEq, Prod.mk.injEq] at h'
  obtain ⟨rfl, rfl⟩ := h'
  exact ⟨hn, rfl, h2⟩

/-- **C49.** The returned actions are exactly the observed ones, each reported NOT SAFE; the literal preconditions are the typed literals
true before every transition, the inequalities are all pairs of parameters of one type. -/
theorem C49_returned (hG : CondData D truth obs.flatten) (h : (CondLearner.init D n p).learn add ord obs = .ok (K, rep)) :
    K.base.dom.names.Nodup ∧ (∀ a, a ∈ K.base.dom.names ↔ ∃ c ∈ obs.flatten, c.call.name = a) ∧
    rep = K.base.dom.names.map (fun a => (a, Status.notSafe)) ∧
    ∀ a ∈ K.base.dom.names,
      (K.action a).ineq = sameTypePairs (D.act a).sig ∧
      ∀ l, l ∈ (K.action a).pre ↔ TypedLit D.preds ((D.act a).sig ++ D.consts) l ∧ AlwaysBefore D obs.flatten a l := by
  obtain ⟨hn, e1, e2, e3, e4, e5, e6⟩ := learn_outcome hadd ho hD h
  refine ⟨by rw [e2]; exact e3, by rw [e2]; exact e5, ?_, fun a ha => ?_⟩
  · rw [e1]; unfold Learner.report
    rw [e2]
    have f1 : K.base.observed.filter (fun x => decide (x ∈ K.base.observed.toFinset \ (∅ : Finset String))) = K.base.observed := by
      rw [List.filter_eq_self]; intro x hx; simpa using hx
    have f2 : K.base.observed.filter (fun x => decide (x ∈ K.base.observed.toFinset \ K.base.observed.toFinset)) = [] := by simp
    simp only [e4, List.toFinset_nil, f1, f2, List.map_nil, List.nil_append, List.append_nil]
    exact Py.dictOf_of_nodup (by rw [List.map_map]; simpa [Function.comp_def] using e3)
  · rw [e2] at ha
    have ho' := (e5 a).mp ha
    have hna : a ∈ D.names := by obtain ⟨c, hc, rfl⟩ := ho'; exact hn c hc
    exact ⟨(e6 a ha).ineq, fun l => mem_pre hD hG.calls hna (e6 a ha).pre ho'⟩

theorem view_learned (hG : CondData D truth obs.flatten) (h : (CondLearner.init D n p).learn add ord obs = .ok (K, rep))
    {a : String} (ha : a ∈ K.base.dom.names) :
    a ∈ D.names ∧ (∃ c ∈ obs.flatten, c.call.name = a) ∧ ∃ d O, View add ord D n obs.flatten K a d O := by
  obtain ⟨hn, e1, e2, e3, e4, e5, e6⟩ := learn_outcome hadd ho hD h
  rw [e2] at ha
  have ho' := (e5 a).mp ha
  have hna : a ∈ D.names := by obtain ⟨c, hc, rfl⟩ := ho'; exact hn c hc
  exact ⟨hna, ho', view_of ho hD hG.calls hna ho' (e6 a ha)⟩

/-! ### C29 -/

/-- **C29.** A literal that was seen to become true and has a single possible antecedent gets a conditional effect with exactly that
antecedent in the returned action. -/
theorem C29_determined_effect_returned_partial (hG : CondData D truth obs.flatten)
    (h : (CondLearner.init D n p).learn add ord obs = .ok (K, rep)) {a : String} (ha : a ∈ K.base.dom.names) {l : Lit}
    (hty : TypedLit D.preds ((D.act a).sig ++ D.consts) l) (hb : Became D obs.flatten a l) {A : Finset Lit}
    (hA : Possible D obs.flatten a n l A) (hu : ∀ B, Possible D obs.flatten a n l B → B = A) :
    ∃ e ∈ (K.action a).condEffs, e.ante = A ∧ l ∈ e.res := by
  obtain ⟨hna, ho', d, O, v⟩ := view_learned hadd ho hD hG h ha
  have hnal : ¬ AlwaysBefore D obs.flatten a l := by
    obtain ⟨c, hc, e, h1, _⟩ := hb; exact fun hal => h1 (hal c hc e)
  obtain ⟨cands, hc⟩ := v.some l hty hnal
  obtain ⟨_, _, hm⟩ := v.cand l cands hc
  have hnd := (v.ok l cands hc).nodup
  have : cands = [A] := by
    match cands, hm, hnd with
    | [], hm, _ => exact absurd ((hm A).mpr hA) (by simp)
    | [X], hm, _ => rw [hu X ((hm X).mp (by simp))]
    | X :: Y :: t, hm, hnd =>
      rw [hu X ((hm X).mp (by simp)), hu Y ((hm Y).mp (by simp))] at hnd
      simp at hnd
  subst this
  exact v.built.kept l A hc ((v.obs l).mpr ⟨hty, hb⟩)

/-- The claim fails for literals with several possible antecedents: as soon as one observed literal of the action has a single possible
antecedent, the returned action has no conditional effect on an ambiguous literal, although one was
constructed for it when it was observed. -/
theorem C29_restrictive_effect_lost (hG : CondData D truth obs.flatten)
    (h : (CondLearner.init D n p).learn add ord obs = .ok (K, rep)) {a : String} (ha : a ∈ K.base.dom.names) {l l' : Lit}
    (hty : TypedLit D.preds ((D.act a).sig ++ D.consts) l) (hb : Became D obs.flatten a l)
    (hd : Determined D obs.flatten a n l) (hamb : Ambiguous D obs.flatten a n l') :
    ∀ e ∈ (K.action a).condEffs, l' ∉ e.res := by
  obtain ⟨hna, ho', d, O, v⟩ := view_learned hadd ho hD hG h ha
  obtain ⟨hnal, A, hA, hu⟩ := hd
  obtain ⟨cands, hc⟩ := v.some l hty hnal
  obtain ⟨_, _, hm⟩ := v.cand l cands hc
  have hnd := (v.ok l cands hc).nodup
  have : cands = [A] := by
    match cands, hm, hnd with
    | [], hm, _ => exact absurd ((hm A).mpr hA) (by simp)
    | [X], hm, _ => rw [hu X ((hm X).mp (by simp))]
    | X :: Y :: t, hm, hnd =>
      rw [hu X ((hm X).mp (by simp)), hu Y ((hm Y).mp (by simp))] at hnd
      simp at hnd
  subst this
  obtain ⟨hty', hnal', B, C, hne, hB, hC⟩ := hamb
  obtain ⟨cands', hc'⟩ := v.some l' hty' hnal'
  obtain ⟨_, _, hm'⟩ := v.cand l' cands' hc'
  refine v.built.lost l A l' hc ((v.obs l).mpr ⟨hty, hb⟩) ⟨cands', hc', ?_⟩
  match cands', hm' with
  | [], hm => exact absurd ((hm B).mpr hB) (by simp)
  | [X], hm =>
    have h1 := (hm B).mpr hB
    have h2 := (hm C).mpr hC
    simp only [List.mem_singleton] at h1 h2
    exact absurd (h1.trans h2.symm) hne
  | _ :: _ :: _, _ => simp

/-! ### C46, C47, C48 -/

/-- **C46.** Wherever the returned action is applicable, the true action is. -/
theorem C46_applicable (hT : WFCondTruth D n truth) (hG : CondData D truth obs.flatten)
    (h : (CondLearner.init D n p).learn add ord obs = .ok (K, rep)) {a : String} (ha : a ∈ K.base.dom.names)
    {ρ : String → String} {s : State} (hacc : (K.action a).accepts ρ s) : applicable (truth a).pre ρ s := by
  obtain ⟨hna, ho', d, O, v⟩ := view_learned hadd ho hD hG h ha
  intro l hl
  exact hacc.1 l (true_pre (condFacts hD hT hG hna) v.pre hl)

/-- **C47.** Wherever the literal preconditions hold, everything the returned action makes true is made true by the true action. -/
theorem C47_no_spurious_effect (hT : WFCondTruth D n truth) (hG : CondData D truth obs.flatten)
    (h : (CondLearner.init D n p).learn add ord obs = .ok (K, rep)) {a : String} (ha : a ∈ K.base.dom.names)
    {ρ : String → String} {s : State} (hacc : applicable (K.action a).pre ρ s) :
    (K.action a).makes ρ s ⊆ fired (truth a).effs ρ s := by
  obtain ⟨hna, ho', d, O, v⟩ := view_learned hadd ho hD hG h ha
  exact makes_true (condFacts hD hT hG hna) v hacc

/-- **C48.** The returned action and the true action lead to the same state, wherever the returned one is applicable, provided that
(1) at most one literal of the action is ambiguous, or all literals nested in its added conditions hold in the state;
(2) no observed effect is ambiguous if another one is determined;
(3) every true result was seen to become true, or never seen to become false.
Each of the three restrictions is needed: see the three refutations below. -/
theorem C48_exact_partial (hT : WFCondTruth D n truth) (hG : CondData D truth obs.flatten)
    (h : (CondLearner.init D n p).learn add ord obs = .ok (K, rep)) {a : String} (ha : a ∈ K.base.dom.names)
    {ρ : String → String} {s : State} (hinj : Injective D.consts (D.act a).sig ρ) (hacc : (K.action a).accepts ρ s)
    (H1 : (∀ l l', Ambiguous D obs.flatten a n l → Ambiguous D obs.flatten a n l' → l = l') ∨
      ∀ c ∈ (K.action a).conds, ∀ x ∈ Cond.lits c, holds s (ground ρ x))
    (H2 : ∀ l l', Became D obs.flatten a l → Ambiguous D obs.flatten a n l → Became D obs.flatten a l' →
      ¬ Determined D obs.flatten a n l')
    (H3 : ∀ e ∈ (truth a).effs, ∀ l ∈ e.res, Became D obs.flatten a l ∨ NeverUndone D obs.flatten a l) :
    (K.action a).next ρ s = condSuccessor (truth a).effs ρ s := by
  obtain ⟨hna, ho', d, O, v⟩ := view_learned hadd ho hD hG h ha
  have happ := C46_applicable hadd ho hD hT hG h ha hacc
  refine successor_eq_of (fun l hl => ?_) fun l hl hnl => ?_
  swap
  · obtain ⟨e, he, _, hr⟩ := mem_fired.mp hl
    exact true_makes (condFacts hD hT hG hna) hadd ho v hacc H1 H2 (H3 e he l hr) hl hnl
  have hf := makes_true (condFacts hD hT hG hna) v hacc.1 hl
  exact holds_successor (S := fun x => x ∈ Sig.names ((D.act a).sig ++ D.consts)) (fun x y hx hy e => hinj x hx y hy e)
    (fired_args hT hna) ((hT.wf a hna).consistent ρ s (by rw [hT.params a hna]; exact hinj) happ) hf

end
end

/-! ### Concrete problems: one action `go` without parameters over propositions -/

/-- Partial domain over the given propositions. -/
def propDom (ps : List String) : Domain :=
  { preds := ps.map fun p => ⟨p, []⟩, consts := [], names := ["go"], act := fun _ => .fresh [] }
def pos (p : String) : Lit := ⟨p, [], true⟩
def neg (p : String) : Lit := ⟨p, [], false⟩
def st (ps : List String) : State := (ps.map fun p => (⟨p, []⟩ : Atom)).toFinset
/-- The true `go`. -/
def propTruth (pre : Finset Lit) (effs : List CondEff) : String → CondSchema := fun _ => ⟨[], pre, effs⟩
/-- Its transitions from the given states. -/
def propObs (effs : List CondEff) (states : List (List String)) : List Component :=
  states.map fun s => ⟨st s, ⟨"go", []⟩, condSuccessor effs id (st s), true⟩
/-- An iteration order of the sets of literals. -/
noncomputable def propOrd (ps : List String) : LitOrd := enumOf (ps.flatMap fun p => [pos p, neg p])
/-- What is learned with antecedents of at most one literal. -/
noncomputable def propRun (ps : List String) (effs : List CondEff) (states : List (List String)) : CondLearner :=
  runCond plainAdd (propOrd ps) (CondLearner.init (propDom ps) 1) [propObs effs states]

theorem propRun_eq {ps : List String} (hps : (ps.flatMap fun p => [pos p, neg p]).Nodup) (pre : Finset Lit) (effs : List CondEff)
    (states : List (List String)) (hok : CondProblemOK (propDom ps) 1 (propTruth pre effs) (propObs effs states)) :
    WFDomain (propDom ps) ∧ WFCondTruth (propDom ps) 1 (propTruth pre effs) ∧
    CondData (propDom ps) (propTruth pre effs) [propObs effs states].flatten ∧ EnumNodup (propOrd ps) ∧
    ∃ rep, (CondLearner.init (propDom ps) 1).learn plainAdd (propOrd ps) [propObs effs states]
      = .ok (propRun ps effs states, rep) := by
  obtain ⟨h1, h2, h3⟩ := hok.sound
  have ho : EnumNodup (propOrd ps) := enumOf_nodup hps
  refine ⟨h1, h2, by simpa using h3, ho, runCond_eq plainAdd_ok ho h1 1 _ _ ?_⟩
  intro c hc
  simp only [List.flatten_cons, List.flatten_nil, List.append_nil, propObs, List.mem_map] at hc
  obtain ⟨s, _, rfl⟩ := hc
  simp [propDom]

/-- Truth: `q` makes `p` true. Three transitions. -/
def exEffs : List CondEff := [⟨{pos "q"}, {pos "p"}⟩]
def exStates : List (List String) := [[], ["q"], ["p", "q"]]

/-- The problem meets the hypotheses of C26, C29, C46-C49. -/
theorem ex_ok : CondProblemOK (propDom ["p", "q"]) 1 (propTruth ∅ exEffs) (propObs exEffs exStates) := by decide +kernel

/-- The learned action: when `q` holds, `p` becomes true. -/
example : (propRun ["p", "q"] exEffs exStates).condEffs "go" = [⟨{pos "q"}, {pos "p"}⟩] := by decide +kernel

/-- It meets the hypotheses of C48 and is applicable in `{q}`, where the effect fires. -/
example : ((propRun ["p", "q"] exEffs exStates).action "go").accepts id (st ["q"]) ∧
    ((propRun ["p", "q"] exEffs exStates).action "go").next id (st ["q"]) = st ["p", "q"] := by decide +kernel

theorem ex_possible : ∀ l ∈ liftedVocab (propDom ["p", "q"]) [], ¬ AlwaysBefore (propDom ["p", "q"]) (propObs exEffs exStates) "go" l →
    2 ≤ (possibleList (propOrd ["p", "q"]) (propDom ["p", "q"]) (propObs exEffs exStates) "go" 1 l).length → l = pos "q" := by
  decide +kernel

example : (∀ l l', Ambiguous (propDom ["p", "q"]) (propObs exEffs exStates) "go" 1 l →
      Ambiguous (propDom ["p", "q"]) (propObs exEffs exStates) "go" 1 l' → l = l') ∧
    (∀ l l', Became (propDom ["p", "q"]) (propObs exEffs exStates) "go" l → Ambiguous (propDom ["p", "q"]) (propObs exEffs exStates) "go" 1 l →
      Became (propDom ["p", "q"]) (propObs exEffs exStates) "go" l' → ¬ Determined (propDom ["p", "q"]) (propObs exEffs exStates) "go" 1 l') ∧
    (∀ e ∈ exEffs, ∀ l ∈ e.res, Became (propDom ["p", "q"]) (propObs exEffs exStates) "go" l) := by
  have key : ∀ l, Ambiguous (propDom ["p", "q"]) (propObs exEffs exStates) "go" 1 l → l = pos "q" := by
    intro l hl
    obtain ⟨h1, h2, h3⟩ := notAmbiguous (enumOf_nodup (U := ["p", "q"].flatMap fun p => [pos p, neg p]) (by decide)) (ex_ok.sound.1.sigs "go" (by decide)) hl
    exact ex_possible l h1 h2 h3
  refine ⟨fun l l' h h' => (key l h).trans (key l' h').symm, fun l l' hb h => ?_, by decide +kernel⟩
  rw [key l h] at hb
  exact absurd hb (by decide +kernel)

/-- What an unsafe outcome is: the returned action is applicable and its next state is not the true one. -/
def WrongNext (ps : List String) (effs : List CondEff) (states : List (List String)) (s : State) : Prop :=
  ((propRun ps effs states).action "go").accepts id s ∧
    ((propRun ps effs states).action "go").next id s ≠ condSuccessor effs id s

noncomputable instance (ps effs states s) : Decidable (WrongNext ps effs states s) := by unfold WrongNext; infer_instance

/-- C48 without restriction (1) is false. Truth: `p` makes `x` true, `q` makes `y` true; transitions from `{}` and `{x,y,p,q}`.
The literals inside the condition added for `x` are taken for preconditions when the next ambiguous literal is treated, so the
condition for `y` is missing; in `{x,q}` the true action makes `y` true, the learned one does not. -/
theorem C48_needs_restriction_1 :
    CondProblemOK (propDom ["x", "y", "p", "q"]) 1 (propTruth ∅ [⟨{pos "p"}, {pos "x"}⟩, ⟨{pos "q"}, {pos "y"}⟩])
      (propObs [⟨{pos "p"}, {pos "x"}⟩, ⟨{pos "q"}, {pos "y"}⟩] [[], ["x", "y", "p", "q"]]) ∧
    WrongNext ["x", "y", "p", "q"] [⟨{pos "p"}, {pos "x"}⟩, ⟨{pos "q"}, {pos "y"}⟩] [[], ["x", "y", "p", "q"]] (st ["x", "q"]) := by
  decide +kernel

/-- C48 without restriction (2) is false: the conditional effect constructed for the ambiguous observed literal `y` is lost (C29), and
in `{p,q}` the returned action is applicable without making `y` true. -/
theorem C48_needs_restriction_2 :
    CondProblemOK (propDom ["x", "y", "p", "q"]) 1 (propTruth ∅ [⟨{pos "p"}, {pos "x"}⟩, ⟨{pos "q"}, {pos "y"}⟩])
      (propObs [⟨{pos "p"}, {pos "x"}⟩, ⟨{pos "q"}, {pos "y"}⟩]
        [[], ["p", "q"], ["x"], ["y"], ["p", "y"], ["x", "y"], ["x", "y", "p"], ["x", "y", "q"], ["p", "q", "x", "y"]]) ∧
    WrongNext ["x", "y", "p", "q"] [⟨{pos "p"}, {pos "x"}⟩, ⟨{pos "q"}, {pos "y"}⟩]
      [[], ["p", "q"], ["x"], ["y"], ["p", "y"], ["x", "y"], ["x", "y", "p"], ["x", "y", "q"], ["p", "q", "x", "y"]] (st ["p", "q"]) := by
  decide +kernel

/-- C48 without restriction (3) is false. Truth: `q` makes `l` true, `¬q` makes it false, `s` makes `q` true. `l` was never seen to become
true and has the single possible antecedent `q`: no effect and no condition is learned for it. In `{q}` the true
action makes `l` true, the learned one does not. -/
theorem C48_needs_restriction_3 :
    CondProblemOK (propDom ["l", "q", "s"]) 1 (propTruth ∅ [⟨{pos "q"}, {pos "l"}⟩, ⟨{neg "q"}, {neg "l"}⟩, ⟨{pos "s"}, {pos "q"}⟩])
      (propObs [⟨{pos "q"}, {pos "l"}⟩, ⟨{neg "q"}, {neg "l"}⟩, ⟨{pos "s"}, {pos "q"}⟩] [["l", "q"], [], ["l"], ["s"]]) ∧
    WrongNext ["l", "q", "s"] [⟨{pos "q"}, {pos "l"}⟩, ⟨{neg "q"}, {neg "l"}⟩, ⟨{pos "s"}, {pos "q"}⟩]
      [["l", "q"], [], ["l"], ["s"]] (st ["q"]) := by
  decide +kernel

/-! ### C50: failed transitions and repeated objects -/

/-- The observation with every success flag set to `b`. -/
def flagAll (b : Bool) (obs : List (List Component)) : List (List Component) := obs.map fun t => t.map fun c => { c with success := b }

theorem process_flag (ord : LitOrd) (b : Bool) (cs : List Component) (K : CondLearner) :
    K.process ord (cs.map fun c => { c with success := b }) = K.process ord cs := by
  unfold CondLearner.process
  rw [List.foldlM_map]
  rfl

/-- **C50.** The learner of conditional effects never looks at the success flag: a failed attempt counts as a transition without
effect. -/
theorem C50_success_flag_ignored (add : Cond → Cond → Cond) (ord : LitOrd) (K : CondLearner) (obs : List (List Component)) (b : Bool) :
    K.learn add ord (flagAll b obs) = K.learn add ord obs := by
  unfold CondLearner.learn flagAll
  rw [← List.map_flatten]; dsimp only; rw [process_flag]

/-- Truth: precondition `p`, `q` becomes true. One successful transition and one failed attempt in `{}`. -/
def failEffs : List CondEff := [⟨∅, {pos "q"}⟩]
def failObs : List (List Component) :=
  [[⟨st ["p"], ⟨"go", []⟩, st ["p", "q"], true⟩, ⟨st [], ⟨"go", []⟩, st [], false⟩]]

/-- C46 is false with failed attempts among the data, although SAM ignores them (C03): the returned action is applicable in `{}`. -/
theorem C50_failed_attempt_unsafe :
    (∀ c ∈ failObs.flatten, c.success = true → applicable {pos "p"} (objSubst (propDom ["p", "q"]) c) c.prev ∧
      c.next = condSuccessor failEffs (objSubst (propDom ["p", "q"]) c) c.prev) ∧
    ((runCond plainAdd (propOrd ["p", "q"]) (CondLearner.init (propDom ["p", "q"]) 1) failObs).action "go").accepts id (st []) ∧
    ¬ applicable {pos "p"} id (st []) := by
  decide +kernel

/-- One action with two parameters of one type over a unary predicate. Truth: `r` of the first parameter becomes true. -/
def dupDom : Domain :=
  { preds := [⟨"r", [("?z", World.tObj)]⟩], consts := [], names := ["go"],
    act := fun _ => .fresh [("?x", World.tObj), ("?y", World.tObj)] }
def dupEffs : List CondEff := [⟨∅, {⟨"r", ["?x"], true⟩}⟩]
def dupObs : List (List Component) := [[⟨∅, ⟨"go", ["o", "o"]⟩, {⟨"r", ["o"]⟩}, true⟩]]
noncomputable def dupOrd : LitOrd :=
  enumOf [⟨"r", ["?x"], true⟩, ⟨"r", ["?y"], true⟩, ⟨"r", ["?x"], false⟩, ⟨"r", ["?y"], false⟩]

/-- C47 is false when a call repeats an object: `r` of the second parameter is learned as an effect and fires for the distinct objects `o`, `u`,
where the true action does not make it true. -/
theorem C50_repeated_object_unsafe :
    (∀ c ∈ dupObs.flatten, c.next = condSuccessor dupEffs (objSubst dupDom c) c.prev) ∧
    ((runCond plainAdd dupOrd (CondLearner.init dupDom 1) dupObs).action "go").accepts
      (subst ["?x", "?y"] ["o", "u"]) ∅ ∧
    ((runCond plainAdd dupOrd (CondLearner.init dupDom 1) dupObs).action "go").next (subst ["?x", "?y"] ["o", "u"]) ∅
      ≠ condSuccessor dupEffs (subst ["?x", "?y"] ["o", "u"]) ∅ := by
  decide +kernel

end Props

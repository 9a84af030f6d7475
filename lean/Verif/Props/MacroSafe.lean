import Verif.Lemmas.MacroSafe
import Verif.Props.MaSam

/-! C54: the macro actions of MA-SAM+. -/
namespace Props
open Model Spec

section
variable {D : Domain} {truth : String → Schema} {obs : List (List JointComponent)} {ord : Finset Lit → List Lit}
variable {gord : Finset (String × String) → List (String × String)} {sortG : Finset String → List String} {uuid : Nat → String}
variable {L' : MaLearner} {rep : List (String × Status)} {Ms : List MacroAct}

/-- What a run of MA-SAM+ on good data goes through. -/
theorem plus_run (ho : GoodOrd ord) (hD : WFDomain D) (hT : WFTruth D truth) (hc : D.consts = []) (hG : GoodJointData D truth obs)
    (h : (MaLearner.init D).learnPlus ord gord sortG uuid obs = .ok (L', rep, Ms)) :
    ∃ L1 : MaLearner, KeepFacts D truth L1.constructKeep ∧ MaFinal D truth L1.constructSafe ∧
      L1.constructKeep.buildMacros ord gord sortG uuid [] L1.constructKeep.actionGroups = .ok Ms ∧
      L' = (Ms.foldl MaLearner.store L1.constructKeep).removeUnsafe := by
  unfold MaLearner.learnPlus at h
  simp only [Bind.bind, Except.bind] at h
  split at h
  · simp at h
  rename_i L1 hL1
  split at h
  · simp at h
  rename_i Ms' hMs
  simp only [Except.ok.injEq, Prod.mk.injEq] at h
  obtain ⟨rfl, -, rfl⟩ := h
  obtain ⟨i1, i2⟩ := (MaInv.init (truth := truth) hD).components ho hc hD hT _ _ _ hG.explained hG.distinct hG.covered hL1
  have hn : (Learner.init D .noRemove true).dom.names.Nodup := hD.names
  obtain ⟨d1, d2, _⟩ := deduce_spec (L := Learner.init D .noRemove true) hn
  obtain ⟨s1, s2, _⟩ := components_shape ho hc hD hT obs.flatten
    { MaLearner.init D with cnf := fun _ => Cnf.empty, base := (MaLearner.init D).base.deduceIneq } L1 hG.explained d1
    (by
      intro a ha l hl
      rw [show ((MaLearner.init D).base.deduceIneq.dom.act a).pre = (D.act a).pre from (d2 a).1, (hD.empty a ha).1] at hl
      simp at hl)
    (by intro k c hc; simp [Cnf.empty] at hc) hL1
  have hf := i1.final hD hT i2
  refine ⟨L1, keepFacts hD hT i1 s2 s1 i2, hf, hMs, ?_⟩
  have hpol : (Ms'.foldl MaLearner.store L1.constructKeep).removeUnsafe.base.policy = .noRemove := by
    have := (store_fold Ms' L1.constructKeep).2.1
    show (Ms'.foldl MaLearner.store L1.constructKeep).base.policy = _
    rw [this]
    exact hf.policy
  have : (Ms'.foldl MaLearner.store L1.constructKeep).removeUnsafe.base.applyPolicy =
      (Ms'.foldl MaLearner.store L1.constructKeep).removeUnsafe.base := by
    unfold Learner.applyPolicy; rw [hpol]; rfl
  rw [this]

/-- The parameters of the actions are found in full by the regular expression `\?\w+`. -/
def PlainParams (D : Domain) : Prop := ∀ a ∈ D.names, ∀ x ∈ Sig.names (D.act a).sig, wordParam x = some x

instance (D : Domain) : Decidable (PlainParams D) := by unfold PlainParams; infer_instance

/-- No action of the macro is called with an object twice. -/
def PartsInjective (D : Domain) (M : MacroAct) (σ : String → String) : Prop :=
  ∀ a ∈ M.acts, ∀ x ∈ Sig.names (D.act a).sig, ∀ y ∈ Sig.names (D.act a).sig,
    partSubst M.binding σ a x = partSubst M.binding σ a y → x = y

instance (D : Domain) (M : MacroAct) (σ : String → String) : Decidable (PartsInjective D M σ) := by unfold PartsInjective; infer_instance

/-- **C54, macros are sound.** On good data (as for C22) of a domain without constants: where the preconditions of a macro hold, all its
actions are truly applicable, and every effect of the macro is a true effect of one of them. -/
theorem C54_macro_sound_partial (ho : GoodOrd ord) (hgord : ∀ s x, x ∈ gord s ↔ x ∈ s) (hsort : ∀ s x, x ∈ sortG s ↔ x ∈ s)
    (hD : WFDomain D) (hT : WFTruth D truth) (hc : D.consts = []) (hG : GoodJointData D truth obs) (hw : PlainParams D)
    (h : (MaLearner.init D).learnPlus ord gord sortG uuid obs = .ok (L', rep, Ms)) {M : MacroAct} (hM : M ∈ Ms)
    (σ : String → String) (s : State) (hinj : PartsInjective D M σ) (happ : applicable M.model.pre σ s) :
    (∀ a ∈ M.acts, a ∈ D.names) ∧ (∀ a ∈ M.acts, applicable (truth a).pre (partSubst M.binding σ a) s) ∧
    ∀ e ∈ M.model.eff, ∃ a ∈ M.acts, ∃ t ∈ (truth a).eff, ground σ e = ground (partSubst M.binding σ a) t := by
  obtain ⟨L1, hK, _, hMs, _⟩ := plus_run ho hD hT hc hG h
  rcases buildMacros_mem _ _ _ hMs M hM with h1 | ⟨g, hg, u, others, h1⟩
  · simp at h1
  have hacts := buildMacro_acts h1
  have hsub : ∀ a ∈ sortG g, a ∈ D.names := by
    intro a ha
    have := actionGroups_sub hg a ((hsort g a).mp ha)
    rwa [hK.static.names] at this
  obtain ⟨r1, r2, _⟩ := buildMacro_safe hT hc hK hgord ho hsub (fun a ha => hw a (hsub a ha)) h1 σ s
    (by unfold PartsInjective at hinj; rw [hacts] at hinj; exact hinj) happ
  rw [hacts]
  refine ⟨hsub, r1, fun e he => ?_⟩
  obtain ⟨a, ha, hga⟩ := Finset.mem_biUnion.mp (r2 (Finset.mem_image_of_mem _ he))
  obtain ⟨t, ht, e2⟩ := Finset.mem_image.mp hga
  exact ⟨a, List.mem_toFinset.mp ha, t, ht, e2.symm⟩

/-- The image of the effects. -/
theorem successor_image (E : Finset Lit) (σ : String → String) (s : State) :
    successor E σ s = successor (E.image (ground σ)) id s := by
  ext at'
  rw [mem_successor, mem_successor]
  simp only [Finset.exists_mem_image]
  have e : ∀ l : Lit, ground id (ground σ l) = ground σ l := by intro l; simp [ground]
  have e2 : ∀ l : Lit, (ground σ l).pos = l.pos := fun _ => rfl
  simp only [e, e2]

/-- **C54, macros predict the joint outcome (partial).** If moreover the actions of the macro share no parameter names, all their effects
have arguments, and executing them at once is not contradictory, the macro leads to the state which executing all its actions at
once leads to. Missing: actions that share parameter names, for which `C54_shared_parameter_unsafe` refutes the claim; and calls in
which an action gets an object twice. -/
theorem C54_macro_exact_partial (ho : GoodOrd ord) (hgord : ∀ s x, x ∈ gord s ↔ x ∈ s) (hsort : ∀ s x, x ∈ sortG s ↔ x ∈ s)
    (hD : WFDomain D) (hT : WFTruth D truth) (hc : D.consts = []) (hG : GoodJointData D truth obs) (hw : PlainParams D)
    (h : (MaLearner.init D).learnPlus ord gord sortG uuid obs = .ok (L', rep, Ms)) {M : MacroAct} (hM : M ∈ Ms)
    (hshare : ∀ a ∈ M.acts, ∀ b ∈ M.acts, a ≠ b → ∀ x ∈ Sig.names (D.act a).sig, x ∉ Sig.names (D.act b).sig)
    (hargs : ∀ a ∈ M.acts, ∀ e ∈ (truth a).eff, e.args ≠ [])
    (σ : String → String) (s : State) (hinj : PartsInjective D M σ) (happ : applicable M.model.pre σ s)
    (hconf : NoConflict (jointEffects truth M.acts (partSubst M.binding σ))) :
    successor M.model.eff σ s = successor (jointEffects truth M.acts (partSubst M.binding σ)) id s := by
  obtain ⟨L1, hK, _, hMs, _⟩ := plus_run ho hD hT hc hG h
  rcases buildMacros_mem _ _ _ hMs M hM with h1 | ⟨g, hg, u, others, h1⟩
  · simp at h1
  have hacts := buildMacro_acts h1
  have hsub : ∀ a ∈ sortG g, a ∈ D.names := by
    intro a ha
    have := actionGroups_sub hg a ((hsort g a).mp ha)
    rwa [hK.static.names] at this
  obtain ⟨_, r2, r3⟩ := buildMacro_safe hT hc hK hgord ho hsub (fun a ha => hw a (hsub a ha)) h1 σ s
    (by unfold PartsInjective at hinj; rw [hacts] at hinj; exact hinj) happ
  rw [hacts] at hconf hshare hargs ⊢
  have r3' := r3 (by
    intro a ha b hb e he heb
    by_cases hab : a = b
    · rw [hab]; exact heb
    · exfalso
      obtain ⟨x, hx⟩ := List.exists_mem_of_ne_nil _ (hargs a ha e he)
      have h1 := typed_sub ((hT.wf a (hsub a ha)).eff e he) x hx
      have h2 := typed_sub (hK.preShape b (hsub b hb) e heb) x hx
      rw [hc, List.append_nil] at h1 h2
      rw [hT.params a (hsub a ha)] at h1
      exact hshare a ha b hb hab x h1 h2)
  rw [successor_image]
  refine successor_eq (S := fun _ => True) (fun x y _ _ e => e) (fun _ _ _ _ => trivial) hconf r2 fun e he hne => ?_
  have := r3' e he hne
  simpa [ground] using this

/-- **C54, single actions.** The single actions MA-SAM+ returns are those of MA-SAM, with the same preconditions and effects, unless a
macro got the name of one of them. -/
theorem C54_single_actions (ho : GoodOrd ord) (hD : WFDomain D) (hT : WFTruth D truth) (hc : D.consts = [])
    (hG : GoodJointData D truth obs) (h : (MaLearner.init D).learnPlus ord gord sortG uuid obs = .ok (L', rep, Ms))
    {a : String} (ha : a ∈ L'.base.dom.names) (haD : a ∉ Ms.map (·.name)) :
    ∃ (Ls : MaLearner) (rep' : List (String × Status)), (MaLearner.init D).learn ord obs = .ok (Ls, rep') ∧ a ∈ Ls.base.dom.names ∧
      L'.base.dom.act a = Ls.base.dom.act a := by
  have h0 := h
  unfold MaLearner.learnPlus at h0
  simp only [Bind.bind, Except.bind] at h0
  split at h0
  · simp at h0
  rename_i L1 hL1
  split at h0
  · simp at h0
  rename_i Ms' hMs
  simp only [Except.ok.injEq, Prod.mk.injEq] at h0
  obtain ⟨rfl, -, rfl⟩ := h0
  have hl : ∃ rep', (MaLearner.init D).learn ord obs = .ok ({ L1.constructSafe with base := L1.constructSafe.base.applyPolicy }, rep') := by
    unfold MaLearner.learn
    simp only [Bind.bind, Except.bind]
    rw [hL1]
    exact ⟨_, rfl⟩
  obtain ⟨rep', hl⟩ := hl
  refine ⟨_, rep', hl, ?_⟩
  obtain ⟨i1, i2⟩ := (MaInv.init (truth := truth) hD).components ho hc hD hT _ _ _ hG.explained hG.distinct hG.covered hL1
  have hf := i1.final hD hT i2
  obtain ⟨t1, t2, t3, t4, _⟩ := store_fold Ms' L1.constructKeep
  have hpol : (Ms'.foldl MaLearner.store L1.constructKeep).removeUnsafe.base.policy = .noRemove := t2.trans hf.policy
  have e1 : (Ms'.foldl MaLearner.store L1.constructKeep).removeUnsafe.base.applyPolicy =
      (Ms'.foldl MaLearner.store L1.constructKeep).removeUnsafe.base := by
    unfold Learner.applyPolicy; rw [hpol]; rfl
  have e2 : L1.constructSafe.base.applyPolicy = L1.constructSafe.base := by
    unfold Learner.applyPolicy; rw [hf.policy]; rfl
  rw [e1] at ha ⊢
  rw [e2]
  have hs : L1.constructSafe = L1.constructKeep.removeUnsafe := rfl
  rw [hs]
  refine ⟨?_, t3 a haD⟩
  have ha' : a ∈ (Ms'.foldl MaLearner.store L1.constructKeep).base.dom.names ∧
      a ∉ (Ms'.foldl MaLearner.store L1.constructKeep).unsafeActs := by
    have : a ∈ (Ms'.foldl MaLearner.store L1.constructKeep).base.dom.names.filter
        fun a => !((Ms'.foldl MaLearner.store L1.constructKeep).unsafeActs.contains a) := ha
    simpa [List.mem_filter] using this
  rw [t4, t1] at ha'
  show a ∈ L1.constructKeep.base.dom.names.filter fun a => !(L1.constructKeep.unsafeActs.contains a)
  rw [List.mem_filter]
  exact ⟨ha'.1.resolve_right haD, by simpa using ha'.2⟩

/-- **C54, macros are in the returned domain.** With pairwise different macro names, none of them the name of a removed action, every
macro is an action of the returned domain with exactly the learned preconditions and effects. -/
theorem C54_macros_returned (ho : GoodOrd ord) (hD : WFDomain D) (hT : WFTruth D truth) (hc : D.consts = [])
    (hG : GoodJointData D truth obs) (h : (MaLearner.init D).learnPlus ord gord sortG uuid obs = .ok (L', rep, Ms))
    (hnames : (Ms.map (·.name)).Nodup) {M : MacroAct} (hM : M ∈ Ms) (hfresh : M.name ∉ D.names) :
    M.name ∈ L'.base.dom.names ∧ L'.base.dom.act M.name = M.model := by
  obtain ⟨L1, hK, hf, hMs, rfl⟩ := plus_run ho hD hT hc hG h
  obtain ⟨t1, _, _, t4, t5⟩ := store_fold Ms L1.constructKeep
  refine ⟨?_, t5 hnames M hM⟩
  show M.name ∈ (Ms.foldl MaLearner.store L1.constructKeep).base.dom.names.filter fun a =>
    !((Ms.foldl MaLearner.store L1.constructKeep).unsafeActs.contains a)
  rw [List.mem_filter, t4, t1]
  refine ⟨Or.inr (List.mem_map_of_mem hM), ?_⟩
  simpa using fun hin => hfresh (hK.uns _ hin)

end
/-! ### Examples and limits -/

namespace PlusLimits
open MaLimits Limits

/-- Executable check of good joint data. -/
def goodJointB (D : Domain) (truth : String → Schema) (obs : List (List JointComponent)) : Bool :=
  obs.flatten.all fun c => decide ((c.calls.map Call.name).Nodup) && (c.calls.length == 1 ||
    match c.calls.getLast? with
    | none => true
    | some last => c.calls.all fun k => decide (∀ e ∈ (truth k.name).eff, ¬ holds c.prev (ground (callSubst truth k) e) →
        typedLitB D.preds (last.params.zip ((truth last.name).params.map Prod.snd) ++ D.consts) (ground (callSubst truth k) e) = true))

theorem goodJointB_sound {D : Domain} {truth : String → Schema} {obs : List (List JointComponent)} (h : JointProblemOK D truth obs)
    (hb : goodJointB D truth obs = true) : WFDomain D ∧ WFTruth D truth ∧ GoodJointData D truth obs := by
  obtain ⟨h1, h2, h3⟩ := h.sound
  unfold goodJointB at hb
  simp only [List.all_eq_true, Bool.and_eq_true, Bool.or_eq_true, decide_eq_true_eq, beq_iff_eq] at hb
  refine ⟨h1, h2, fun c hc _ => h3 c hc, fun c hc _ => (hb c hc).1, fun c hc _ hl last hlast k hk e he hh => ?_⟩
  rcases (hb c hc).2 with h | h
  · exact absurd h hl
  · rw [hlast] at h
    simp only [List.all_eq_true, decide_eq_true_eq] at h
    exact typedLitB_sound (h k hk e he hh)

/-- Executable enumeration. -/
noncomputable def enumOf {α : Type} [DecidableEq α] (U : List α) (s : Finset α) : List α := if s ⊆ U.toFinset then U.filter (fun l => l ∈ s) else s.toList

theorem enumOf_good {α : Type} [DecidableEq α] (U : List α) (s : Finset α) (x : α) : x ∈ enumOf U s ↔ x ∈ s := by
  unfold enumOf
  split
  · rename_i h
    simp only [List.mem_filter, decide_eq_true_eq, and_iff_right_iff_imp]
    intro hl; exact List.mem_toFinset.mp (h hl)
  · exact Finset.mem_toList

noncomputable def runPlus (ord : Finset Lit → List Lit) (keys : List (String × String)) (D : Domain) (obs : List (List JointComponent)) :
    Option (MaLearner × List (String × Status) × List MacroAct) :=
  ((MaLearner.init D).learnPlus ord (enumOf keys) (enumOf ["a", "b"]) (fun _ => "u") obs).toOption

theorem runPlus_ok {ord : Finset Lit → List Lit} {keys : List (String × String)} {D : Domain} {obs : List (List JointComponent)}
    (h : (runPlus ord keys D obs).isSome = true) : ∃ r, (MaLearner.init D).learnPlus ord (enumOf keys) (enumOf ["a", "b"]) (fun _ => "u") obs = .ok r ∧
      runPlus ord keys D obs = some r := by
  unfold runPlus at h ⊢
  cases hr : (MaLearner.init D).learnPlus ord (enumOf keys) (enumOf ["a", "b"]) (fun _ => "u") obs with
  | error e => rw [hr] at h; simp [Except.toOption] at h
  | ok r => exact ⟨r, rfl, rfl⟩

def xyB : Sig := [("?u", o), ("?v", o)]
def pq : List PredDecl := [p1, ⟨"q", [("?a", o)]⟩]
def Q1 (v : String) (b : Bool := true) : Lit := ⟨"q", [v], b⟩
def univPQ (os : List String) : List Lit := os.flatMap fun v => [P v, P v false, Q1 v, Q1 v false]
def tru2' (sa : Sig) (pa ea : Finset Lit) (sb : Sig) (pb eb : Finset Lit) : String → Schema := fun n =>
  if n = "a" then ⟨sa, pa, ea⟩ else ⟨sb, pb, eb⟩

/-- Two actions with the same objects whose effects cannot be told apart. -/
def obs1 : List (List JointComponent) := [[⟨∅, [⟨"a", ["o1", "o2"]⟩, ⟨"b", ["o3", "o2"]⟩], {A "q" ["o2"]}⟩],
  [⟨∅, [⟨"a", ["o2", "o1"]⟩], {A "q" ["o1"]}⟩]]
def keys1 : List (String × String) := [("a", "?x"), ("a", "?y"), ("b", "?u"), ("b", "?v")]

/-- "a" adds `p` and `q`; "b" needs `p`. -/
def obs2 : List (List JointComponent) := [[⟨∅, [⟨"a", ["o1", "o2"]⟩], {A "p" ["o1"], A "q" ["o2"]}⟩],
  [⟨{A "p" ["o1"], A "p" ["o3"]}, [⟨"a", ["o1", "o2"]⟩, ⟨"b", ["o3", "o2"]⟩], {A "p" ["o1"], A "p" ["o3"], A "q" ["o2"]}⟩]]
def keys2 : List (String × String) := [("a", "?x"), ("a", "?y"), ("b", "?x"), ("b", "?y")]
def univ : List Lit := univPQ ["o1", "o2", "o3", "?x", "?y", "?u", "?v"]

/-- "b" adds `p` to its object, once to the first and once to the second object of "a", which needs `q` of its objects. -/
def obs3 : List (List JointComponent) :=
  [[⟨{A "p" ["o2"], A "q" ["o1", "o2"]}, [⟨"a", ["o1", "o2"]⟩, ⟨"b", ["o1"]⟩], {A "p" ["o1"], A "p" ["o2"], A "q" ["o1", "o2"]}⟩],
   [⟨{A "p" ["o1"], A "q" ["o1", "o2"]}, [⟨"a", ["o1", "o2"]⟩, ⟨"b", ["o2"]⟩], {A "p" ["o1"], A "p" ["o2"], A "q" ["o1", "o2"]}⟩]]
def univ3 : List Lit := univP ["o1", "o2", "?x", "?y", "?u"] ++ univQ ["o1", "o2", "?x", "?y", "?u"]

end PlusLimits
open PlusLimits MaLimits Limits


/-- The hypotheses can be met: two actions whose joint effect on a common object cannot be attributed to one of them give the macro
`a-b`. It is applicable in a state in which both are, and has a true effect. -/
example : let D := dom2 pq [] xy xyB
    let truth := tru2' xy ∅ {Q1 "?y"} xyB ∅ ∅
    let r := runPlus (ordOf univ) keys1 D obs1
    JointProblemOK D truth obs1 ∧ goodJointB D truth obs1 = true ∧ PlainParams D ∧
    (∀ r' ∈ r, r'.1.base.dom.names = ["a", "a-b"] ∧ r'.2.2.map (·.name) = ["a-b"] ∧ ∀ M ∈ r'.2.2, M.acts = ["a", "b"] ∧
      Sig.names M.model.sig = ["?x_0", "?vy", "?u_1"] ∧ M.model.eff = {Q1 "?vy"} ∧
      PartsInjective D M (subst ["?x_0", "?vy", "?u_1"] ["o4", "o5", "o6"]) ∧
      applicable M.model.pre (subst ["?x_0", "?vy", "?u_1"] ["o4", "o5", "o6"]) ∅ ∧
      NoConflict (jointEffects truth M.acts (partSubst M.binding (subst ["?x_0", "?vy", "?u_1"] ["o4", "o5", "o6"])))) ∧ r.isSome = true := by
  decide +kernel

/-- **C54, refuted for actions that share parameter names.** An effect of one action is dropped from the macro if the same literal, with
the same parameter names, is a precondition of another action of the group, although the parameters are different ones (the check
`effect not in action_preconditions` ignores the action): the macro predicts a wrong state. -/
theorem C54_shared_parameter_unsafe : ∃ (D : Domain) (truth : String → Schema) (obs : List (List JointComponent))
    (ord : Finset Lit → List Lit) (gord : Finset (String × String) → List (String × String)) (sortG : Finset String → List String)
    (L' : MaLearner) (rep : List (String × Status)) (M : MacroAct) (σ : String → String) (s : State),
    WFDomain D ∧ WFTruth D truth ∧ D.consts = [] ∧ GoodJointData D truth obs ∧ PlainParams D ∧ GoodOrd ord ∧
    (∀ s x, x ∈ gord s ↔ x ∈ s) ∧ (∀ s x, x ∈ sortG s ↔ x ∈ s) ∧
    (MaLearner.init D).learnPlus ord gord sortG (fun _ => "u") obs = .ok (L', rep, [M]) ∧ M.acts = ["a", "b"] ∧
    PartsInjective D M σ ∧ applicable M.model.pre σ s ∧ NoConflict (jointEffects truth M.acts (partSubst M.binding σ)) ∧
    successor M.model.eff σ s ≠ successor (jointEffects truth M.acts (partSubst M.binding σ)) id s := by
  let D := dom2 pq [] xy xy
  let truth := tru2' xy ∅ {P "?x", Q1 "?y"} xy {P "?x"} ∅
  obtain ⟨h1, h2, h3⟩ := goodJointB_sound (D := D) (truth := truth) (obs := obs2) (by decide +kernel) (by decide +kernel)
  obtain ⟨⟨L', rep, Ms⟩, hr, hrun⟩ := runPlus_ok (ord := ordOf univ) (keys := keys2) (D := D) (obs := obs2) (by decide +kernel)
  have hall : ∀ r' ∈ runPlus (ordOf univ) keys2 D obs2, ∃ M ∈ r'.2.2, r'.2.2.length = 1 ∧ M.acts = ["a", "b"] ∧
      PartsInjective D M (subst ["?x_0", "?x_1", "?yy"] ["o4", "o5", "o6"]) ∧
      applicable M.model.pre (subst ["?x_0", "?x_1", "?yy"] ["o4", "o5", "o6"]) {A "p" ["o5"]} ∧
      NoConflict (jointEffects truth M.acts (partSubst M.binding (subst ["?x_0", "?x_1", "?yy"] ["o4", "o5", "o6"]))) ∧
      successor M.model.eff (subst ["?x_0", "?x_1", "?yy"] ["o4", "o5", "o6"]) {A "p" ["o5"]} ≠
        successor (jointEffects truth M.acts (partSubst M.binding (subst ["?x_0", "?x_1", "?yy"] ["o4", "o5", "o6"]))) id {A "p" ["o5"]} := by
    decide +kernel
  obtain ⟨M, hM, e, k⟩ := hall _ hrun
  obtain ⟨M', e'⟩ := List.length_eq_one_iff.mp e
  dsimp only at e' hM
  subst e'
  rw [List.mem_singleton] at hM
  subst hM
  exact ⟨D, truth, obs2, ordOf univ, enumOf keys2, enumOf ["a", "b"], L', rep, M, _, _, h1, h2, rfl, h3, by decide +kernel, ordOf_good _,
    enumOf_good _, enumOf_good _, hr, k⟩

/-- **C54, collapsed parameters.** Two parameters of one action may be merged into one parameter of the macro; a literal with both of
them then loses an argument (it is rebuilt from a dictionary keyed by parameter), so that the macro is not even well formed. -/
theorem C54_collapsed_parameters : ∃ (D : Domain) (truth : String → Schema) (obs : List (List JointComponent))
    (ord : Finset Lit → List Lit) (gord : Finset (String × String) → List (String × String)) (sortG : Finset String → List String)
    (L' : MaLearner) (rep : List (String × Status)) (M : MacroAct),
    WFDomain D ∧ WFTruth D truth ∧ D.consts = [] ∧ GoodJointData D truth obs ∧ PlainParams D ∧ GoodOrd ord ∧
    (∀ s x, x ∈ gord s ↔ x ∈ s) ∧ (∀ s x, x ∈ sortG s ↔ x ∈ s) ∧
    (MaLearner.init D).learnPlus ord gord sortG (fun _ => "u") obs = .ok (L', rep, [M]) ∧
    ∃ l ∈ M.model.pre, ∀ pd ∈ D.preds, pd.name = l.name → l.args.length ≠ pd.sig.length := by
  let D := dom2 [p1, q2] [] xy [("?u", o)]
  let truth := tru2' xy {Q "?x" "?y"} ∅ [("?u", o)] ∅ {P "?u"}
  obtain ⟨h1, h2, h3⟩ := goodJointB_sound (D := D) (truth := truth) (obs := obs3) (by decide +kernel) (by decide +kernel)
  obtain ⟨⟨L', rep, Ms⟩, hr, hrun⟩ := runPlus_ok (ord := ordOf univ3) (keys := [("a", "?x"), ("a", "?y"), ("b", "?u")]) (D := D) (obs := obs3)
    (by decide +kernel)
  have hall : ∀ r' ∈ runPlus (ordOf univ3) [("a", "?x"), ("a", "?y"), ("b", "?u")] D obs3, ∃ M ∈ r'.2.2, r'.2.2.length = 1 ∧
      ∃ l ∈ M.model.pre, ∀ pd ∈ D.preds, pd.name = l.name → l.args.length ≠ pd.sig.length := by
    decide +kernel
  obtain ⟨M, hM, e, k⟩ := hall _ hrun
  obtain ⟨M', e'⟩ := List.length_eq_one_iff.mp e
  dsimp only at e' hM
  subst e'
  rw [List.mem_singleton] at hM
  subst hM
  exact ⟨D, truth, obs3, ordOf univ3, enumOf _, enumOf ["a", "b"], L', rep, M, h1, h2, rfl, h3, by decide +kernel, ordOf_good _,
    enumOf_good _, enumOf_good _, hr, k⟩

end Props

import Verif.Lemmas.MaSamLearn
import Verif.Lemmas.CheckMa
import Verif.Spec.CnfOps
import Verif.Props.SamLimits

/-! C21, C22: the CNF of joint effects and MA-SAM. -/
namespace Props
open Model Spec

section
variable {T : String → Lit → Prop}

theorem runCnf_append (ops : List CnfOp) (op : CnfOp) : runCnf (ops ++ [op]) = CnfOp.apply (runCnf ops) op := by
  simp [runCnf, CnfOp.apply]

/-- **C21, non-effects.** The recorded non-effects are exactly the reported ones. -/
theorem C21_not_effects_exact (ops : List CnfOp) (a : String) (l : Lit) :
    l ∈ (runCnf ops).notEff a ↔ CnfOp.notEffect a l ∈ ops := by
  induction ops using List.reverseRecOn with
  | nil => simp [runCnf, Cnf.empty]
  | append_singleton ops op ih =>
    rw [runCnf_append]
    cases op with
    | notEffect b m =>
      simp only [CnfOp.apply, mem_addNotEffect_notEff, ih, List.mem_append, List.mem_singleton, CnfOp.notEffect.injEq]
      tauto
    | possible j => simp [CnfOp.apply, addPossible_notEff, ih]

/-- **C21, clauses.** After any history of truthful reports about clauses without repetition, the stored
clauses are exactly the reported ones, each without the pairs reported not to be effects (before or
after the clause was reported); each still contains a true pair. -/
theorem C21_clauses_exact (ops : List CnfOp) (ht : ∀ op ∈ ops, op.Truthful T) (hs : ∀ op ∈ ops, op.Simple) :
    (∀ c, c ∈ (runCnf ops).clauses ↔
      ∃ j, CnfOp.possible j ∈ ops ∧ c = j.filter fun p => p.2 ∉ (runCnf ops).notEff p.1) ∧
    (∀ c ∈ (runCnf ops).clauses, ∃ p ∈ c, T p.1 p.2) := by
  have hne : ∀ a l, l ∈ (runCnf ops).notEff a → ¬ T a l := by
    intro a l h; rw [C21_not_effects_exact] at h; exact ht _ h
  suffices key : ∀ c, c ∈ (runCnf ops).clauses ↔
      ∃ j, CnfOp.possible j ∈ ops ∧ c = j.filter fun p => p.2 ∉ (runCnf ops).notEff p.1 by
    refine ⟨key, fun c hc => ?_⟩
    obtain ⟨j, hj, rfl⟩ := (key c).mp hc
    obtain ⟨p, hp, hT⟩ := ht _ hj
    exact ⟨p, List.mem_filter.mpr ⟨hp, decide_eq_true fun k => hne _ _ k hT⟩, hT⟩
  induction ops using List.reverseRecOn with
  | nil => simp [runCnf, Cnf.empty]
  | append_singleton ops op ih =>
    have ih := ih (fun o ho => ht o (by simp [ho])) (fun o ho => hs o (by simp [ho]))
      (fun a l h => by rw [C21_not_effects_exact] at h; exact ht (.notEffect a l) (by simp [h]))
    intro c
    rw [runCnf_append] at hne ⊢
    cases op with
    | notEffect a l =>
      have hfil : ∀ j : List (String × Lit), j.Nodup →
          (j.filter fun p => p.2 ∉ (runCnf ops).notEff p.1).erase (a, l) =
          j.filter fun p => p.2 ∉ ((runCnf ops).addNotEffect a l).notEff p.1 := by
        intro j hj
        rw [(hj.filter _).erase_eq_filter, List.filter_filter]
        apply List.filter_congr
        rintro ⟨b, m⟩ _
        simp only [mem_addNotEffect_notEff, not_or, not_and, CnfOp.apply]
        by_cases h : b = a ∧ m = l
        · obtain ⟨rfl, rfl⟩ := h; simp
        · have : (b, m) ≠ (a, l) := by simpa [Prod.ext_iff] using h
          by_cases h2 : m ∈ (runCnf ops).notEff b
          · simp [h2]
          · have h3 : b = a → ¬ m = l := fun e1 e2 => h ⟨e1, e2⟩
            rw [Bool.eq_iff_iff]
            simp only [Bool.and_eq_true, decide_eq_true_eq, bne_iff_ne]
            exact ⟨fun k => ⟨h3, h2⟩, fun k => ⟨this, h2⟩⟩
      have hmem : ∀ j : List (String × Lit), (a, l) ∉ (j.filter fun p => p.2 ∉ (runCnf ops).notEff p.1) →
          (j.filter fun p => p.2 ∉ (runCnf ops).notEff p.1) =
          j.filter fun p => p.2 ∉ ((runCnf ops).addNotEffect a l).notEff p.1 := by
        intro j hj
        apply List.filter_congr
        rintro ⟨b, m⟩ hbm
        simp only [mem_addNotEffect_notEff, not_or, not_and]
        by_cases h2 : m ∈ (runCnf ops).notEff b
        · simp [h2]
        · have h3 : b = a → ¬ m = l := by
            rintro rfl rfl
            exact hj (List.mem_filter.mpr ⟨hbm, by simpa using h2⟩)
          simp only [h2, not_false_eq_true, decide_true]
          symm; rw [decide_eq_true_eq]; exact ⟨h3, trivial⟩
      simp only [CnfOp.apply, mem_addNotEffect, List.mem_append, List.mem_singleton, reduceCtorEq, or_false]
      constructor
      · rintro ⟨d, hd, (⟨h1, rfl⟩ | ⟨h1, rfl, h3⟩)⟩
        · obtain ⟨j, hj, rfl⟩ := (ih c).mp hd
          exact ⟨j, hj, hmem j h1⟩
        · obtain ⟨j, hj, rfl⟩ := (ih d).mp hd
          exact ⟨j, hj, hfil j (hs (.possible j) (by simp [hj]))⟩
      · rintro ⟨j, hj, rfl⟩
        refine ⟨_, (ih _).mpr ⟨j, hj, rfl⟩, ?_⟩
        by_cases h : (a, l) ∈ (j.filter fun p => p.2 ∉ (runCnf ops).notEff p.1)
        · refine Or.inr ⟨h, (hfil j (hs (.possible j) (by simp [hj]))).symm, ?_⟩
          obtain ⟨p, hp, hT⟩ := ht (.possible j) (by simp [hj])
          exact List.ne_nil_of_mem (List.mem_filter.mpr ⟨hp, decide_eq_true fun k => hne _ _ k hT⟩)
        · exact Or.inl ⟨h, (hmem j h).symm⟩
    | possible j =>
      simp only [CnfOp.apply, mem_addPossible, addPossible_notEff, List.mem_append, List.mem_singleton, CnfOp.possible.injEq]
      rw [ih]
      constructor
      · rintro (⟨j', h1, h2⟩ | h)
        · exact ⟨j', Or.inl h1, h2⟩
        · exact ⟨j, Or.inr rfl, h⟩
      · rintro ⟨j', h1 | rfl, h2⟩
        · exact Or.inl ⟨j', h1, h2⟩
        · exact Or.inr h2

/-- **C21, extraction.** Every effect extracted for an action is a true one. -/
theorem C21_extracted_effects_true (ops : List CnfOp) (ht : ∀ op ∈ ops, op.Truthful T) (hs : ∀ op ∈ ops, op.Simple)
    {a : String} {pre : Finset Lit} {l : Lit} (h : l ∈ (runCnf ops).extractEffects a pre) : T a l ∧ l ∉ pre := by
  rw [mem_extractEffects'] at h
  obtain ⟨p, hp, hT⟩ := (C21_clauses_exact ops ht hs).2 _ h.1
  rw [List.mem_singleton.mp hp] at hT
  exact ⟨hT, h.2⟩

/-- **C21, safety check.** If the action is declared safe with preconditions `pre`, then for each reported
clause, either what is left of it contains an extractable effect of the action, or every pair of the
action left in it is already in `pre` (so the clause says nothing about when the action is applicable). -/
theorem C21_safe_action_decided (ops : List CnfOp) (ht : ∀ op ∈ ops, op.Truthful T) (hs : ∀ op ∈ ops, op.Simple)
    {a : String} {pre : Finset Lit} (h : (runCnf ops).isActionSafe a pre = true) {j : List (String × Lit)}
    (hj : CnfOp.possible j ∈ ops) :
    (∃ l, (a, l) ∈ j ∧ CnfOp.notEffect a l ∉ ops ∧ T a l ∧ (l ∈ pre ∨ l ∈ (runCnf ops).extractEffects a pre)) ∨
    (∀ l, (a, l) ∈ j → CnfOp.notEffect a l ∉ ops → l ∈ pre) := by
  rw [isActionSafe_iff] at h
  obtain ⟨h1, h2⟩ := C21_clauses_exact ops ht hs
  have hc := (h1 _).mpr ⟨j, hj, rfl⟩
  have hunit : ∀ l, [(a, l)] ∈ (runCnf ops).clauses → T a l ∧ (l ∈ pre ∨ l ∈ (runCnf ops).extractEffects a pre) := by
    intro l hl
    obtain ⟨p, hp, hT⟩ := h2 _ hl
    rw [List.mem_singleton.mp hp] at hT
    refine ⟨hT, ?_⟩
    by_cases hp : l ∈ pre
    · exact Or.inl hp
    · exact Or.inr (mem_extractEffects'.mpr ⟨hl, hp⟩)
  have hmem : ∀ l, (a, l) ∈ (j.filter fun p => p.2 ∉ (runCnf ops).notEff p.1) ↔ (a, l) ∈ j ∧ CnfOp.notEffect a l ∉ ops := by
    intro l
    rw [List.mem_filter, decide_eq_true_eq, C21_not_effects_exact]
  by_cases ha : a ∈ (j.filter fun p => p.2 ∉ (runCnf ops).notEff p.1).map Prod.fst
  · by_cases hl : (j.filter fun p => p.2 ∉ (runCnf ops).notEff p.1).length = 1
    · obtain ⟨p, hp⟩ := List.length_eq_one_iff.mp hl
      rw [hp] at ha hc
      obtain ⟨b, l⟩ := p
      simp only [List.map_cons, List.map_nil, List.mem_singleton] at ha
      subst ha
      obtain ⟨k1, k2⟩ := (hmem l).mp (by rw [hp]; simp)
      exact Or.inl ⟨l, k1, k2, hunit l hc⟩
    · rcases h _ hc ha hl with ⟨l, k1, k2⟩ | k
      · obtain ⟨m1, m2⟩ := (hmem l).mp k2
        exact Or.inl ⟨l, m1, m2, hunit l k1⟩
      · exact Or.inr fun l m1 m2 => k l ((hmem l).mpr ⟨m1, m2⟩)
  · refine Or.inr fun l m1 m2 => absurd (List.mem_map.mpr ⟨_, (hmem l).mpr ⟨m1, m2⟩, rfl⟩) ha

end

/-- A truthful, simple history exists that uses both operations in both orders and decides an effect. -/
example : let T := fun (a : String) (l : Lit) => a = "a" ∧ l = Limits.P "?x"
    let ops := [CnfOp.possible [("a", Limits.P "?x"), ("b", Limits.P "?y")], .notEffect "b" (Limits.P "?y"),
      .possible [("b", Limits.P "?y"), ("a", Limits.P "?x")]]
    (∀ op ∈ ops, op.Truthful T) ∧ (∀ op ∈ ops, op.Simple) ∧ (runCnf ops).clauses = [[("a", Limits.P "?x")]] ∧
    (runCnf ops).isActionSafe "a" ∅ = true ∧ (runCnf ops).extractEffects "a" ∅ = [Limits.P "?x"] := by
  refine ⟨?_, ?_, by decide, by decide, by decide⟩
  · simp [CnfOp.Truthful]
  · simp [CnfOp.Simple, Limits.P]

/-- **C21, limit.** A clause that names a pair twice (two agents performing the same action with the same
effect) keeps one copy of a pair that was reported not to be an effect. -/
theorem C21_repeated_pair_survives : ∃ ops : List CnfOp, ∃ a l, CnfOp.notEffect a l ∈ ops ∧
    ∃ c ∈ (runCnf ops).clauses, (a, l) ∈ c :=
  ⟨[.possible [("a", Limits.P "?x"), ("a", Limits.P "?x"), ("b", Limits.P "?y")], .notEffect "a" (Limits.P "?x")],
    "a", Limits.P "?x", by simp, [("a", Limits.P "?x"), ("b", Limits.P "?y")], by decide, by decide⟩

/-! ### MA-SAM -/

section
variable {D : Domain} {truth : String → Schema} {obs : List (List JointComponent)} {L' : MaLearner}
  {rep : List (String × Status)} {ord : Finset Lit → List Lit}

theorem ma_final (ho : GoodOrd ord) (hD : WFDomain D) (hT : WFTruth D truth) (hc : D.consts = [])
    (hG : GoodJointData D truth obs)
    (h : (MaLearner.init D .noRemove).learn ord obs = .ok (L', rep)) : MaFinal D truth L' := by
  unfold MaLearner.learn at h
  simp only [Bind.bind, Except.bind] at h
  split at h
  · simp at h
  · rename_i L1 hL1
    simp only [Except.ok.injEq, Prod.mk.injEq] at h
    obtain ⟨i1, i2⟩ := (MaInv.init (truth := truth) hD).components ho hc hD hT _ _ _
      hG.explained hG.distinct hG.covered hL1
    have hf := i1.final hD hT i2
    have hpol : L1.constructSafe.base.policy = .noRemove := hf.policy
    obtain ⟨rfl, -⟩ := h
    have : L1.constructSafe.base.applyPolicy = L1.constructSafe.base := by
      unfold Learner.applyPolicy; rw [hpol]; rfl
    rw [this]
    exact hf

/-- **C22 (partial).** On good data (see `GoodJointData`: distinct actions per joint action, the last call
covers the visible effects) and a domain without constants, every action MA-SAM returns is safe: where it
is applicable the true action is, and both lead to the same state. Missing: joint actions that repeat an
action name, joint actions whose effects are not covered by the last call and domains with constants -
for which `C22_uncovered_unsafe`, `C22_repeated_action_unsafe` and `C22_constants_unsafe` refute the claim. -/
theorem C22_returned_actions_safe_partial (ho : GoodOrd ord) (hD : WFDomain D) (hT : WFTruth D truth) (hc : D.consts = [])
    (hG : GoodJointData D truth obs)
    (h : (MaLearner.init D .noRemove).learn ord obs = .ok (L', rep)) {a : String} (ha : a ∈ L'.base.dom.names)
    (ρ : String → String) (s : State) (happ : applicable (L'.base.dom.act a).pre ρ s) :
    applicable (truth a).pre ρ s ∧
    (Spec.Injective D.consts (D.act a).sig ρ →
      successor (L'.base.dom.act a).eff ρ s = successor (truth a).eff ρ s) := by
  have hF := ma_final ho hD hT hc hG h
  have haD := hF.names a ha
  have hp := hT.params a haD
  have hwf := hT.wf a haD
  by_cases hob : a ∈ L'.base.observed
  · refine ⟨fun l hl => happ l (hF.preComplete a hob hl), fun hinj => ?_⟩
    apply successor_eq (S := fun x => x ∈ Sig.names ((D.act a).sig ++ D.consts))
      (fun x y hx hy => hinj x hx y hy) (fun l hl x hx => by rw [← hp]; exact typed_sub (hwf.eff l hl) x hx)
      hwf.consistent (hF.effSound a haD)
    intro e he hne
    exact happ e ((hF.effComplete a ha hob e he).resolve_right hne)
  · have hun := hF.unobs a haD hob
    have hno : ∀ l, ¬ TypedLit D.preds ((D.act a).sig ++ D.consts) l := by
      intro l hl
      have h1 := happ l (hun ((liftedVocab_typed (hD.sigs a haD)).mpr hl))
      have h2 := happ l.neg (hun ((liftedVocab_typed (hD.sigs a haD)).mpr (typed_neg.mpr hl)))
      rw [ground_neg] at h2
      exact holds_neg.mp h2 h1
    have e1 : (truth a).pre = ∅ := Finset.eq_empty_of_forall_notMem fun l hl => hno l (hp ▸ hwf.pre l hl)
    have e2 : (truth a).eff = ∅ := Finset.eq_empty_of_forall_notMem fun l hl => hno l (hp ▸ hwf.eff l hl)
    have e3 : (L'.base.dom.act a).eff = ∅ := Finset.subset_empty.mp (e2 ▸ hF.effSound a haD)
    exact ⟨by rw [e1]; intro l hl; simp at hl, fun _ => by rw [e2, e3]⟩

/-- **C22, single agent.** If every joint action has exactly one operating agent, MA-SAM is safe on any
real data of a domain without constants. -/
theorem C22_single_agent_safe_partial (ho : GoodOrd ord) (hD : WFDomain D) (hT : WFTruth D truth) (hc : D.consts = [])
    (hreal : ∀ c ∈ obs.flatten, JointExplained truth c) (hone : ∀ c ∈ obs.flatten, c.calls.length = 1)
    (h : (MaLearner.init D .noRemove).learn ord obs = .ok (L', rep)) {a : String} (ha : a ∈ L'.base.dom.names)
    (ρ : String → String) (s : State) (happ : applicable (L'.base.dom.act a).pre ρ s) :
    applicable (truth a).pre ρ s ∧
    (Spec.Injective D.consts (D.act a).sig ρ →
      successor (L'.base.dom.act a).eff ρ s = successor (truth a).eff ρ s) := by
  refine C22_returned_actions_safe_partial ho hD hT hc ⟨fun c hc _ => hreal c hc, fun c hc _ => ?_, fun c hc _ hl => ?_⟩ h ha ρ s happ
  · obtain ⟨k, hk⟩ := List.length_eq_one_iff.mp (hone c hc)
    simp [DistinctActions, hk]
  · exact absurd (hone c hc) hl

/-- **C22, no spurious effects.** Even an action that is not returned never gets an effect the true
action does not have. -/
theorem C22_no_spurious_effects_partial (ho : GoodOrd ord) (hD : WFDomain D) (hT : WFTruth D truth) (hc : D.consts = [])
    (hG : GoodJointData D truth obs)
    (h : (MaLearner.init D .noRemove).learn ord obs = .ok (L', rep)) {a : String} (ha : a ∈ D.names) {e : Lit}
    (he : e ∈ (L'.base.dom.act a).eff) : e ∈ (truth a).eff :=
  (ma_final ho hD hT hc hG h).effSound a ha he

end

/-! ### What does not hold -/

namespace MaLimits

/-- Two actions with given signatures. -/
def dom2 (preds : List PredDecl) (consts sa sb : Sig) : Domain :=
  ⟨preds, consts, ["a", "b"], fun n => if n = "a" then .fresh sa else .fresh sb⟩
def tru2 (sa : Sig) (ea : Finset Lit) (sb : Sig) (eb : Finset Lit) : String → Schema := fun n =>
  if n = "a" then ⟨sa, ∅, ea⟩ else ⟨sb, ∅, eb⟩
def x1 : Sig := [("?x", Limits.o)]
def xy : Sig := [("?x", Limits.o), ("?y", Limits.o)]
/-- Both signs of the atoms `p o` for some objects. -/
def univP (os : List String) : List Lit := os.flatMap fun v => [Limits.P v, Limits.P v false]
def univQ (os : List String) : List Lit :=
  os.flatMap fun v => os.flatMap fun w => [Limits.Q v w, Limits.Q v w false]

end MaLimits
open MaLimits Limits

/-- **C22, refuted when the last executed action does not cover the effects.** The snapshot used for the
effects of a joint action only covers the objects of its last action. A real joint transition in which
"a" adds `(p o1)` while "b" is executed on another object teaches that "a" has no effect; "a" is declared safe. -/
theorem C22_uncovered_unsafe : ∃ (D : Domain) (truth : String → Schema) (obs : List (List JointComponent))
    (ord : Finset Lit → List Lit) (L' : MaLearner) (rep : List (String × Status)) (ρ : String → String) (s : State),
    JointProblemOK D truth obs ∧ D.consts = [] ∧ (∀ c ∈ obs.flatten, DistinctActions c) ∧ GoodOrd ord ∧
    (MaLearner.init D).learn ord obs = .ok (L', rep) ∧ "a" ∈ L'.base.dom.names ∧
    Spec.Injective D.consts (D.act "a").sig ρ ∧ applicable (L'.base.dom.act "a").pre ρ s ∧
    successor (L'.base.dom.act "a").eff ρ s ≠ successor (truth "a").eff ρ s := by
  let D := dom2 [p1] [] x1 x1
  let obs : List (List JointComponent) := [[⟨∅, [⟨"a", ["o1"]⟩, ⟨"b", ["o2"]⟩], {A "p" ["o1"]}⟩]]
  let ord := ordOf (univP ["o1", "o2"])
  obtain ⟨rep, hr⟩ := runMa_eq (ord := ord) (L := MaLearner.init D) (obs := obs) (by decide +kernel)
  refine ⟨D, tru2 x1 {P "?x"} x1 ∅, obs, ord, _, rep, subst ["?x"] ["o1"], ∅, by decide +kernel, rfl, ?_, ordOf_good _, hr,
    by decide +kernel, ?_, by decide +kernel, by decide +kernel⟩
  · simp [obs, DistinctActions]
  · intro x hx y hy
    have hx' : x = "?x" := by simpa [D, dom2, x1, Sig.names, ActModel.fresh] using hx
    have hy' : y = "?x" := by simpa [D, dom2, x1, Sig.names, ActModel.fresh] using hy
    rw [hx', hy']; exact fun _ => rfl

/-- **C22, refuted when two agents execute the same action.** A clause may then hold two different
literals of one action, and the safety check accepts it as soon as one of them is certain: the other
effect is lost. -/
theorem C22_repeated_action_unsafe : ∃ (D : Domain) (truth : String → Schema) (obs : List (List JointComponent))
    (ord : Finset Lit → List Lit) (L' : MaLearner) (rep : List (String × Status)) (ρ : String → String) (s : State),
    JointProblemOK D truth obs ∧ D.consts = [] ∧ GoodOrd ord ∧
    (MaLearner.init D).learn ord obs = .ok (L', rep) ∧ "act" ∈ L'.base.dom.names ∧
    Spec.Injective D.consts (D.act "act").sig ρ ∧ applicable (L'.base.dom.act "act").pre ρ s ∧
    successor (L'.base.dom.act "act").eff ρ s ≠ successor (truth "act").eff ρ s := by
  let D := dom [p1] [] xy
  let obs : List (List JointComponent) := [[⟨{A "p" ["o1"]}, [⟨"act", ["o1", "o2"]⟩], {A "p" ["o1"], A "p" ["o2"]}⟩],
    [⟨{A "p" ["o3"]}, [⟨"act", ["o3", "o1"]⟩, ⟨"act", ["o1", "o2"]⟩], {A "p" ["o1"], A "p" ["o2"], A "p" ["o3"]}⟩]]
  let ord := ordOf (univP ["o1", "o2", "o3"])
  obtain ⟨rep, hr⟩ := runMa_eq (ord := ord) (L := MaLearner.init D) (obs := obs) (by decide +kernel)
  refine ⟨D, tru xy ∅ {P "?x", P "?y"}, obs, ord, _, rep, subst ["?x", "?y"] ["o1", "o2"], ∅, by decide +kernel, rfl,
    ordOf_good _, hr, by decide +kernel, ?_, by decide +kernel, by decide +kernel⟩
  intro x hx y hy
  have hx' : x = "?x" ∨ x = "?y" := by simpa [D, dom, xy, Sig.names, ActModel.fresh] using hx
  have hy' : y = "?x" ∨ y = "?y" := by simpa [D, dom, xy, Sig.names, ActModel.fresh] using hy
  rcases hx' with rfl | rfl <;> rcases hy' with rfl | rfl <;> decide

/-- **C22, refuted with two constants, even for one agent.** `compute_interacting_actions` appends the
constants to the parameters of the observed call; the matcher then pairs the wrong constants, so that
"`(q c2 c1)` is not an effect" is recorded as "`(q c1 c2)` is not an effect" and a true effect is forgotten. -/
theorem C22_constants_unsafe : ∃ (D : Domain) (truth : String → Schema) (obs : List (List JointComponent))
    (ord : Finset Lit → List Lit) (L' : MaLearner) (rep : List (String × Status)) (ρ : String → String) (s : State),
    JointProblemOK D truth obs ∧ (∀ c ∈ obs.flatten, c.calls.length = 1) ∧
    (∀ c ∈ obs.flatten, ∀ k ∈ c.calls, ∀ v ∈ k.params, v ∉ Sig.names D.consts) ∧ GoodOrd ord ∧
    (MaLearner.init D).learn ord obs = .ok (L', rep) ∧ "act" ∈ L'.base.dom.names ∧
    Spec.Injective D.consts (D.act "act").sig ρ ∧ applicable (L'.base.dom.act "act").pre ρ s ∧
    successor (L'.base.dom.act "act").eff ρ s ≠ successor (truth "act").eff ρ s := by
  let D := dom [q2] [("c1", o), ("c2", o)] []
  let obs : List (List JointComponent) := [[⟨∅, [⟨"act", []⟩], {A "q" ["c1", "c2"]}⟩]]
  let ord := ordOf (univQ ["c1", "c2"])
  obtain ⟨rep, hr⟩ := runMa_eq (ord := ord) (L := MaLearner.init D) (obs := obs) (by decide +kernel)
  refine ⟨D, tru [] ∅ {Q "c1" "c2"}, obs, ord, _, rep, subst [] [], ∅, by decide +kernel, by decide, by decide,
    ordOf_good _, hr, by decide +kernel, ?_, by decide +kernel, by decide +kernel⟩
  intro x hx y hy
  exact fun e => e

/-- **C22, crash with two constants.** A real joint action of two agents with an effect on the second
constant raises an `AttributeError`. -/
theorem C22_constants_crash : ∃ (D : Domain) (truth : String → Schema) (obs : List (List JointComponent))
    (ord : Finset Lit → List Lit), JointProblemOK D truth obs ∧ GoodOrd ord ∧
    (MaLearner.init D).learn ord obs = .error .attributeError := by
  let D := dom2 [p1] [("c1", o), ("c2", o)] [] x1
  let obs : List (List JointComponent) := [[⟨∅, [⟨"b", ["o1"]⟩, ⟨"a", []⟩], {A "p" ["c2"]}⟩]]
  refine ⟨D, tru2 [] {P "c2"} x1 ∅, obs, ordOf (univP ["o1", "c1", "c2"]), by decide +kernel, ordOf_good _,
    maErr_eq (by decide +kernel)⟩

/-- The hypotheses of the positive theorem can be met by joint actions of different agents: both
calls mention the objects of the effects. The learned "a" is safe, has an effect and is applicable. -/
example : let D := dom2 [p1] [] xy xy
    let truth := tru2 xy {P "?x"} xy {P "?y"}
    let obs : List (List JointComponent) := [[⟨∅, [⟨"a", ["o1", "o2"]⟩], {A "p" ["o1"]}⟩],
      [⟨∅, [⟨"a", ["o1", "o2"]⟩, ⟨"b", ["o1", "o2"]⟩], {A "p" ["o1"], A "p" ["o2"]}⟩],
      [⟨∅, [⟨"b", ["o1", "o2"]⟩], {A "p" ["o2"]}⟩]]
    let L' := runMa (ordOf (univP ["o1", "o2"])) (MaLearner.init D) obs
    JointProblemOK D truth obs ∧ maOk (ordOf (univP ["o1", "o2"])) (MaLearner.init D) obs = true ∧ D.consts = [] ∧
    GoodJointData D truth obs ∧ L'.base.dom.names = ["a", "b"] ∧ P "?x" ∈ (L'.base.dom.act "a").eff ∧
    P "?y" ∈ (L'.base.dom.act "b").eff ∧
    applicable (L'.base.dom.act "a").pre (subst ["?x", "?y"] ["o3", "o4"]) ∅ := by
  intro D truth obs L'
  have hok : JointProblemOK D truth obs := by decide +kernel
  refine ⟨hok, by decide +kernel, rfl, ⟨fun c hc _ => hok.sound.2.2 c hc, ?_, ?_⟩, by decide +kernel, by decide +kernel,
    by decide +kernel, by decide +kernel⟩
  · intro c hc _
    simp only [obs, List.flatten_cons, List.flatten_nil, List.cons_append, List.nil_append,
      List.mem_cons, List.not_mem_nil, or_false] at hc
    rcases hc with rfl | rfl | rfl <;> simp [DistinctActions]
  · intro c hc _ hl
    simp only [obs, List.flatten_cons, List.flatten_nil, List.cons_append, List.nil_append,
      List.mem_cons, List.not_mem_nil, or_false] at hc
    rcases hc with rfl | rfl | rfl
    rotate_left 2
    · simp at hl
    · simp at hl
    · intro last hlast k hk e he _
      simp only [List.getLast?_cons_cons, List.getLast?_singleton, Option.some.injEq] at hlast
      subst hlast
      have : ∀ k ∈ [(⟨"a", ["o1", "o2"]⟩ : Call), ⟨"b", ["o1", "o2"]⟩], ∀ e ∈ (truth k.name).eff,
          typedLitB D.preds ((["o1", "o2"].zip ((truth "b").params.map Prod.snd)) ++ D.consts) (ground (callSubst truth k) e) = true := by
        decide +kernel
      exact typedLitB_sound (this k hk e he)

end Props

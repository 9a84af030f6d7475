import Verif.Lemmas.CondSam

/-! Closed form of the state of `ConditionalSAM` after any list of components. -/
namespace Model
open Spec

/-- The candidate `A` of the result `l` survives the transition. -/
def Surv (D : Domain) (c : Component) (l : Lit) (A : Finset Lit) : Prop :=
  (l.neg ∈ obsNext D c → ¬ A ⊆ obsPrev D c) ∧ (l ∈ obsEff D c → ∀ x ∈ A, x.neg ∉ obsPrev D c)

instance (D c l A) : Decidable (Surv D c l A) := by unfold Surv; infer_instance

/-- The transitions of one action. -/
def of (hs : List Component) (a : String) : List Component := hs.filter fun c => c.call.name = a

theorem mem_of {hs : List Component} {a : String} {c : Component} : c ∈ of hs a ↔ c ∈ hs ∧ c.call.name = a := by
  simp [of]

theorem liftedEffects_eq (D : Domain) (c : Component) :
    liftedEffects D c.call (tripletSnapshot D c).1 (tripletSnapshot D c).2 = obsEff D c := by
  unfold liftedEffects obsEff actionEffects liftCall
  exact possibleMatches_union

theorem neg_image {S : Finset Lit} {l : Lit} : l ∈ S.image Lit.neg ↔ l.neg ∈ S := by
  rw [Finset.mem_image]
  exact ⟨fun ⟨x, hx, e⟩ => by rw [← e]; simpa using hx, fun h => ⟨l.neg, h, by simp⟩⟩

section
variable {ord : LitOrd} (ho : EnumNodup ord)
include ho

/-- What the two removal rules do to the candidates. -/
theorem rules_spec {d : DepSet} (hd : d.OK) (D : Domain) (c : Component) :
    let p := (tripletSnapshot D c).1
    let n := (tripletSnapshot D c).2
    let d' := removeNonExisting ord D c.call p n (removeExisting ord D c.call p n d)
    d'.OK ∧ d'.maxAnte = d.maxAnte ∧ d'.possible.map Prod.fst = d.possible.map Prod.fst ∧
    ∀ l, d'.possible.lookup l = (d.possible.lookup l).map fun cs => cs.filter fun A => Surv D c l A := by
  intro p n d'
  have hp : liftCall D c.call p = obsPrev D c := rfl
  have hn : liftCall D c.call n = obsNext D c := rfl
  have he : liftedEffects D c.call p n = obsEff D c := liftedEffects_eq D c
  obtain ⟨a1, a2, a3, a4⟩ := removes_spec ho (ord ((obsNext D c).image Lit.neg)) (obsPrev D c) false d hd
  have e1 : removeExisting ord D c.call p n d =
      (ord ((obsNext D c).image Lit.neg)).foldl (fun d l => d.remove ord l (obsPrev D c) false) d := by
    simp only [removeExisting, findLiterals, hp, hn, Bool.false_eq_true, if_false, if_true]
  rw [← e1] at a1 a2 a3 a4
  obtain ⟨b1, b2, b3, b4⟩ := removes_spec ho (ord (obsEff D c)) ((obsPrev D c).image Lit.neg) true _ a1
  have e2 : d' = (ord (obsEff D c)).foldl (fun d l => d.remove ord l ((obsPrev D c).image Lit.neg) true)
      (removeExisting ord D c.call p n d) := by
    simp only [d', removeNonExisting, findLiterals, hp, he, Bool.false_eq_true, if_false]
  rw [← e2] at b1 b2 b3 b4
  refine ⟨b1, b2.trans a2, b3.trans a3, fun l => ?_⟩
  rw [b4, a4, Option.map_map]
  congr 1
  funext cs
  simp only [Function.comp, ho.mem, neg_image, Bool.false_eq_true, if_false, if_true]
  by_cases h1 : l.neg ∈ obsNext D c <;> by_cases h2 : l ∈ obsEff D c <;>
    simp [h1, h2, Surv, List.filter_filter, and_comm]
  all_goals (first | rfl | (congr 1; funext A; rw [Bool.and_comm]))

end

/-- The state of the learner after the components `hs`, started from a fresh learner whose domain
has the predicates, constants and signatures of `D`. -/
structure CondInv (ord : LitOrd) (D : Domain) (ineq : String → Finset (String × String)) (maxAnte : Nat)
    (hs : List Component) (K : CondLearner) : Prop where
  static : SameStatic D K.base.dom
  max : K.maxAnte = maxAnte
  cannotBe : K.base.cannotBe = fun _ => ∅
  safe : K.base.safe = []
  conds : K.conds = fun _ => []
  condEffs : K.condEffs = fun _ => []
  observed : ∀ a, a ∈ K.base.observed ↔ ∃ c ∈ hs, c.call.name = a
  obsNodup : K.base.observed.Nodup
  obsNames : ∀ a ∈ K.base.observed, a ∈ D.names
  pre : ∀ a ∈ K.base.observed, ∀ l, l ∈ (K.base.dom.act a).pre ↔ ∀ c ∈ of hs a, l ∈ obsPrev D c
  fresh : ∀ a ∈ D.names, a ∉ K.base.observed → (K.base.dom.act a).pre = ∅
  eff : ∀ a ∈ D.names, (K.base.dom.act a).eff = ∅
  ineq : ∀ a, (K.base.dom.act a).ineq = ineq a
  obsEff : ∀ a l, l ∈ K.obsEff a ↔ ∃ c ∈ of hs a, l ∈ obsEff D c
  deps : ∀ a ∈ K.base.observed, ∃ d, K.deps a = some d ∧ d.OK ∧ d.maxAnte = maxAnte ∧
    (d.possible.map Prod.fst).Nodup ∧
    ∀ l, d.possible.lookup l = if l ∈ liftedVocab D (D.act a).sig then
      some ((createCnf ord (liftedVocab D (D.act a).sig) maxAnte).filter fun A => ∀ c ∈ of hs a, Surv D c l A)
      else none

theorem initialize_keys_nodup (ord : LitOrd) (n : Nat) (lifted : Finset Lit) :
    (((DepSet.new n).initialize ord lifted).possible.map Prod.fst).Nodup := by
  have := Py.keys_foldl_nodup ((ord lifted).map fun l => (l, createCnf ord lifted n)) [] (by simp)
  rw [List.foldl_map] at this
  exact this

section
variable {ord : LitOrd} (ho : EnumNodup ord)
variable {D : Domain} {iq : String → Finset (String × String)} {n : Nat} {hs : List Component} {K K' : CondLearner}
include ho

omit ho in
theorem of_append_same (hs : List Component) (c : Component) : of (hs ++ [c]) c.call.name = of hs c.call.name ++ [c] := by
  simp [of]

omit ho in
theorem of_append_ne (hs : List Component) (c : Component) {a : String} (h : a ≠ c.call.name) : of (hs ++ [c]) a = of hs a := by
  simp [of, Ne.symm h]

omit ho in
theorem liftedEffects_static {D D' : Domain} (h : SameStatic D D') (call : Call) (S T : Finset Lit) :
    liftedEffects D' call S T = liftedEffects D call S T := by
  unfold liftedEffects; rw [liftCall_static h]

omit ho in
theorem findLiterals_static {D D' : Domain} (h : SameStatic D D') (call : Call) (S : Finset Lit) (b : Bool) :
    findLiterals D' call S b = findLiterals D call S b := by
  unfold findLiterals; rw [liftCall_static h]

/-- `applyRules` at the current action. -/
theorem applyRules_eq (hst : SameStatic D K.base.dom) {d : DepSet} (hd : K.deps c.call.name = some d) (hok : d.OK) :
    ∃ d', K.applyRules ord c.call (tripletSnapshot D c).1 (tripletSnapshot D c).2 = .ok { K with
        obsEff := Function.update K.obsEff c.call.name (K.obsEff c.call.name ∪ obsEff D c)
        deps := Function.update K.deps c.call.name (some d') } ∧
      d'.OK ∧ d'.maxAnte = d.maxAnte ∧ d'.possible.map Prod.fst = d.possible.map Prod.fst ∧
      ∀ l, d'.possible.lookup l = (d.possible.lookup l).map fun cs => cs.filter fun A => Surv D c l A := by
  have := rules_spec ho hok D c
  refine ⟨_, ?_, this⟩
  unfold CondLearner.applyRules
  simp only [hd, liftedEffects_static hst, liftedEffects_eq, removeNonExisting, removeExisting, findLiterals_static hst]

theorem CondInv.step_new (h : CondInv ord D iq n hs K) (hn : c.call.name ∈ D.names) (hnew : c.call.name ∉ K.base.observed) :
    ∃ K', K.handleComponent ord c = .ok K' ∧ CondInv ord D iq n (hs ++ [c]) K' := by
  have hno : of hs c.call.name = [] := by
    simp only [of, List.filter_eq_nil_iff, decide_eq_true_eq]
    intro x hx e; exact hnew ((h.observed _).mpr ⟨x, hx, e⟩)
  have hst2 : SameStatic D (addNewPre K.base.dom c.call (tripletSnapshot D c).1) :=
    h.static.trans (sameStatic_setAct rfl)
  let K2 : CondLearner :=
    { K.initDeps ord c.call.name with
      base := { K.base with dom := addNewPre K.base.dom c.call (tripletSnapshot D c).1 } }
  have hd2 : K2.deps c.call.name =
      some ((DepSet.new n).initialize ord (liftedVocab D (D.act c.call.name).sig)) := by
    simp [K2, CondLearner.initDeps, h.max, liftedVocab_static h.static, h.static.sig]
  obtain ⟨d', e1, e2, e3, e4, e5⟩ := applyRules_eq ho (K := K2) (c := c) hst2 hd2 (DepSet.initialize_ok ho _ _ _)
  refine ⟨{ K2 with
        base := { K2.base with observed := K.base.observed ++ [c.call.name] }
        obsEff := Function.update K.obsEff c.call.name (K.obsEff c.call.name ∪ Model.obsEff D c)
        deps := Function.update K2.deps c.call.name (some d') }, ?_, ?_⟩
  · unfold CondLearner.handleComponent
    rw [h.static.names, if_neg (by simpa using hn)]
    simp only [hnew, not_false_eq_true, if_true, tripletSnapshot_static h.static]
    unfold CondLearner.addNewAction
    have : (K.initDeps ord c.call.name).base = K.base := rfl
    simp only [this, bind, Except.bind]
    rw [show ({ K.initDeps ord c.call.name with base := { K.base with dom := addNewPre K.base.dom c.call (tripletSnapshot D c).1 } } : CondLearner) = K2 from rfl, e1]
    rfl
  · have hact : ∀ a, ((addNewPre K.base.dom c.call (tripletSnapshot D c).1).act a) =
        if a = c.call.name then
          { K.base.dom.act c.call.name with pre := (K.base.dom.act c.call.name).pre ∪ obsPrev D c }
        else K.base.dom.act a := by
      intro a; unfold addNewPre; rw [setAct_act, liftCall_static h.static]; rfl
    refine ⟨hst2, h.max, h.cannotBe, h.safe, h.conds, h.condEffs, ?_, ?_, ?_, ?_, ?_, ?_, ?_, ?_, ?_⟩
    · intro a
      simp only [List.mem_append, List.mem_singleton, h.observed, or_and_right, exists_or]
      constructor
      · rintro (⟨x, hx, e⟩ | rfl)
        · exact Or.inl ⟨x, hx, e⟩
        · exact Or.inr ⟨c, rfl, rfl⟩
      · rintro (⟨x, hx, e⟩ | ⟨x, rfl, e⟩)
        · exact Or.inl ⟨x, hx, e⟩
        · exact Or.inr e.symm
    · rw [List.nodup_append]
      exact ⟨h.obsNodup, by simp, by
        intro a ha b hb; simp only [List.mem_singleton] at hb; subst hb; rintro rfl; exact hnew ha⟩
    · intro a ha
      rcases List.mem_append.mp ha with h1 | h1
      · exact h.obsNames a h1
      · rw [List.mem_singleton.mp h1]; exact hn
    · intro a ha l
      simp only [K2, hact]
      split
      · rename_i e; subst e
        rw [of_append_same, hno]
        simp [h.fresh _ hn hnew]
      · rename_i e
        have : a ∈ K.base.observed := by
          rcases List.mem_append.mp ha with h1 | h1
          · exact h1
          · exact absurd (List.mem_singleton.mp h1) e
        rw [of_append_ne _ _ e]; exact h.pre a this l
    · intro a ha hna
      simp only [List.mem_append, List.mem_singleton, not_or] at hna
      simp only [K2, hact, hna.2, if_false]
      exact h.fresh a ha hna.1
    · intro a ha
      simp only [K2, hact]
      split
      · rename_i e; subst e; exact h.eff _ ha
      · exact h.eff a ha
    · intro a
      simp only [K2, hact]
      split
      · rename_i e; subst e; exact h.ineq _
      · exact h.ineq a
    · intro a l
      simp only [Function.update_apply]
      split
      · rename_i e; subst e
        rw [of_append_same, Finset.mem_union, h.obsEff]; simp [or_and_right, exists_or]
      · rename_i e; rw [of_append_ne _ _ e]; exact h.obsEff a l
    · intro a ha
      simp only [Function.update_apply]
      split
      · rename_i e; subst e
        refine ⟨d', rfl, e2, e3, by rw [e4]; exact initialize_keys_nodup _ _ _, fun l => ?_⟩
        rw [e5, lookup_initialize ho.mem, of_append_same, hno]
        split <;> simp
      · rename_i e
        have : a ∈ K.base.observed := by
          rcases List.mem_append.mp ha with h1 | h1
          · exact h1
          · exact absurd (List.mem_singleton.mp h1) e
        rw [of_append_ne _ _ e]
        have hk : K2.deps a = K.deps a := by simp [K2, CondLearner.initDeps, Function.update_apply, e]
        rw [hk]
        exact h.deps a this

theorem CondInv.step_upd (h : CondInv ord D iq n hs K) (hobs : c.call.name ∈ K.base.observed) :
    ∃ K', K.handleComponent ord c = .ok K' ∧ CondInv ord D iq n (hs ++ [c]) K' := by
  have hn := h.obsNames _ hobs
  have hst2 : SameStatic D (updatePre K.base.dom c.call (tripletSnapshot D c).1) :=
    h.static.trans (sameStatic_setAct rfl)
  let K2 : CondLearner :=
    { K with base := { K.base with dom := updatePre K.base.dom c.call (tripletSnapshot D c).1 } }
  obtain ⟨d, hd, hok, hmax, hnd, hlk⟩ := h.deps _ hobs
  obtain ⟨d', e1, e2, e3, e4, e5⟩ := applyRules_eq ho (K := K2) (c := c) hst2 hd hok
  refine ⟨{ K2 with
        obsEff := Function.update K.obsEff c.call.name (K.obsEff c.call.name ∪ Model.obsEff D c)
        deps := Function.update K2.deps c.call.name (some d') }, ?_, ?_⟩
  · unfold CondLearner.handleComponent
    rw [h.static.names, if_neg (by simpa using hn)]
    simp only [hobs, not_true_eq_false, if_false, tripletSnapshot_static h.static]
    unfold CondLearner.updateAction
    exact e1
  · have hact : ∀ a, ((updatePre K.base.dom c.call (tripletSnapshot D c).1).act a) =
        if a = c.call.name then
          { K.base.dom.act c.call.name with pre := (K.base.dom.act c.call.name).pre.filter (· ∈ obsPrev D c) }
        else K.base.dom.act a := by
      intro a; unfold updatePre; rw [setAct_act, liftCall_static h.static]; rfl
    refine ⟨hst2, h.max, h.cannotBe, h.safe, h.conds, h.condEffs, ?_, h.obsNodup, h.obsNames, ?_, ?_, ?_, ?_, ?_, ?_⟩
    · intro a
      simp only [K2, List.mem_append, List.mem_singleton, h.observed, or_and_right, exists_or]
      constructor
      · exact Or.inl
      · rintro (h1 | ⟨x, rfl, rfl⟩)
        · exact h1
        · exact (h.observed _).mp hobs
    · intro a ha l
      simp only [K2, hact]
      split
      · rename_i e; subst e
        rw [of_append_same, Finset.mem_filter, h.pre _ hobs]
        simp [or_imp, forall_and]
      · rename_i e
        rw [of_append_ne _ _ e]; exact h.pre a ha l
    · intro a ha hna
      simp only [K2, hact]
      split
      · rename_i e; subst e; exact absurd hobs hna
      · exact h.fresh a ha hna
    · intro a ha
      simp only [K2, hact]
      split
      · rename_i e; subst e; exact h.eff _ ha
      · exact h.eff a ha
    · intro a
      simp only [K2, hact]
      split
      · rename_i e; subst e; exact h.ineq _
      · exact h.ineq a
    · intro a l
      simp only [Function.update_apply]
      split
      · rename_i e; subst e
        rw [of_append_same, Finset.mem_union, h.obsEff]; simp [or_and_right, exists_or]
      · rename_i e; rw [of_append_ne _ _ e]; exact h.obsEff a l
    · intro a ha
      simp only [Function.update_apply]
      split
      · rename_i e; subst e
        refine ⟨d', rfl, e2, e3.trans hmax, by rw [e4]; exact hnd, fun l => ?_⟩
        rw [e5, hlk, of_append_same]
        split
        · simp only [Option.map_some, List.filter_filter, Option.some.injEq]
          apply List.filter_congr
          intro A _
          simp [or_imp, forall_and, and_comm]
        · rfl
      · rename_i e
        rw [of_append_ne _ _ e]
        exact h.deps a ha

theorem CondInv.process : ∀ (cs hs : List Component) (K : CondLearner), CondInv ord D iq n hs K →
    (∀ c ∈ cs, c.call.name ∈ D.names) →
    ∃ K', K.process ord cs = .ok K' ∧ CondInv ord D iq n (hs ++ cs) K' := by
  intro cs
  induction cs with
  | nil => intro hs K h _; exact ⟨K, rfl, by simpa using h⟩
  | cons c cs ih =>
    intro hs K h hn
    have : ∃ K', K.handleComponent ord c = .ok K' ∧ CondInv ord D iq n (hs ++ [c]) K' := by
      by_cases ho' : c.call.name ∈ K.base.observed
      · exact h.step_upd ho ho'
      · exact h.step_new ho (hn c (by simp)) ho'
    obtain ⟨K1, e1, h1⟩ := this
    obtain ⟨K2, e2, h2⟩ := ih (hs ++ [c]) K1 h1 (fun x hx => hn x (by simp [hx]))
    refine ⟨K2, ?_, by simpa using h2⟩
    unfold CondLearner.process at e2 ⊢
    rw [List.foldlM_cons, e1]
    exact e2

omit ho in
/-- The learner at the start of `learn_action_model`. -/
theorem CondInv.start (hD : WFDomain D) (n : Nat) (p : Policy) :
    CondInv ord D (fun a => if a ∈ D.names then sameTypePairs (D.act a).sig else (D.act a).ineq) n []
      { CondLearner.init D n p with base := (Learner.init D p).deduceIneq } := by
  obtain ⟨h1, h2, h3, h4, _, _, _, h8⟩ := deduce_spec (L := Learner.init D p) hD.names
  refine ⟨h1, rfl, h4, h8, rfl, rfl, ?_, ?_, ?_, ?_, ?_, ?_, ?_, ?_, ?_⟩
  all_goals simp only [h3, show (Learner.init D p).observed = [] from rfl, List.not_mem_nil, false_imp_iff, implies_true, List.nodup_nil]
  · simp
  · intro a ha _; rw [(h2 a).1]; exact (hD.empty a ha).1
  · intro a ha; rw [(h2 a).2.1]; exact (hD.empty a ha).2.1
  · intro a
    rw [(h2 a).2.2]
    by_cases ha : a ∈ D.names
    · have : ((Learner.init D p).dom.act a).ineq = ∅ := (hD.empty a ha).2.2
      rw [this]; simp [Learner.init, ha]
    · simp [Learner.init, ha]
  · intro a l; simp [CondLearner.init, of]

end
end Model

import Verif.Lemmas.CondSafe
import Verif.Lemmas.Check

/-! Executable checkers for problems with conditional effects, used only to discharge concrete examples. -/
namespace Model
open Spec

/-- Complementary results have incompatible antecedents. -/
def exclusive (A : CondSchema) : Prop :=
  ∀ e ∈ A.effs, ∀ e' ∈ A.effs, ∀ l ∈ e.res, l.neg ∈ e'.res → ∃ x ∈ e.ante ∪ A.pre, x.neg ∈ e'.ante ∪ A.pre

instance (A) : Decidable (exclusive A) := by unfold exclusive; infer_instance

theorem exclusive_sound {A : CondSchema} (h : exclusive A) (ρ : String → String) (s : State) (hp : applicable A.pre ρ s) :
    ∀ l ∈ fired A.effs ρ s, l.neg ∉ fired A.effs ρ s := by
  intro l hl hn
  obtain ⟨e, he, ha, hr⟩ := mem_fired.mp hl
  obtain ⟨e', he', ha', hr'⟩ := mem_fired.mp hn
  obtain ⟨x, hx, hx'⟩ := h e he e' he' l hr hr'
  have h1 : holds s (ground ρ x) := by
    rcases Finset.mem_union.mp hx with h | h
    · exact ha x h
    · exact hp x h
  have h2 : holds s (ground ρ x.neg) := by
    rcases Finset.mem_union.mp hx' with h | h
    · exact ha' _ h
    · exact hp _ h
  exact (holds_neg (g := ground ρ x)).mp h2 h1

/-- Well-formed domain and truth, every transition real. -/
def CondProblemOK (D : Domain) (n : Nat) (truth : String → CondSchema) (cs : List Component) : Prop :=
  (D.names.Nodup ∧ ∀ a ∈ D.names, WFSig D.consts (D.act a).sig ∧ (D.act a).pre = ∅ ∧ (D.act a).eff = ∅ ∧ (D.act a).ineq = ∅) ∧
  (∀ a ∈ D.names, (truth a).params = (D.act a).sig ∧
    (∀ l ∈ (truth a).pre, typedLitB D.preds ((truth a).params ++ D.consts) l = true) ∧
    (∀ e ∈ (truth a).effs, (∀ l ∈ e.ante, typedLitB D.preds ((truth a).params ++ D.consts) l = true) ∧
      (∀ l ∈ e.res, typedLitB D.preds ((truth a).params ++ D.consts) l = true) ∧ e.ante.card ≤ n ∧
      ∀ e' ∈ (truth a).effs, ∀ l ∈ e.res, l ∈ e'.res → e.ante = e'.ante) ∧
    exclusive (truth a)) ∧
  (∀ c ∈ cs, c.call.params.length = (D.act c.call.name).sig.length ∧
    applicable (truth c.call.name).pre (objSubst D c) c.prev ∧
    c.next = condSuccessor (truth c.call.name).effs (objSubst D c) c.prev ∧ c.call.params.Nodup ∧
    ∀ o ∈ c.call.params, o ∉ Sig.names D.consts)

instance (D n truth cs) : Decidable (CondProblemOK D n truth cs) := by unfold CondProblemOK; infer_instance

theorem CondProblemOK.sound {D : Domain} {n : Nat} {truth : String → CondSchema} {cs : List Component}
    (h : CondProblemOK D n truth cs) : WFDomain D ∧ WFCondTruth D n truth ∧ CondData D truth cs := by
  obtain ⟨⟨h1, h2⟩, h3, h4⟩ := h
  refine ⟨⟨h1, fun a ha => (h2 a ha).1, fun a ha => (h2 a ha).2⟩, ⟨fun a ha => (h3 a ha).1, fun a ha => ?_⟩, ?_⟩
  · obtain ⟨k0, k1, k2, k3⟩ := h3 a ha
    exact ⟨fun l hl => typedLitB_sound (k1 l hl), fun e he l hl => typedLitB_sound ((k2 e he).1 l hl),
      fun e he l hl => typedLitB_sound ((k2 e he).2.1 l hl), fun e he => (k2 e he).2.2.1,
      fun e he e' he' l hl hl' => (k2 e he).2.2.2 e' he' l hl hl', fun ρ s _ hp => exclusive_sound k3 ρ s hp⟩
  · exact ⟨fun c hc => (h4 c hc).1, fun c hc => (h4 c hc).2.1, fun c hc => (h4 c hc).2.2.1, fun c hc => (h4 c hc).2.2.2.1,
      fun c hc => (h4 c hc).2.2.2.2⟩

instance (D : Domain) (cs : List Component) (a : String) (A : Finset Lit) (l : Lit) : Decidable (Explains D cs a A l) := by
  unfold Explains; infer_instance
instance (D : Domain) (cs : List Component) (a : String) (l : Lit) : Decidable (AlwaysBefore D cs a l) := by
  unfold AlwaysBefore; infer_instance
instance (D : Domain) (cs : List Component) (a : String) (l : Lit) : Decidable (Became D cs a l) := by
  unfold Became; infer_instance
instance (D : Domain) (cs : List Component) (a : String) (l : Lit) : Decidable (NeverUndone D cs a l) := by
  unfold NeverUndone; infer_instance

/-- All possible antecedents, computed. -/
def possibleList (ord : LitOrd) (D : Domain) (cs : List Component) (a : String) (n : Nat) (l : Lit) : List (Finset Lit) :=
  (createCnf ord (liftedVocab D (D.act a).sig) n).filter fun A =>
    (∀ x ∈ A, ¬ AlwaysBefore D cs a x) ∧ Explains D cs a A l

theorem mem_possibleList {ord : LitOrd} (ho : EnumNodup ord) {D : Domain} {cs : List Component} {a : String} {n : Nat} {l : Lit}
    (hw : WFSig D.consts (D.act a).sig) {A : Finset Lit} :
    A ∈ possibleList ord D cs a n l ↔ Possible D cs a n l A := by
  unfold possibleList
  simp only [List.mem_filter, mem_createCnf ho, decide_eq_true_eq]
  constructor
  · rintro ⟨⟨h1, h2, h3⟩, h4, h5⟩
    exact ⟨h2, h3, fun x hx => (liftedVocab_typed hw).mp (h1 hx), h4, h5⟩
  · intro h
    exact ⟨⟨fun x hx => (liftedVocab_typed hw).mpr (h.typed x hx), h.ne, h.card⟩, h.fresh, h.explains⟩

/-- At most one literal is ambiguous, and no observed effect is: enough to check on the vocabulary. -/
theorem notAmbiguous {ord : LitOrd} (ho : EnumNodup ord) {D : Domain} {cs : List Component} {a : String} {n : Nat}
    (hw : WFSig D.consts (D.act a).sig) {l : Lit} (h : Ambiguous D cs a n l) :
    l ∈ liftedVocab D (D.act a).sig ∧ ¬ AlwaysBefore D cs a l ∧ 2 ≤ (possibleList ord D cs a n l).length := by
  obtain ⟨h1, h2, A, B, hne, hA, hB⟩ := h
  refine ⟨(liftedVocab_typed hw).mpr h1, h2, ?_⟩
  have a1 := (mem_possibleList ho hw).mpr hA
  have a2 := (mem_possibleList ho hw).mpr hB
  match hl : possibleList ord D cs a n l with
  | [] => rw [hl] at a1; simp at a1
  | [X] => rw [hl] at a1 a2; simp only [List.mem_singleton] at a1 a2; exact absurd (a1.trans a2.symm) hne
  | _ :: _ :: _ => simp

mutual
/-- Evaluation of a formula in a state. -/
def condB (ρ : String → String) (s : State) : Cond → Bool
  | .lit l => decide (holds s (ground ρ l))
  | .node .and ks => condAllB ρ s ks
  | .node .or ks => condAnyB ρ s ks
def condAllB (ρ : String → String) (s : State) : List Cond → Bool
  | [] => true
  | k :: ks => condB ρ s k && condAllB ρ s ks
def condAnyB (ρ : String → String) (s : State) : List Cond → Bool
  | [] => false
  | k :: ks => condB ρ s k || condAnyB ρ s ks
end

mutual
theorem condB_iff (ρ : String → String) (s : State) : ∀ c, condB ρ s c = true ↔ Cond.eval (fun l => holds s (ground ρ l)) c
  | .lit l => by simp [condB, Cond.eval]
  | .node .and ks => by simp only [condB, Cond.eval]; exact condAllB_iff ρ s ks
  | .node .or ks => by simp only [condB, Cond.eval]; exact condAnyB_iff ρ s ks
theorem condAllB_iff (ρ : String → String) (s : State) : ∀ ks, condAllB ρ s ks = true ↔ Cond.evalAll (fun l => holds s (ground ρ l)) ks
  | [] => by simp [condAllB, Cond.evalAll]
  | k :: ks => by simp [condAllB, Cond.evalAll, condB_iff ρ s k, condAllB_iff ρ s ks]
theorem condAnyB_iff (ρ : String → String) (s : State) : ∀ ks, condAnyB ρ s ks = true ↔ Cond.evalAny (fun l => holds s (ground ρ l)) ks
  | [] => by simp [condAnyB, Cond.evalAny]
  | k :: ks => by simp [condAnyB, Cond.evalAny, condB_iff ρ s k, condAnyB_iff ρ s ks]
end

instance (ρ : String → String) (s : State) (c : Cond) : Decidable (Cond.eval (fun l => holds s (ground ρ l)) c) :=
  decidable_of_iff _ (condB_iff ρ s c)

instance (A : LearnedAction) (ρ : String → String) (s : State) : Decidable (A.accepts ρ s) := by
  unfold LearnedAction.accepts; infer_instance

/-- The result of a run, for evaluation in examples. -/
def runCond (add : Cond → Cond → Cond) (ord : LitOrd) (K : CondLearner) (obs : List (List Component)) : CondLearner :=
  match K.learn add ord obs with
  | .ok r => r.1
  | .error _ => K

theorem runCond_eq {add : Cond → Cond → Cond} {ord : LitOrd} (hadd : AddOK add) (ho : EnumNodup ord) {D : Domain}
    (hD : WFDomain D) (n : Nat) (p : Policy) (obs : List (List Component)) (hn : ∀ c ∈ obs.flatten, c.call.name ∈ D.names) :
    ∃ rep, (CondLearner.init D n p).learn add ord obs = .ok (runCond add ord (CondLearner.init D n p) obs, rep) := by
  obtain ⟨K, h, _⟩ := condLearn_spec hadd ho hD n p obs hn
  exact ⟨_, by simp [runCond, h]; rfl⟩

end Model

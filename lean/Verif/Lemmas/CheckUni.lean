import Verif.Lemmas.UniTotal
import Verif.Lemmas.CheckCond

/-! Executable checkers for problems with universal effects, used only to discharge concrete examples. -/
namespace Model
open Spec

/-- Well-typed literals, small antecedents, one antecedent per result. -/
def regularB (preds : List PredDecl) (n : Nat) (A : CondSchema) : Prop :=
  (∀ l ∈ A.pre, typedLitB preds A.params l = true) ∧
  ∀ e ∈ A.effs, (∀ l ∈ e.ante, typedLitB preds A.params l = true) ∧ (∀ l ∈ e.res, typedLitB preds A.params l = true) ∧ e.ante.card ≤ n ∧
    ∀ e' ∈ A.effs, ∀ l ∈ e.res, l ∈ e'.res → e.ante = e'.ante

instance (preds n A) : Decidable (regularB preds n A) := by unfold regularB; infer_instance

theorem regularB_sound {preds : List PredDecl} {n : Nat} {A : CondSchema} (h : regularB preds n A) : Regular preds n A :=
  ⟨fun l hl => typedLitB_sound (h.1 l hl), fun e he l hl => typedLitB_sound ((h.2 e he).1 l hl),
    fun e he l hl => typedLitB_sound ((h.2 e he).2.1 l hl), fun e he => (h.2 e he).2.2.1,
    fun e he e' he' l hl hl' => (h.2 e he).2.2.2 e' he' l hl hl'⟩

/-- A true action all of whose results are positive. -/
def uniTruthB (preds : List PredDecl) (n : Nat) (vars : List (String × PType)) (A : UniSchema) : Prop :=
  (∀ u ∈ A.foralls, u.var ∉ Sig.names A.params) ∧
  (∀ e ∈ A.effs, (∀ l ∈ e.ante ∪ e.res, ∀ x ∈ l.args, x ∈ Sig.names A.params) ∧ ∀ l ∈ e.res, l.pos = true) ∧
  (∀ u ∈ A.foralls, ∀ e ∈ u.effs, (∀ l ∈ e.ante ∪ e.res, ∀ x ∈ l.args, x = u.var ∨ x ∈ Sig.names A.params) ∧
    ∀ l ∈ e.res, u.var ∈ l.args ∧ l.pos = true) ∧
  regularB preds n A.onParams ∧ ∀ p ∈ vars, regularB preds n (A.withObject p.1 p.2)

instance (preds n vars A) : Decidable (uniTruthB preds n vars A) := by unfold uniTruthB; infer_instance

theorem uniTruthB_sound {preds : List PredDecl} {n : Nat} {vars : List (String × PType)} {A : UniSchema} (h : uniTruthB preds n vars A) :
    WFUni preds n vars A := by
  obtain ⟨h1, h2, h3, h4, h5⟩ := h
  refine ⟨h1, fun e he => (h2 e he).1, fun u hu e he => (h3 u hu e he).1, fun u hu e he l hl => ((h3 u hu e he).2 l hl).1,
    regularB_sound h4, fun p hp => regularB_sound (h5 p hp), ?_⟩
  intro objs ρ s _ _ g hg hng
  have key : ∀ g ∈ A.makes objs ρ s, g.pos = true := by
    intro g hg
    rcases mem_makes.mp hg with ⟨e, he, _, l, hl, rfl⟩ | ⟨u, hu, o, _, _, e, he, _, l, hl, rfl⟩
    · exact (h2 e he).2 l hl
    · exact ((h3 u hu e he).2 l hl).2
  have k1 := key g hg
  have k2 := key _ hng
  simp [Lit.neg, k1] at k2

def exactB (D : Domain) (objs : Sig) (c : Component) : Prop :=
  (Sig.names (objs ++ D.consts)).Nodup ∧ c.call.params.length = (D.act c.call.name).sig.length ∧
  (∀ q ∈ c.call.params.zip (D.act c.call.name).sig, (q.1, q.2.2) ∈ objs) ∧ c.call.params.Nodup

instance (D objs c) : Decidable (exactB D objs c) := by unfold exactB; infer_instance

theorem exactB_sound {D : Domain} {objs : Sig} {c : Component} (h : exactB D objs c) : ExactCall D objs c :=
  ⟨h.1, List.forall₂_iff_zip.mpr ⟨h.2.1, fun {a b} hab => h.2.2.1 (a, b) hab⟩, h.2.2.2⟩

/-- Well-formed domain, truth and data. -/
def UniProblemOK (D : Domain) (n : Nat) (types : List PType) (truth : String → UniSchema) (obs : List UniObs) : Prop :=
  (D.names.Nodup ∧ ∀ a ∈ D.names, WFSig D.consts (D.act a).sig ∧ (D.act a).pre = ∅ ∧ (D.act a).eff = ∅ ∧ (D.act a).ineq = ∅) ∧
  (∀ a ∈ D.names, (truth a).params = (D.act a).sig ∧ uniTruthB D.preds n (types.map fun T => (addVar D a T, T)) (truth a)) ∧
  D.consts = [] ∧ (types.map PType.name).Nodup ∧ (∀ ob ∈ obs, ∀ o ∈ ob.1, ∀ t ∈ types, o.2.name = t.name → o.2 = t) ∧
  ∀ ob ∈ obs, ∀ c ∈ ob.2, exactB D ob.1 c ∧ applicable (truth c.call.name).pre (objSubst D c) c.prev ∧
    c.next = (truth c.call.name).next ob.1 (objSubst D c) c.prev

instance (D n types truth obs) : Decidable (UniProblemOK D n types truth obs) := by unfold UniProblemOK; infer_instance

theorem UniProblemOK.sound {D : Domain} {n : Nat} {types : List PType} {truth : String → UniSchema} {obs : List UniObs}
    (h : UniProblemOK D n types truth obs) : WFDomain D ∧ WFUniTruth D n types (addVar D) truth ∧ UniData D types truth obs := by
  obtain ⟨⟨h1, h2⟩, h3, h4, h5, h6, h7⟩ := h
  refine ⟨⟨h1, fun a ha => (h2 a ha).1, fun a ha => (h2 a ha).2⟩, ⟨fun a ha => (h3 a ha).1, fun a ha => uniTruthB_sound (h3 a ha).2⟩,
    ⟨⟨h4, h5, fun ob hob _ => h6 ob hob, fun ob hob c hc => exactB_sound (h7 ob hob c hc).1⟩, fun ob hob c hc => ?_⟩⟩
  obtain ⟨k1, k2, k3⟩ := h7 ob hob c hc
  exact ⟨exactB_sound k1, k2, k3⟩

/-- The result of a run, for evaluation in examples. -/
def runUni (add : Cond → Cond → Cond) (deep : Bool) (ord : LitOrd) (U : UniLearner) (obs : List UniObs) : UniLearner :=
  match U.learn add deep ord obs with
  | .ok r => r.1
  | .error _ => U

/-- Did it return? -/
def returns (add : Cond → Cond → Cond) (deep : Bool) (ord : LitOrd) (U : UniLearner) (obs : List UniObs) : Bool :=
  match U.learn add deep ord obs with
  | .ok _ => true
  | .error _ => false

theorem runUni_eq {add : Cond → Cond → Cond} {deep : Bool} {ord : LitOrd} {U : UniLearner} {obs : List UniObs}
    (h : returns add deep ord U obs = true) : ∃ rep, U.learn add deep ord obs = .ok (runUni add deep ord U obs, rep) := by
  unfold returns at h
  unfold runUni
  cases hL : U.learn add deep ord obs with
  | error e => rw [hL] at h; simp at h
  | ok r => exact ⟨r.2, rfl⟩

instance (A : UniAction) (objs : Sig) (ρ : String → String) (s : State) : Decidable (A.accepts objs ρ s) := by
  unfold UniAction.accepts; infer_instance

end Model

import Verif.Lemmas.SamPolicy

/-! Executable checkers for the hypotheses, used only to discharge concrete examples. -/
namespace Model
open Spec

def typedLitB (preds : List PredDecl) (table : Sig) (l : Lit) : Bool :=
  decide l.args.Nodup && preds.any fun pd =>
    pd.name == l.name && l.args.length == pd.sig.length &&
      (l.args.zip pd.sig).all fun p => table.any fun q => q.1 == p.1 && q.2.isSub p.2.2

theorem typedLitB_sound {preds : List PredDecl} {table : Sig} {l : Lit} (h : typedLitB preds table l = true) :
    TypedLit preds table l := by
  unfold typedLitB at h
  simp only [Bool.and_eq_true, decide_eq_true_eq, List.any_eq_true, beq_iff_eq, List.all_eq_true] at h
  obtain ⟨h1, pd, hpd, ⟨hn, hl⟩, hz⟩ := h
  refine ⟨h1, pd, hpd, hn, ?_⟩
  rw [List.forall₂_iff_zip]
  refine ⟨hl, fun {a b} hab => ?_⟩
  obtain ⟨q, hq, e, hs⟩ := hz (a, b) hab
  simp only at e hs; exact ⟨q.2, by rw [← e]; exact hq, hs⟩

/-- Well-formed domain and truth, and every successful transition real. -/
def ProblemOK (D : Domain) (truth : String → Schema) (obs : List (List Component)) : Prop :=
  (D.names.Nodup ∧ ∀ a ∈ D.names, WFSig D.consts (D.act a).sig ∧ (D.act a).pre = ∅ ∧ (D.act a).eff = ∅ ∧ (D.act a).ineq = ∅) ∧
  (∀ a ∈ D.names, (truth a).params = (D.act a).sig ∧
    (∀ l ∈ (truth a).pre, typedLitB D.preds ((truth a).params ++ D.consts) l = true) ∧
    (∀ l ∈ (truth a).eff, typedLitB D.preds ((truth a).params ++ D.consts) l = true) ∧
    (∀ l ∈ (truth a).eff, l.neg ∉ (truth a).eff)) ∧
  (∀ c ∈ obs.flatten, c.success = true → c.call.params.length = (truth c.call.name).params.length ∧
    applicable (truth c.call.name).pre (substOf truth c) c.prev ∧
    c.next = successor (truth c.call.name).eff (substOf truth c) c.prev)

instance (D truth obs) : Decidable (ProblemOK D truth obs) := by unfold ProblemOK; infer_instance

theorem ProblemOK.sound {D : Domain} {truth : String → Schema} {obs : List (List Component)} (h : ProblemOK D truth obs) :
    WFDomain D ∧ WFTruth D truth ∧ ∀ c ∈ obs.flatten, c.success = true → Explained truth c := by
  obtain ⟨⟨h1, h2⟩, h3, h4⟩ := h
  refine ⟨⟨h1, fun a ha => (h2 a ha).1, fun a ha => (h2 a ha).2⟩, ⟨fun a ha => (h3 a ha).1, fun a ha => ?_⟩, ?_⟩
  · obtain ⟨_, k1, k2, k3⟩ := h3 a ha
    exact ⟨fun l hl => typedLitB_sound (k1 l hl), fun l hl => typedLitB_sound (k2 l hl), k3⟩
  · intro c hc hs
    obtain ⟨k1, k2, k3⟩ := h4 c hc hs
    exact ⟨k1, k2, k3⟩

/-- The learned domain, for evaluation in examples. -/
def runLearn (L : Learner) (obs : List (List Component)) : Learner :=
  match L.learn obs with
  | .ok r => r.1
  | .error _ => L

theorem runLearn_eq {D : Domain} {p : Policy} {i : Bool} {obs : List (List Component)} (hD : D.names.Nodup)
    (h : ∀ c ∈ obs.flatten, c.success = true → c.call.name ∈ D.names) :
    ∃ rep, (Learner.init D p i).learn obs = .ok (runLearn (Learner.init D p i) obs, rep) := by
  obtain ⟨r, hr⟩ := (learn_ok_iff (L0 := Learner.init D p i) hD (init_sigs D p i)).mpr h
  exact ⟨r.2, by simp [runLearn, hr]⟩

end Model

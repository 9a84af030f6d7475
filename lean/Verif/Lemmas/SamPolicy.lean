import Verif.Lemmas.SamSafe

namespace Model
open Spec

theorem init_sigs (D : Domain) (p i) : ∀ q ∈ (Learner.init D p i).sigs, q.1 ∈ (Learner.init D p i).dom.names := by
  intro q hq; simp only [Learner.init, List.mem_map] at hq; obtain ⟨a, ha, rfl⟩ := hq; exact ha

/-- Learning under a policy is learning without one, followed by the filter of the policy. -/
theorem policy_factor {D : Domain} {p : Policy} {i : Bool} {obs : List (List Component)} {Lp Ln : Learner} {rp rn}
    (hD : D.names.Nodup)
    (hp : (Learner.init D p i).learn obs = .ok (Lp, rp)) (hn : (Learner.init D .noRemove i).learn obs = .ok (Ln, rn)) :
    ∀ a ∈ D.names, (Lp.dom.act a).eff = (Ln.dom.act a).eff ∧ (Lp.dom.act a).ineq = (Ln.dom.act a).ineq ∧
      ∀ l, l ∈ (Lp.dom.act a).pre ↔ l ∈ (Ln.dom.act a).pre ∧ polKeep p (Ln.dom.act a).eff l := by
  obtain ⟨h1, _⟩ := learn_spec (L0 := Learner.init D p i) hD (init_sigs D p i) hp
  obtain ⟨h2, _⟩ := learn_spec (L0 := Learner.init D .noRemove i) hD (init_sigs D _ i) hn
  intro a ha
  have heff : (Lp.dom.act a).eff = (Ln.dom.act a).eff := by
    have e := (h1.effExact a).trans (h2.effExact a).symm
    simp only [Prod.mk.injEq] at e
    exact e.2.1
  refine ⟨heff, ?_, ?_⟩
  · ext q
    rw [h1.ineq, h2.ineq]; rfl
  · intro l
    rw [h1.pre a ha, h2.pre a ha, heff]
    constructor
    · rintro ⟨k1, k2⟩; exact ⟨⟨k1, Or.inr (Or.inl rfl)⟩, k2⟩
    · rintro ⟨⟨k1, _⟩, k2⟩; exact ⟨k1, k2⟩

/-- Learning succeeds or fails independently of the policy. -/
theorem learn_ok_policy {D : Domain} {p q : Policy} {i : Bool} {obs : List (List Component)} {r}
    (hD : D.names.Nodup) (hp : (Learner.init D p i).learn obs = .ok r) :
    ∃ r', (Learner.init D q i).learn obs = .ok r' := by
  rw [learn_ok_iff (L0 := Learner.init D q i) hD (init_sigs D q i)]
  exact (learn_ok_iff (L0 := Learner.init D p i) hD (init_sigs D p i)).mp ⟨r, hp⟩

/-- The typed form of the observed facts: what is learned about an observed action. -/
theorem observed_iff_usable {obs : List (List Component)} {a : String} :
    Observed obs a ↔ usable obs.flatten a ≠ [] := by
  unfold Observed
  constructor
  · rintro ⟨c, h1, h2, h3, h4⟩ h
    have : c ∈ usable obs.flatten a := mem_usable.mpr ⟨h1, h2, h3, h4⟩
    rw [h] at this; simp at this
  · intro h
    obtain ⟨c, hc⟩ := List.exists_mem_of_ne_nil _ h
    obtain ⟨h1, h2, h3, h4⟩ := mem_usable.mp hc
    exact ⟨c, h1, h2, h3, h4⟩

theorem preForm_empty {D : Domain} {us : List Component} {l : Lit} :
    PreForm D False ∅ us l ↔ us ≠ [] ∧ ∀ c ∈ us, l ∈ obsPrev D c := by
  unfold PreForm
  cases us with
  | nil => simp
  | cons c cs => simp

/-- Safety argument shared by the theorems. -/
theorem safe_of_inv {D : Domain} {truth : String → Schema} {L : Learner} (hD : WFDomain D) (hT : WFTruth D truth)
    (hI : SafeInv D truth L)
    (hun : ∀ a ∈ D.names, a ∉ L.observed → liftedVocab D (D.act a).sig ⊆ (L.dom.act a).pre)
    {a : String} (ha : a ∈ D.names) {ρ : String → String} {s : State} (happ : applicable (L.dom.act a).pre ρ s) :
    applicable (truth a).pre ρ s ∧
    (Spec.Injective D.consts (D.act a).sig ρ → successor (L.dom.act a).eff ρ s = successor (truth a).eff ρ s) := by
  have hp := hT.params a ha
  have hwf := hT.wf a ha
  by_cases ho : a ∈ L.observed
  · refine ⟨fun l hl => happ l (hI.preComplete a ho hl), fun hinj => ?_⟩
    apply successor_eq (S := fun x => x ∈ Sig.names ((D.act a).sig ++ D.consts))
      (fun x y hx hy => hinj x hx y hy) (fun l hl x hx => by rw [← hp]; exact typed_sub (hwf.eff l hl) x hx)
      hwf.consistent (hI.effSound a ha)
    intro e he hne
    exact happ e ((hI.effComplete a ho e he).resolve_left hne)
  · have hno : ∀ l, ¬ TypedLit D.preds ((D.act a).sig ++ D.consts) l := by
      intro l hl
      have h1 := happ l (hun a ha ho ((liftedVocab_typed (hD.sigs a ha)).mpr hl))
      have h2 := happ l.neg (hun a ha ho ((liftedVocab_typed (hD.sigs a ha)).mpr (typed_neg.mpr hl)))
      rw [ground_neg] at h2
      exact holds_neg.mp h2 h1
    have e1 : (truth a).pre = ∅ := Finset.eq_empty_of_forall_notMem fun l hl => hno l (hp ▸ hwf.pre l hl)
    have e2 : (truth a).eff = ∅ := Finset.eq_empty_of_forall_notMem fun l hl => hno l (hp ▸ hwf.eff l hl)
    refine ⟨by rw [e1]; intro l hl; simp at hl, fun _ => by rw [e2, hI.effEmpty a ha ho]⟩

end Model

import Verif.Lemmas.CnfLemmas
import Verif.Lemmas.SamPolicy
import Verif.Spec.Joint
import Verif.Props.Core

namespace Model
open Spec

/-- The truth about effects as a relation. -/
def TrueEff (truth : String → Schema) (a : String) (l : Lit) : Prop := l ∈ (truth a).eff

/-- Invariant of MA-SAM while it reads the data (domains without constants). -/
structure MaInv (D : Domain) (truth : String → Schema) (L : MaLearner) : Prop where
  policy : L.base.policy = .noRemove
  static : SameStatic D L.base.dom
  obsNames : ∀ a ∈ L.base.observed, a ∈ D.names
  cnfOk : ∀ k, CnfOk (TrueEff truth) (L.cnf k)
  effEmpty : ∀ a, (L.base.dom.act a).eff = (D.act a).eff
  preComplete : ∀ a ∈ L.base.observed, (truth a).pre ⊆ (L.base.dom.act a).pre
  cover : ∀ a ∈ L.base.observed, ∀ e ∈ (truth a).eff,
    e ∈ (L.base.dom.act a).pre ∨ ∃ c ∈ (L.cnf (keyOf e)).clauses, (a, e) ∈ c
  unobs : ∀ a, a ∉ L.base.observed → (L.base.dom.act a).pre = (D.act a).pre

theorem computeInteracting_nil {g : Lit} {calls : List Call} :
    computeInteracting [] g calls = (calls, calls.filter fun c => g.args.all fun o => c.params.contains o) := by
  simp [computeInteracting, Sig.names]

theorem relevantNotEffects_nil {call : Call} {lits : List Lit} :
    relevantNotEffects [] call lits = (call, (lits.map Lit.neg).filter fun g => g.args.all fun o => call.params.contains o) := by
  have step : ∀ (g : Lit) (acc : List Lit), (fun (st : Call × List Lit) (g : Lit) =>
      let r := computeInteracting [] g.neg [st.1]
      let call' := r.1.headD st.1
      if call' ∈ r.2 then (call', st.2 ++ [g.neg]) else (call', st.2)) (call, acc) g =
      (call, acc ++ [g.neg].filter fun g => g.args.all fun o => call.params.contains o) := by
    intro g acc
    simp only [computeInteracting_nil]
    cases h : (g.args.all fun o => decide (o ∈ call.params)) with
    | true => simp [List.filter, h]
    | false => simp [List.filter, h]
  have key : ∀ (lits : List Lit) (acc : List Lit), lits.foldl (fun (st : Call × List Lit) g =>
      let r := computeInteracting [] g.neg [st.1]
      let call' := r.1.headD st.1
      if call' ∈ r.2 then (call', st.2 ++ [g.neg]) else (call', st.2)) (call, acc) =
      (call, acc ++ (lits.map Lit.neg).filter fun g => g.args.all fun o => call.params.contains o) := by
    intro lits
    induction lits with
    | nil => intro acc; simp
    | cons g gs ih =>
      intro acc
      rw [List.foldl_cons]
      refine (congrArg (fun x => List.foldl _ x gs) (step g acc)).trans ?_
      rw [ih, List.map_cons, List.append_assoc, ← List.filter_append]
      rfl
  simpa [relevantNotEffects] using key lits []

section
variable {D : Domain} {truth : String → Schema} {L : MaLearner} {call : Call} {g l : Lit}

/-- The injective match of a ground literal over the objects of a good call. -/
theorem matchOf_some (hc0 : D.consts = []) (hs : SameStatic D L.base.dom) (hw : WFSig D.consts (D.act call.name).sig)
    (hgc : GoodCall D.consts (D.act call.name).sig call.params) (hg : g.args.Nodup) (hin : ∀ o ∈ g.args, o ∈ call.params) :
    ∃ l, L.matchOf call g = some l ∧ ground (subst (Sig.names (D.act call.name).sig) call.params) l = g ∧
      ∀ x ∈ l.args, x ∈ Sig.names (D.act call.name).sig := by
  obtain ⟨l, h1, _, h3, h4⟩ := Props.C15_injective_match hw hgc hg (fun o ho => Or.inl (hin o ho))
  refine ⟨l, ?_, h3, ?_⟩
  · unfold MaLearner.matchOf; rw [hs.consts, hs.sig]; exact h1
  · intro x hx
    rcases h4 x hx with k | k
    · exact k
    · rw [hc0] at k; simp [Sig.names] at k

theorem matchOf_sound (hc0 : D.consts = []) (hs : SameStatic D L.base.dom) (hw : WFSig D.consts (D.act call.name).sig)
    (hlen : call.params.length = (D.act call.name).sig.length) (hg : g.args.Nodup) (h : L.matchOf call g = some l) :
    ground (subst (Sig.names (D.act call.name).sig) call.params) l = g ∧
      ∀ x ∈ l.args, x ∈ Sig.names (D.act call.name).sig := by
  unfold MaLearner.matchOf at h
  rw [hs.consts, hs.sig] at h
  unfold injectiveMatch at h
  split at h
  · rename_i l' he
    have hm : l' ∈ matchLits D.consts (D.act call.name).sig call.params none g := by rw [he]; simp
    rw [Props.C14_matches_exact hw hlen hg] at hm
    have hp : l'.pos = g.pos := by rw [← hm.1]; rfl
    have : l = l' := by
      simp only [Option.some.injEq] at h
      rw [← h, ← hp]
    subst this
    refine ⟨hm.1, fun x hx => ?_⟩
    rcases hm.2.2 x hx with k | k
    · exact k
    · rw [hc0] at k; simp [Sig.names] at k
  · simp at h

theorem ground_inj {sig : Sig} {call : List String} (hw : WFSig [] sig) (hgc : GoodCall [] sig call) {l m : Lit}
    (hl : ∀ x ∈ l.args, x ∈ Sig.names sig) (hm : ∀ x ∈ m.args, x ∈ Sig.names sig)
    (h : ground (subst (Sig.names sig) call) l = ground (subst (Sig.names sig) call) m) : l = m := by
  have hinj := subst_injective hw hgc
  have e1 : l.name = m.name := by simpa [ground] using congrArg Lit.name h
  have e2 : l.pos = m.pos := by simpa [ground] using congrArg Lit.pos h
  have e3 : l.args.map (subst (Sig.names sig) call) = m.args.map (subst (Sig.names sig) call) := by
    simpa [ground] using congrArg Lit.args h
  have e4 : l.args = m.args := Props.map_inj_on e3 fun x hx y hy =>
    hinj x (by simpa using hl x hx) y
      (by simpa using hm y hy)
  cases l; cases m; simp_all

end

/-! ### Operations on the CNFs -/

/-- Steps that only change the CNFs, and truthfully. -/
structure CnfStep (T : String → Lit → Prop) (L L' : MaLearner) : Prop where
  base : L'.base = L.base
  snap : L'.snap = L.snap
  uns : L'.unsafeActs = L.unsafeActs
  ok : (∀ k, CnfOk T (L.cnf k)) → ∀ k, CnfOk T (L'.cnf k)
  keep : ∀ k p, T p.1 p.2 → (∃ c ∈ (L.cnf k).clauses, p ∈ c) → ∃ c ∈ (L'.cnf k).clauses, p ∈ c

theorem CnfStep.refl (T L) : CnfStep T L L := ⟨rfl, rfl, rfl, fun h => h, fun _ _ _ h => h⟩

theorem CnfStep.trans {T} {A B C : MaLearner} (h : CnfStep T A B) (k : CnfStep T B C) : CnfStep T A C :=
  ⟨k.base.trans h.base, k.snap.trans h.snap, k.uns.trans h.uns, fun o => k.ok (h.ok o), fun x p t e => k.keep x p t (h.keep x p t e)⟩

theorem updCnf_cnf (L : MaLearner) (k k' f) : (L.updCnf k f).cnf k' = if k' = k then f (L.cnf k) else L.cnf k' := by
  unfold MaLearner.updCnf; simp only [Function.update_apply]

theorem CnfStep.notEffect {T : String → Lit → Prop} (L : MaLearner) (k : String × Bool) {a : String} {l : Lit} (hT : ¬ T a l) :
    CnfStep T L (L.updCnf k (·.addNotEffect a l)) := by
  refine ⟨rfl, rfl, rfl, fun h k' => ?_, fun k' p ht h => ?_⟩
  · rw [updCnf_cnf]; split
    · exact (h k).addNotEffect hT
    · exact h k'
  · rw [updCnf_cnf]; split
    · rename_i e; subst e; exact addNotEffect_keeps hT ht h
    · exact h

theorem CnfStep.possible {T : String → Lit → Prop} (L : MaLearner) (k : String × Bool) {j : List (String × Lit)}
    (hT : j ≠ [] → ∃ p ∈ j, T p.1 p.2) (hs : ∀ a l m, (a, l) ∈ j → (a, m) ∈ j → l = m) :
    CnfStep T L (L.updCnf k (·.addPossible j)) := by
  refine ⟨rfl, rfl, rfl, fun h k' => ?_, fun k' p ht h => ?_⟩
  · rw [updCnf_cnf]; split
    · exact (h k).addPossible hT hs
    · exact h k'
  · rw [updCnf_cnf]; split
    · rename_i e; subst e; exact addPossible_keeps h
    · exact h

theorem possible_adds {T : String → Lit → Prop} (L : MaLearner) (k : String × Bool) {j : List (String × Lit)} (h : CnfOk T (L.cnf k))
    {p} (hp : p ∈ j) (ht : T p.1 p.2) : ∃ c ∈ ((L.updCnf k (·.addPossible j)).cnf k).clauses, p ∈ c := by
  rw [updCnf_cnf, if_pos rfl]; exact addPossible_adds h hp ht

theorem matchOf_base {L L' : MaLearner} (h : L'.base = L.base) {call : Call} {g : Lit} :
    L'.matchOf call g = L.matchOf call g := by unfold MaLearner.matchOf; rw [h]

theorem addNotEffects_step {T : String → Lit → Prop} {call : Call} : ∀ (gs : List Lit) (L : MaLearner),
    (∀ g ∈ gs, ∀ l, L.matchOf call g = some l → ¬ T call.name l) → CnfStep T L (L.addNotEffects call gs) := by
  intro gs
  induction gs with
  | nil => intro L _; exact CnfStep.refl _ _
  | cons g gs ih =>
    intro L h
    unfold MaLearner.addNotEffects
    rw [List.foldl_cons]
    have h1 : CnfStep T L (match L.matchOf call g with
        | none => L
        | some l => L.updCnf (keyOf g) (·.addNotEffect call.name l)) := by
      cases hm : L.matchOf call g with
      | none => exact CnfStep.refl _ _
      | some l => exact CnfStep.notEffect L _ (h g (by simp) l hm)
    refine h1.trans (ih _ fun g' hg' l hl => ?_)
    apply h g' (by simp [hg'])
    rwa [matchOf_base h1.base] at hl

theorem addMustBe_step {T : String → Lit → Prop} {call : Call} : ∀ (gs : List Lit) (L : MaLearner),
    (∀ g ∈ gs, ∀ l, L.matchOf call g = some l → T call.name l) →
    CnfStep T L (L.addMustBe call gs) ∧ ((∀ k, CnfOk T (L.cnf k)) → ∀ g ∈ gs, ∀ l, L.matchOf call g = some l →
      ∃ c ∈ ((L.addMustBe call gs).cnf (keyOf g)).clauses, (call.name, l) ∈ c) := by
  intro gs
  induction gs with
  | nil => intro L _; exact ⟨CnfStep.refl _ _, by simp⟩
  | cons g gs ih =>
    intro L h
    have h1 : CnfStep T L (match L.matchOf call g with
        | none => L
        | some l => L.updCnf (keyOf g) (·.addPossible [(call.name, l)])) := by
      cases hm : L.matchOf call g with
      | none => exact CnfStep.refl _ _
      | some l =>
        refine CnfStep.possible L _ (fun _ => ⟨_, List.mem_singleton.mpr rfl, h g (by simp) l hm⟩) ?_
        intro a m n hm hn
        simp only [List.mem_singleton, Prod.mk.injEq] at hm hn
        rw [hm.2, hn.2]
    have hmatch : ∀ x, (match L.matchOf call g with
        | none => L
        | some l => L.updCnf (keyOf g) (·.addPossible [(call.name, l)])).matchOf call x = L.matchOf call x := by
      intro x; exact matchOf_base h1.base
    obtain ⟨k1, k2⟩ := ih _ (fun g' hg' l hl => h g' (by simp [hg']) l (by rw [← hmatch]; exact hl))
    have e : L.addMustBe call (g :: gs) = MaLearner.addMustBe (match L.matchOf call g with
        | none => L
        | some l => L.updCnf (keyOf g) (·.addPossible [(call.name, l)])) call gs := by
      rfl
    rw [e]
    refine ⟨h1.trans k1, fun hok g' hg' l hl => ?_⟩
    rcases List.mem_cons.mp hg' with rfl | hg'
    · apply k1.keep _ _ (h g' (by simp) l hl)
      rw [hl]
      exact possible_adds L _ (hok _) (List.mem_singleton.mpr rfl) (h g' (by simp) l hl)
    · exact k2 (h1.ok hok) g' hg' l (by rw [hmatch]; exact hl)

end Model

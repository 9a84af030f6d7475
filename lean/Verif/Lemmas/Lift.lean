import Verif.Lemmas.Vocab

namespace Model
open Spec

section
variable {D : Domain} {sig : Sig} {call : List String}

theorem _root_.Spec.WFSig.params {consts sig : Sig} (h : WFSig consts sig) : (Sig.names sig).Nodup := by
  unfold WFSig at h; rw [names_append, List.nodup_append] at h; exact h.1

theorem _root_.Spec.WFSig.disj {consts sig : Sig} (h : WFSig consts sig) : ∀ x ∈ Sig.names sig, x ∉ Sig.names consts := by
  unfold WFSig at h; rw [names_append, List.nodup_append] at h
  intro x hx hc; exact h.2.2 x hx x hc rfl

theorem mem_possibleMatches {consts sig : Sig} {call : List String} {S : Finset Lit} {l : Lit}
    (hw : WFSig consts sig) (hlen : call.length = sig.length)
    (hS : ∀ g ∈ S, g.args.Nodup) :
    l ∈ possibleMatches consts sig call S ↔
      ground (subst (Sig.names sig) call) l ∈ S ∧ l.args.Nodup ∧
        ∀ x ∈ l.args, x ∈ Sig.names sig ∨ x ∈ Sig.names consts := by
  unfold possibleMatches
  simp only [Finset.mem_biUnion, List.mem_toFinset]
  constructor
  · rintro ⟨g, hg, hl⟩
    obtain ⟨rfl, h⟩ := (mem_matchLits hw.params hw.disj hlen ((hS g hg).filter _)).mp hl
    exact ⟨hg, h⟩
  · rintro ⟨hg, h⟩
    exact ⟨_, hg, (mem_matchLits hw.params hw.disj hlen ((hS _ hg).filter _)).mpr ⟨rfl, h⟩⟩

theorem typed_sub {preds : List PredDecl} {table : Sig} {l : Lit} (h : TypedLit preds table l) :
    ∀ x ∈ l.args, x ∈ Sig.names table := by
  obtain ⟨_, pd, _, _, hf⟩ := h
  obtain ⟨perm, h1, h2, _⟩ := forall₂_choose hf
  intro x hx
  rw [← h1] at hx
  obtain ⟨p, hp, rfl⟩ := List.mem_map.mp hx
  exact List.mem_map.mpr ⟨p, h2 p hp, rfl⟩

/-- Typing of an object of the call is the typing of the parameter bound to it. -/
theorem typed_bind (hw : WFSig D.consts sig) (hc : GoodCall D.consts sig call) {x : String} {t : PType}
    (hx : x ∈ Sig.names sig ∨ x ∈ Sig.names D.consts) :
    (subst (Sig.names sig) call x, t) ∈ callObjects D sig call ++ D.consts ↔ (x, t) ∈ sig ++ D.consts := by
  have hlen' : call.length = (Sig.names sig).length := by simp [hc.len]
  unfold callObjects
  simp only [List.mem_append]
  by_cases hxs : x ∈ Sig.names sig
  · have hxc : (x, t) ∉ D.consts := fun h => hw.disj x hxs (List.mem_map.mpr ⟨_, h, rfl⟩)
    have hbc : (subst (Sig.names sig) call x, t) ∉ D.consts := fun h =>
      hc.fresh _ (bind_mem_call hw.params hlen' hxs) (List.mem_map.mpr ⟨_, h, rfl⟩)
    simp only [hxc, hbc, or_false]
    constructor
    · intro h
      obtain ⟨i, hi, e⟩ := List.getElem_of_mem h
      simp only [List.getElem_zip, List.getElem_map, Prod.mk.injEq] at e
      have hi' : i < sig.length := by simp at hi; omega
      have hz : ((Sig.names sig)[i]'(by simpa using hi'), call[i]'(by have := hc.len; omega)) ∈ (Sig.names sig).zip call := by
        rw [List.mem_iff_getElem]; exact ⟨i, by simp; have := hc.len; omega, by simp⟩
      have hb := bind_of_mem_zip hw.params hz
      have hxe := bind_inj_params hw.params hlen' hc.nodup hxs (List.getElem_mem _) (e.1.symm.trans hb.symm)
      have : (x, t) = sig[i] := by
        rw [hxe, ← e.2]; simp [Sig.names]
      rw [this]; exact List.getElem_mem _
    · intro h
      obtain ⟨i, hi, e⟩ := List.getElem_of_mem h
      have hz : ((Sig.names sig)[i]'(by simpa using hi), call[i]'(by have := hc.len; omega)) ∈ (Sig.names sig).zip call := by
        rw [List.mem_iff_getElem]; exact ⟨i, by simp; have := hc.len; omega, by simp⟩
      have hb := bind_of_mem_zip hw.params hz
      have hxi : (Sig.names sig)[i]'(by simpa using hi) = x := by simp [Sig.names, e]
      rw [hxi] at hb
      rw [hb, List.mem_iff_getElem]
      exact ⟨i, by simp; have := hc.len; omega, by simp [e]⟩
  · have hxc := hx.resolve_left hxs
    have hb : subst (Sig.names sig) call x = x := bind_of_not_mem hxs
    rw [hb]
    have h1 : (x, t) ∉ sig := fun h => hxs (List.mem_map.mpr ⟨_, h, rfl⟩)
    have h2 : (x, t) ∉ call.zip (sig.map Prod.snd) := fun h => hc.fresh x (List.of_mem_zip h).1 hxc
    simp [h1, h2]

/-- A lifted literal over the action is well typed iff its grounding is well typed over the objects
of the call. -/
theorem typed_ground (hw : WFSig D.consts sig) (hc : GoodCall D.consts sig call) {l : Lit}
    (hsub : ∀ x ∈ l.args, x ∈ Sig.names sig ∨ x ∈ Sig.names D.consts) :
    TypedLit D.preds (callObjects D sig call ++ D.consts) (ground (subst (Sig.names sig) call) l) ↔
      TypedLit D.preds (sig ++ D.consts) l := by
  have hlen' : call.length = (Sig.names sig).length := by simp [hc.len]
  rw [typedLit_iff, typedLit_iff]
  unfold TypedArgs
  simp only [ground_name, ground_args, List.forall₂_map_left_iff]
  have e1 : (l.args.map (subst (Sig.names sig) call)).Nodup ↔ l.args.Nodup := by
    constructor
    · exact List.Nodup.of_map _
    · intro h
      apply h.map_on
      intro x hx y hy e
      exact bind_inj hw.params hlen' hc.nodup hc.fresh (hsub x hx) (hsub y hy) e
  rw [e1]
  have e2 : ∀ decl : Sig, List.Forall₂ (fun x (d : String × PType) =>
      ∃ t, (subst (Sig.names sig) call x, t) ∈ callObjects D sig call ++ D.consts ∧ t.isSub d.2 = true) l.args decl ↔
      List.Forall₂ (fun x (d : String × PType) => ∃ t, (x, t) ∈ sig ++ D.consts ∧ t.isSub d.2 = true) l.args decl := by
    intro decl
    have key : ∀ args : List String, (∀ x ∈ args, x ∈ Sig.names sig ∨ x ∈ Sig.names D.consts) → ∀ decl : Sig,
      (List.Forall₂ (fun x (d : String × PType) =>
      ∃ t, (subst (Sig.names sig) call x, t) ∈ callObjects D sig call ++ D.consts ∧ t.isSub d.2 = true) args decl ↔
      List.Forall₂ (fun x (d : String × PType) => ∃ t, (x, t) ∈ sig ++ D.consts ∧ t.isSub d.2 = true) args decl) := by
      intro args
      induction args with
      | nil => intro _ decl; cases decl <;> simp
      | cons a as ih =>
        intro h decl
        cases decl with
        | nil => simp
        | cons d ds =>
          rw [List.forall₂_cons, List.forall₂_cons, ih (fun x hx => h x (by simp [hx]))]
          simp only [typed_bind hw hc (h a (by simp))]
    exact key l.args hsub decl
  simp only [e2]

/-- Lifting a snapshot: exactly the well-typed lifted literals that hold under the call. -/
theorem mem_lift_snapshot (hw : WFSig D.consts sig) (hc : GoodCall D.consts sig call) {s : State} {l : Lit} :
    l ∈ possibleMatches D.consts sig call (stateSnapshot D s (callObjects D sig call)) ↔
      TypedLit D.preds (sig ++ D.consts) l ∧ holds s (ground (subst (Sig.names sig) call) l) := by
  rw [mem_possibleMatches hw hc.len (fun g hg => (mem_stateSnapshot.mp hg).1.nodup), mem_stateSnapshot]
  constructor
  · rintro ⟨⟨h1, h2⟩, _, h4⟩
    exact ⟨(typed_ground hw hc h4).mp h1, h2⟩
  · rintro ⟨h1, h2⟩
    have hsub : ∀ x ∈ l.args, x ∈ Sig.names sig ∨ x ∈ Sig.names D.consts := by
      intro x hx; have := typed_sub h1 x hx; rwa [names_append, List.mem_append] at this
    exact ⟨⟨(typed_ground hw hc hsub).mpr h1, h2⟩, h1.nodup, hsub⟩

theorem holds_neg {s : State} {g : Lit} : holds s g.neg ↔ ¬ holds s g := by
  unfold holds; cases g with | mk n a p => cases p <;> simp [Lit.neg, Lit.atom]

theorem typed_neg {preds : List PredDecl} {table : Sig} {l : Lit} :
    TypedLit preds table l.neg ↔ TypedLit preds table l := by rw [typedLit_iff, typedLit_iff]; rfl

/-- Extracted effects of two snapshots: the literals that became true. -/
theorem mem_extractEffects {prev next : State} {objs : Sig} {g : Lit} :
    g ∈ (extractEffects (stateSnapshot D prev objs) (stateSnapshot D next objs)).1 ∪
        (extractEffects (stateSnapshot D prev objs) (stateSnapshot D next objs)).2 ↔
      TypedLit D.preds (objs ++ D.consts) g ∧ holds next g ∧ ¬ holds prev g := by
  unfold extractEffects
  simp only [Finset.mem_union, Finset.mem_filter, Finset.mem_sdiff, Finset.mem_image, mem_stateSnapshot]
  constructor
  · rintro (⟨⟨⟨h1, h2⟩, h3⟩, h4⟩ | ⟨g', ⟨⟨⟨h1, h2⟩, h3⟩, h4⟩, rfl⟩)
    · exact ⟨h1, h2, fun h => h3 ⟨h1, h⟩⟩
    · exact ⟨typed_neg.mpr h1, holds_neg.mpr fun h => h3 ⟨h1, h⟩, fun h => holds_neg.mp h h2⟩
  · rintro ⟨h1, h2, h3⟩
    cases hp : g.pos with
    | true => exact Or.inl ⟨⟨⟨h1, h2⟩, fun h => h3 h.2⟩, rfl⟩
    | false =>
      refine Or.inr ⟨g.neg, ⟨⟨⟨typed_neg.mpr h1, holds_neg.mpr h3⟩, ?_⟩, by simp [hp]⟩, Lit.neg_neg g⟩
      rintro ⟨_, h⟩; exact holds_neg.mp h h2

theorem possibleMatches_union {consts sig : Sig} {call : List String} {A B : Finset Lit} :
    possibleMatches consts sig call (A ∪ B) = possibleMatches consts sig call A ∪ possibleMatches consts sig call B := by
  unfold possibleMatches; ext; simp [or_and_right, exists_or]

/-- Lifted effects of an observed transition. -/
theorem mem_lift_effects (hw : WFSig D.consts sig) (hc : GoodCall D.consts sig call) {prev next : State} {l : Lit} :
    (l ∈ possibleMatches D.consts sig call (extractEffects (stateSnapshot D prev (callObjects D sig call))
        (stateSnapshot D next (callObjects D sig call))).1 ∪
      possibleMatches D.consts sig call (extractEffects (stateSnapshot D prev (callObjects D sig call))
        (stateSnapshot D next (callObjects D sig call))).2) ↔
      TypedLit D.preds (sig ++ D.consts) l ∧ holds next (ground (subst (Sig.names sig) call) l) ∧
        ¬ holds prev (ground (subst (Sig.names sig) call) l) := by
  rw [← possibleMatches_union, mem_possibleMatches hw hc.len (fun g hg => (mem_extractEffects.mp hg).1.nodup),
    mem_extractEffects]
  constructor
  · rintro ⟨⟨h1, h2⟩, _, h4⟩
    exact ⟨(typed_ground hw hc h4).mp h1, h2⟩
  · rintro ⟨h1, h2⟩
    have hsub : ∀ x ∈ l.args, x ∈ Sig.names sig ∨ x ∈ Sig.names D.consts := by
      intro x hx; have := typed_sub h1 x hx; rwa [names_append, List.mem_append] at this
    exact ⟨⟨(typed_ground hw hc hsub).mpr h1, h2⟩, h1.nodup, hsub⟩

end
end Model

import Verif.Model.Universal
import Verif.Lemmas.CondLearn

/-! Snapshots with additional objects, seen through the matcher. -/
namespace Model
open Spec

section
variable {D : Domain} {sig table : Sig} {call : List String}

/-- A table of objects that has the objects of the call with the types of the parameters, and the constants. -/
structure TableOK (consts sig table : Sig) (call : List String) : Prop where
  nodup : (Sig.names table).Nodup
  exact : List.Forall₂ (fun o (p : String × PType) => (o, p.2) ∈ table) call sig
  consts : ∀ p ∈ consts, p ∈ table

theorem names_nodup_eq {table : Sig} (h : (Sig.names table).Nodup) {x : String} {t u : PType} (h1 : (x, t) ∈ table)
    (h2 : (x, u) ∈ table) : t = u := by
  have e1 := (lookup_of_mem h).mpr h1
  have e2 := (lookup_of_mem h).mpr h2
  rw [e1] at e2; simpa using e2

theorem TableOK.bind (hw : WFSig D.consts sig) (hc : GoodCall D.consts sig call) (ht : TableOK D.consts sig table call) {x : String} {t : PType}
    (hx : x ∈ Sig.names sig ∨ x ∈ Sig.names D.consts) :
    (subst (Sig.names sig) call x, t) ∈ table ↔ (x, t) ∈ sig ++ D.consts := by
  have hlen' : call.length = (Sig.names sig).length := by simp [hc.len]
  have hnd : (Sig.names (sig ++ D.consts)).Nodup := hw
  have key : ∃ u, (x, u) ∈ sig ++ D.consts ∧ (subst (Sig.names sig) call x, u) ∈ table := by
    by_cases hxs : x ∈ Sig.names sig
    · obtain ⟨i, hi, e⟩ := List.getElem_of_mem hxs
      have hi' : i < sig.length := by simpa using hi
      have hic : i < call.length := by have := hc.len; omega
      have hz : (x, call[i]) ∈ (Sig.names sig).zip call := by
        rw [List.mem_iff_getElem]; exact ⟨i, by simp; have := hc.len; omega, by simp [e]⟩
      rw [bind_of_mem_zip hw.params hz]
      refine ⟨sig[i].2, List.mem_append_left _ ?_, (List.forall₂_iff_get.mp ht.exact).2 i hic hi'⟩
      have e' : x = sig[i].1 := by rw [← e]; simp [Sig.names]
      rw [e']; exact List.getElem_mem _
    · have hxc := hx.resolve_left hxs
      obtain ⟨p, hp, rfl⟩ := List.mem_map.mp hxc
      exact ⟨p.2, List.mem_append_right _ hp, by rw [bind_of_not_mem hxs]; exact ht.consts p hp⟩
  obtain ⟨u, h1, h2⟩ := key
  constructor
  · intro h; rw [names_nodup_eq ht.nodup h h2]; exact h1
  · intro h; rw [names_nodup_eq hnd h h1]; exact h2

/-- A lifted literal is well typed iff its grounding is well typed over the table. -/
theorem TableOK.typed (hw : WFSig D.consts sig) (hc : GoodCall D.consts sig call) (ht : TableOK D.consts sig table call) {l : Lit}
    (hsub : ∀ x ∈ l.args, x ∈ Sig.names sig ∨ x ∈ Sig.names D.consts) :
    TypedLit D.preds table (ground (subst (Sig.names sig) call) l) ↔ TypedLit D.preds (sig ++ D.consts) l := by
  have hlen' : call.length = (Sig.names sig).length := by simp [hc.len]
  rw [typedLit_iff, typedLit_iff]
  unfold TypedArgs
  simp only [ground_name, ground_args, List.forall₂_map_left_iff]
  have e1 : (l.args.map (subst (Sig.names sig) call)).Nodup ↔ l.args.Nodup := by
    constructor
    · exact List.Nodup.of_map _
    · intro h
      apply h.map_on
      intro x hx y hy e
      exact bind_inj hw.params hlen' hc.nodup hc.fresh (hsub x hx) (hsub y hy) e
  rw [e1]
  have key : ∀ args : List String, (∀ x ∈ args, x ∈ Sig.names sig ∨ x ∈ Sig.names D.consts) → ∀ decl : Sig,
      (List.Forall₂ (fun x (d : String × PType) =>
      ∃ t, (subst (Sig.names sig) call x, t) ∈ table ∧ t.isSub d.2 = true) args decl ↔
      List.Forall₂ (fun x (d : String × PType) => ∃ t, (x, t) ∈ sig ++ D.consts ∧ t.isSub d.2 = true) args decl) := by
    intro args
    induction args with
    | nil => intro _ decl; cases decl <;> simp
    | cons a as ih =>
      intro h decl
      cases decl with
      | nil => simp
      | cons d ds =>
        rw [List.forall₂_cons, List.forall₂_cons, ih (fun x hx => h x (by simp [hx]))]
        simp only [ht.bind hw hc (h a (by simp))]
  simp only [key l.args hsub]

theorem typed_mono {preds : List PredDecl} {t1 t2 : Sig} (h : ∀ p ∈ t1, p ∈ t2) {l : Lit} (hl : TypedLit preds t1 l) : TypedLit preds t2 l := by
  obtain ⟨h1, pd, h2, h3, h4⟩ := hl
  exact ⟨h1, pd, h2, h3, h4.imp fun x d ⟨t, h5, h6⟩ => ⟨t, h _ h5, h6⟩⟩

/-- Lifting a snapshot over a table. -/
theorem TableOK.snapshot (hw : WFSig D.consts sig) (hc : GoodCall D.consts sig call) (ht : TableOK D.consts sig table call) {s : State} {l : Lit} :
    l ∈ possibleMatches D.consts sig call (stateSnapshot D s table) ↔
      TypedLit D.preds (sig ++ D.consts) l ∧ holds s (ground (subst (Sig.names sig) call) l) := by
  have hT : ∀ g, TypedLit D.preds (table ++ D.consts) g ↔ TypedLit D.preds table g := fun g =>
    ⟨typed_mono fun p hp => (List.mem_append.mp hp).elim id (ht.consts p), typed_mono fun p hp => List.mem_append_left _ hp⟩
  rw [mem_possibleMatches hw hc.len (fun g hg => (mem_stateSnapshot.mp hg).1.nodup), mem_stateSnapshot, hT]
  constructor
  · rintro ⟨⟨h1, h2⟩, _, h4⟩
    exact ⟨(ht.typed hw hc h4).mp h1, h2⟩
  · rintro ⟨h1, h2⟩
    have hsub : ∀ x ∈ l.args, x ∈ Sig.names sig ∨ x ∈ Sig.names D.consts := by
      intro x hx; have := typed_sub h1 x hx; rwa [names_append, List.mem_append] at this
    exact ⟨⟨(ht.typed hw hc hsub).mpr h1, h2⟩, h1.nodup, hsub⟩

/-- Lifting the changes over a table. -/
theorem TableOK.effects (hw : WFSig D.consts sig) (hc : GoodCall D.consts sig call) (ht : TableOK D.consts sig table call) {prev next : State} {l : Lit} :
    l ∈ possibleMatches D.consts sig call ((extractEffects (stateSnapshot D prev table) (stateSnapshot D next table)).1 ∪
        (extractEffects (stateSnapshot D prev table) (stateSnapshot D next table)).2) ↔
      TypedLit D.preds (sig ++ D.consts) l ∧ holds next (ground (subst (Sig.names sig) call) l) ∧
        ¬ holds prev (ground (subst (Sig.names sig) call) l) := by
  have hT : ∀ g, TypedLit D.preds (table ++ D.consts) g ↔ TypedLit D.preds table g := fun g =>
    ⟨typed_mono fun p hp => (List.mem_append.mp hp).elim id (ht.consts p), typed_mono fun p hp => List.mem_append_left _ hp⟩
  rw [mem_possibleMatches hw hc.len (fun g hg => (mem_extractEffects.mp hg).1.nodup), mem_extractEffects, hT]
  constructor
  · rintro ⟨⟨h1, h2⟩, _, h4⟩
    exact ⟨(ht.typed hw hc h4).mp h1, h2⟩
  · rintro ⟨h1, h2⟩
    have hsub : ∀ x ∈ l.args, x ∈ Sig.names sig ∨ x ∈ Sig.names D.consts := by
      intro x hx; have := typed_sub h1 x hx; rwa [names_append, List.mem_append] at this
    exact ⟨⟨(ht.typed hw hc hsub).mpr h1, h2⟩, h1.nodup, hsub⟩

end

section
variable {D : Domain} {objs : Sig} {c : Component} {ts : List String}

theorem _root_.Spec.ExactCall.good (h : ExactCall D objs c) : GoodCall D.consts (D.act c.call.name).sig c.call.params := by
  refine ⟨h.exact.length_eq, h.distinct, fun o ho => ?_⟩
  obtain ⟨i, hi, rfl⟩ := List.getElem_of_mem ho
  have h1 := (List.forall₂_iff_get.mp h.exact).2 i hi (by rw [← h.exact.length_eq]; exact hi)
  intro hc
  have hn := h.names
  rw [names_append, List.nodup_append] at hn
  exact hn.2.2 _ (List.mem_map.mpr ⟨_, h1, rfl⟩) _ hc rfl

theorem mem_uniObjects (h : (Sig.names (objs ++ D.consts)).Nodup) {p : String × PType} :
    p ∈ uniObjects D objs ts c.call ↔ p ∈ objs ++ D.consts ∧
      (p.1 ∈ c.call.params ∨ p.1 ∈ Sig.names D.consts ∨ p.2.name ∈ ts) := by
  unfold uniObjects
  rw [Py.dictOf_of_nodup h]
  simp [List.mem_filter, or_assoc, or_and_right]

theorem uniObjects_nodup (h : (Sig.names (objs ++ D.consts)).Nodup) : (Sig.names (uniObjects D objs ts c.call)).Nodup := by
  unfold uniObjects
  rw [Py.dictOf_of_nodup h]
  exact h.sublist (List.filter_sublist.map _)

/-- The table of the snapshot with the objects of the types `ts`. -/
theorem _root_.Spec.ExactCall.table (h : ExactCall D objs c) : TableOK D.consts (D.act c.call.name).sig (uniObjects D objs ts c.call) c.call.params := by
  refine ⟨uniObjects_nodup h.names, ?_, fun p hp => ?_⟩
  · rw [List.forall₂_iff_get]
    refine ⟨h.exact.length_eq, fun i h1 h2 => (mem_uniObjects h.names).mpr ⟨?_, Or.inl (List.getElem_mem _)⟩⟩
    exact List.mem_append_left _ ((List.forall₂_iff_get.mp h.exact).2 i h1 h2)
  · exact (mem_uniObjects h.names).mpr ⟨List.mem_append_right _ hp, Or.inr (Or.inl (List.mem_map.mpr ⟨p, hp, rfl⟩))⟩

/-- Without additional objects the lifted snapshot is that of `ConditionalSAM`. -/
theorem lift_uniSnapshot (hw : WFSig D.consts (D.act c.call.name).sig) (h : ExactCall D objs c) :
    liftCall D c.call (uniSnapshot D objs ts c).1 = obsPrev D c ∧ liftCall D c.call (uniSnapshot D objs ts c).2 = obsNext D c ∧
    liftedEffects D c.call (uniSnapshot D objs ts c).1 (uniSnapshot D objs ts c).2 = obsEff D c := by
  refine ⟨?_, ?_, ?_⟩
  · ext l; rw [obsPrev_iff hw h.good]; exact h.table.snapshot hw h.good
  · ext l; rw [obsNext_iff hw h.good]; exact h.table.snapshot hw h.good
  · ext l; rw [obsEff_iff hw h.good]; exact h.table.effects hw h.good

end
end Model

import Verif.Lemmas.UniLearn
import Verif.Lemmas.CondSafe

/-! Universal effects: what the true action does to the atoms over a list of parameters. -/
namespace Model
open Spec

theorem ground_id (g : Lit) : ground id g = g := by
  unfold ground; simp

theorem ground_congr {ρ σ : String → String} {l : Lit} (h : ∀ x ∈ l.args, ρ x = σ x) : ground ρ l = ground σ l := by
  unfold ground
  rw [List.map_congr_left h]

theorem ground_rename (ρ : String → String) (v x : String) (l : Lit) :
    ground ρ (ground (bindVar id v x) l) = ground (bindVar ρ v (ρ x)) l := by
  unfold ground
  simp only [List.map_map, Lit.mk.injEq, true_and, and_true]
  apply List.map_congr_left
  intro y _
  simp only [Function.comp, Function.update_apply, id]
  split <;> rfl

theorem mem_firedAt {effs : List CondEff} {v o : String} {ρ : String → String} {s : State} {g : Lit} :
    g ∈ firedAt effs v o ρ s ↔ ∃ e ∈ effs, applicable e.ante (bindVar ρ v o) s ∧ ∃ l ∈ e.res, ground (bindVar ρ v o) l = g := by
  unfold firedAt
  rw [Finset.mem_image]
  constructor
  · rintro ⟨l, h1, h2⟩
    obtain ⟨e, he, ha, hl⟩ := mem_fired.mp h1
    exact ⟨e, he, ha, l, hl, h2⟩
  · rintro ⟨e, he, ha, l, hl, h2⟩
    exact ⟨l, mem_fired.mpr ⟨e, he, ha, hl⟩, h2⟩

theorem mem_foldr_union {α : Type} {xs : List α} {f : α → Finset Lit} {g : Lit} :
    g ∈ xs.foldr (fun x acc => f x ∪ acc) ∅ ↔ ∃ x ∈ xs, g ∈ f x := by
  induction xs with
  | nil => simp
  | cons x xs ih => simp [ih]

theorem mem_firedForall {effs : List CondEff} {v : String} {T : PType} {objs : Sig} {ρ : String → String} {s : State} {g : Lit} :
    g ∈ firedForall effs v T objs ρ s ↔ ∃ o ∈ objs, o.2.isSub T = true ∧ g ∈ firedAt effs v o.1 ρ s := by
  unfold firedForall
  rw [mem_foldr_union (xs := objs.filter fun o => o.2.isSub T) (f := fun o => firedAt effs v o.1 ρ s)]
  simp only [List.mem_filter, and_assoc]

theorem mem_makes {A : UniSchema} {objs : Sig} {ρ : String → String} {s : State} {g : Lit} :
    g ∈ A.makes objs ρ s ↔ (∃ e ∈ A.effs, applicable e.ante ρ s ∧ ∃ l ∈ e.res, ground ρ l = g) ∨
      ∃ u ∈ A.foralls, ∃ o ∈ objs, o.2.isSub u.type = true ∧ ∃ e ∈ u.effs, applicable e.ante (bindVar ρ u.var o.1) s ∧
        ∃ l ∈ e.res, ground (bindVar ρ u.var o.1) l = g := by
  unfold UniSchema.makes
  rw [Finset.mem_union, mem_foldr_union (xs := A.foralls) (f := fun u => firedForall u.effs u.var u.type objs ρ s)]
  refine or_congr ?_ ?_
  · rw [Finset.mem_image]
    constructor
    · rintro ⟨l, h1, h2⟩
      obtain ⟨e, he, ha, hl⟩ := mem_fired.mp h1
      exact ⟨e, he, ha, l, hl, h2⟩
    · rintro ⟨e, he, ha, l, hl, h2⟩
      exact ⟨l, mem_fired.mpr ⟨e, he, ha, hl⟩, h2⟩
  · simp only [mem_firedForall, mem_firedAt]

/-- The effects as seen over the parameters `ps`. -/
def EffOver (A : UniSchema) (ps : Sig) (e : CondEff) : Prop :=
  e ∈ A.effs ∨ ∃ u ∈ A.foralls, ∃ p ∈ ps, p.2.isSub u.type = true ∧ ∃ e' ∈ u.effs, e = e'.rename u.var p.1

theorem mem_onParams {A : UniSchema} {e : CondEff} : e ∈ A.onParams.effs ↔ EffOver A A.params e := by
  unfold UniSchema.onParams EffOver
  simp only [List.mem_append, List.mem_flatMap, List.mem_map, List.mem_filter, and_assoc, @eq_comm _ _ e]

theorem mem_withObject {A : UniSchema} {v : String} {T : PType} {e : CondEff} :
    e ∈ (A.withObject v T).effs ↔ EffOver A (A.params ++ [(v, T)]) e := by
  unfold UniSchema.withObject
  rw [List.mem_append, mem_onParams]
  unfold EffOver
  simp only [List.mem_flatMap, List.mem_map, List.mem_filter, List.mem_append, List.mem_singleton]
  constructor
  · rintro ((h | ⟨u, hu, p, hp, h⟩) | ⟨u, ⟨hu, hs⟩, e', he', rfl⟩)
    · exact Or.inl h
    · exact Or.inr ⟨u, hu, p, Or.inl hp, h⟩
    · exact Or.inr ⟨u, hu, (v, T), Or.inr rfl, hs, e', he', rfl⟩
  · rintro (h | ⟨u, hu, p, hp | rfl, hs, e', he', rfl⟩)
    · exact Or.inl (Or.inl h)
    · exact Or.inl (Or.inr ⟨u, hu, p, hp, hs, e', he', rfl⟩)
    · exact Or.inr ⟨u, ⟨hu, hs⟩, e', he', rfl⟩

section
variable {A : UniSchema} {ps objs : Sig} {ρ σ : String → String} {s : State}
  (fresh : ∀ u ∈ A.foralls, u.var ∉ Sig.names A.params)
  (effsOver : ∀ e ∈ A.effs, ∀ l ∈ e.ante ∪ e.res, ∀ x ∈ l.args, x ∈ Sig.names A.params)
  (over : ∀ u ∈ A.foralls, ∀ e ∈ u.effs, ∀ l ∈ e.ante ∪ e.res, ∀ x ∈ l.args, x = u.var ∨ x ∈ Sig.names A.params)
  (about : ∀ u ∈ A.foralls, ∀ e ∈ u.effs, ∀ l ∈ e.res, u.var ∈ l.args)
  (hW : World ps objs σ) (hag : ∀ x ∈ Sig.names A.params, σ x = ρ x)
include effsOver over hW hag

omit effsOver hW in
theorem ground_quant {u : Forall} (hu : u ∈ A.foralls) {e : CondEff} (he : e ∈ u.effs) {l : Lit} (hl : l ∈ e.ante ∪ e.res) (x : String) :
    ground σ (ground (bindVar id u.var x) l) = ground (bindVar ρ u.var (σ x)) l := by
  rw [ground_rename]
  refine ground_congr fun y hy => ?_
  simp only [Function.update_apply]
  split
  · rfl
  · rename_i hne
    exact hag y ((over u hu e he l hl y hy).resolve_left hne)

/-- An effect over the parameters whose antecedent holds takes place. -/
theorem effOver_fires {e : CondEff} (he : EffOver A ps e) (ha : applicable e.ante σ s) {l : Lit} (hl : l ∈ e.res) :
    ground σ l ∈ A.makes objs ρ s := by
  rw [mem_makes]
  rcases he with he | ⟨u, hu, p, hp, hs, e', he', rfl⟩
  · left
    refine ⟨e, he, fun x hx => ?_, l, hl, ground_congr fun x hx => (hag x (effsOver e he l (Finset.mem_union_right _ hl) x hx)).symm⟩
    have := ha x hx
    rwa [ground_congr fun y hy => hag y (effsOver e he x (Finset.mem_union_left _ hx) y hy)] at this
  · right
    obtain ⟨l', hl', rfl⟩ := Finset.mem_image.mp hl
    refine ⟨u, hu, (σ p.1, p.2), hW.typed p hp, hs, e', he', fun x hx => ?_, l', hl', ?_⟩
    · rw [← ground_quant over hag hu he' (Finset.mem_union_left _ hx)]
      exact ha _ (Finset.mem_image_of_mem _ hx)
    · exact (ground_quant over hag hu he' (Finset.mem_union_right _ hl') p.1).symm

include about in
/-- What takes place and is over the parameters comes from such an effect. -/
theorem effOver_of_makes {l : Lit} (hsub : ∀ x ∈ Sig.names A.params, x ∈ Sig.names ps) (hl : ∀ x ∈ l.args, x ∈ Sig.names ps)
    (h : ground σ l ∈ A.makes objs ρ s) : ∃ e, EffOver A ps e ∧ l ∈ e.res ∧ applicable e.ante σ s := by
  rw [mem_makes] at h
  rcases h with ⟨e, he, ha, l', hl', heq⟩ | ⟨u, hu, o, ho, hs, e, he, ha, l', hl', heq⟩
  · refine ⟨e, Or.inl he, ?_, fun x hx => ?_⟩
    · have h1 : ground σ l' = ground σ l := by
        rw [← heq]; exact ground_congr fun x hx => hag x (effsOver e he l' (Finset.mem_union_right _ hl') x hx)
      have : l' = l := ground_inj_on (fun x hx y hy hxy => hW.inj x
        (hsub x (effsOver e he l' (Finset.mem_union_right _ hl') x hx)) y (hl y hy) hxy) h1
      rw [← this]; exact hl'
    · rw [ground_congr fun y hy => hag y (effsOver e he x (Finset.mem_union_left _ hx) y hy)]
      exact ha x hx
  · -- the object is one of the parameters
    have hmem : o.1 ∈ (ground σ l).args := by
      rw [← heq, ground_args]
      refine List.mem_map.mpr ⟨u.var, about u hu e he l' hl', ?_⟩
      simp
    rw [ground_args, List.mem_map] at hmem
    obtain ⟨x, hx, hxo⟩ := hmem
    obtain ⟨p, hp, rfl⟩ := List.mem_map.mp (hl x hx)
    have hop : o = (σ p.1, p.2) := by
      have hnd := hW.names
      unfold Sig.names at hnd
      exact List.inj_on_of_nodup_map hnd ho (hW.typed p hp) hxo.symm
    have ho1 : o.1 = σ p.1 := hxo.symm
    have ho2 : o.2 = p.2 := by rw [hop]
    refine ⟨e.rename u.var p.1, Or.inr ⟨u, hu, p, hp, by rw [← ho2]; exact hs, e, he, rfl⟩, ?_, ?_⟩
    · refine Finset.mem_image.mpr ⟨l', hl', ?_⟩
      have h1 : ground σ (ground (bindVar id u.var p.1) l') = ground σ l := by
        rw [ground_quant over hag hu he (Finset.mem_union_right _ hl'), ← ho1]; exact heq
      refine ground_inj_on (fun y hy z hz hyz => hW.inj y ?_ z (hl z hz) hyz) h1
      rw [ground_args, List.mem_map] at hy
      obtain ⟨w, hw, rfl⟩ := hy
      rcases over u hu e he l' (Finset.mem_union_right _ hl') w hw with rfl | hw'
      · simp only [Function.update_self]; exact List.mem_map.mpr ⟨p, hp, rfl⟩
      · simp only [Function.update_apply, id]
        split
        · exact List.mem_map.mpr ⟨p, hp, rfl⟩
        · exact hsub w hw'
    · intro x hx
      obtain ⟨x', hx', rfl⟩ := Finset.mem_image.mp hx
      rw [ground_quant over hag hu he (Finset.mem_union_left _ hx'), ← ho1]
      exact ha x' hx'

end

/-- What takes place holds afterwards; what became true took place. -/
theorem next_holds {A : UniSchema} {objs : Sig} {ρ : String → String} {s : State} {g : Lit}
    (hc : ∀ g ∈ A.makes objs ρ s, g.neg ∉ A.makes objs ρ s) (hg : g ∈ A.makes objs ρ s) : holds (A.next objs ρ s) g := by
  have := holds_successor (ρ := id) (s := s) (S := fun _ => True) (T := A.makes objs ρ s) (fun x y _ _ e => e) (fun _ _ _ _ => trivial) hc hg
  rwa [ground_id] at this

theorem made_of_change {A : UniSchema} {objs : Sig} {ρ : String → String} {s : State} {g : Lit}
    (h1 : holds (A.next objs ρ s) g) (h2 : ¬ holds s g) : g ∈ A.makes objs ρ s := by
  refine eff_of_change (ρ := id) (s := s) (S := fun _ => True) (T := A.makes objs ρ s) (fun x y _ _ e => e) (fun _ _ _ _ => trivial)
    (fun _ _ => trivial) ?_ ?_
  · rw [ground_id]; exact h1
  · rw [ground_id]; exact h2

section
variable {D : Domain} {objs : Sig} {c : Component}

/-- A call of exact objects is a world. -/
theorem _root_.Spec.ExactCall.world (hk : D.consts = []) (hw : WFSig [] (D.act c.call.name).sig) (h : ExactCall D objs c) :
    World (D.act c.call.name).sig objs (objSubst D c) := by
  have hg : GoodCall [] (D.act c.call.name).sig c.call.params := by have := h.good; rwa [hk] at this
  have hinj := subst_injective hw hg
  refine ⟨by have := h.names; rwa [hk, List.append_nil] at this, ?_, ?_⟩
  · intro p hp
    have key : ∀ (ps : List String) (sig : Sig), List.Forall₂ (fun o (p : String × PType) => (o, p.2) ∈ objs) ps sig → (Sig.names sig).Nodup →
        ∀ p ∈ sig, (subst (Sig.names sig) ps p.1, p.2) ∈ objs := by
      intro ps sig hf hn
      induction hf with
      | nil => simp
      | @cons o q os sig hq _ ih =>
        intro p hp
        have hn' : q.1 ∉ Sig.names sig ∧ (Sig.names sig).Nodup := List.nodup_cons.mp hn
        rcases List.mem_cons.mp hp with rfl | hp
        · have : subst (Sig.names (p :: sig)) (o :: os) p.1 = o := by simp [subst, Sig.names]
          rw [this]; exact hq
        · have hne : p.1 ≠ q.1 := fun e => hn'.1 (e ▸ List.mem_map.mpr ⟨p, hp, rfl⟩)
          have : subst (Sig.names (q :: sig)) (o :: os) p.1 = subst (Sig.names sig) os p.1 := by
            have hb : (p.1 == q.1) = false := by simpa using hne
            simp [subst, Sig.names, List.lookup_cons, hb]
          rw [this]; exact ih hn'.2 p hp
    exact key _ _ h.exact (by unfold WFSig at hw; rwa [List.append_nil] at hw) p hp
  · intro x hx y hy e
    exact hinj x (by simpa using hx) y (by simpa using hy) e

end
end Model

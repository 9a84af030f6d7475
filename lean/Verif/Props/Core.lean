import Verif.Lemmas.Lift
import Verif.Lemmas.SamSafe
import Verif.Props.World

/-! C14-C20, C45: matcher, vocabularies, snapshots, effects of a transition, action vocabulary. -/
namespace Props
open Model Spec

section matcher
variable {consts sig : Sig} {call : List String} {g l : Lit}

/-- **C14.** Lifting is exact: the matches of a ground literal are the lifted literals over parameters
and constants, without a repeated argument, that ground back to it under the call. Repeated objects in
the call are allowed. -/
theorem C14_matches_exact (hw : WFSig consts sig) (hlen : call.length = sig.length) (hg : g.args.Nodup) :
    l ∈ matchLits consts sig call none g ↔
      ground (subst (Sig.names sig) call) l = g ∧ l.args.Nodup ∧
        ∀ x ∈ l.args, x ∈ Sig.names sig ∨ x ∈ Sig.names consts :=
  mem_matchLits hw.params hw.disj hlen (hg.filter _)

/-- C14: the list of matches has no repetition. -/
theorem C14_matches_nodup (hw : WFSig consts sig) (hlen : call.length = sig.length) (hg : g.args.Nodup) :
    (matchLits consts sig call none g).Nodup := matchLits_nodup hw.params hw.disj hlen (hg.filter _)

/-- C14, with an additional quantified variable `e.2` standing for the object `e.1` (universal
effects): exact as well, constants are then not considered. -/
theorem C14_matches_exact_extra {e : String × String} (hw : (Sig.names sig ++ [e.2]).Nodup) (hlen : call.length = sig.length) :
    l ∈ matchLits consts sig call (some e) g ↔
      ground (subst (Sig.names sig ++ [e.2]) (call ++ [e.1])) l = g ∧ l.args.Nodup ∧
        ∀ x ∈ l.args, x ∈ Sig.names sig ∨ x = e.2 := by
  have hs : Sig.names (sig ++ [(e.2, (⟨"object", []⟩ : PType))]) = Sig.names sig ++ [e.2] := by simp [Sig.names]
  have key := mem_matchLits (consts := []) (sig := sig ++ [(e.2, (⟨"object", []⟩ : PType))]) (call := call ++ [e.1]) (g := g) (l := l)
    (by rw [hs]; exact hw) (by simp [Sig.names]) (by simp [hlen]) (by simp [Sig.names])
  have heq : matchLits consts sig call (some e) g =
      matchLits [] (sig ++ [(e.2, (⟨"object", []⟩ : PType))]) (call ++ [e.1]) none g := by
    unfold matchLits; simp [Sig.names]
  rw [heq, key, hs]
  simp [Sig.names]

theorem map_inj_on {f : String → String} {xs ys : List String} (e : xs.map f = ys.map f)
    (h : ∀ x ∈ xs, ∀ y ∈ ys, f x = f y → x = y) : xs = ys := by
  induction xs generalizing ys with
  | nil => cases ys with
    | nil => rfl
    | cons => simp at e
  | cons x xs ih => cases ys with
    | nil => simp at e
    | cons y ys =>
      simp only [List.map_cons, List.cons.injEq] at e
      rw [h x (by simp) y (by simp) e.1, ih e.2 fun a ha b hb => h a (by simp [ha]) b (by simp [hb])]

/-- **C15.** For a call without repeated objects and without constants among them, a ground literal over
objects of the call (and constants) has exactly one lifted match and `get_injective_match` returns it. -/
theorem C15_injective_match (hw : WFSig consts sig) (hc : GoodCall consts sig call) (hg : g.args.Nodup)
    (hin : ∀ o ∈ g.args, o ∈ call ∨ o ∈ Sig.names consts) :
    ∃ l, injectiveMatch consts sig call g = some l ∧ matchLits consts sig call none g = [l] ∧
      ground (subst (Sig.names sig) call) l = g ∧
      (∀ x ∈ l.args, x ∈ Sig.names sig ∨ x ∈ Sig.names consts) := by
  have hlen : call.length = (Sig.names sig).length := by simp [hc.len]
  -- a preimage
  have hpre : ∀ o ∈ g.args, ∃ x, (x ∈ Sig.names sig ∨ x ∈ Sig.names consts) ∧ subst (Sig.names sig) call x = o := by
    intro o ho
    rcases hin o ho with h | h
    · obtain ⟨x, hx, e⟩ := exists_param hw.params hlen h
      exact ⟨x, Or.inl hx, e⟩
    · exact ⟨o, Or.inr h, bind_of_not_mem (fun hs => hw.disj o hs h)⟩
  have hex : ∃ args : List String, args.map (subst (Sig.names sig) call) = g.args ∧
      ∀ x ∈ args, x ∈ Sig.names sig ∨ x ∈ Sig.names consts := by
    clear hin hg
    generalize g.args = os at hpre
    induction os with
    | nil => exact ⟨[], rfl, by simp⟩
    | cons o os ih =>
      obtain ⟨x, hx, e⟩ := hpre o (by simp)
      obtain ⟨xs, h1, h2⟩ := ih (fun o ho => hpre o (by simp [ho]))
      refine ⟨x :: xs, by simp [e, h1], ?_⟩
      intro y hy; rcases List.mem_cons.mp hy with rfl | hy
      · exact hx
      · exact h2 y hy
  obtain ⟨args, ha, hsub⟩ := hex
  have hm : (⟨g.name, args, g.pos⟩ : Lit) ∈ matchLits consts sig call none g := by
    rw [C14_matches_exact hw hc.len hg]
    refine ⟨?_, ?_, hsub⟩
    · unfold ground; simp only [ha]
    · exact List.Nodup.of_map (subst (Sig.names sig) call) (by rw [ha]; exact hg)
  have huniq : ∀ m ∈ matchLits consts sig call none g, m = ⟨g.name, args, g.pos⟩ := by
    intro m hm'
    rw [C14_matches_exact hw hc.len hg] at hm'
    obtain ⟨h1, _, h3⟩ := hm'
    have e1 : m.name = g.name := by rw [← h1]; rfl
    have e2 : m.pos = g.pos := by rw [← h1]; rfl
    have e3 : m.args.map (subst (Sig.names sig) call) = g.args := by rw [← h1]; rfl
    have : m.args = args := by
      rw [← ha] at e3
      refine map_inj_on e3 ?_
      intro x hx y hy
      exact subst_injective hw hc x (by rw [names_append]; exact List.mem_append.mpr (h3 x hx)) y
        (by rw [names_append]; exact List.mem_append.mpr (hsub y hy))
    cases m; simp_all
  have hone : matchLits consts sig call none g = [⟨g.name, args, g.pos⟩] := by
    have hnd := C14_matches_nodup hw hc.len hg
    revert hm huniq hnd
    generalize matchLits consts sig call none g = ms
    intro hm huniq hnd
    cases ms with
    | nil => simp at hm
    | cons m ms =>
      have := huniq m (by simp); subst this
      cases ms with
      | nil => rfl
      | cons m' ms' =>
        have := huniq m' (by simp); subst this
        simp at hnd
  refine ⟨⟨g.name, args, g.pos⟩, by simp [injectiveMatch, hone], hone, ?_, hsub⟩
  unfold ground; simp only [ha]

/-- **C15, ambiguity.** For any call of the right length, even with repeated objects, an injective match
is returned exactly when there is one and only one lifted literal that the call grounds to the observed
one; in particular nothing is returned when several literals match. -/
theorem C15_returned_iff_unique (hw : WFSig consts sig) (hlen : call.length = sig.length) (hg : g.args.Nodup) {l : Lit} :
    injectiveMatch consts sig call g = some l ↔
      ∀ m : Lit, (ground (subst (Sig.names sig) call) m = g ∧ m.args.Nodup ∧
        ∀ x ∈ m.args, x ∈ Sig.names sig ∨ x ∈ Sig.names consts) ↔ m = l := by
  have hex := fun m => C14_matches_exact (l := m) hw hlen hg
  have hnd := C14_matches_nodup hw hlen hg
  unfold injectiveMatch
  constructor
  · intro h m
    split at h
    · rename_i l' he
      rw [← hex, he, List.mem_singleton]
      have hp : l'.pos = g.pos := by
        have := (hex l').mp (by rw [he]; simp)
        rw [← this.1]; rfl
      simp only [Option.some.injEq] at h
      have : l = l' := by rw [← h, ← hp]
      rw [this]
    · simp at h
  · intro h
    have hall : ∀ m, m ∈ matchLits consts sig call none g ↔ m = l := fun m => (hex m).trans (h m)
    have he : matchLits consts sig call none g = [l] := by
      have hl := (hall l).mpr rfl
      revert hall hnd hl
      generalize matchLits consts sig call none g = ms
      intro hnd hall hl
      cases ms with
      | nil => simp at hl
      | cons a as =>
        have ha := (hall a).mp (by simp)
        subst ha
        cases as with
        | nil => rfl
        | cons b bs =>
          have hb := (hall b).mp (by simp)
          subst hb; simp at hnd
    rw [he]
    have hp : l.pos = g.pos := by
      have := ((h l).mpr rfl).1
      rw [← this]; rfl
    simp only [Option.some.injEq]
    rw [← hp]

/-- With a repeated object nothing is returned although two literals match. -/
example : injectiveMatch [] [("?x", ⟨"t", []⟩), ("?y", ⟨"t", []⟩)] ["a", "a"] ⟨"p", ["a"], true⟩ = none := by decide

/-- C15: a literal that mentions an object outside the call and the constants has no match. -/
theorem C15_foreign_object (hw : WFSig consts sig) (hlen : call.length = sig.length) (hg : g.args.Nodup) {o : String}
    (ho : o ∈ g.args) (h1 : o ∉ call) (h2 : o ∉ Sig.names consts) :
    matchLits consts sig call none g = [] ∧ injectiveMatch consts sig call g = none := by
  have : matchLits consts sig call none g = [] := by
    rw [List.eq_nil_iff_forall_not_mem]
    intro m hm
    rw [C14_matches_exact hw hlen hg] at hm
    obtain ⟨e, _, hs⟩ := hm
    rw [← e] at ho
    obtain ⟨x, hx, rfl⟩ := List.mem_map.mp ho
    rcases hs x hx with k | k
    · exact h1 (bind_mem_call hw.params (by simp [hlen]) k)
    · rw [bind_of_not_mem (fun q => hw.disj x q k)] at h2; exact h2 k
  exact ⟨this, by simp [injectiveMatch, this]⟩

end matcher

/-- **C16.** The grounded vocabulary: exactly the well-typed atoms over distinct objects/constants. -/
theorem C16_grounded_vocabulary (D : Domain) (objs : Sig) (a : Atom) :
    a ∈ groundedVocab D objs ↔ a.args.Nodup ∧ ∃ pd ∈ D.preds, pd.name = a.name ∧
      List.Forall₂ (fun x (d : String × PType) => ∃ t, (x, t) ∈ objs ++ D.consts ∧ t.isSub d.2 = true) a.args pd.sig :=
  mem_groundedVocab

/-- **C17.** The lifted vocabulary: exactly the well-typed literals (both signs) over distinct
parameters and constants; with a mandatory parameter, those that mention it. -/
theorem C17_lifted_vocabulary (D : Domain) (sig : Sig) (hw : WFSig D.consts sig) (l : Lit) :
    (l ∈ liftedVocab D sig none ↔ TypedLit D.preds (sig ++ D.consts) l) ∧
    (∀ m : String, m ≠ "" → (l ∈ liftedVocab D sig (some m) ↔ TypedLit D.preds (sig ++ D.consts) l ∧ m ∈ l.args)) ∧
    (∀ must, l ∈ liftedVocab D sig must ↔ l.neg ∈ liftedVocab D sig must) := by
  refine ⟨?_, fun m hm => ?_, fun must => ?_⟩
  · rw [mem_liftedVocab hw]; simp [mustOk]
  · rw [mem_liftedVocab hw]; simp [mustOk, hm]
  · rw [mem_liftedVocab hw, mem_liftedVocab hw, typed_neg]; rfl

/-- **C18.** The snapshot is a complete, consistent valuation of the vocabulary and nothing else. -/
theorem C18_snapshot (D : Domain) (s : State) (objs : Sig) :
    (∀ a ∈ groundedVocab D objs,
      ((⟨a.name, a.args, true⟩ : Lit) ∈ stateSnapshot D s objs ↔ a ∈ s) ∧
      ((⟨a.name, a.args, false⟩ : Lit) ∈ stateSnapshot D s objs ↔ a ∉ s)) ∧
    ∀ g ∈ stateSnapshot D s objs, g.atom ∈ groundedVocab D objs ∧ g.neg ∉ stateSnapshot D s objs := by
  constructor
  · intro a ha
    have ht := (mem_groundedVocab.mp ha)
    simp only [mem_stateSnapshot, typedLit_iff, holds, Lit.atom]
    simp [ht]
  · intro g hg
    have h := mem_stateSnapshot.mp hg
    refine ⟨mem_groundedVocab.mpr (typedLit_iff.mp h.1), fun hn => ?_⟩
    exact holds_neg.mp (mem_stateSnapshot.mp hn).2 h.2

/-- **C19.** The effects extracted from two snapshots over one vocabulary: add effects are the atoms
that became true, delete effects those that became false (so they are disjoint and minimal), and
applying them to the previous state gives the next one on every vocabulary atom. -/
theorem C19_effects_explain (D : Domain) (prev next : State) (objs : Sig) :
    let e := extractEffects (stateSnapshot D prev objs) (stateSnapshot D next objs)
    (∀ g, g ∈ e.1 ↔ g.pos = true ∧ g.atom ∈ groundedVocab D objs ∧ g.atom ∈ next ∧ g.atom ∉ prev) ∧
    (∀ g, g ∈ e.2 ↔ g.pos = false ∧ g.atom ∈ groundedVocab D objs ∧ g.atom ∈ prev ∧ g.atom ∉ next) ∧
    (∀ a ∈ groundedVocab D objs, (a ∈ next ↔
      (⟨a.name, a.args, true⟩ : Lit) ∈ e.1 ∨ (a ∈ prev ∧ (⟨a.name, a.args, false⟩ : Lit) ∉ e.2))) := by
  have h1 : ∀ g, g ∈ (extractEffects (stateSnapshot D prev objs) (stateSnapshot D next objs)).1 ↔
      g.pos = true ∧ g.atom ∈ groundedVocab D objs ∧ g.atom ∈ next ∧ g.atom ∉ prev := by
    intro g
    simp only [extractEffects, Finset.mem_filter, Finset.mem_sdiff, mem_stateSnapshot, holds, mem_groundedVocab, typedLit_iff, Lit.atom]
    cases hp : g.pos <;> simp <;> tauto
  have h2 : ∀ g, g ∈ (extractEffects (stateSnapshot D prev objs) (stateSnapshot D next objs)).2 ↔
      g.pos = false ∧ g.atom ∈ groundedVocab D objs ∧ g.atom ∈ prev ∧ g.atom ∉ next := by
    intro g
    simp only [extractEffects, Finset.mem_filter, Finset.mem_sdiff, Finset.mem_image, mem_stateSnapshot, holds, mem_groundedVocab, typedLit_iff, Lit.atom]
    constructor
    · rintro ⟨x, ⟨⟨⟨ht, hx⟩, hn⟩, hp⟩, rfl⟩
      simp [hp] at hx hn ⊢
      exact ⟨ht, hx, hn ht⟩
    · rintro ⟨hp, ht, hpr, hne⟩
      refine ⟨g.neg, ?_, by simp⟩
      simp only [Lit.neg_name, Lit.neg_args, Lit.neg_pos, hp]
      simp [ht, hpr, hne]
  refine ⟨h1, h2, fun a ha => ?_⟩
  rw [h1, h2]
  have ea : ∀ b, (⟨a.name, a.args, b⟩ : Lit).atom = a := fun b => rfl
  simp only [ea, ha]
  by_cases hp : a ∈ prev <;> by_cases hn : a ∈ next <;> simp [hp, hn]

/-- C19: the literals reported as certainly not effects are the ones false after the transition. -/
theorem C19_not_effects (D : Domain) (next : State) (objs : Sig) (g : Lit) :
    g ∈ extractNotEffects (stateSnapshot D next objs) ↔ g.atom ∈ groundedVocab D objs ∧ ¬ holds next g := by
  simp only [extractNotEffects, Finset.mem_image, mem_stateSnapshot]
  constructor
  · rintro ⟨x, ⟨ht, hx⟩, rfl⟩
    exact ⟨mem_groundedVocab.mpr (typedLit_iff.mp (typed_neg.mpr ht)), fun k => holds_neg.mp k hx⟩
  · rintro ⟨ht, hx⟩
    refine ⟨g.neg, ⟨typed_neg.mpr (typedLit_iff.mpr (mem_groundedVocab.mp ht)), holds_neg.mpr hx⟩, by simp⟩

/-- **C20.** The grounded action vocabulary: exactly the type-correct calls (repetition allowed). -/
theorem C20_grounded_actions (D : Domain) (objs : Sig) (a : String) (args : List String) :
    (a, args) ∈ groundedActions D objs ↔ a ∈ D.names ∧
      List.Forall₂ (fun x (d : String × PType) => ∃ t, (x, t) ∈ objs ++ D.consts ∧ t.isSub d.2 = true) args (D.act a).sig := by
  unfold groundedActions
  simp only [List.mem_toFinset, List.mem_flatMap, List.mem_map, Py.mem_prod]
  constructor
  · rintro ⟨b, hb, opt, hopt, e⟩
    simp only [Prod.mk.injEq] at e
    obtain ⟨rfl, rfl⟩ := e
    refine ⟨hb, ?_⟩
    rw [List.forall₂_map_right_iff] at hopt
    unfold Sig.names
    rw [List.forall₂_map_left_iff]
    refine hopt.imp ?_
    intro x d hx
    simp only [List.mem_filter] at hx
    exact ⟨x.2, hx.1, hx.2⟩
  · rintro ⟨ha, hf⟩
    obtain ⟨perm, e, hmem, hp⟩ := forall₂_choose hf
    refine ⟨a, ha, perm, ?_, by rw [e]⟩
    rw [List.forall₂_map_right_iff]
    have : ∀ (ps ds : Sig), (∀ p ∈ ps, p ∈ objs ++ D.consts) →
        List.Forall₂ (fun (g d : String × PType) => g.2.isSub d.2 = true) ps ds →
        List.Forall₂ (fun a (c : String × PType) => a ∈ (objs ++ D.consts).filter fun o => o.2.isSub c.2) ps ds := by
      intro ps ds hm h
      induction h with
      | nil => exact .nil
      | @cons p d ps ds hx _ ih =>
        exact .cons (List.mem_filter.mpr ⟨hm p (by simp), hx⟩) (ih fun q hq => hm q (by simp [hq]))
    exact this _ _ hmem hp

/-- **C45.** Lifting a whole snapshot: for a call of distinct non-constant objects, the literals that the
learner attributes to the state before (or after) the call are exactly the well-typed lifted literals
true there; and the literals it takes for effects are exactly those that became true. -/
theorem C45_lifted_snapshot {D : Domain} {sig : Sig} {call : List String} (hw : WFSig D.consts sig)
    (hc : GoodCall D.consts sig call) (prev next : State) (l : Lit) :
    let objs := callObjects D sig call
    let ρ := subst (Sig.names sig) call
    let e := extractEffects (stateSnapshot D prev objs) (stateSnapshot D next objs)
    (l ∈ possibleMatches D.consts sig call (stateSnapshot D prev objs) ↔
      TypedLit D.preds (sig ++ D.consts) l ∧ holds prev (ground ρ l)) ∧
    (l ∈ possibleMatches D.consts sig call e.1 ∪ possibleMatches D.consts sig call e.2 ↔
      TypedLit D.preds (sig ++ D.consts) l ∧ holds next (ground ρ l) ∧ ¬ holds prev (ground ρ l)) := by
  exact ⟨mem_lift_snapshot hw hc, mem_lift_effects hw hc⟩

/-! #### Concrete cases -/

/-- C14/C15: a call, a literal with its unique lifting; with a repeated object there are two. -/
example : WFSig [] World.moveSig ∧ GoodCall [] World.moveSig ["b", "l1", "l2"] ∧
    matchLits [] World.moveSig ["b", "l1", "l2"] none ⟨"at", ["b", "l2"], true⟩ = [⟨"at", ["?o", "?y"], true⟩] ∧
    matchLits [] World.moveSig ["b", "l1", "l1"] none ⟨"at", ["b", "l1"], true⟩ =
      [⟨"at", ["?o", "?x"], true⟩, ⟨"at", ["?o", "?y"], true⟩] ∧
    matchLits [] World.moveSig ["b", "l1", "l2"] (some ("l9", "?z")) ⟨"at", ["b", "l9"], true⟩ = [⟨"at", ["?o", "?z"], true⟩] ∧
    injectiveMatch [] World.moveSig ["b", "l1", "l2"] ⟨"at", ["b", "l9"], true⟩ = none :=
  ⟨by decide, ⟨by decide, by decide, by decide⟩, by decide, by decide, by decide, by decide⟩

/-- C16-C20: the vocabularies of the world are not empty and not everything. -/
example : (⟨"at", ["b", "l1"]⟩ : Atom) ∈ groundedVocab World.D [("b", World.tObj), ("l1", World.tLoc)] ∧
    (⟨"at", ["l1", "b"]⟩ : Atom) ∉ groundedVocab World.D [("b", World.tObj), ("l1", World.tLoc)] ∧
    (⟨"painted", ["?o"], false⟩ : Lit) ∈ liftedVocab World.D World.paintSig (some "?o") ∧
    (⟨"power", [], false⟩ : Lit) ∉ liftedVocab World.D World.paintSig (some "?o") ∧
    (⟨"painted", ["b"], false⟩ : Lit) ∈ stateSnapshot World.D World.s0 [("b", World.tObj)] ∧
    ("move", ["b", "l1", "l1"]) ∈ groundedActions World.D [("b", World.tObj), ("l1", World.tLoc)] ∧
    ("move", ["l1", "l1", "l1"]) ∉ groundedActions World.D [("b", World.tObj), ("l1", World.tLoc)] := by
  decide +kernel

end Props

import Verif.Lemmas.MaShape
import Verif.Props.Macro
import Verif.Spec.MacroAct

namespace Model
open Spec

/-! ### Loops that may fail -/

theorem mapM_ok {α β : Type} {f : α → Except Err β} : ∀ {l : List α} {r : List β}, l.mapM f = .ok r →
    (∀ y ∈ r, ∃ x ∈ l, f x = .ok y) ∧ ∀ x ∈ l, ∃ y ∈ r, f x = .ok y := by
  intro l
  induction l with
  | nil =>
    intro r h
    simp only [List.mapM_nil, Pure.pure, Except.pure, Except.ok.injEq] at h
    subst h; simp
  | cons a l ih =>
    intro r h
    rw [List.mapM_cons] at h
    simp only [Bind.bind, Except.bind] at h
    split at h
    · simp at h
    · rename_i y hy
      split at h
      · simp at h
      · rename_i ys hys
        simp only [Pure.pure, Except.pure, Except.ok.injEq] at h
        subst h
        obtain ⟨i1, i2⟩ := ih hys
        refine ⟨fun z hz => ?_, fun z hz => ?_⟩
        · rcases List.mem_cons.mp hz with rfl | hz
          · exact ⟨a, by simp, hy⟩
          · obtain ⟨x, hx, e⟩ := i1 z hz; exact ⟨x, by simp [hx], e⟩
        · rcases List.mem_cons.mp hz with rfl | hz
          · exact ⟨y, by simp, hy⟩
          · obtain ⟨w, hw, e⟩ := i2 z hz; exact ⟨w, by simp [hw], e⟩

/-! ### Adapted literals -/

theorem mapM_boundTo {m : Binding} {a : String} : ∀ {xs ys : List String}, (xs.mapM fun x => match m.lookup (a, x) with
      | none => Except.error Err.keyError
      | some y => .ok y) = .ok ys → ys = xs.map (boundTo m a) := by
  intro xs
  induction xs with
  | nil =>
    intro ys h
    simp only [List.mapM_nil, Pure.pure, Except.pure, Except.ok.injEq] at h
    rw [← h]; rfl
  | cons x xs ih =>
    intro ys h
    rw [List.mapM_cons] at h
    cases hl : m.lookup (a, x) with
    | none => simp [hl, Bind.bind, Except.bind] at h
    | some y =>
      simp only [hl, Bind.bind, Except.bind] at h
      split at h
      · simp at h
      · rename_i ys' hys
        simp only [Pure.pure, Except.pure, Except.ok.injEq] at h
        rw [← h, List.map_cons, ih hys]
        simp [boundTo, hl]

theorem adaptLit_ok {m : Binding} {a : String} {l l' : Lit} (h : adaptLit m a l = .ok l') (hn : (l.args.map (boundTo m a)).Nodup) :
    l' = { l with args := l.args.map (boundTo m a) } := by
  unfold adaptLit at h
  simp only [Bind.bind, Except.bind] at h
  split at h
  · simp at h
  · rename_i args hargs
    simp only [Except.ok.injEq] at h
    have e := mapM_boundTo hargs
    subst e
    rw [← h, Py.dictOf_of_nodup (by rw [List.map_map]; simpa [Function.comp_def] using hn), List.map_map]
    congr 1
    simp [Function.comp_def]

theorem adapt_ground {m : Binding} {a : String} {l l' : Lit} {σ : String → String} (h : adaptLit m a l = .ok l')
    (hl : l.args.Nodup) (hinj : ∀ x ∈ l.args, ∀ y ∈ l.args, partSubst m σ a x = partSubst m σ a y → x = y) :
    l' = { l with args := l.args.map (boundTo m a) } ∧ ground σ l' = ground (partSubst m σ a) l := by
  have hn : (l.args.map (boundTo m a)).Nodup :=
    List.Nodup.map_on (fun x hx y hy e => hinj x hx y hy (by unfold partSubst; rw [e])) hl
  have e := adaptLit_ok h hn
  refine ⟨e, ?_⟩
  rw [e]
  unfold ground partSubst
  rw [List.map_map]
  rfl

/-! ### Groups of a clause -/

theorem addToGroups_spec {a : String} : ∀ {xs : List String} {gs gs' : List (List (String × String))}, addToGroups a xs gs = .ok gs' →
    gs'.length = gs.length ∧ ∀ (i : Nat) g, gs[i]? = some g → ∃ g', gs'[i]? = some g' ∧ (∀ p ∈ g, p ∈ g') ∧
      (∀ x, xs[i]? = some x → (a, x) ∈ g') ∧ ∀ p ∈ g', p ∈ g ∨ ∃ x ∈ xs, p = (a, x) := by
  intro xs
  induction xs with
  | nil =>
    intro gs gs' h
    simp only [addToGroups, Except.ok.injEq] at h
    subst h
    exact ⟨rfl, fun i g hg => ⟨g, hg, fun _ hp => hp, by simp, fun p hp => Or.inl hp⟩⟩
  | cons x xs ih =>
    intro gs gs' h
    cases gs with
    | nil => simp [addToGroups] at h
    | cons g0 gs =>
      simp only [addToGroups, Bind.bind, Except.bind] at h
      split at h
      · simp at h
      · rename_i rest hr
        simp only [Except.ok.injEq] at h
        subst h
        obtain ⟨i1, i2⟩ := ih hr
        refine ⟨by simp [i1], fun i g hg => ?_⟩
        cases i with
        | zero =>
          simp only [List.getElem?_cons_zero, Option.some.injEq] at hg
          subst hg
          refine ⟨_, rfl, ?_, ?_, ?_⟩
          · intro p hp; split
            · exact hp
            · simp [hp]
          · intro y hy
            simp only [List.getElem?_cons_zero, Option.some.injEq] at hy
            subst hy
            split
            · assumption
            · simp
          · intro p hp
            split at hp
            · exact Or.inl hp
            · rcases List.mem_append.mp hp with hp | hp
              · exact Or.inl hp
              · exact Or.inr ⟨x, by simp, List.mem_singleton.mp hp⟩
        | succ i =>
          simp only [List.getElem?_cons_succ] at hg ⊢
          obtain ⟨g', e1, e2, e3, e4⟩ := i2 i g hg
          refine ⟨g', e1, e2, e3, fun p hp => ?_⟩
          rcases e4 p hp with h | ⟨y, hy, e⟩
          · exact Or.inl h
          · exact Or.inr ⟨y, by simp [hy], e⟩

theorem groupFold_spec : ∀ {cl : List (String × Lit)} {gs gs' : List (List (String × String))},
    cl.foldlM (fun gs q => addToGroups q.1 (q.2.args.filterMap wordParam) gs) gs = .ok gs' →
    gs'.length = gs.length ∧ ∀ (i : Nat) g, gs[i]? = some g → ∃ g', gs'[i]? = some g' ∧ (∀ p ∈ g, p ∈ g') ∧
      (∀ q ∈ cl, ∀ x, (q.2.args.filterMap wordParam)[i]? = some x → (q.1, x) ∈ g') ∧
      ∀ p ∈ g', p ∈ g ∨ ∃ q ∈ cl, ∃ x ∈ q.2.args.filterMap wordParam, p = (q.1, x) := by
  intro cl
  induction cl with
  | nil =>
    intro gs gs' h
    simp only [List.foldlM_nil, Pure.pure, Except.pure, Except.ok.injEq] at h
    subst h
    exact ⟨rfl, fun i g hg => ⟨g, hg, fun _ hp => hp, by simp, fun p hp => Or.inl hp⟩⟩
  | cons q cl ih =>
    intro gs gs' h
    rw [List.foldlM_cons] at h
    simp only [Bind.bind, Except.bind] at h
    split at h
    · simp at h
    · rename_i g1 hg1
      obtain ⟨a1, a2⟩ := addToGroups_spec hg1
      obtain ⟨i1, i2⟩ := ih h
      refine ⟨i1.trans a1, fun i g hg => ?_⟩
      obtain ⟨g', b1, b2, b3, b4⟩ := a2 i g hg
      obtain ⟨g'', c1, c2, c3, c4⟩ := i2 i g' b1
      refine ⟨g'', c1, fun p hp => c2 p (b2 p hp), ?_, ?_⟩
      · intro q' hq' x hx
        rcases List.mem_cons.mp hq' with rfl | hq'
        · exact c2 _ (b3 x hx)
        · exact c3 q' hq' x hx
      · intro p hp
        rcases c4 p hp with h | ⟨q', hq', e⟩
        · rcases b4 p h with h | ⟨x, hx, e⟩
          · exact Or.inl h
          · exact Or.inr ⟨q, by simp, x, hx, e⟩
        · exact Or.inr ⟨q', by simp [hq'], e⟩

/-- A list of arguments whose names the regular expression finds in full. -/
theorem filterMap_word {xs : List String} (h : ∀ x ∈ xs, wordParam x = some x) : xs.filterMap wordParam = xs := by
  induction xs with
  | nil => rfl
  | cons x xs ih =>
    rw [List.filterMap_cons, h x (by simp), ih fun y hy => h y (by simp [hy])]

theorem groupParams_spec {cl : List (String × Lit)} {gs : List (List (String × String))} (h : groupParams cl = .ok gs)
    (hw : ∀ p ∈ cl, ∀ x ∈ p.2.args, wordParam x = some x) (hlen : ∀ p ∈ cl, ∀ q ∈ cl, p.2.args.length = q.2.args.length) :
    (∀ p ∈ cl, ∀ q ∈ cl, ∀ (i : Nat) x y, p.2.args[i]? = some x → q.2.args[i]? = some y → ∃ g ∈ gs, (p.1, x) ∈ g ∧ (q.1, y) ∈ g) ∧
    ∀ g ∈ gs, ∀ p ∈ g, ∃ q ∈ cl, ∃ x ∈ q.2.args, p = (q.1, x) := by
  unfold groupParams at h
  cases cl with
  | nil => simp at h
  | cons p0 cl =>
    dsimp only at h
    obtain ⟨h1, h2⟩ := groupFold_spec h
    rw [List.length_replicate, filterMap_word (hw p0 (by simp))] at h1
    rw [filterMap_word (hw p0 (by simp))] at h2
    have hget : ∀ i, i < p0.2.args.length → (List.replicate p0.2.args.length ([] : List (String × String)))[i]? = some [] := by
      intro i hi; simp [List.getElem?_replicate, hi]
    refine ⟨?_, ?_⟩
    · intro p hp q hq i x y hx hy
      have hi : i < p0.2.args.length := by
        rw [hlen p0 (by simp) p hp]
        by_contra hc
        rw [List.getElem?_eq_none (by omega)] at hx
        simp at hx
      obtain ⟨g, e1, _, e3, _⟩ := h2 i [] (hget i hi)
      refine ⟨g, List.mem_of_getElem? e1, e3 p hp x ?_, e3 q hq y ?_⟩
      · rw [filterMap_word (hw p hp)]; exact hx
      · rw [filterMap_word (hw q hq)]; exact hy
    · intro g hg p hp
      obtain ⟨i, hi, rfl⟩ := List.getElem_of_mem hg
      obtain ⟨g', e1, _, _, e4⟩ := h2 i [] (hget i (by omega))
      rw [List.getElem?_eq_getElem hi, Option.some.injEq] at e1
      subst e1
      rcases e4 p hp with h | ⟨q, hq, x, hx, e⟩
      · simp at h
      · rw [filterMap_word (hw q hq)] at hx
        exact ⟨q, hq, x, hx, e⟩

/-! ### The learner before macros are built -/

section
variable {D : Domain} {truth : String → Schema} {L K : MaLearner}

/-- What is known of the learner when the macros are built. -/
structure KeepFacts (D : Domain) (truth : String → Schema) (K : MaLearner) : Prop where
  static : SameStatic D K.base.dom
  cnfOk : ∀ k, CnfOk (TrueEff truth) (K.cnf k)
  shape : Shape D K
  preShape : PreShape D K
  pre : ∀ a ∈ D.names, (truth a).pre ⊆ (K.base.dom.act a).pre
  cover : ∀ a ∈ D.names, ∀ e ∈ (truth a).eff, e ∈ (K.base.dom.act a).pre ∨ ∃ c ∈ (K.cnf (keyOf e)).clauses, (a, e) ∈ c
  uns : ∀ a ∈ K.unsafeActs, a ∈ D.names

theorem keepFacts (hD : WFDomain D) (hT : WFTruth D truth) (hI : MaInv D truth L) (hs : Shape D L) (hp : PreShape D L)
    (hu : L.unsafeActs = []) : KeepFacts D truth L.constructKeep := by
  unfold MaLearner.constructKeep
  simp only
  have hn : L.base.dom.names.Nodup := by rw [hI.static.names]; exact hD.names
  obtain ⟨u1, u2, u3, _, _, _⟩ := unobserved_spec hn
  have hn2 : L.base.handleUnobserved.dom.names.Nodup := by rw [u1.names]; exact hn
  obtain ⟨c1, c2, c3, _, c5, _, c7, _⟩ := constructFold L.base.handleUnobserved.dom.names hn2
    { L with base := L.base.handleUnobserved }
  simp only at c1 c2 c3 c5 c7
  generalize L.base.handleUnobserved.dom.names.foldl MaLearner.constructOne { L with base := L.base.handleUnobserved } = K at *
  have hpre : ∀ a, (K.base.dom.act a).pre = (L.base.dom.act a).pre ∪
      (if a ∈ L.base.dom.names ∧ a ∉ L.base.observed then liftedVocab D (D.act a).sig else ∅) := by
    intro a; rw [c5, (u2 a).2.2, liftedVocab_static hI.static, hI.static.sig]
  have hvoc : ∀ a ∈ D.names, a ∉ L.base.observed → ∀ l, TypedLit D.preds ((D.act a).sig ++ D.consts) l → l ∈ (K.base.dom.act a).pre := by
    intro a ha hao l hl
    rw [hpre, if_pos ⟨by rw [hI.static.names]; exact ha, hao⟩]
    exact Finset.mem_union_right _ ((liftedVocab_typed (hD.sigs a ha)).mpr hl)
  constructor
  · exact hI.static.trans (u1.trans c1)
  · rw [c2]; exact hI.cnfOk
  · intro k; rw [c2]; exact hs k
  · intro a ha l hl
    rw [hpre] at hl
    rcases Finset.mem_union.mp hl with hl | hl
    · exact hp a ha l hl
    · split at hl
      · exact (liftedVocab_typed (hD.sigs a ha)).mp hl
      · simp at hl
  · intro a ha l hl
    by_cases hao : a ∈ L.base.observed
    · rw [hpre]; exact Finset.mem_union_left _ (hI.preComplete a hao hl)
    · exact hvoc a ha hao l (hT.params a ha ▸ (hT.wf a ha).pre l hl)
  · intro a ha e he
    by_cases hao : a ∈ L.base.observed
    · rw [hpre, c2]
      rcases hI.cover a hao e he with h | h
      · exact Or.inl (Finset.mem_union_left _ h)
      · exact Or.inr h
    · exact Or.inl (hvoc a ha hao e (hT.params a ha ▸ (hT.wf a ha).eff e he))
  · intro a ha
    rw [c7, hu] at ha
    rcases ha with ha | ha
    · simp at ha
    · rw [u1.names, hI.static.names] at ha; exact ha.1

/-! ### One macro -/

theorem mem_cnfs {F : Cnf} : F ∈ K.cnfs ↔ ∃ pd ∈ K.base.dom.preds, ∃ b, F = K.cnf (pd.name, b) := by
  unfold MaLearner.cnfs
  simp only [List.mem_flatMap, List.map_cons, List.map_nil, List.mem_cons, List.not_mem_nil, or_false, Bool.exists_bool]
  constructor
  · rintro ⟨pd, h, e | e⟩
    · exact ⟨pd, h, Or.inr e⟩
    · exact ⟨pd, h, Or.inl e⟩
  · rintro ⟨pd, h, e | e⟩
    · exact ⟨pd, h, Or.inr e⟩
    · exact ⟨pd, h, Or.inl e⟩

theorem macroEffects_spec {F : Cnf} {acts : List String} {pres : Finset Lit} {groups : List (Finset (String × String))}
    {r : List (String × Lit)} (h : F.macroEffects acts pres groups = .ok r) (p : String × Lit) :
    p ∈ r ↔ ∃ c ∈ F.clauses, clauseConsistent c acts groups = .ok true ∧ p ∈ c ∧ p.2 ∉ pres := by
  unfold Cnf.macroEffects at h
  simp only [Bind.bind, Except.bind] at h
  split at h
  · simp at h
  · rename_i l hl
    simp only [Except.ok.injEq] at h
    subst h
    obtain ⟨m1, m2⟩ := mapM_ok hl
    constructor
    · intro hp
      obtain ⟨x, hx, hpx⟩ := List.mem_flatten.mp hp
      obtain ⟨c, hc, e⟩ := m1 x hx
      split at e
      · simp at e
      · rename_i b hb
        simp only [Except.ok.injEq] at e
        subst e
        cases b with
        | false => simp at hpx
        | true =>
          simp only [if_true, List.mem_filter, decide_eq_true_eq] at hpx
          exact ⟨c, hc, hb, hpx.1, hpx.2⟩
    · rintro ⟨c, hc, hb, hp, hpp⟩
      obtain ⟨x, hx, e⟩ := m2 c hc
      simp only [hb, if_true, Except.ok.injEq] at e
      subst e
      exact List.mem_flatten.mpr ⟨_, hx, List.mem_filter.mpr ⟨hp, by simpa using hpp⟩⟩

theorem macroPreconditions_spec {F : Cnf} {acts : List String} {groups : List (Finset (String × String))}
    {r : List (String × Lit)} (h : F.macroPreconditions acts groups = .ok r) :
    (∀ p ∈ r, ∃ c ∈ F.clauses, p ∈ c) ∧
    ∀ c ∈ F.clauses, clauseConsistent c acts groups = .ok true ∨ ∀ p ∈ c, p.1 ∈ acts → p ∈ r := by
  unfold Cnf.macroPreconditions at h
  simp only [Bind.bind, Except.bind] at h
  split at h
  · simp at h
  · rename_i l hl
    simp only [Except.ok.injEq] at h
    subst h
    obtain ⟨m1, m2⟩ := mapM_ok hl
    refine ⟨fun p hp => ?_, fun c hc => ?_⟩
    · obtain ⟨x, hx, hpx⟩ := List.mem_flatten.mp hp
      obtain ⟨c, hc, e⟩ := m1 x hx
      split at e
      · simp at e
      · rename_i b hb
        simp only [Except.ok.injEq] at e
        subst e
        cases b with
        | true => simp at hpx
        | false =>
          simp only [Bool.false_eq_true, if_false, List.mem_filter] at hpx
          exact ⟨c, hc, hpx.1⟩
    · obtain ⟨x, hx, e⟩ := m2 c hc
      split at e
      · simp at e
      · rename_i b hb
        simp only [Except.ok.injEq] at e
        subst e
        cases b with
        | true => exact Or.inl hb
        | false =>
          right
          intro p hp hpa
          refine List.mem_flatten.mpr ⟨_, hx, ?_⟩
          simp only [Bool.false_eq_true, if_false, List.mem_filter, List.contains_iff_mem]
          exact ⟨hp, hpa⟩

theorem clauseConsistent_spec {c : List (String × Lit)} {acts : List String} {groups : List (Finset (String × String))}
    (h : clauseConsistent c acts groups = .ok true) :
    (∀ p ∈ c, p.1 ∈ acts) ∧ ∃ gs, groupParams c = .ok gs ∧ ∀ g ∈ gs, ∃ G ∈ groups, ∀ x ∈ g, x ∈ G := by
  unfold clauseConsistent at h
  split at h
  · simp at h
  · rename_i hall
    simp only [Bind.bind, Except.bind] at h
    split at h
    · simp at h
    · rename_i gs hgs
      simp only [Except.ok.injEq] at h
      refine ⟨?_, gs, hgs, ?_⟩
      · simpa using hall
      · simpa using h

/-- In a consistent clause all pairs stand for one literal of the macro. -/
theorem consistent_same {acts : List String} {c : List (String × Lit)} {k : String × Bool} {groups : List (Finset (String × String))}
    {gord : Finset (String × String) → List (String × String)} {micro : List MicroAct}
    (hgord : ∀ s x, x ∈ gord s ↔ x ∈ s) (hdisj : groups.Pairwise Disjoint)
    (hsh : ClauseShape D k c) (hw : ∀ a ∈ acts, ∀ x ∈ Sig.names (D.act a).sig, wordParam x = some x)
    (hcon : clauseConsistent c acts groups = .ok true) {p q : String × Lit} (hp : p ∈ c) (hq : q ∈ c) :
    p.2.args.map (boundTo (macroMapping (groups.map gord) micro) p.1) = q.2.args.map (boundTo (macroMapping (groups.map gord) micro) q.1) := by
  obtain ⟨h1, gs, h2, h3⟩ := clauseConsistent_spec hcon
  obtain ⟨h4, h5⟩ := groupParams_spec h2 (fun r hr x hx => hw _ (h1 r hr) x (hsh.args r hr x hx)) hsh.len
  have hd : (groups.map gord).Pairwise fun a b => ∀ x ∈ a, x ∉ b := by
    rw [List.pairwise_map]
    refine hdisj.imp fun {a b} hab x hx hx' => ?_
    rw [hgord] at hx hx'
    exact Finset.disjoint_left.mp hab hx hx'
  have hlen := hsh.len p hp q hq
  apply List.ext_getElem
  · simpa using hlen
  · intro i hi1 hi2
    simp only [List.length_map] at hi1 hi2
    simp only [List.getElem_map]
    obtain ⟨g, hg, m1, m2⟩ := h4 p hp q hq i _ _ (List.getElem?_eq_getElem hi1) (List.getElem?_eq_getElem hi2)
    obtain ⟨G, hG, hsub⟩ := h3 g hg
    have hG' : gord G ∈ groups.map gord := List.mem_map_of_mem hG
    have e := mapping_group (acts := micro) hd hG' ((hgord G _).mpr (hsub _ m1)) ((hgord G _).mpr (hsub _ m2))
    obtain ⟨w1, _, _⟩ := macroMapping_spec (groups.map gord) (initialBinding micro) hd
    unfold boundTo
    rw [e]
    cases hlk : (macroMapping (groups.map gord) micro).lookup (q.1, q.2.args[i]) with
    | some z => rfl
    | none =>
      -- not in the mapping: the group has one element
      rw [hlk] at e
      by_cases hl : (gord G).length > 1
      · have := w1 (gord G) hG' hl _ ((hgord G _).mpr (hsub _ m1))
        unfold macroMapping at e
        rw [this] at e; simp at e
      · have hm1 := (hgord G _).mpr (hsub _ m1)
        have hm2 := (hgord G _).mpr (hsub _ m2)
        match hgG : gord G, hm1, hm2, hl with
        | [y], hm1, hm2, _ =>
          rw [List.mem_singleton] at hm1 hm2
          have := hm1.trans hm2.symm
          simp only [Prod.mk.injEq] at this
          simpa using this.2
        | _ :: _ :: _, _, _, hl => simp at hl

theorem buildMacro_safe {ord : Finset Lit → List Lit} {gord : Finset (String × String) → List (String × String)}
    {uuid : String} {others acts : List String} {M : MacroAct} (hT : WFTruth D truth) (hc0 : D.consts = [])
    (hK : KeepFacts D truth K) (hgord : ∀ s x, x ∈ gord s ↔ x ∈ s) (ho : GoodOrd ord) (hacts : ∀ a ∈ acts, a ∈ D.names)
    (hw : ∀ a ∈ acts, ∀ x ∈ Sig.names (D.act a).sig, wordParam x = some x)
    (h : K.buildMacro ord gord uuid others acts = .ok M)
    (σ : String → String) (s : State)
    (hinj : ∀ a ∈ acts, ∀ x ∈ Sig.names (D.act a).sig, ∀ y ∈ Sig.names (D.act a).sig,
      partSubst M.binding σ a x = partSubst M.binding σ a y → x = y)
    (happ : applicable M.model.pre σ s) :
    (∀ a ∈ acts, applicable (truth a).pre (partSubst M.binding σ a) s) ∧
    M.model.eff.image (ground σ) ⊆ jointEffects truth acts (partSubst M.binding σ) ∧
    ((∀ a ∈ acts, ∀ b ∈ acts, ∀ e ∈ (truth a).eff, e ∈ (K.base.dom.act b).pre → e ∈ (K.base.dom.act a).pre) →
      ∀ g ∈ jointEffects truth acts (partSubst M.binding σ), g ∉ M.model.eff.image (ground σ) → holds s g) := by
  unfold MaLearner.buildMacro at h
  simp only [Bind.bind, Except.bind] at h
  split at h
  · simp at h
  rename_i groups hgroups
  split at h
  · simp at h
  rename_i pre hpre
  split at h
  · simp at h
  rename_i eff heff
  simp only [Except.ok.injEq] at h
  subst h
  -- the groups are disjoint
  have hdisj : groups.Pairwise Disjoint := by
    unfold MaLearner.paramGrouping at hgroups
    simp only [Bind.bind, Except.bind] at hgroups
    split at hgroups
    · simp at hgroups
    · rename_i gs _
      obtain ⟨k1, k2⟩ := Props.C38_components gs.flatten
      by_cases hmem : ([] : List (String × String)) ∈ gs.flatten
      · rw [k1 hmem] at hgroups; simp at hgroups
      · obtain ⟨cs, e, d, _⟩ := k2 hmem
        rw [e, Except.ok.injEq] at hgroups
        subst hgroups; exact d
  dsimp only at hinj happ ⊢
  generalize hm : macroMapping (groups.map gord) (acts.map fun a => (a, (K.base.dom.act a).sig)) = m at *
  -- preconditions of the macro
  unfold MaLearner.macroPre at hpre
  simp only [Bind.bind, Except.bind] at hpre
  split at hpre
  · simp at hpre
  rename_i l1 hl1
  split at hpre
  · simp at hpre
  rename_i lits hlits
  split at hpre
  · simp at hpre
  rename_i own hown
  simp only [Except.ok.injEq] at hpre
  subst hpre
  unfold MaLearner.macroEff at heff
  simp only [Bind.bind, Except.bind] at heff
  split at heff
  · simp at heff
  rename_i l2 hl2
  split at heff
  · simp at heff
  rename_i elits helits
  simp only [Except.ok.injEq] at heff
  subst heff
  -- literals over the parameters of an action of the macro
  have hgr : ∀ a ∈ acts, ∀ l l' : Lit, l.args.Nodup → (∀ x ∈ l.args, x ∈ Sig.names (D.act a).sig) → adaptLit m a l = .ok l' →
      l' = { l with args := l.args.map (boundTo m a) } ∧ ground σ l' = ground (partSubst m σ a) l := by
    intro a ha l l' hn hsub hl
    exact adapt_ground hl hn fun x hx y hy => hinj a ha x (hsub x hx) y (hsub y hy)
  have hPre : ∀ a ∈ acts, ∀ l ∈ (K.base.dom.act a).pre, holds s (ground (partSubst m σ a) l) := by
    intro a ha l hl
    have hty := hK.preShape a (hacts a ha) l hl
    have hsub := typed_sub hty
    rw [hc0, List.append_nil] at hsub
    obtain ⟨l', hl', e⟩ := (mapM_ok hown).2 (a, l) (List.mem_flatMap.mpr ⟨a, ha, List.mem_map_of_mem ((ho _ _).mpr hl)⟩)
    rw [← (hgr a ha l l' hty.nodup hsub e).2]
    exact happ l' (Finset.mem_union_right _ (List.mem_toFinset.mpr hl'))
  have hcnf : ∀ F ∈ K.cnfs, ∃ k, F = K.cnf k := by
    intro F hF
    obtain ⟨pd, _, b, e⟩ := mem_cnfs.mp hF
    exact ⟨_, e⟩
  refine ⟨?_, ?_, ?_⟩
  · intro a ha l hl
    exact hPre a ha l (hK.pre a (hacts a ha) hl)
  · intro g hg
    obtain ⟨l', hl', rfl⟩ := Finset.mem_image.mp hg
    obtain ⟨p, hp, e⟩ := (mapM_ok helits).1 l' (List.mem_toFinset.mp hl')
    obtain ⟨r, hr, hpr⟩ := List.mem_flatten.mp hp
    obtain ⟨F, hF, eF⟩ := (mapM_ok hl2).1 r hr
    obtain ⟨k, rfl⟩ := hcnf F hF
    obtain ⟨c, hc, hcon, hpc, _⟩ := (macroEffects_spec eF p).mp hpr
    have hsh := hK.shape k c hc
    have hin := (clauseConsistent_spec hcon).1
    obtain ⟨q, hq, hq2⟩ := (hK.cnfOk k).sound c hc (List.ne_nil_of_mem hpc)
    have hargs := consistent_same (micro := acts.map fun a => (a, (K.base.dom.act a).sig)) hgord hdisj hsh hw hcon hpc hq
    rw [hm] at hargs
    refine Finset.mem_biUnion.mpr ⟨q.1, List.mem_toFinset.mpr (hin q hq), Finset.mem_image.mpr ⟨q.2, hq2, ?_⟩⟩
    obtain ⟨e1, _⟩ := hgr p.1 (hin p hpc) p.2 l' (hsh.nodup p hpc) (hsh.args p hpc) e
    have hkey := (hsh.key p hpc).trans (hsh.key q hq).symm
    simp only [keyOf, Prod.mk.injEq] at hkey
    rw [e1]
    unfold ground partSubst
    simp only [Lit.mk.injEq]
    refine ⟨hkey.1.symm, ?_, hkey.2.symm⟩
    rw [hargs, List.map_map]; rfl
  · intro hclash g hg hng
    obtain ⟨a, ha, hga⟩ := Finset.mem_biUnion.mp hg
    rw [List.mem_toFinset] at ha
    obtain ⟨e, he, rfl⟩ := Finset.mem_image.mp hga
    rcases hK.cover a (hacts a ha) e he with h | ⟨c, hc, hmem⟩
    · exact hPre a ha e h
    · have hsh := hK.shape _ c hc
      obtain ⟨pd, hpd, hpn, _⟩ := ((hT.wf a (hacts a ha)).eff e he).decl
      have hF : K.cnf (keyOf e) ∈ K.cnfs := mem_cnfs.mpr ⟨pd, by rw [hK.static.preds]; exact hpd, e.pos, by rw [hpn]; rfl⟩
      obtain ⟨r, hr, eF⟩ := (mapM_ok hl1).2 _ hF
      rcases (macroPreconditions_spec eF).2 c hc with hcon | hall
      · by_cases hep : ∃ b ∈ acts, e ∈ (K.base.dom.act b).pre
        · obtain ⟨b, hb, heb⟩ := hep
          exact hPre a ha e (hclash a ha b hb e he heb)
        · exfalso
          apply hng
          obtain ⟨r2, hr2, eF2⟩ := (mapM_ok hl2).2 _ hF
          have hnp : e ∉ acts.foldr (fun a s => (K.base.dom.act a).pre ∪ s) ∅ := by
            intro hmem'
            apply hep
            clear * - hmem'
            induction acts with
            | nil => simp at hmem'
            | cons b bs ih =>
              rw [List.foldr_cons, Finset.mem_union] at hmem'
              rcases hmem' with h | h
              · exact ⟨b, by simp, h⟩
              · obtain ⟨b', hb', h'⟩ := ih h
                exact ⟨b', by simp [hb'], h'⟩
          have hin2 : (a, e) ∈ r2 := (macroEffects_spec eF2 (a, e)).mpr ⟨c, hc, hcon, hmem, hnp⟩
          obtain ⟨l', hl', e2⟩ := (mapM_ok helits).2 (a, e) (List.mem_flatten.mpr ⟨r2, hr2, hin2⟩)
          refine Finset.mem_image.mpr ⟨l', List.mem_toFinset.mpr hl', ?_⟩
          exact (hgr a ha e l' (hsh.nodup _ hmem) (hsh.args _ hmem) e2).2
      · obtain ⟨l', hl', e2⟩ := (mapM_ok hlits).2 (a, e) (List.mem_flatten.mpr ⟨r, hr, hall (a, e) hmem ha⟩)
        rw [← (hgr a ha e l' (hsh.nodup _ hmem) (hsh.args _ hmem) e2).2]
        exact happ l' (Finset.mem_union_left _ (List.mem_toFinset.mpr hl'))

/-! ### All macros -/

theorem foldr_union_sub {gs : List (Finset String)} {S : Finset String} (h : ∀ g ∈ gs, g ⊆ S) : gs.foldr (· ∪ ·) ∅ ⊆ S := by
  induction gs with
  | nil => simp
  | cons g gs ih =>
    rw [List.foldr_cons]
    exact Finset.union_subset (h g (by simp)) (ih fun g' hg' => h g' (by simp [hg']))

theorem actionGroups_sub {g : Finset String} (h : g ∈ K.actionGroups) : ∀ a ∈ g, a ∈ K.base.dom.names := by
  have key : ∀ (cs : List (List (String × Lit))) (gs : List (Finset String)), (∀ g ∈ gs, g ⊆ K.base.dom.names.toFinset) →
      ∀ g ∈ cs.foldl (fun gs c =>
        if c.length > 1 ∧ ∃ p ∈ c, p.1 ∈ K.unsafeActs then
          let g := (K.base.dom.names.filter fun a => decide (a ∈ c.map Prod.fst)).toFinset
          if g ∈ gs then gs else gs ++ [g]
        else gs) gs, g ⊆ K.base.dom.names.toFinset := by
    intro cs
    induction cs with
    | nil => intro gs h; exact h
    | cons c cs ih =>
      intro gs h
      rw [List.foldl_cons]
      refine ih _ ?_
      split
      · dsimp only
        split
        · exact h
        · intro g hg
          rcases List.mem_append.mp hg with hg | hg
          · exact h g hg
          · rw [List.mem_singleton.mp hg]
            intro a ha
            rw [List.mem_toFinset, List.mem_filter] at ha
            exact List.mem_toFinset.mpr ha.1
      · exact h
  unfold MaLearner.actionGroups supersetsOf at h
  obtain ⟨r, _, h⟩ := List.mem_flatMap.mp h
  obtain ⟨gs, hgs, rfl⟩ := List.mem_map.mp h
  intro a ha
  have hsub := (Py.mem_combs.mp hgs).2.subset
  have := foldr_union_sub (S := K.base.dom.names.toFinset) (gs := gs) (fun g hg => key _ [] (by simp) g (hsub hg)) ha
  exact List.mem_toFinset.mp this

theorem buildMacros_mem {ord : Finset Lit → List Lit} {gord : Finset (String × String) → List (String × String)}
    {sortG : Finset String → List String} {uuid : Nat → String} : ∀ (gs : List (Finset String)) (done Ms : List MacroAct),
    K.buildMacros ord gord sortG uuid done gs = .ok Ms → ∀ M ∈ Ms, M ∈ done ∨
      ∃ g ∈ gs, ∃ u others, K.buildMacro ord gord u others (sortG g) = .ok M := by
  intro gs
  induction gs with
  | nil =>
    intro done Ms h M hM
    simp only [MaLearner.buildMacros, Except.ok.injEq] at h
    subst h; exact Or.inl hM
  | cons g gs ih =>
    intro done Ms h M hM
    simp only [MaLearner.buildMacros, Bind.bind, Except.bind] at h
    split at h
    · simp at h
    · rename_i M0 hM0
      rcases ih _ _ h M hM with h1 | ⟨g', hg', h2⟩
      · rcases List.mem_append.mp h1 with h1 | h1
        · exact Or.inl h1
        · rw [List.mem_singleton.mp h1]
          exact Or.inr ⟨g, by simp, _, _, hM0⟩
      · exact Or.inr ⟨g', by simp [hg'], h2⟩

theorem buildMacro_acts {ord : Finset Lit → List Lit} {gord : Finset (String × String) → List (String × String)}
    {u : String} {others acts : List String} {M : MacroAct} (h : K.buildMacro ord gord u others acts = .ok M) : M.acts = acts := by
  unfold MaLearner.buildMacro at h
  simp only [Bind.bind, Except.bind] at h
  split at h
  · simp at h
  split at h
  · simp at h
  split at h
  · simp at h
  simp only [Except.ok.injEq] at h
  rw [← h]

/-- Storing macros only touches the actions with their names. -/
theorem store_fold : ∀ (Ms : List MacroAct) (K : MaLearner),
    (Ms.foldl MaLearner.store K).unsafeActs = K.unsafeActs ∧ (Ms.foldl MaLearner.store K).base.policy = K.base.policy ∧
    (∀ a, a ∉ Ms.map (·.name) → (Ms.foldl MaLearner.store K).base.dom.act a = K.base.dom.act a) ∧
    (∀ a, a ∈ (Ms.foldl MaLearner.store K).base.dom.names ↔ a ∈ K.base.dom.names ∨ a ∈ Ms.map (·.name)) ∧
    ((Ms.map (·.name)).Nodup → ∀ M ∈ Ms, (Ms.foldl MaLearner.store K).base.dom.act M.name = M.model) := by
  intro Ms
  induction Ms with
  | nil => intro K; simp
  | cons M Ms ih =>
    intro K
    obtain ⟨i1, i2, i3, i4, i5⟩ := ih (K.store M)
    rw [List.foldl_cons]
    have hact : ∀ a, (K.store M).base.dom.act a = if a = M.name then M.model else K.base.dom.act a := by
      intro a; unfold MaLearner.store; simp only [setAct_act]
    refine ⟨i1, i2, ?_, ?_, ?_⟩
    · intro a ha
      simp only [List.map_cons, List.mem_cons, not_or] at ha
      rw [i3 a ha.2, hact, if_neg ha.1]
    · intro a
      rw [i4]
      have : a ∈ (K.store M).base.dom.names ↔ a ∈ K.base.dom.names ∨ a = M.name := by
        unfold MaLearner.store
        show a ∈ (if M.name ∈ K.base.dom.names then K.base.dom.names else K.base.dom.names ++ [M.name]) ↔ _
        split
        · rename_i h
          exact ⟨Or.inl, fun k => k.elim id fun e => e ▸ h⟩
        · simp
      rw [this, List.map_cons, List.mem_cons, or_assoc]
    · intro hnd M' hM'
      rw [List.map_cons, List.nodup_cons] at hnd
      rcases List.mem_cons.mp hM' with rfl | hM'
      · rw [i3 _ hnd.1, hact, if_pos rfl]
      · exact i5 hnd.2 M' hM'

end
end Model

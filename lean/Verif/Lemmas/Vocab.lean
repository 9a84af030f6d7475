import Verif.Lemmas.Matcher

namespace Model
open Spec

theorem validateTypes_iff {gs decl : Sig} :
    validateTypes gs decl = true ↔ List.Forall₂ (fun (g d : String × PType) => g.2.isSub d.2 = true) gs decl := by
  unfold validateTypes
  rw [List.forall₂_iff_zip]
  split
  · rename_i h; simp [h]
  · rename_i h
    simp only [ne_eq, not_not] at h
    simp only [h, true_and, List.all_eq_true]
    exact ⟨fun k a b hab => k (a, b) hab, fun k p hp => k hp⟩

/-- Typed atoms over a table: the independent reading of the grounded vocabulary. -/
def TypedArgs (preds : List PredDecl) (table : Sig) (name : String) (args : List String) : Prop :=
  args.Nodup ∧ ∃ pd ∈ preds, pd.name = name ∧
    List.Forall₂ (fun x (d : String × PType) => ∃ t, (x, t) ∈ table ∧ t.isSub d.2 = true) args pd.sig

theorem typedLit_iff {preds : List PredDecl} {table : Sig} {l : Lit} :
    TypedLit preds table l ↔ TypedArgs preds table l.name l.args :=
  ⟨fun h => ⟨h.nodup, h.decl⟩, fun h => ⟨h.1, h.2⟩⟩

theorem forall₂_choose {table : Sig} {args : List String} {decl : Sig}
    (h : List.Forall₂ (fun x (d : String × PType) => ∃ t, (x, t) ∈ table ∧ t.isSub d.2 = true) args decl) :
    ∃ perm : Sig, Sig.names perm = args ∧ (∀ p ∈ perm, p ∈ table) ∧
      List.Forall₂ (fun (g d : String × PType) => g.2.isSub d.2 = true) perm decl := by
  induction h with
  | nil => exact ⟨[], rfl, by simp, .nil⟩
  | @cons x d xs ds hx _ ih =>
    obtain ⟨t, ht1, ht2⟩ := hx
    obtain ⟨perm, h1, h2, h3⟩ := ih
    refine ⟨(x, t) :: perm, ?_, ?_, .cons ht2 h3⟩
    · simp only [Sig.names, List.map_cons] at h1 ⊢; rw [h1]
    · intro p hp
      rcases List.mem_cons.mp hp with rfl | hp
      · exact ht1
      · exact h2 p hp

theorem forall₂_of_perm {table perm decl : Sig} (h2 : ∀ p ∈ perm, p ∈ table)
    (h : List.Forall₂ (fun (g d : String × PType) => g.2.isSub d.2 = true) perm decl) :
    List.Forall₂ (fun x (d : String × PType) => ∃ t, (x, t) ∈ table ∧ t.isSub d.2 = true) (Sig.names perm) decl := by
  induction h with
  | nil => exact .nil
  | @cons p d ps ds hx _ ih =>
    refine .cons ⟨p.2, h2 p (by simp), hx⟩ (ih fun q hq => h2 q (by simp [hq]))

theorem mem_groundedVocab {D : Domain} {objs : Sig} {a : Atom} :
    a ∈ groundedVocab D objs ↔ TypedArgs D.preds (objs ++ D.consts) a.name a.args := by
  unfold groundedVocab TypedArgs
  simp only [List.mem_toFinset, List.mem_flatMap, List.mem_filterMap, Py.mem_perms]
  constructor
  · rintro ⟨pd, hpd, perm, ⟨hl, hsp⟩, h⟩
    split at h
    · rename_i hv
      rw [validateTypes_iff] at hv
      have hlen : (Py.dictOf perm).length = perm.length := by rw [hl]; exact hv.length_eq
      have hnd := Py.length_dictOf.mp hlen
      rw [Py.dictOf_of_nodup hnd] at h hv
      simp only [Option.some.injEq] at h
      subst h
      exact ⟨hnd, pd, hpd, rfl, forall₂_of_perm (fun p hp => hsp.subset hp) hv⟩
    · simp at h
  · rintro ⟨hnd, pd, hpd, hn, hf⟩
    obtain ⟨perm, h1, h2, h3⟩ := forall₂_choose hf
    have hnd' : (perm.map Prod.fst).Nodup := by
      have := hnd; rw [← h1] at this; exact this
    refine ⟨pd, hpd, perm, ⟨h3.length_eq, List.subperm_of_subset (hnd'.of_map _) h2⟩, ?_⟩
    rw [Py.dictOf_of_nodup hnd', if_pos (validateTypes_iff.mpr h3), h1, hn]

theorem lookup_of_mem {table : Sig} (h : (Sig.names table).Nodup) {x : String} {t : PType} :
    table.lookup x = some t ↔ (x, t) ∈ table := by
  induction table with
  | nil => simp
  | cons p ps ih =>
    obtain ⟨y, u⟩ := p
    simp only [Sig.names, List.map_cons, List.nodup_cons] at h
    rw [List.lookup_cons]
    by_cases hxy : x = y
    · subst hxy
      simp only [beq_self_eq_true, Option.some.injEq, List.mem_cons, Prod.mk.injEq, true_and]
      constructor
      · rintro rfl; exact Or.inl rfl
      · rintro (rfl | hm)
        · rfl
        · exact absurd (List.mem_map.mpr ⟨_, hm, rfl⟩) h.1
    · rw [beq_eq_false_iff_ne.mpr hxy]
      simp only [List.mem_cons, Prod.mk.injEq, hxy, false_and, false_or]
      exact ih h.2

theorem filterMap_lookup {table : Sig} (h : (Sig.names table).Nodup) {perm : List String}
    (hp : ∀ x ∈ perm, x ∈ Sig.names table) :
    Sig.names (perm.filterMap fun x => (table.lookup x).map (x, ·)) = perm ∧
    ∀ p ∈ perm.filterMap fun x => (table.lookup x).map (x, ·), p ∈ table := by
  constructor
  · induction perm with
    | nil => rfl
    | cons x xs ih =>
      have hx := hp x (by simp)
      obtain ⟨⟨y, t⟩, hm, rfl⟩ := List.mem_map.mp hx
      simp only [List.filterMap_cons, (lookup_of_mem h).mpr hm, Option.map_some]
      simp only [Sig.names, List.map_cons, List.cons.injEq, true_and] at ih ⊢
      exact ih fun z hz => hp z (by simp [hz])
  · intro p hm
    obtain ⟨x, _, hx⟩ := List.mem_filterMap.mp hm
    rw [Option.map_eq_some_iff] at hx
    obtain ⟨t, ht, rfl⟩ := hx
    exact (lookup_of_mem h).mp ht

theorem names_append (a b : Sig) : Sig.names (a ++ b) = Sig.names a ++ Sig.names b := by simp [Sig.names]

/-- The `must_be_parameter` filter. -/
def mustOk (must : Option String) (args : List String) : Prop :=
  match must with
  | none => True
  | some m => m = "" ∨ m ∈ args

theorem mem_liftedVocab {D : Domain} {params : Sig} {must : Option String} {l : Lit}
    (hnd : (Sig.names (params ++ D.consts)).Nodup) :
    l ∈ liftedVocab D params must ↔ TypedLit D.preds (params ++ D.consts) l ∧ mustOk must l.args := by
  rw [typedLit_iff]
  unfold liftedVocab TypedArgs
  simp only [List.mem_toFinset, List.mem_flatMap, ← names_append, Py.mem_perms_nodup hnd]
  constructor
  · rintro ⟨pd, hpd, perm, ⟨hl, hpn, hsub⟩, h⟩
    obtain ⟨e1, e2⟩ := filterMap_lookup hnd hsub
    set bs := perm.filterMap fun x => ((params ++ D.consts).lookup x).map (x, ·) with hbs
    have hbn : (bs.map Prod.fst).Nodup := by
      have : Sig.names bs = perm := e1
      rw [Sig.names] at this; rw [this]; exact hpn
    rw [Py.dictOf_of_nodup hbn] at h
    split at h
    · simp at h
    · rename_i hv
      rw [Bool.not_eq_false, validateTypes_iff] at hv
      split at h
      · simp at h
      · rename_i hm
        have hl : l.name = pd.name ∧ l.args = Sig.names bs := by
          simp only [List.mem_cons, List.not_mem_nil, or_false] at h
          rcases h with rfl | rfl <;> exact ⟨rfl, rfl⟩
        rw [hl.1, hl.2]
        refine ⟨⟨e1 ▸ hpn, pd, hpd, rfl, forall₂_of_perm e2 hv⟩, ?_⟩
        cases must with
        | none => trivial
        | some m =>
          simp only [mustOk]
          by_contra hc
          rw [not_or] at hc
          apply hm
          simp [mustReject, hc.1, hc.2]
  · rintro ⟨⟨hn, pd, hpd, hname, hf⟩, hm⟩
    have hsub : ∀ x ∈ l.args, x ∈ Sig.names (params ++ D.consts) := by
      obtain ⟨perm, h1, h2, _⟩ := forall₂_choose hf
      intro x hx
      rw [← h1] at hx
      obtain ⟨p, hp, rfl⟩ := List.mem_map.mp hx
      exact List.mem_map.mpr ⟨p, h2 p hp, rfl⟩
    refine ⟨pd, hpd, l.args, ⟨hf.length_eq, hn, hsub⟩, ?_⟩
    obtain ⟨e1, e2⟩ := filterMap_lookup hnd hsub
    set bs := l.args.filterMap fun x => ((params ++ D.consts).lookup x).map (x, ·) with hbs
    have hbn : (bs.map Prod.fst).Nodup := by
      have : Sig.names bs = l.args := e1
      rw [Sig.names] at this; rw [this]; exact hn
    rw [Py.dictOf_of_nodup hbn]
    have hv : validateTypes bs pd.sig = true := by
      rw [validateTypes_iff]
      obtain ⟨perm, h1, h2, h3⟩ := forall₂_choose hf
      have : bs = perm := by
        have e : ∀ x ∈ l.args, ∃ t, (params ++ D.consts).lookup x = some t := by
          intro x hx
          obtain ⟨p, hp, rfl⟩ := List.mem_map.mp (hsub x hx)
          exact ⟨p.2, (lookup_of_mem hnd).mpr hp⟩
        rw [hbs, ← h1]
        clear_value bs
        clear h3 hbs e1 e2 hbn hf hname hsub hn h1 e
        induction perm with
        | nil => rfl
        | cons p ps ih =>
          have hp := (lookup_of_mem hnd).mpr (h2 p (by simp))
          simp only [Sig.names, List.map_cons, List.filterMap_cons]
          rw [hp]
          simp only [Option.map_some]
          rw [show List.filterMap (fun x => Option.map (fun x_1 => (x, x_1)) (List.lookup x (params ++ D.consts)))
            (List.map Prod.fst ps) = ps from ih fun q hq => h2 q (by simp [hq])]
      rw [this]; exact h3
    rw [if_neg (by simp [hv])]
    rw [if_neg]
    · rw [e1, ← hname.symm]
      cases l with | mk n a p => cases p <;> simp
    · cases must with
      | none => simp [mustReject]
      | some m =>
        simp only [mustOk] at hm
        simp only [e1, mustReject, Bool.and_eq_true, Bool.not_eq_true', beq_eq_false_iff_ne, not_and, Bool.not_eq_false,
          List.contains_iff_mem]
        intro h; exact hm.resolve_left h

theorem mem_stateSnapshot {D : Domain} {s : State} {objs : Sig} {g : Lit} :
    g ∈ stateSnapshot D s objs ↔ TypedLit D.preds (objs ++ D.consts) g ∧ holds s g := by
  rw [typedLit_iff]
  have hv := mem_groundedVocab (D := D) (objs := objs) (a := g.atom)
  unfold stateSnapshot holds
  simp only [Finset.mem_union, Finset.mem_image, Finset.mem_filter, Finset.mem_sdiff]
  cases g with | mk n args p =>
  simp only [Lit.atom] at hv ⊢
  rw [← hv]
  constructor
  · rintro (⟨a, ⟨h1, h2⟩, e⟩ | ⟨a, ⟨h1, h2⟩, e⟩)
    · simp only [Lit.mk.injEq] at e; obtain ⟨rfl, rfl, rfl⟩ := e; exact ⟨h1, by simpa using h2⟩
    · simp only [Lit.mk.injEq] at e; obtain ⟨rfl, rfl, rfl⟩ := e
      exact ⟨h1, by simpa using fun h => h2 ⟨h1, h⟩⟩
  · rintro ⟨h1, h2⟩
    cases p with
    | true => exact Or.inl ⟨⟨n, args⟩, ⟨h1, h2.mp rfl⟩, rfl⟩
    | false => exact Or.inr ⟨⟨n, args⟩, ⟨h1, fun h => by simpa using h2.mpr h.2⟩, rfl⟩

end Model

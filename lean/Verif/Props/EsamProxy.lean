import Verif.Lemmas.UniExtra
import Verif.Model.EsamProxy
import Verif.Spec.Proxy
import Verif.Props.Esam
import Verif.Props.SamLimits

/-! C137: the proxy actions of the extended learner. -/
namespace Props
open Model Spec

namespace EsamProxy

theorem mapM_rep {d : List (String × String)} {xs : List String} :
    xs.mapM (repArg d) = if ∀ x ∈ xs, (d.lookup x).isSome then .ok (xs.map (rep d)) else .error .keyError := by
  induction xs with
  | nil => simp [pure, Except.pure]
  | cons x xs ih =>
    rw [List.mapM_cons, ih]
    simp only [repArg, List.mem_cons, forall_eq_or_imp, List.map_cons, rep, Bind.bind, Except.bind, pure, Except.pure]
    cases hx : d.lookup x with
    | none => simp
    | some y =>
      by_cases h : ∀ x ∈ xs, (d.lookup x).isSome = true
      · rw [if_pos h, if_pos ⟨rfl, h⟩]; rfl
      · rw [if_neg h, if_neg fun k => h k.2]

/-- Rewriting one literal: it fails for an argument without representative, and otherwise keeps each
representative once. -/
theorem rewriteLit_eq {d : List (String × String)} {l : Lit} :
    rewriteLit d l = if ∀ x ∈ l.args, (d.lookup x).isSome
      then .ok { l with args := (Py.dictOf ((l.args.map (rep d)).map fun x => (x, ()))).map Prod.fst } else .error .keyError := by
  unfold rewriteLit
  rw [mapM_rep]
  simp only [Bind.bind, Except.bind]
  by_cases h : ∀ x ∈ l.args, (d.lookup x).isSome = true
  · rw [if_pos h, if_pos h]
  · rw [if_neg h, if_neg h]

theorem rewriteLit_keeps {d : List (String × String)} {l : Lit} (h : ∀ x ∈ l.args, (d.lookup x).isSome) (hk : Keeps d l) :
    rewriteLit d l = .ok (mergedLit d l) := by
  rw [rewriteLit_eq, if_pos h]
  have : Py.dictOf ((l.args.map (rep d)).map fun x => (x, ())) = (l.args.map (rep d)).map fun x => (x, ()) := by
    apply Py.dictOf_of_nodup
    rw [List.map_map]
    have e : (Prod.fst ∘ fun x : String => (x, ())) = id := rfl
    rw [e, List.map_id]
    exact hk
  rw [this, List.map_map]
  have e : (Prod.fst ∘ fun x : String => (x, ())) = id := rfl
  rw [e, List.map_id]
  rfl

theorem rewriteSet_ok {d : List (String × String)} {S T : Finset Lit} (h : rewriteSet d S = .ok T) :
    (∀ l ∈ S, ∀ x ∈ l.args, (d.lookup x).isSome) ∧ ((∀ l ∈ S, Keeps d l) → T = S.image (mergedLit d)) := by
  unfold rewriteSet at h
  split at h
  · rename_i hall
    have h1 : ∀ l ∈ S, ∀ x ∈ l.args, (d.lookup x).isSome := by
      intro l hl
      have := hall l hl
      rw [rewriteLit_eq] at this
      by_contra hc
      rw [if_neg hc] at this
      cases this
    refine ⟨h1, fun hk => ?_⟩
    rw [← Except.ok.inj h]
    apply Finset.image_congr
    intro l hl
    simp only [rewriteLit_keeps (h1 l hl) (hk l hl)]
  · cases h

theorem rewriteSet_iff {d : List (String × String)} {S : Finset Lit} :
    (∃ T, rewriteSet d S = .ok T) ↔ ∀ l ∈ S, ∀ x ∈ l.args, (d.lookup x).isSome := by
  constructor
  · rintro ⟨T, h⟩; exact (rewriteSet_ok h).1
  · intro h
    unfold rewriteSet
    rw [if_pos]
    · exact ⟨_, rfl⟩
    · intro l hl
      rw [rewriteLit_eq, if_pos (h l hl)]
      rfl

theorem mapM_sig {sig : Sig} {xs : List String} {r : Sig}
    (h : xs.mapM (proxyParam sig) = .ok r) :
    Sig.names r = xs ∧ ∀ x t, (x, t) ∈ r → sig.lookup x = some t := by
  induction xs generalizing r with
  | nil => simp only [List.mapM_nil, pure, Except.pure, Except.ok.injEq] at h; subst h; simp [Sig.names]
  | cons x xs ih =>
    rw [List.mapM_cons] at h
    simp only [proxyParam, Bind.bind, Except.bind, pure, Except.pure] at h
    cases hx : sig.lookup x with
    | none => rw [hx] at h; cases h
    | some t =>
      rw [hx] at h
      dsimp only at h
      split at h
      · cases h
      · rename_i r' hr
        simp only [Except.ok.injEq] at h
        subst h
        obtain ⟨h1, h2⟩ := ih hr
        refine ⟨by simp only [Sig.names, List.map_cons]; simp only [Sig.names] at h1; rw [h1], ?_⟩
        intro y u hy
        rcases List.mem_cons.mp hy with e | hy
        · cases e; exact hx
        · exact h2 y u hy

theorem mapM_sig_iff {sig : Sig} {xs : List String} :
    (∃ r, xs.mapM (proxyParam sig) = .ok r) ↔
      ∀ x ∈ xs, (sig.lookup x).isSome := by
  induction xs with
  | nil => simp [pure, Except.pure]
  | cons x xs ih =>
    rw [List.mapM_cons]
    simp only [proxyParam, Bind.bind, Except.bind, pure, Except.pure, List.mem_cons, forall_eq_or_imp]
    rw [← ih]
    cases hx : sig.lookup x with
    | none => simp
    | some t =>
      dsimp only
      constructor
      · rintro ⟨r, h⟩
        split at h
        · cases h
        · rename_i r' hr; exact ⟨rfl, r', hr⟩
      · rintro ⟨_, r', hr⟩
        rw [hr]
        exact ⟨_, rfl⟩

theorem ground_merged {d : List (String × String)} {σ : String → String} {l : Lit} :
    ground σ (mergedLit d l) = ground (unmerge d σ) l := by
  unfold ground mergedLit
  simp only [List.map_map]
  rfl

section
variable {m q : ActModel} {data : ProxyData}

/-- **C137 (construction).** `construct_proxy_action` returns exactly when every argument of every literal
has a representative (no constants) and all representatives are parameters of the action. -/
theorem C137_construct_iff : (∃ q, constructProxy m data = .ok q) ↔
    (∀ l ∈ data.eff ∪ (data.pre ∪ m.pre), ∀ x ∈ l.args, (data.params.lookup x).isSome) ∧
    (∀ p ∈ data.params, (m.sig.lookup p.2).isSome) := by
  have hsig : (∃ r, proxySig m.sig data.params = .ok r) ↔ ∀ p ∈ data.params, (m.sig.lookup p.2).isSome := by
    unfold proxySig
    rw [mapM_sig_iff]
    constructor
    · intro k p hp
      apply k
      rw [Py.mem_keys_dictOf]
      exact List.mem_map.mpr ⟨(p.2, p.1), List.mem_map.mpr ⟨p, hp, rfl⟩, rfl⟩
    · intro k x hx
      rw [Py.mem_keys_dictOf] at hx
      obtain ⟨y, hy, e⟩ := List.mem_map.mp hx
      obtain ⟨p, hp, e'⟩ := List.mem_map.mp hy
      subst e; subst e'
      exact k p hp
  rw [← hsig]
  have hu : (∀ l ∈ data.eff ∪ (data.pre ∪ m.pre), ∀ x ∈ l.args, (data.params.lookup x).isSome) ↔
      (∃ T, rewriteSet data.params data.eff = .ok T) ∧ (∃ T, rewriteSet data.params (data.pre ∪ m.pre) = .ok T) := by
    rw [rewriteSet_iff, rewriteSet_iff]
    constructor
    · intro h; exact ⟨fun l hl => h l (Finset.mem_union_left _ hl), fun l hl => h l (Finset.mem_union_right _ hl)⟩
    · rintro ⟨h1, h2⟩ l hl
      rcases Finset.mem_union.mp hl with hl | hl
      · exact h1 l hl
      · exact h2 l hl
  rw [hu]
  unfold constructProxy
  simp only [Bind.bind, Except.bind]
  constructor
  · rintro ⟨q, h⟩
    split at h
    · cases h
    · rename_i e he
      split at h
      · cases h
      · rename_i p hp
        split at h
        · cases h
        · rename_i s hs; exact ⟨⟨⟨e, he⟩, ⟨p, hp⟩⟩, ⟨s, hs⟩⟩
  · rintro ⟨⟨⟨e, he⟩, ⟨p, hp⟩⟩, ⟨s, hs⟩⟩
    rw [he]; dsimp only; rw [hp]; dsimp only; rw [hs]
    exact ⟨_, rfl⟩

theorem construct_parts (h : constructProxy m data = .ok q) :
    rewriteSet data.params data.eff = .ok q.eff ∧ rewriteSet data.params (data.pre ∪ m.pre) = .ok q.pre ∧
    proxySig m.sig data.params = .ok q.sig ∧ q.ineq = ∅ := by
  unfold constructProxy at h
  simp only [Bind.bind, Except.bind] at h
  split at h
  · cases h
  · rename_i e he
    split at h
    · cases h
    · rename_i p hp
      split at h
      · cases h
      · rename_i s hs
        cases h
        exact ⟨he, hp, hs, rfl⟩

/-- C137: the parameters of the proxy are the representatives, each once, with the types they have in the
action; all inequality preconditions are gone. -/
theorem C137_signature (h : constructProxy m data = .ok q) :
    (Sig.names q.sig).Nodup ∧ (∀ x, x ∈ Sig.names q.sig ↔ ∃ p ∈ data.params, p.2 = x) ∧
    (∀ x t, (x, t) ∈ q.sig → m.sig.lookup x = some t) ∧ q.ineq = ∅ := by
  obtain ⟨_, _, hs, hi⟩ := construct_parts h
  unfold proxySig at hs
  obtain ⟨h1, h2⟩ := mapM_sig hs
  refine ⟨by rw [h1]; exact Py.dictOf_keys_nodup _, fun x => ?_, h2, hi⟩
  rw [h1, Py.mem_keys_dictOf, List.map_map]
  simp

/-- **C137 (meaning of a call).** If no literal has two merged arguments, the proxy under a binding is
the action, with the missing preconditions and the selected effects, under the binding that gives merged
parameters the same object. -/
theorem C137_call (h : constructProxy m data = .ok q) (hk : ∀ l ∈ data.eff ∪ (data.pre ∪ m.pre), Keeps data.params l)
    (σ : String → String) (s : State) :
    (applicable q.pre σ s ↔ applicable m.pre (unmerge data.params σ) s ∧ applicable data.pre (unmerge data.params σ) s) ∧
    successor q.eff σ s = successor data.eff (unmerge data.params σ) s := by
  obtain ⟨he, hp, _, _⟩ := construct_parts h
  have e1 := (rewriteSet_ok he).2 fun l hl => hk l (Finset.mem_union_left _ hl)
  have e2 := (rewriteSet_ok hp).2 fun l hl => hk l (Finset.mem_union_right _ hl)
  constructor
  · rw [e2]
    unfold applicable
    simp only [Finset.mem_image, forall_exists_index, and_imp, forall_apply_eq_imp_iff₂, Finset.mem_union, ground_merged]
    constructor
    · intro k; exact ⟨fun l hl => k l (Or.inr hl), fun l hl => k l (Or.inl hl)⟩
    · rintro ⟨k1, k2⟩ l (hl | hl)
      · exact k2 l hl
      · exact k1 l hl
  · rw [e1]
    unfold successor
    rw [Finset.filter_image, Finset.filter_image, Finset.image_image, Finset.image_image]
    simp only [Function.comp_def, ground_merged]
    rfl

/-- C137: the meaning is lost as soon as two arguments of a literal are merged: the literal that
`modify_predicate_signature` writes has fewer arguments. -/
theorem C137_argument_lost {d : List (String × String)} {l l' : Lit} (h : rewriteLit d l = .ok l') :
    l'.args.length < l.args.length ↔ ¬ Keeps d l := by
  rw [rewriteLit_eq] at h
  split at h
  · simp only [Except.ok.injEq] at h
    subst h
    dsimp only
    have hle : (Py.dictOf ((l.args.map (rep d)).map fun x => (x, ()))).length ≤ l.args.length := by
      have h1 : ((Py.dictOf ((l.args.map (rep d)).map fun x => (x, ()))).map Prod.fst) ⊆ ((l.args.map (rep d)).map fun x => (x, ())).map Prod.fst :=
        fun k hk => Py.mem_keys_dictOf.mp hk
      have := (List.subperm_of_subset (Py.dictOf_keys_nodup _) h1).length_le
      simpa using this
    have hiff := Py.length_dictOf (l := (l.args.map (rep d)).map fun x => (x, ()))
    have e : ((l.args.map (rep d)).map fun x => (x, ())).map Prod.fst = l.args.map (rep d) := by
      rw [List.map_map, show (Prod.fst ∘ fun x : String => (x, ())) = id from rfl, List.map_id]
    rw [e, List.length_map, List.length_map] at hiff
    unfold Keeps
    rw [← hiff, List.length_map]
    omega
  · cases h

end

/-! ### Safety -/

section
variable {D : Domain} {truth : String → Schema} {p : Policy} {hs : List Component} {E : Esam} {a : String}

theorem subst_zip {sig : Sig} {call : List String} (hn : (Sig.names sig).Nodup) (hlen : call.length = sig.length) {x : String} {t : PType}
    (h : (x, t) ∈ sig) : (subst (Sig.names sig) call x, t) ∈ call.zip (sig.map Prod.snd) := by
  induction sig generalizing call with
  | nil => simp at h
  | cons y sig ih =>
    cases call with
    | nil => simp at hlen
    | cons o call =>
      simp only [Sig.names, List.map_cons, List.nodup_cons] at hn
      simp only [List.length_cons, Nat.add_right_cancel_iff] at hlen
      rcases List.mem_cons.mp h with e | h
      · subst e
        simp [subst, Sig.names]
      · have hne : x ≠ y.1 := by
          rintro rfl
          exact hn.1 (List.mem_map.mpr ⟨_, h, rfl⟩)
        have := ih (call := call) hn.2 hlen h
        have e : subst (Sig.names (y :: sig)) (o :: call) x = subst (Sig.names sig) call x := by
          have hb : (x == y.1) = false := by simpa using hne
          simp [subst, Sig.names, List.lookup_cons, hb]
        rw [e]
        simp [this]

/-- True preconditions whose arguments are different objects in every call are learned, repeated objects or not. -/
theorem pre_learned (hD : WFDomain D) (hT : WFTruth D truth) (hI : EInv D p hs E) (he : ∀ c ∈ hs, Explained truth c)
    (ha : a ∈ D.names) (ho : a ∈ E.base.observed) {l : Lit} (hl : l ∈ (truth a).pre)
    (hd : ∀ c ∈ hs, c.call.name = a → (l.args.map (substOf truth c)).Nodup) : l ∈ (E.base.dom.act a).pre := by
  rw [hI.pre a ha]
  refine ⟨(hI.observed a).mp ho, fun c hc => ?_⟩
  obtain ⟨hch, rfl⟩ := mem_compsOf.mp hc
  have hw := hD.sigs _ ha
  have hex := he c hch
  have hlen : c.call.params.length = (D.act c.call.name).sig.length := by rw [hex.arity, hT.params _ ha]
  have ht := (hT.wf _ ha).pre l hl
  rw [hT.params _ ha] at ht
  have hsub : ∀ x ∈ l.args, x ∈ Sig.names (D.act c.call.name).sig ∨ x ∈ Sig.names D.consts := by
    intro x hx; have := typed_sub ht x hx; rwa [names_append, List.mem_append] at this
  show l ∈ possibleMatches D.consts (D.act c.call.name).sig c.call.params
    (stateSnapshot D c.prev (callObjects D (D.act c.call.name).sig c.call.params))
  rw [mem_possibleMatches hw hlen (fun g hg => (mem_stateSnapshot.mp hg).1.nodup), mem_stateSnapshot]
  refine ⟨?_, ht.nodup, hsub⟩
  rw [← substOf_eq hT ha]
  refine ⟨⟨hd c hch rfl, ?_⟩, hex.app l hl⟩
  obtain ⟨pd, h1, h2, h3⟩ := ht.decl
  refine ⟨pd, h1, h2, ?_⟩
  rw [substOf_eq hT ha]
  show List.Forall₂ _ (l.args.map _) _
  rw [List.forall₂_map_left_iff]
  refine h3.imp ?_
  rintro x q ⟨t, ht1, ht2⟩
  refine ⟨t, ?_, ht2⟩
  rcases List.mem_append.mp ht1 with k | k
  · exact List.mem_append_left _ (List.mem_append_left _ (subst_zip hw.params hlen k))
  · have : subst (Sig.names (D.act c.call.name).sig) c.call.params x = x := by
      apply bind_of_not_mem
      intro hx
      exact hw.disj x hx (List.mem_map.mpr ⟨_, k, rfl⟩)
    rw [this]
    exact List.mem_append_right _ k

/-- Predicted and true successor agree if the predicted effects are among the true ones, the others hold
already, and the true effects do not contradict each other. -/
theorem successor_agree {P T : Finset Lit} {ρ : String → String} {s : State}
    (h1 : ∀ l ∈ P, ∃ e ∈ T, ground ρ l = ground ρ e)
    (h2 : ∀ e ∈ T, (∃ l ∈ P, ground ρ l = ground ρ e) ∨ holds s (ground ρ e))
    (h3 : ∀ e ∈ T, ∀ e' ∈ T, ground ρ e ≠ (ground ρ e').neg) : successor P ρ s = successor T ρ s := by
  have hpos : ∀ {l e : Lit}, ground ρ l = ground ρ e → l.pos = e.pos := by
    intro l e h
    have := congrArg Lit.pos h
    exact this
  have hcon : ∀ e ∈ T, ∀ e' ∈ T, e.pos = true → e'.pos = false → (ground ρ e).atom ≠ (ground ρ e').atom := by
    intro e he e' he' k1 k2 k3
    apply h3 e he e' he'
    simp only [Lit.atom, ground, Atom.mk.injEq] at k3
    simp [ground, Lit.neg, k1, k2, k3.1, k3.2]
  ext x
  unfold successor
  simp only [Finset.mem_union, Finset.mem_sdiff, Finset.mem_image, Finset.mem_filter]
  constructor
  · rintro (⟨hx, hn⟩ | ⟨l, ⟨hl, hp⟩, rfl⟩)
    · by_cases hd : ∃ e, (e ∈ T ∧ e.pos = false) ∧ (ground ρ e).atom = x
      · exfalso
        obtain ⟨e, ⟨he, hp⟩, rfl⟩ := hd
        rcases h2 e he with ⟨l, hl, e1⟩ | k
        · exact hn ⟨l, ⟨hl, by rw [hpos e1, hp]⟩, by rw [e1]⟩
        · exact absurd (k.mpr hx) (by simp [ground, hp])
      · exact Or.inl ⟨hx, hd⟩
    · obtain ⟨e, he, e1⟩ := h1 l hl
      exact Or.inr ⟨e, ⟨he, by rw [← hpos e1, hp]⟩, by rw [e1]⟩
  · rintro (⟨hx, hn⟩ | ⟨e, ⟨he, hp⟩, rfl⟩)
    · refine Or.inl ⟨hx, ?_⟩
      rintro ⟨l, ⟨hl, hp⟩, e1⟩
      obtain ⟨e, he, e2⟩ := h1 l hl
      exact hn ⟨e, ⟨he, by rw [← hpos e2, hp]⟩, by rw [← e2, e1]⟩
    · rcases h2 e he with ⟨l, hl, e1⟩ | k
      · exact Or.inr ⟨l, ⟨hl, by rw [hpos e1, hp]⟩, by rw [e1]⟩
      · left
        refine ⟨k.mp (by simp [ground, hp]), ?_⟩
        rintro ⟨l, ⟨hl, hp'⟩, e1⟩
        obtain ⟨e', he', e2⟩ := h1 l hl
        exact hcon e he e' he' hp (by rw [← hpos e2, hp']) (by rw [← e2, e1])

/-- The action from which the proxies are built. -/
abbrev learnedAct (E : Esam) (a : String) : ActModel := (E.base.applyPolicy.handleUnobserved).dom.act a

/-- The formula of an action. -/
abbrev formulaOf (E : Esam) (a : String) : Finset (Finset Lit) := effFormula (E.clauses a) (E.cannotBe a)

/-- **C137 (safety).** The proxy of a model of the formula is safe if each effect it selects is, after
merging, a true effect, and every true effect is a variable or a learned precondition: whenever it is
applicable under a binding, the true action is applicable with the merged parameters bound alike, and
both lead to the same state. -/
theorem C137_safe (hD : WFDomain D) (hT : WFTruth D truth) (hp : p ≠ .hard)
    (hf : hs.foldlM Esam.handleFixed (Esam.init D p) = .ok E) (he : ∀ c ∈ hs, Explained truth c)
    (ha : a ∈ D.names) (hobs : ∃ c ∈ hs, c.call.name = a)
    (hpre : ∀ c ∈ hs, c.call.name = a → ∀ l ∈ (truth a).pre, (l.args.map (substOf truth c)).Nodup)
    {vars : List Lit} (hv : vars.toFinset = formulaVars (formulaOf E a)) {P : Finset Lit}
    {q : ActModel} (hq : constructProxy (learnedAct E a) (proxyData (D.act a).sig vars P) = .ok q)
    (hk : ∀ l ∈ P ∪ (formulaVars (formulaOf E a) ∪ (learnedAct E a).pre), Keeps (proxyData (D.act a).sig vars P).params l)
    (hlost : ∀ e ∈ (truth a).eff, e ∈ formulaVars (formulaOf E a) ∨ e ∈ (learnedAct E a).pre)
    (hsel : ∀ l ∈ P, ∃ e ∈ (truth a).eff,
      mergedLit (proxyData (D.act a).sig vars P).params l = mergedLit (proxyData (D.act a).sig vars P).params e)
    (σ : String → String) (s : State)
    (hcons : ∀ e ∈ (truth a).eff, ∀ e' ∈ (truth a).eff,
      ground (unmerge (proxyData (D.act a).sig vars P).params σ) e ≠ (ground (unmerge (proxyData (D.act a).sig vars P).params σ) e').neg)
    (happ : applicable q.pre σ s) :
    applicable (truth a).pre (unmerge (proxyData (D.act a).sig vars P).params σ) s ∧
    successor q.eff σ s = successor (truth a).eff (unmerge (proxyData (D.act a).sig vars P).params σ) s := by
  have hI : EInv D p hs E := by simpa using (EInv.init hD p).fold _ hf
  have ho : a ∈ E.base.observed := by
    rw [hI.observed]
    obtain ⟨c, h1, h2⟩ := hobs
    exact List.ne_nil_of_mem (mem_compsOf.mpr ⟨h1, h2⟩)
  have hkeep : ∀ l, polKeep p ∅ l := by intro l; unfold polKeep; cases p <;> simp_all
  have hm := (before_construct hD hI).2.2.2.2.2.2.2 a ha ho
  obtain ⟨hc1, hc2⟩ := C137_call hq (fun l hl => hk l (by
    simp only [proxyData, hv, Finset.mem_union, Finset.mem_sdiff] at hl ⊢; tauto)) σ s
  obtain ⟨g1, g2⟩ := hc1.mp happ
  refine ⟨fun l hl => g1 l ?_, ?_⟩
  · exact (hm l).mpr ⟨pre_learned hD hT hI he ha ho hl fun c hc hn => hpre c hc hn l hl, hkeep l⟩
  · rw [hc2]
    refine successor_agree ?_ ?_ hcons
    · intro l hl
      obtain ⟨e, h1, h2⟩ := hsel l hl
      exact ⟨e, h1, by rw [← ground_merged, h2, ground_merged]⟩
    · intro e hee
      rcases hlost e hee with k | k
      · by_cases hP : e ∈ P
        · exact Or.inl ⟨e, hP, rfl⟩
        · exact Or.inr (g2 e (by simp only [proxyData, hv, Finset.mem_sdiff]; exact ⟨k, hP⟩))
      · exact Or.inr (g1 e k)

/-- **C137 (the proxy that merges).** If the model selects all variables and each clause becomes one literal
after merging, then each selected effect is a true effect after merging, so that the proxy is safe. -/
theorem C137_merged_safe (hD : WFDomain D) (hT : WFTruth D truth) (hp : p ≠ .hard)
    (hf : hs.foldlM Esam.handleFixed (Esam.init D p) = .ok E) (he : ∀ c ∈ hs, Explained truth c)
    (ha : a ∈ D.names) (hobs : ∃ c ∈ hs, c.call.name = a)
    (hpre : ∀ c ∈ hs, c.call.name = a → ∀ l ∈ (truth a).pre, (l.args.map (substOf truth c)).Nodup)
    {vars : List Lit} (hv : vars.toFinset = formulaVars (formulaOf E a)) {P : Finset Lit} (hP : P = formulaVars (formulaOf E a))
    {q : ActModel} (hq : constructProxy (learnedAct E a) (proxyData (D.act a).sig vars P) = .ok q)
    (hk : ∀ l ∈ P ∪ (learnedAct E a).pre, Keeps (proxyData (D.act a).sig vars P).params l)
    (hlost : ∀ e ∈ (truth a).eff, e ∈ formulaVars (formulaOf E a) ∨ e ∈ (learnedAct E a).pre)
    (hone : ∀ cl ∈ formulaOf E a, ∀ l ∈ cl, ∀ l' ∈ cl,
      mergedLit (proxyData (D.act a).sig vars P).params l = mergedLit (proxyData (D.act a).sig vars P).params l')
    (σ : String → String) (s : State)
    (hcons : ∀ e ∈ (truth a).eff, ∀ e' ∈ (truth a).eff,
      ground (unmerge (proxyData (D.act a).sig vars P).params σ) e ≠ (ground (unmerge (proxyData (D.act a).sig vars P).params σ) e').neg)
    (happ : applicable q.pre σ s) :
    applicable (truth a).pre (unmerge (proxyData (D.act a).sig vars P).params σ) s ∧
    successor q.eff σ s = successor (truth a).eff (unmerge (proxyData (D.act a).sig vars P).params σ) s := by
  refine C137_safe hD hT hp hf he ha hobs hpre hv hq (fun l hl => hk l (by rw [hP] at hl ⊢; simp only [Finset.mem_union] at hl ⊢; tauto))
    hlost (fun l hl => ?_) σ s hcons happ
  rw [hP, mem_formulaVars] at hl
  obtain ⟨cl, hcl, hl⟩ := hl
  obtain ⟨e, he1, he2⟩ := C93_clauses_sound hD hT hf he a cl (mem_effFormula.mp hcl).1.1
  exact ⟨e, he2, hone cl hcl l hl e he1⟩

end

/-! ### The domain, and calls of proxies -/

section
variable {D D' : Domain} {a : String} {ps : List ProxyData}

theorem proxyName_ne (a : String) (n : Nat) (h : n ≠ 0) : proxyName a n ≠ a := by
  unfold proxyName
  rw [if_neg h]
  intro e
  have := congrArg String.length e
  simp only [String.length_append] at this
  have h1 : "_".length = 1 := rfl
  omega

theorem proxyName_inj {a : String} {m n : Nat} (hm : m ≠ 0) (hn : n ≠ 0) (h : proxyName a m = proxyName a n) : m = n := by
  unfold proxyName at h
  rw [if_neg hm, if_neg hn] at h
  have h' := congrArg String.toList h
  simp only [String.toList_append, List.append_cancel_left_eq] at h'
  exact natRepr_inj h'

/-- **C137 (the domain).** When the proxies of an action are stored, the `i`-th one is found under the
name of the action followed by `_` and `i`, the action itself is gone, and every other action with another
name is as before. -/
theorem C137_stored (h : storeProxies a D ps = .ok D') :
    (∀ b, b ∈ D'.names ↔ b ≠ a ∧ (b ∈ D.names ∨ ∃ i < ps.length, b = proxyName a (i + 1))) ∧
    (∀ i (hi : i < ps.length), constructProxy (D.act a) ps[i] = .ok (D'.act (proxyName a (i + 1)))) ∧
    (∀ b, (∀ i < ps.length, b ≠ proxyName a (i + 1)) → D'.act b = D.act b) := by
  unfold storeProxies at h
  have key : ∀ (ps : List ProxyData) (k : Nat) (D D' : Domain), k ≠ 0 → (ps.zipIdx k).foldlM (storeProxy a) D = .ok D' →
      (∀ b, b ∈ D'.names ↔ b ∈ D.names ∨ ∃ i < ps.length, b = proxyName a (i + k)) ∧
      (∀ i (hi : i < ps.length), constructProxy (D.act a) ps[i] = .ok (D'.act (proxyName a (i + k)))) ∧
      (∀ b, (∀ i < ps.length, b ≠ proxyName a (i + k)) → D'.act b = D.act b) := by
    intro ps
    induction ps with
    | nil => intro k D D' _ h; simp only [List.zipIdx_nil, List.foldlM_nil, pure, Except.pure, Except.ok.injEq] at h; subst h; simp
    | cons x ps ih =>
      intro k D D' hk h
      rw [List.zipIdx_cons, List.foldlM_cons] at h
      simp only [Bind.bind, Except.bind] at h
      split at h
      · cases h
      · rename_i D1 h1
        unfold storeProxy at h1
        simp only [Bind.bind, Except.bind] at h1
        split at h1
        · cases h1
        · rename_i q hq
          simp only [Except.ok.injEq] at h1
          have hact : ∀ b, D1.act b = if b = proxyName a k then q else D.act b := by
            intro b; rw [← h1]; show (D.setAct _ q).act b = _; rw [setAct_act]
          have hnames : ∀ b, b ∈ D1.names ↔ b ∈ D.names ∨ b = proxyName a k := by
            intro b; rw [← h1]
            show b ∈ (if D.names.contains (proxyName a k) then D.names else D.names ++ [proxyName a k]) ↔ _
            split
            · rename_i hc
              rw [List.contains_iff_mem] at hc
              exact ⟨Or.inl, fun k' => k'.elim id fun e => e ▸ hc⟩
            · simp
          obtain ⟨i1, i2, i3⟩ := ih (k + 1) D1 D' (by omega) h
          have ha1 : D1.act a = D.act a := by rw [hact, if_neg (proxyName_ne a k hk).symm]
          refine ⟨fun b => ?_, fun i hi => ?_, fun b hb => ?_⟩
          · rw [i1, hnames]
            constructor
            · rintro ((k1 | k1) | ⟨i, h1, h2⟩)
              · exact Or.inl k1
              · exact Or.inr ⟨0, by simp, by simpa using k1⟩
              · exact Or.inr ⟨i + 1, by simpa using h1, by rw [h2]; congr 1; omega⟩
            · rintro (k1 | ⟨i, h1, h2⟩)
              · exact Or.inl (Or.inl k1)
              · cases i with
                | zero => exact Or.inl (Or.inr (by simpa using h2))
                | succ i => exact Or.inr ⟨i, by simpa using h1, by rw [h2]; congr 1; omega⟩
          · cases i with
            | zero =>
              have : D'.act (proxyName a k) = D1.act (proxyName a k) := by
                apply i3
                intro i _ e
                have := proxyName_inj hk (by omega) e
                omega
              rw [Nat.zero_add, this, hact, if_pos rfl]
              exact hq
            | succ i =>
              have := i2 i (by simpa using hi)
              rw [ha1] at this
              rw [List.getElem_cons_succ, this]
              congr 3
              omega
          · rw [i3 b fun i hi => by
                have := hb (i + 1) (by simpa using hi)
                rwa [show i + 1 + k = i + (k + 1) by omega] at this,
              hact, if_neg (by have := hb 0 (by simp); simpa using this)]
  simp only [Bind.bind, Except.bind] at h
  split at h
  · cases h
  · rename_i D1 h1
    simp only [Except.ok.injEq] at h
    subst h
    obtain ⟨k1, k2, k3⟩ := key ps 1 D D1 (by omega) h1
    refine ⟨fun b => ?_, k2, k3⟩
    simp only [List.mem_filter, decide_eq_true_eq, k1]
    tauto

/-- **C137 (translation).** `decode` never translates a call: the removed action is looked up. -/
theorem C137_decode_raises (h : storeProxies a D ps = .ok D') (params : List String) (d : List (String × String)) (objs : List String) :
    decodeCall D' a params d objs = .error .keyError := by
  unfold decodeCall
  rw [if_pos]
  intro k
  exact ((C137_stored h).1 a).mp k |>.1 rfl

/-- C137: even with the action in place `decode` does not return if there is a parameter: every key is
taken apart into characters. -/
theorem C137_decode_unpacks {params : List String} {d : List (String × String)} (hd : d ≠ [])
    (hlen : ∀ x ∈ params, 2 ≤ x.length) (objs : List String) (r) : decodeCall D a params d objs ≠ .ok r := by
  unfold decodeCall
  split
  · simp
  · have hne : ((Py.dictOf (d.map fun p => (p.2, p.1))).map Prod.fst) ≠ [] := by
      obtain ⟨x, xs, rfl⟩ := List.exists_cons_of_ne_nil hd
      have : x.2 ∈ ((Py.dictOf ((x :: xs).map fun p => (p.2, p.1))).map Prod.fst) := by
        rw [Py.mem_keys_dictOf]; simp
      exact List.ne_nil_of_mem this
    obtain ⟨k, ks, hk⟩ := List.exists_cons_of_ne_nil hne
    dsimp only
    rw [hk, List.mapM_cons]
    have hnone : ∀ c : Char, params.findIdx? (fun x => decide (x = String.ofList [c])) = none := by
      intro c
      rw [List.findIdx?_eq_none_iff]
      intro x hx
      have := hlen x hx
      simp only [decide_eq_false_iff_not]
      rintro rfl
      simp at this
    simp only [Bind.bind, Except.bind, hnone]
    split
    · simp
    · rename_i heq
      exfalso
      split at heq
      · cases heq
      · rename_i heq2
        split at heq2 <;> cases heq2

/-- C137: `encode` gives no call of a proxy: a call with as many different objects as the action has
parameters raises KeyError, any other call gives one empty call for each proxy. -/
theorem C137_encode (h : storeProxies a D ps = .ok D') (params : Nat) (objs : List String) :
    encodeAll D' a params objs ps.length =
      if objs.toFinset.card = params ∧ ps ≠ [] then some (.error .keyError) else some (.ok (List.replicate ps.length ("", []))) := by
  have hna : a ∉ D'.names := fun k => ((C137_stored h).1 a).mp k |>.1 rfl
  have hcall : encodeCall D' a params objs = if objs.toFinset.card = params then some (.error .keyError) else some (.ok ("", [])) := by
    unfold encodeCall
    by_cases hc : objs.toFinset.card = params <;> simp [hc, hna]
  have key : ∀ n, encodeAll D' a params objs n =
      if objs.toFinset.card = params ∧ n ≠ 0 then some (.error .keyError) else some (.ok (List.replicate n ("", []))) := by
    intro n
    induction n with
    | zero => simp [encodeAll]
    | succ n ih =>
      unfold encodeAll
      rw [hcall]
      by_cases hc : objs.toFinset.card = params
      · simp [hc]
      · simp [hc, ih, List.replicate_succ]
  rw [key]
  simp

end

/-! ### A concrete run -/

namespace Case
open Props.Limits

/-- Two parameters of one type. -/
abbrev csig : Sig := [("?x", o), ("?y", o)]
/-- One unary predicate, one action. -/
abbrev cdom : Domain := dom [p1] [] csig
/-- The action makes its first object `p`. -/
abbrev ctru : String → Schema := tru csig ∅ {P "?x"}
/-- A call with one object twice, and one where all is true already. -/
abbrev ccomps : List Component := [comp ∅ ["a", "a"] {A "p" ["a"]},
  comp {A "p" ["a"], A "p" ["b"]} ["a", "b"] {A "p" ["a"], A "p" ["b"]}]
/-- The state of the learner after both. -/
def cE : Esam := match ccomps.foldlM Esam.handleFixed (Esam.init cdom .soft) with
  | .ok E => E
  | .error _ => Esam.init cdom .soft

theorem cE_eq : ccomps.foldlM Esam.handleFixed (Esam.init cdom .soft) = .ok cE := by
  have h : (ccomps.foldlM Esam.handleFixed (Esam.init cdom .soft)).toBool = true := by decide +kernel
  unfold cE
  cases hr : ccomps.foldlM Esam.handleFixed (Esam.init cdom .soft) with
  | ok E => rfl
  | error e => rw [hr] at h; simp [Except.toBool] at h

/-- The variables of the formula. -/
abbrev cvars : List Lit := [P "?x", P "?y"]

/-- The proxy that selects a set of the variables. -/
def cq (S : Finset Lit) : ActModel := match constructProxy (learnedAct cE "act") (proxyData csig cvars S) with
  | .ok q => q
  | .error _ => ActModel.fresh []

theorem cq_eq {S : Finset Lit} (h : (constructProxy (learnedAct cE "act") (proxyData csig cvars S)).toBool = true) :
    constructProxy (learnedAct cE "act") (proxyData csig cvars S) = .ok (cq S) := by
  unfold cq
  cases hr : constructProxy (learnedAct cE "act") (proxyData csig cvars S) with
  | ok E => rfl
  | error e => rw [hr] at h; simp [Except.toBool] at h

/-- One clause over two literals; the proxies of its three models, the last of them merges the parameters. -/
example : formulaOf cE "act" = {{P "?x", P "?y"}} ∧
    (∀ S ∈ ({{P "?x"}, {P "?y"}, {P "?x", P "?y"}} : Finset (Finset Lit)),
      (constructProxy (learnedAct cE "act") (proxyData csig cvars S)).toBool = true) ∧
    (cq {P "?y"}).pre = {P "?x"} ∧ (cq {P "?y"}).eff = {P "?y"} ∧ (cq {P "?y"}).sig = csig ∧
    (cq {P "?x", P "?y"}).pre = ∅ ∧ (cq {P "?x", P "?y"}).eff = {P "?x"} ∧ (cq {P "?x", P "?y"}).sig = [("?x", o)] := by
  decide +kernel

theorem cOK : ProblemOK cdom ctru [ccomps] := by decide +kernel

theorem cexpl : ∀ c ∈ ccomps, Explained ctru c := by
  have := cOK.sound.2.2
  intro c hc
  have hs : ∀ c ∈ ccomps, c.success = true := by decide +kernel
  exact this c (by simpa using hc) (hs c hc)

/-- **C137 (the proxies of the other models).** The proxy of a model that selects too little of a clause is
not safe: it is applicable, and another atom than the true one is added. -/
theorem C137_proxy_unsafe : ∃ (D : Domain) (truth : String → Schema) (hs : List Component) (E : Esam) (vars : List Lit)
    (S : Finset Lit) (q : ActModel) (σ : String → String) (s : State),
    WFDomain D ∧ WFTruth D truth ∧ (∀ c ∈ hs, Explained truth c) ∧ hs.foldlM Esam.handleFixed (Esam.init D .soft) = .ok E ∧
    vars.toFinset = formulaVars (formulaOf E "act") ∧ (∀ cl ∈ formulaOf E "act", ∃ l ∈ cl, l ∈ S) ∧
    constructProxy (learnedAct E "act") (proxyData (D.act "act").sig vars S) = .ok q ∧
    applicable q.pre σ s ∧
    successor q.eff σ s ≠ successor (truth "act").eff (unmerge (proxyData (D.act "act").sig vars S).params σ) s := by
  refine ⟨cdom, ctru, ccomps, cE, cvars, {P "?y"}, cq {P "?y"}, subst ["?x", "?y"] ["a", "b"], {A "p" ["a"]},
    cOK.sound.1, cOK.sound.2.1, cexpl, cE_eq, by decide +kernel, by decide +kernel, cq_eq (by decide +kernel), by decide +kernel, by decide +kernel⟩

/-- The proxy that merges meets the hypotheses of `C137_merged_safe`. -/
example (σ : String → String) (s : State) :
    successor (cq {P "?x", P "?y"}).eff σ s = successor (ctru "act").eff (unmerge [("?x", "?x"), ("?y", "?x")] σ) s := by
  have hp : (proxyData (cdom.act "act").sig cvars {P "?x", P "?y"}).params = [("?x", "?x"), ("?y", "?x")] := by decide +kernel
  have h := C137_merged_safe (a := "act") (vars := cvars) (P := {P "?x", P "?y"}) (q := cq {P "?x", P "?y"}) cOK.sound.1 cOK.sound.2.1
    (p := .soft) (by decide) cE_eq cexpl (by decide) (by decide +kernel) (by decide +kernel) (by decide +kernel) (by decide +kernel)
    (cq_eq (by decide +kernel)) (by decide +kernel) (by decide +kernel) (by decide +kernel) σ s
    (by
      intro e he e' he' k
      have h1 : e = P "?x" := by simpa [tru] using he
      have h2 : e' = P "?x" := by simpa [tru] using he'
      subst h1; subst h2
      have := congrArg Lit.pos k
      exact absurd this (by simp [ground, Lit.neg, P]))
    (by
      have : (cq {P "?x", P "?y"}).pre = ∅ := by decide +kernel
      rw [this]; intro l hl; simp at hl)
  rw [← hp]
  exact h.2

/-- A domain with an action whose name is that of the first proxy of the other. -/
abbrev ddom : Domain := { (cE.base.applyPolicy.handleUnobserved).dom with names := ["act", "act_1"] }

/-- What is stored for the first two models. -/
def dD : Domain := match storeProxies "act" ddom [proxyData csig cvars {P "?x"}, proxyData csig cvars {P "?y"}] with
  | .ok D => D
  | .error _ => cdom

theorem dD_eq : storeProxies "act" ddom [proxyData csig cvars {P "?x"}, proxyData csig cvars {P "?y"}] = .ok dD := by
  have h : (storeProxies "act" ddom [proxyData csig cvars {P "?x"}, proxyData csig cvars {P "?y"}]).toBool = true := by decide +kernel
  unfold dD
  cases hr : storeProxies "act" ddom [proxyData csig cvars {P "?x"}, proxyData csig cvars {P "?y"}] with
  | ok E => rfl
  | error e => rw [hr] at h; simp [Except.toBool] at h

/-- **C137 (the name of a proxy may be taken).** An action of the domain whose name is that of a proxy is
replaced by the proxy. -/
theorem C137_name_taken : ∃ (D D' : Domain) (p p' : ProxyData), "act_1" ∈ D.names ∧ storeProxies "act" D [p, p'] = .ok D' ∧
    D'.names = ["act_1", "act_2"] ∧ (D'.act "act_1").eff = {P "?x"} ∧ (D.act "act_1").eff = ∅ ∧
    constructProxy (D.act "act") p = .ok (D'.act "act_1") := by
  refine ⟨ddom, dD, _, _, by decide, dD_eq, by decide +kernel, by decide +kernel, by decide +kernel, ?_⟩
  have := (C137_stored dD_eq).2.1 0 (by decide)
  exact this

/-- Neither translation gives a call: the hypothesis of `C137_decode_raises` and `C137_encode` is met. -/
example : decodeCall dD "act" ["?x", "?y"] [("?x", "?x"), ("?y", "?y")] ["a", "b"] = .error .keyError ∧
    encodeAll dD "act" 2 ["a", "b"] 2 = some (.error .keyError) ∧
    encodeAll dD "act" 2 ["a", "a"] 2 = some (.ok [("", []), ("", [])]) :=
  ⟨C137_decode_raises dD_eq _ _ _, (C137_encode dD_eq 2 _).trans (by decide), (C137_encode dD_eq 2 _).trans (by decide)⟩

/-- A literal loses an argument: `q ?x ?y` after merging. -/
example : rewriteLit [("?x", "?x"), ("?y", "?x")] ⟨"q", ["?x", "?y"], true⟩ = .ok ⟨"q", ["?x"], true⟩ := by rfl

/-- With the action in place `decode` still raises. -/
example : decodeCall cdom "act" ["?x"] [("?x", "?x"), ("?y", "?x")] ["a"] = .error .valueError := by decide +kernel

end Case
end EsamProxy
end Props

import Verif.Lemmas.UniFinal

/-! Universal conditional SAM: when learning succeeds. -/
namespace Model
open Spec

section
variable {D : Domain} {objs : Sig} {c : Component} {ts : List String} {addl : List (String × String)}

theorem mapM_isOk_iff {α β : Type} {f : α → Except Err β} : ∀ {xs : List α}, (∃ ys, xs.mapM f = .ok ys) ↔ ∀ x ∈ xs, ∃ y, f x = .ok y
  | [] => by simp [pure, Except.pure]
  | x :: xs => by
    rw [List.mapM_cons, List.forall_mem_cons, ← mapM_isOk_iff (xs := xs)]
    simp only [Bind.bind, Except.bind]
    cases hx : f x with
    | error e => simp
    | ok y =>
      cases hxs : xs.mapM f with
      | error e => simp
      | ok ys => simp [pure, Except.pure]

/-- When a changed literal with an object outside the call can be lifted. -/
theorem liftUni_isOk (hk : D.consts = []) (hw : WFSig [] (D.act c.call.name).sig) (hx : ExactCall D objs c)
    (hf : ∀ p ∈ addl, p.2 ∉ Sig.names (D.act c.call.name).sig) {g : Lit}
    (hg : TypedLit D.preds (uniObjects D objs ts c.call) g) (hout : ∃ o ∈ g.args, o ∉ c.call.params) :
    (∃ e, liftUni D addl objs c.call g = .ok e) ↔
      ∃ o T v, (∀ o' ∈ g.args, o' ∉ c.call.params → o' = o) ∧ (o, T) ∈ objs ∧ addl.lookup T.name = some v := by
  have hnd : (Sig.names objs).Nodup := by have := hx.names; rwa [hk, List.append_nil] at this
  constructor
  · rintro ⟨e, he⟩
    obtain ⟨T, h1, h2, h3, h4, h5, h6, h7⟩ := liftUni_ok hk hw hx hf hg he
    refine ⟨e.obj, T, e.var, fun o' ho' hn => ?_, h1.obj, h3⟩
    rw [← h5, ground_args, List.mem_map] at ho'
    obtain ⟨x, hx1, rfl⟩ := ho'
    rcases names_singleton_append.mp (typed_sub h7 x hx1) with hxs | rfl
    · exfalso
      have hne : x ≠ e.var := by rintro rfl; exact h1.fresh hxs
      rw [bindVar, Function.update_of_ne hne] at hn
      exact hn (bind_mem_call hw.params (by simp [h1.good0.len]) hxs)
    · simp
  · rintro ⟨o, T, v, h1, h2, h3⟩
    obtain ⟨o1, k1, k2⟩ := hout
    have ho1 := h1 o1 k1 k2
    subst ho1
    unfold liftUni
    have hne : ∃ rest, (g.args.filter fun x => !c.call.params.contains x) = o1 :: rest := by
      have hall : ∀ x ∈ g.args.filter fun x => !c.call.params.contains x, x = o1 := by
        intro x hx
        rw [List.mem_filter] at hx
        exact h1 x hx.1 (by simpa using hx.2)
      have hm : o1 ∈ g.args.filter fun x => !c.call.params.contains x := List.mem_filter.mpr ⟨k1, by simpa using k2⟩
      cases hL : g.args.filter fun x => !c.call.params.contains x with
      | nil => rw [hL] at hm; simp at hm
      | cons x xs => rw [hL] at hall; exact ⟨xs, by rw [hall x (by simp)]⟩
    obtain ⟨rest, hr⟩ := hne
    rw [hr]
    dsimp only
    rw [(lookup_of_mem hnd).mpr h2]
    dsimp only
    rw [h3]
    dsimp only
    have hvf : v ∉ Sig.names (D.act c.call.name).sig := hf _ (lookup_mem h3)
    have hE : Extra D objs c o1 v T := ⟨hk, hw, hx, h2, k2, hvf⟩
    -- the lifted literal
    have hpre : ∀ y : String, ∃ x, y ∈ g.args → (x ∈ Sig.names (D.act c.call.name).sig ∨ x = v) ∧ bindVar (objSubst D c) v o1 x = y := by
      intro y
      by_cases hy : y ∈ g.args
      · by_cases hyc : y ∈ c.call.params
        · obtain ⟨x, hx1, hx2⟩ := exists_param hw.params (by simp [hE.good0.len]) hyc
          refine ⟨x, fun _ => ⟨Or.inl hx1, ?_⟩⟩
          rw [bindVar_agree hvf x hx1]; exact hx2
        · exact ⟨v, fun _ => ⟨Or.inr rfl, by rw [h1 y hy hyc]; simp⟩⟩
      · exact ⟨"", fun h => absurd h hy⟩
    choose inv hinv using hpre
    have hl : (⟨g.name, g.args.map inv, g.pos⟩ : Lit) ∈ matchLits D.consts (D.act c.call.name).sig c.call.params (some (o1, v)) g := by
      rw [hk, matchLits_extra (T := T), mem_matchLits hE.wf1.params (by simp [Sig.names]) hE.good1.len (hg.nodup.filter _),
        subst_extend hvf hE.good0.len]
      refine ⟨?_, ?_, ?_⟩
      · unfold ground
        dsimp only
        rw [List.map_map]
        have : g.args.map (bindVar (subst (Sig.names (D.act c.call.name).sig) c.call.params) v o1 ∘ inv) = g.args := by
          conv_rhs => rw [← List.map_id g.args]
          exact List.map_congr_left fun y hy => (hinv y hy).2
        rw [this]
      · dsimp only
        refine (List.nodup_map_iff_inj_on hg.nodup).mpr fun x hx y hy e => ?_
        rw [← (hinv x hx).2, ← (hinv y hy).2, e]
      · intro x hx
        rw [List.mem_map] at hx
        obtain ⟨y, hy, rfl⟩ := hx
        exact Or.inl (names_singleton_append.mpr (hinv y hy).1)
    cases hm : matchLits D.consts (D.act c.call.name).sig c.call.params (some (o1, v)) g with
    | nil => rw [hm] at hl; simp at hl
    | cons l ls => exact ⟨_, rfl⟩

theorem removeExistingU_addl {ord : LitOrd} {call : Call} {p q : Finset Lit} (U : UniLearner) : (U.removeExistingU ord objs call p q).addl = U.addl := by
  unfold UniLearner.removeExistingU
  generalize U.addl call.name = xs
  induction xs generalizing U with
  | nil => rfl
  | cons x xs ih =>
    rw [List.foldl_cons, ih]
    split <;> rfl

variable {ord : LitOrd} (ho : EnumNodup ord)
include ho

/-- The quantified rules can be applied if all changed literals can be lifted. -/
theorem applyRulesU_isOk {V : UniLearner} (hs : SameStatic D V.base.base.dom) (hk : D.consts = []) (hx : ExactCall D objs c)
    (p q : Finset Lit) :
    (∃ U', V.applyRulesU ord objs c.call p q = .ok U') ↔
      ∀ g ∈ uniEffectsOf D c.call p q, ∃ e, liftUni D (V.addl c.call.name) objs c.call g = .ok e := by
  have hnd : (Sig.names objs).Nodup := by have := hx.names; rwa [hk, List.append_nil] at this
  have hmap : (∃ es, (ord (uniEffectsOf D c.call p q)).mapM (liftUni D (V.addl c.call.name) objs c.call) = .ok es) ↔
      ∀ g ∈ uniEffectsOf D c.call p q, ∃ e, liftUni D (V.addl c.call.name) objs c.call g = .ok e := by
    rw [mapM_isOk_iff]; simp only [ho.mem]
  rw [← hmap]
  unfold UniLearner.applyRulesU
  simp only [Bind.bind, Except.bind]
  have hupd : V.updateObserved ord objs c.call p q = match (ord (uniEffectsOf D c.call p q)).mapM (liftUni D (V.addl c.call.name) objs c.call) with
      | .error e => .error e
      | .ok es => .ok { V with obsU := es.foldl (fun f e => update2 f c.call.name e.type (f c.call.name e.type ∪ {e.lit})) V.obsU } := by
    unfold UniLearner.updateObserved
    simp only [Bind.bind, Except.bind]
    rw [uniEffectsOf_static hs, liftUni_static hs, hs.consts, hk, List.append_nil, Py.dictOf_of_nodup hnd]
    cases (ord (uniEffectsOf D c.call p q)).mapM (liftUni D (V.addl c.call.name) objs c.call) <;> rfl
  rw [hupd]
  cases hes : (ord (uniEffectsOf D c.call p q)).mapM (liftUni D (V.addl c.call.name) objs c.call) with
  | error e => simp
  | ok es =>
    simp only [exists_eq', Except.ok.injEq, iff_true]
    set W : UniLearner := { V with obsU := es.foldl (fun f e => update2 f c.call.name e.type (f c.call.name e.type ∪ {e.lit})) V.obsU } with hW
    have hcore := removeExistingU_core (ord := ord) (objs := objs) (call := c.call) (p := p) (n := q) (U := W)
    have hsX : SameStatic D (W.removeExistingU ord objs c.call p q).base.base.dom := by rw [hcore.base]; exact hs
    have haX : (W.removeExistingU ord objs c.call p q).addl = V.addl := removeExistingU_addl W
    unfold UniLearner.removeNonExistingU
    simp only [Bind.bind, Except.bind]
    rw [uniEffectsOf_static hsX, liftUni_static hsX, haX, hes]
    exact ⟨_, rfl⟩

end

section
variable {ord : LitOrd} (ho : EnumNodup ord)
variable {D : Domain} (hD : WFDomain D) {iq : String → Finset (String × String)} {types : List PType} {umap : List (String × List String)}
  {n : Nat} {hs : Hist} {U : UniLearner} {objs : Sig} {c : Component}

theorem uniObjects_eq {ts : List String} (hk : D.consts = []) (hx : ExactCall D objs c) : uniObjects D objs ts c.call =
    objs.filter fun o => c.call.params.contains o.1 || ts.contains o.2.name := by
  have hnd : (Sig.names objs).Nodup := by have := hx.names; rwa [hk, List.append_nil] at this
  unfold uniObjects
  rw [hk, List.append_nil, Py.dictOf_of_nodup hnd]
  simp [Sig.names]

/-- All changed literals can be lifted. -/
theorem lifts_iff {ts : List String} (hO : ObjsOK D types [(objs, c)]) (hw : WFSig [] (D.act c.call.name).sig) :
    (∀ g ∈ uniEffectsOf D c.call (uniSnapshot D objs ts c).1 (uniSnapshot D objs ts c).2,
      ∃ e, liftUni D ((learnedTypes types ts).map fun t => (t.name, additionalName (D.act c.call.name).sig t)) objs c.call g = .ok e) ↔
    OneExtra D types ts objs c := by
  have hk := hO.noConsts
  have hx : ExactCall D objs c := hO.calls (objs, c) (by simp)
  have hnd : (Sig.names objs).Nodup := by have := hx.names; rwa [hk, List.append_nil] at this
  have hf : ∀ p ∈ (learnedTypes types ts).map (fun t => (t.name, additionalName (D.act c.call.name).sig t)),
      p.2 ∉ Sig.names (D.act c.call.name).sig := by
    intro p hp
    obtain ⟨t, _, rfl⟩ := List.mem_map.mp hp
    exact additionalName_fresh _ _
  have hlk : ∀ T : PType, (∃ v, ((learnedTypes types ts).map fun t => (t.name, additionalName (D.act c.call.name).sig t)).lookup T.name = some v) ↔
      ∃ t ∈ learnedTypes types ts, t.name = T.name := by
    intro T
    constructor
    · rintro ⟨v, hv⟩
      obtain ⟨t, ht, he⟩ := List.mem_map.mp (lookup_mem hv)
      exact ⟨t, ht, congrArg Prod.fst he⟩
    · rintro ⟨t, ht, he⟩
      refine Option.ne_none_iff_exists'.mp fun h0 => ?_
      rw [Py.lookup_none_iff, List.map_map] at h0
      exact h0 (List.mem_map.mpr ⟨t, ht, he⟩)
  have htn : ∀ g, TypedLit D.preds (uniObjects D objs ts c.call) g → ∀ o ∈ g.args, o ∉ c.call.params → ∃ T, (o, T) ∈ objs ∧ T.name ∈ ts := by
    intro g hg o hog hoc
    obtain ⟨q, hq, rfl⟩ := List.mem_map.mp (typed_sub hg o hog)
    obtain ⟨h2, h3⟩ := (mem_uniObjects hx.names).mp hq
    rw [hk, List.append_nil] at h2
    refine ⟨q.2, h2, ?_⟩
    rcases h3 with h3 | h3 | h3
    · exact absurd h3 hoc
    · rw [hk] at h3; simp [Sig.names] at h3
    · exact h3
  have key : ∀ g, TypedLit D.preds (uniObjects D objs ts c.call) g → (∃ o ∈ g.args, o ∉ c.call.params) →
      ((∃ e, liftUni D ((learnedTypes types ts).map fun t => (t.name, additionalName (D.act c.call.name).sig t)) objs c.call g = .ok e) ↔
        (∀ o ∈ g.args, ∀ o' ∈ g.args, o ∉ c.call.params → o' ∉ c.call.params → o = o') ∧
        ∀ o ∈ g.args, o ∉ c.call.params → ∃ T ∈ types, T.name ≠ "object" ∧ (o, T) ∈ objs) := by
    intro g hg hout
    rw [liftUni_isOk (ts := ts) hk hw hx hf hg hout]
    constructor
    · rintro ⟨o, T, v, h1, h2, h3⟩
      refine ⟨fun o1 a1 o2 a2 b1 b2 => (h1 o1 a1 b1).trans (h1 o2 a2 b2).symm, fun o1 a1 b1 => ?_⟩
      obtain ⟨t, ht, he⟩ := (hlk T).mp ⟨v, h3⟩
      obtain ⟨t1, t2, _⟩ := mem_learnedTypes.mp ht
      have hTt : T = t := hO.known _ (by simp : (objs, c) ∈ [(objs, c)]) (o, T) h2 t t1 he.symm
      subst hTt
      exact ⟨T, t1, t2, by rw [h1 o1 a1 b1]; exact h2⟩
    · rintro ⟨h1, h2⟩
      obtain ⟨o, k1, k2⟩ := hout
      obtain ⟨T, t1, t2, t3⟩ := h2 o k1 k2
      obtain ⟨T', t4, t5⟩ := htn g hg o k1 k2
      have : T' = T := names_nodup_eq hnd t4 t3
      subst this
      obtain ⟨v, hv⟩ := (hlk T').mpr ⟨T', mem_learnedTypes.mpr ⟨t1, t2, t5⟩, rfl⟩
      exact ⟨o, T', v, fun o' a b => h1 o' a o k1 b k2, t3, hv⟩
  unfold OneExtra
  rw [← uniObjects_eq hk hx]
  constructor
  · intro h g hg h1 h2
    by_cases hout : ∃ o ∈ g.args, o ∉ c.call.params
    · exact (key g hg hout).mp (h g ((mem_uniEffectsOf hk).mpr ⟨(mem_changed hk).mpr ⟨hg, h1, h2⟩, hout⟩))
    · push Not at hout
      exact ⟨fun o a _ _ b => absurd (hout o a) b, fun o a b => absurd (hout o a) b⟩
  · intro h g hg
    obtain ⟨h1, hout⟩ := (mem_uniEffectsOf hk).mp hg
    obtain ⟨hty, h2, h3⟩ := (mem_changed hk).mp h1
    exact (key g hty hout).mpr (h g hty h2 h3)

include ho hD

/-- When a transition is processed without exception. -/
theorem handle_isOk (hI : UniInv ord D iq types umap n hs U) (hO : ObjsOK D types [(objs, c)]) :
    (∃ U', U.handleComponent ord objs c = .ok U') ↔
      c.call.name ∈ D.names ∧ ∃ ts, umap.lookup c.call.name = some ts ∧ OneExtra D types ts objs c := by
  have hcall : ExactCall D objs c := hO.calls (objs, c) (by simp)
  by_cases hcn' : c.call.name ∈ D.names
  swap
  · simp only [hcn', false_and, iff_false, not_exists]
    intro U' h
    unfold UniLearner.handleComponent at h
    dsimp only at h
    rw [if_pos (by rw [hI.base.static.names]; exact hcn')] at h
    simp at h
  have hcn : c.call.name ∈ U.base.base.dom.names := by rw [hI.base.static.names]; exact hcn'
  have hw0 := hD.sigs _ hcn'
  have hw : WFSig [] (D.act c.call.name).sig := by rw [hO.noConsts] at hw0; exact hw0
  cases hts : umap.lookup c.call.name with
  | none =>
    simp only [hcn', reduceCtorEq, false_and, exists_false, and_false, iff_false, not_exists]
    intro U' h
    unfold UniLearner.handleComponent at h
    dsimp only at h
    rw [if_neg (by simpa using hcn), hI.umapEq, hts] at h
    simp at h
  | some ts =>
    simp only [hcn', true_and, Option.some.injEq, exists_eq_left']
    rw [← lifts_iff hO hw]
    obtain ⟨K', hK, hI2⟩ : ∃ K', U.base.handleComponent ord c = .ok K' ∧ CondInv ord D iq n (hs.map Prod.snd ++ [c]) K' := by
      by_cases hob : c.call.name ∈ U.base.base.observed
      · exact hI.base.step_upd ho hob
      · exact hI.base.step_new ho hcn' hob
    obtain ⟨V, v1, v2, v3⟩ : ∃ V : UniLearner, U.handleComponent ord objs c =
        V.applyRulesU ord objs c.call (uniSnapshot D objs ts c).1 (uniSnapshot D objs ts c).2 ∧ SameStatic D V.base.base.dom ∧
        V.addl c.call.name = (learnedTypes types ts).map (fun t => (t.name, additionalName (D.act c.call.name).sig t)) := by
      obtain ⟨e1, e2, e3⟩ := lift_uniSnapshot (D := U.base.base.dom) (ts := ts) (by rw [hI.base.static.consts, hI.base.static.sig]; exact hw0)
        ((ExactCall_static hI.base.static).mpr hcall)
      have hsn := uniSnapshot_static (objs := objs) (ts := ts) (c := c) hI.base.static
      unfold CondLearner.handleComponent at hK
      rw [if_neg (by simpa using hcn)] at hK
      dsimp only at hK
      unfold UniLearner.handleComponent
      dsimp only
      have hts' : U.umap.lookup c.call.name = some ts := by rw [hI.umapEq]; exact hts
      rw [if_neg (by simpa using hcn), hts']
      dsimp only
      by_cases hob : c.call.name ∈ U.base.base.observed
      · rw [if_neg (by simpa using hob)] at hK ⊢
        rw [← updateAction_congr (p := (uniSnapshot U.base.base.dom objs ts c).1) (n := (uniSnapshot U.base.base.dom objs ts c).2)
          (p' := (tripletSnapshot U.base.base.dom c).1) (n' := (tripletSnapshot U.base.base.dom c).2) e1 e2
            (e3.trans (liftedEffects_eq _ c).symm)] at hK
        have hK2 : (if ts = [] then { U.base with base := { U.base.base with dom := updatePre U.base.base.dom c.call (uniSnapshot U.base.base.dom objs ts c).1 } } else U.base).updateAction ord c.call (uniSnapshot U.base.base.dom objs ts c).1
            (uniSnapshot U.base.base.dom objs ts c).2 = .ok K' := by
          rw [← hK]
          by_cases hts : ts = []
          · rw [if_pos hts]
            unfold CondLearner.updateAction
            dsimp only
            rw [updatePre_twice]
          · rw [if_neg hts]
        simp only [Bind.bind, Except.bind]
        rw [hK2, hsn]
        obtain ⟨ts', g1, g2, _⟩ := hI.seen _ hob
        rw [hts] at g1; cases g1
        exact ⟨_, rfl, hI2.static, g2⟩
      · rw [if_pos (by simpa using hob)] at hK ⊢
        have hi := initU_core (ord := ord) c.call.name ts { U with base := U.base.initDeps ord c.call.name }
        have hb : ({ U with base := U.base.initDeps ord c.call.name }.initU ord c.call.name ts).base = U.base.initDeps ord c.call.name := hi.base
        rw [← addNewAction_congr (K := U.base.initDeps ord c.call.name) (p := (uniSnapshot U.base.base.dom objs ts c).1)
          (n := (uniSnapshot U.base.base.dom objs ts c).2) (p' := (tripletSnapshot U.base.base.dom c).1)
          (n' := (tripletSnapshot U.base.base.dom c).2) e1 e2 (e3.trans (liftedEffects_eq _ c).symm)] at hK
        have hK2 : (if ts = [] then { (U.base.initDeps ord c.call.name) with base := { (U.base.initDeps ord c.call.name).base with
            dom := addNewPre (U.base.initDeps ord c.call.name).base.dom c.call (uniSnapshot U.base.base.dom objs ts c).1 } }
            else (U.base.initDeps ord c.call.name)).addNewAction ord c.call (uniSnapshot U.base.base.dom objs ts c).1
            (uniSnapshot U.base.base.dom objs ts c).2 = .ok K' := by
          rw [← hK]
          by_cases hts : ts = []
          · rw [if_pos hts]
            unfold CondLearner.addNewAction
            dsimp only
            rw [addNewPre_twice]
          · rw [if_neg hts]
        simp only [Bind.bind, Except.bind]
        rw [hb, hK2, hsn]
        obtain ⟨g1, _⟩ := initFold_spec ho (a := c.call.name) (n := n) (learnedTypes types ts)
          { U with base := U.base.initDeps ord c.call.name } hI.base.static hI.base.max (hO.learned ts)
          (by intro t _; rw [show ({ U with base := U.base.initDeps ord c.call.name } : UniLearner).addl c.call.name = [] from (hI.idle _ hob).1]; simp)
        have hin : ({ U with base := U.base.initDeps ord c.call.name } : UniLearner).initU ord c.call.name ts =
            (learnedTypes types ts).foldl (UniLearner.initType ord c.call.name) { U with base := U.base.initDeps ord c.call.name } := by
          unfold UniLearner.initU learnedTypes
          rw [← hI.typesEq]
        refine ⟨_, rfl, hI2.static, ?_⟩
        dsimp only
        rw [hin]
        rw [show ({ U with base := U.base.initDeps ord c.call.name } : UniLearner).addl c.call.name = [] from (hI.idle _ hob).1,
          List.nil_append] at g1
        exact g1
    rw [v1, applyRulesU_isOk ho v2 hO.noConsts hcall, v3]

/-- A list of transitions of one observation. -/
theorem observation_isOk : ∀ (cs : List Component) (hs : Hist) (U : UniLearner),
    UniInv ord D iq types umap n hs U → ObjsOK D types (cs.map fun c => (objs, c)) →
    ((∃ U', cs.foldlM (UniLearner.handleComponent ord objs) U = .ok U') ↔
      ∀ c ∈ cs, c.call.name ∈ D.names ∧ ∃ ts, umap.lookup c.call.name = some ts ∧ OneExtra D types ts objs c) := by
  intro cs
  induction cs with
  | nil => intro hs U _ _; simp [pure, Except.pure]
  | cons c cs ih =>
    intro hs U hI hO
    have hO1 : ObjsOK D types [(objs, c)] := ⟨hO.noConsts, hO.names, fun x hx => hO.known x (by
        simp only [List.mem_singleton] at hx; subst hx; simp), fun x hx => hO.calls x (by
        simp only [List.mem_singleton] at hx; subst hx; simp)⟩
    have hO2 : ObjsOK D types (cs.map fun c => (objs, c)) := ⟨hO.noConsts, hO.names, fun x hx => hO.known x (by
      simp only [List.map_cons, List.mem_cons]; exact Or.inr hx), fun x hx => hO.calls x (by simp only [List.map_cons, List.mem_cons]; exact Or.inr hx)⟩
    rw [List.foldlM_cons, List.forall_mem_cons, ← handle_isOk ho hD hI hO1]
    simp only [Bind.bind, Except.bind]
    cases hV : U.handleComponent ord objs c with
    | error e => simp
    | ok V =>
      simp only [Except.ok.injEq, exists_eq', true_and]
      exact ih _ V (hI.step ho hD hO1 hV) hO2

/-- All observations. -/
theorem process_isOk : ∀ (obs : List UniObs) (hs : Hist) (U : UniLearner),
    UniInv ord D iq types umap n hs U → ObjsOK D types (flat obs) →
    ((∃ U', U.process ord obs = .ok U') ↔
      ∀ ob ∈ obs, ∀ c ∈ ob.2, c.call.name ∈ D.names ∧ ∃ ts, umap.lookup c.call.name = some ts ∧ OneExtra D types ts ob.1 c) := by
  intro obs
  induction obs with
  | nil => intro hs U _ _; simp [UniLearner.process, pure, Except.pure]
  | cons ob obs ih =>
    intro hs U hI hO
    have hf : flat (ob :: obs) = (ob.2.map fun c => (ob.1, c)) ++ flat obs := rfl
    rw [hf] at hO
    have hO1 : ObjsOK D types (ob.2.map fun c => (ob.1, c)) := ⟨hO.noConsts, hO.names, fun x hx => hO.known x (List.mem_append_left _ hx),
      fun x hx => hO.calls x (List.mem_append_left _ hx)⟩
    have hO2 : ObjsOK D types (flat obs) := ⟨hO.noConsts, hO.names, fun x hx => hO.known x (List.mem_append_right _ hx),
      fun x hx => hO.calls x (List.mem_append_right _ hx)⟩
    unfold UniLearner.process
    rw [List.foldlM_cons, List.forall_mem_cons, ← observation_isOk ho hD ob.2 hs U hI hO1]
    simp only [Bind.bind, Except.bind]
    cases hV : ob.2.foldlM (UniLearner.handleComponent ord ob.1) U with
    | error e => simp
    | ok V =>
      simp only [Except.ok.injEq, exists_eq', true_and]
      exact ih _ V (UniInv.observation ho hD ob.2 hs U hI hO1 hV) hO2

end
end Model

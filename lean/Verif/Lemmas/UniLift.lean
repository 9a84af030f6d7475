import Verif.Lemmas.UniExtra
import Verif.Lemmas.NumMatch

/-! Universal conditional SAM: lifting the changed literals that have an additional object. -/
namespace Model
open Spec

section
variable {D : Domain} {objs : Sig} {c : Component} {ts : List String} {addl : List (String × String)}

theorem mem_uniEffectsOf (hk : D.consts = []) {p n : Finset Lit} {g : Lit} : g ∈ uniEffectsOf D c.call p n ↔
    g ∈ (extractEffects p n).1 ∪ (extractEffects p n).2 ∧ ∃ o ∈ g.args, o ∉ c.call.params := by
  unfold uniEffectsOf
  dsimp only
  rw [Finset.mem_filter, hk]
  simp [Sig.names]

/-- The changed literals of the snapshot. -/
theorem mem_changed (hk : D.consts = []) {g : Lit} :
    g ∈ (extractEffects (uniSnapshot D objs ts c).1 (uniSnapshot D objs ts c).2).1 ∪
      (extractEffects (uniSnapshot D objs ts c).1 (uniSnapshot D objs ts c).2).2 ↔
    TypedLit D.preds (uniObjects D objs ts c.call) g ∧ holds c.next g ∧ ¬ holds c.prev g := by
  unfold uniSnapshot
  rw [mem_extractEffects, hk, List.append_nil]

/-- An additional object: which one, and how a literal with it is lifted. -/
theorem liftUni_ok (hk : D.consts = []) (hw : WFSig [] (D.act c.call.name).sig) (hx : ExactCall D objs c)
    (hf : ∀ p ∈ addl, p.2 ∉ Sig.names (D.act c.call.name).sig) {g : Lit} {e : UniEff}
    (hg : TypedLit D.preds (uniObjects D objs ts c.call) g)
    (h : liftUni D addl objs c.call g = .ok e) :
    ∃ T, Extra D objs c e.obj e.var T ∧ T.name ∈ ts ∧ addl.lookup T.name = some e.var ∧ e.type = T.name ∧
      ground (bindVar (objSubst D c) e.var e.obj) e.lit = g ∧ e.var ∈ e.lit.args ∧
      TypedLit D.preds ((D.act c.call.name).sig ++ [(e.var, T)]) e.lit := by
  have hnd : (Sig.names objs).Nodup := by have := hx.names; rwa [hk, List.append_nil] at this
  unfold liftUni at h
  split at h
  · simp at h
  · rename_i o rest hfil
    have ho : o ∈ g.args.filter fun x => !c.call.params.contains x := by rw [hfil]; exact List.mem_cons_self
    rw [List.mem_filter] at ho
    obtain ⟨hog, hoc⟩ := ho
    have hoc' : o ∉ c.call.params := by simpa using hoc
    split at h
    · simp at h
    · rename_i T hT
      have hTm := (lookup_of_mem hnd).mp hT
      split at h
      · simp at h
      · rename_i v hv
        have hvf : v ∉ Sig.names (D.act c.call.name).sig := hf _ (lookup_mem hv)
        have hE : Extra D objs c o v T := ⟨hk, hw, hx, hTm, hoc', hvf⟩
        have hTs : T.name ∈ ts := by
          have h1 := typed_sub hg o hog
          obtain ⟨p, hp, rfl⟩ := List.mem_map.mp h1
          obtain ⟨h2, h3⟩ := (mem_uniObjects hx.names).mp hp
          rw [hk, List.append_nil] at h2
          have e2 : p.2 = T := names_nodup_eq hnd (x := p.1) h2 hTm
          rcases h3 with h3 | h3 | h3
          · exact absurd h3 hoc'
          · rw [hk] at h3; simp [Sig.names] at h3
          · rw [← e2]; exact h3
        split at h
        · simp at h
        · rename_i l rest' hm
          simp only [Except.ok.injEq] at h
          subst h
          have hl : l ∈ matchLits D.consts (D.act c.call.name).sig c.call.params (some (o, v)) g := by rw [hm]; exact List.mem_cons_self
          rw [hk, matchLits_extra (T := T), mem_matchLits hE.wf1.params (by simp [Sig.names]) hE.good1.len (hg.nodup.filter _),
            subst_extend hvf hE.good0.len] at hl
          obtain ⟨h1, h2, h3⟩ := hl
          refine ⟨T, hE, hTs, hv, rfl, h1, ?_, ?_⟩
          · rw [← h1, ground_args, List.mem_map] at hog
            obtain ⟨x, hx1, hx2⟩ := hog
            by_cases hxv : x = v
            · rw [← hxv]; exact hx1
            · exfalso
              have hxs : x ∈ Sig.names (D.act c.call.name).sig := by
                have := (h3 x hx1).resolve_right (by simp [Sig.names])
                rw [names_append, List.mem_append] at this
                rcases this with h | h
                · exact h
                · simp only [Sig.names, List.map_cons, List.map_nil, List.mem_singleton] at h
                  exact absurd h hxv
              rw [bindVar, Function.update_of_ne hxv] at hx2
              rw [← hx2] at hoc'
              exact hoc' (bind_mem_call hw.params (by simp [hE.good0.len]) hxs)
          · have ht := (hE.table hTs).typed (D := D) (by rw [hk]; exact hE.wf1) (by rw [hk]; exact hE.good1) (l := l)
              (by rw [hk]; exact h3)
            rw [hk, List.append_nil, subst_extend hvf hE.good0.len] at ht
            exact ht.mp (by rw [show ground (bindVar _ v o) l = g from h1]; exact hg)

theorem Extra.inj {o v : String} {T : PType} (h : Extra D objs c o v T) {x y : String} (hx : x ∈ Sig.names (D.act c.call.name).sig ∨ x = v)
    (hy : y ∈ Sig.names (D.act c.call.name).sig ∨ y = v) (e : bindVar (objSubst D c) v o x = bindVar (objSubst D c) v o y) : x = y := by
  have key : ∀ z, z ∈ Sig.names (D.act c.call.name).sig ∨ z = v → z ∈ Sig.names ((D.act c.call.name).sig ++ [(v, T)]) := by
    intro z hz
    rw [names_append, List.mem_append]
    rcases hz with hz | rfl
    · exact Or.inl hz
    · right; simp [Sig.names]
  have e' : bindVar (Spec.subst (Sig.names (D.act c.call.name).sig) c.call.params) v o x =
    bindVar (Spec.subst (Sig.names (D.act c.call.name).sig) c.call.params) v o y := e
  rw [← subst_extend (T := T) h.fresh h.good0.len] at e'
  exact bind_inj_params h.wf1.params (by simp [h.good0.len]) h.good1.nodup (key x hx) (key y hy) e'

theorem names_singleton_append {sig : Sig} {v : String} {T : PType} {x : String} :
    x ∈ Sig.names (sig ++ [(v, T)]) ↔ x ∈ Sig.names sig ∨ x = v := by
  rw [names_append, List.mem_append]; simp [Sig.names]

theorem ground_inj_on {ρ : String → String} {l l' : Lit} (h : ∀ x ∈ l.args, ∀ y ∈ l'.args, ρ x = ρ y → x = y)
    (e : ground ρ l = ground ρ l') : l = l' := by
  have h1 : l.name = l'.name := by have := congrArg Lit.name e; simpa using this
  have h2 : l.pos = l'.pos := by have := congrArg Lit.pos e; simpa using this
  have h3 : l.args.map ρ = l'.args.map ρ := by have := congrArg Lit.args e; simpa using this
  have h4 : ∀ as bs : List String, (∀ x ∈ as, ∀ y ∈ bs, ρ x = ρ y → x = y) → as.map ρ = bs.map ρ → as = bs := by
    intro as
    induction as with
    | nil => intro bs _ h; cases bs <;> simp_all
    | cons a as ih =>
      intro bs hi h
      cases bs with
      | nil => simp at h
      | cons b bs =>
        simp only [List.map_cons, List.cons.injEq] at h
        rw [hi a (by simp) b (by simp) h.1, ih bs (fun x hx y hy => hi x (by simp [hx]) y (by simp [hy])) h.2]
  have h5 := h4 _ _ h h3
  cases l; cases l'
  simp only at h1 h2 h5
  rw [h1, h2, h5]

/-- What the lifting of all changed literals returns. -/
theorem liftAll_spec {ord : LitOrd} (ho : EnumNodup ord) (hk : D.consts = []) (hw : WFSig [] (D.act c.call.name).sig) (hx : ExactCall D objs c)
    (hf : ∀ p ∈ addl, p.2 ∉ Sig.names (D.act c.call.name).sig) {es : List UniEff}
    (h : (ord (uniEffectsOf D c.call (uniSnapshot D objs ts c).1 (uniSnapshot D objs ts c).2)).mapM (liftUni D addl objs c.call) = .ok es) :
    ∀ e : UniEff, e ∈ es ↔ ∃ T, Extra D objs c e.obj e.var T ∧ T.name ∈ ts ∧ addl.lookup T.name = some e.var ∧ e.type = T.name ∧
      e.lit ∈ obsEff (extend D c.call.name e.var T) (plus c e.obj) ∧ e.var ∈ e.lit.args := by
  have hnd : (Sig.names objs).Nodup := by have := hx.names; rwa [hk, List.append_nil] at this
  have hm : ∀ e, e ∈ es ↔ ∃ g ∈ uniEffectsOf D c.call (uniSnapshot D objs ts c).1 (uniSnapshot D objs ts c).2,
      liftUni D addl objs c.call g = .ok e := by
    intro e
    have key : ∀ (gs : List Lit) (es : List UniEff), gs.mapM (liftUni D addl objs c.call) = .ok es →
        (e ∈ es ↔ ∃ g ∈ gs, liftUni D addl objs c.call g = .ok e) := by
      intro gs
      induction gs with
      | nil => intro es h; cases h; simp
      | cons g gs ih =>
        intro es h
        rw [List.mapM_cons] at h
        simp only [Bind.bind, Except.bind] at h
        split at h
        · simp at h
        · rename_i e1 he1
          split at h
          · simp at h
          · rename_i es1 hes1
            cases h
            rw [List.mem_cons, ih es1 hes1]
            simp only [List.mem_cons, exists_eq_or_imp, he1, Except.ok.injEq]
            exact or_congr eq_comm Iff.rfl
    rw [key _ _ h]
    simp only [ho.mem]
  have hall : ∀ g ∈ uniEffectsOf D c.call (uniSnapshot D objs ts c).1 (uniSnapshot D objs ts c).2,
      ∃ e, liftUni D addl objs c.call g = .ok e := by
    have key : ∀ (gs : List Lit) (es : List UniEff), gs.mapM (liftUni D addl objs c.call) = .ok es →
        ∀ g ∈ gs, ∃ e, liftUni D addl objs c.call g = .ok e := by
      intro gs
      induction gs with
      | nil => intro es h; simp
      | cons g gs ih =>
        intro es h
        rw [List.mapM_cons] at h
        simp only [Bind.bind, Except.bind] at h
        split at h
        · simp at h
        · rename_i e1 he1
          split at h
          · simp at h
          · rename_i es1 hes1
            intro x hx
            rcases List.mem_cons.mp hx with rfl | hx
            · exact ⟨e1, he1⟩
            · exact ih es1 hes1 x hx
    intro g hg
    exact key _ _ h g ((ho.mem _ _).mpr hg)
  intro e
  rw [hm]
  constructor
  · rintro ⟨g, hg, he⟩
    rw [mem_uniEffectsOf hk, mem_changed hk] at hg
    obtain ⟨T, h1, h2, h3, h4, h5, h6, h7⟩ := liftUni_ok hk hw hx hf hg.1.1 he
    refine ⟨T, h1, h2, h3, h4, ?_, h6⟩
    rw [h1.obsEff, h5]
    exact ⟨h7, hg.1.2⟩
  · rintro ⟨T, h1, h2, h3, h4, h5, h6⟩
    rw [h1.obsEff] at h5
    obtain ⟨h5, h7⟩ := h5
    have hsub : ∀ x ∈ e.lit.args, x ∈ Sig.names (D.act c.call.name).sig ∨ x = e.var := fun x hx => names_singleton_append.mp (typed_sub h5 x hx)
    have hty : TypedLit D.preds (uniObjects D objs ts c.call) (ground (bindVar (objSubst D c) e.var e.obj) e.lit) := by
      have ht := (h1.table h2).typed (D := D) (by rw [hk]; exact h1.wf1) (by rw [hk]; exact h1.good1) (l := e.lit)
        (fun x hx => Or.inl (typed_sub h5 x hx))
      rw [hk, List.append_nil, subst_extend h1.fresh h1.good0.len] at ht
      exact ht.mpr h5
    have hg : ground (bindVar (objSubst D c) e.var e.obj) e.lit ∈
        uniEffectsOf D c.call (uniSnapshot D objs ts c).1 (uniSnapshot D objs ts c).2 := by
      rw [mem_uniEffectsOf hk, mem_changed hk]
      refine ⟨⟨hty, h7⟩, e.obj, ?_, h1.out⟩
      rw [ground_args]
      exact List.mem_map.mpr ⟨e.var, h6, by simp [bindVar]⟩
    refine ⟨_, hg, ?_⟩
    obtain ⟨e', he'⟩ := hall _ hg
    rw [he']
    obtain ⟨T', f1, f2, f3, f4, f5, f6, f7⟩ := liftUni_ok hk hw hx hf hty he'
    -- the object is the same
    have hobj : e'.obj = e.obj := by
      have hm : e'.obj ∈ (ground (bindVar (objSubst D c) e'.var e'.obj) e'.lit).args := by
        rw [ground_args]; exact List.mem_map.mpr ⟨e'.var, f6, by simp [bindVar]⟩
      rw [f5, ground_args, List.mem_map] at hm
      obtain ⟨x, hx1, hx2⟩ := hm
      rcases hsub x hx1 with hxs | rfl
      · exfalso
        have hne : x ≠ e.var := by rintro rfl; exact h1.fresh hxs
        rw [bindVar, Function.update_of_ne hne] at hx2
        exact f1.out (hx2 ▸ bind_mem_call hw.params (by simp [h1.good0.len]) hxs)
      · rw [bindVar, Function.update_self] at hx2; exact hx2.symm
    have hTT : T' = T := names_nodup_eq hnd f1.obj (by rw [hobj]; exact h1.obj)
    subst hTT
    have hvar : e'.var = e.var := by rw [h3] at f3; exact (Option.some.inj f3).symm
    have hlit : e'.lit = e.lit := by
      rw [hvar, hobj] at f5
      refine ground_inj_on (fun x hx y hy => h1.inj ?_ (hsub y hy)) f5
      rw [← hvar]
      exact names_singleton_append.mp (typed_sub f7 x hx)
    cases e; cases e'
    simp only at hobj hvar hlit f4 h4
    simp [hobj, hvar, hlit, f4, h4]

end
end Model

import Verif.Lemmas.UniBase
import Verif.Lemmas.CondSafe

/-! Universal conditional SAM: the additional object as one more parameter. -/
namespace Model
open Spec

/-! ### The name of the additional parameter -/

theorem natRepr_inj {i j : Nat} (h : (toString i).toList = (toString j).toList) : i = j := by
  have e : ∀ k : Nat, (toString k).toList = Nat.toDigits 10 k := fun k => Nat.toList_repr
  rw [e, e] at h
  rw [← Nat.ofDigitChars_toDigits (b := 10) (n := i) (by omega) (by omega), h, Nat.ofDigitChars_toDigits (by omega) (by omega)]

theorem toString_nat_ne (i : Nat) : (toString i).toList ≠ [] := by
  intro h
  exact Nat.repr_ne_empty (String.toList_eq_nil_iff.mp h)

theorem nameCand_inj (t : PType) : Function.Injective (nameCand t) := by
  intro i j h
  unfold nameCand at h
  dsimp only at h
  generalize String.ofList ['?', t.name.toList.headD '?'] = b at h
  by_cases hi : i = 0 <;> by_cases hj : j = 0
  · omega
  · rw [if_pos hi, if_neg hj] at h
    have := congrArg String.toList h
    rw [String.toList_append, List.self_eq_append_right] at this
    exact absurd this (toString_nat_ne j)
  · rw [if_neg hi, if_pos hj] at h
    have := congrArg String.toList h
    rw [String.toList_append, List.append_right_eq_self] at this
    exact absurd this (toString_nat_ne i)
  · rw [if_neg hi, if_neg hj] at h
    have := congrArg String.toList h
    rw [String.toList_append, String.toList_append, List.append_cancel_left_eq] at this
    exact natRepr_inj this

/-- The additional parameter is not a parameter of the action. -/
theorem additionalName_fresh (sig : Sig) (t : PType) : additionalName sig t ∉ Sig.names sig := by
  unfold additionalName
  cases h : ((List.range (sig.length + 1)).map (nameCand t)).find? fun x => !(Sig.names sig).contains x with
  | some x =>
    have := List.find?_some h
    simpa using this
  | none =>
    exfalso
    rw [List.find?_eq_none] at h
    have hsub : ((List.range (sig.length + 1)).map (nameCand t)) ⊆ Sig.names sig := by
      intro x hx
      have := h x hx
      simpa using this
    have hnd : ((List.range (sig.length + 1)).map (nameCand t)).Nodup := List.nodup_range.map (nameCand_inj t)
    have := (hnd.subperm hsub).length_le
    simp [Sig.names] at this
    exact absurd this (Nat.not_succ_le_self _)

theorem additionalName_ne (sig : Sig) (t : PType) : additionalName sig t ≠ "" := by
  have key : ∀ i, nameCand t i ≠ "" := by
    intro i h
    unfold nameCand at h
    dsimp only at h
    have := congrArg String.toList h
    split at this <;> simp at this
  unfold additionalName
  cases h : ((List.range (sig.length + 1)).map (nameCand t)).find? fun x => !(Sig.names sig).contains x with
  | some x =>
    obtain ⟨i, _, rfl⟩ := List.mem_map.mp (List.mem_of_find?_eq_some h)
    exact key i
  | none => exact key 0

/-! ### Matching -/

section
variable {D : Domain} {sig : Sig} {call : List String} {o v : String} {T : PType}

theorem subst_extend (hv : v ∉ Sig.names sig) (hlen : call.length = sig.length) :
    subst (Sig.names (sig ++ [(v, T)])) (call ++ [o]) = bindVar (subst (Sig.names sig) call) v o := by
  have hlen' : (Sig.names sig).length = call.length := by simp [hlen]
  funext x
  have hz : (Sig.names (sig ++ [(v, T)])).zip (call ++ [o]) = (Sig.names sig).zip call ++ [(v, o)] := by
    rw [names_append, List.zip_append hlen']; rfl
  unfold subst bindVar
  rw [hz]
  by_cases hx : x = v
  · subst hx
    have : ((Sig.names sig).zip call).lookup x = none := by
      rw [Py.lookup_none_iff]
      rw [List.map_fst_zip (by omega)]; exact hv
    simp [List.lookup_append, this]
  · rw [List.lookup_append, Function.update_of_ne hx]
    cases ((Sig.names sig).zip call).lookup x with
    | some y => rfl
    | none => simp [List.lookup, beq_eq_false_iff_ne.mpr hx]

/-- With the additional object the matcher works as if it were one more parameter. -/
theorem matchLits_extra {g : Lit} : matchLits [] sig call (some (o, v)) g = matchLits [] (sig ++ [(v, T)]) (call ++ [o]) none g := by
  unfold matchLits
  have e : (g.args.filter fun x => (Sig.names ([] : Sig)).contains x) = [] := by simp [Sig.names]
  simp only [e, List.append_nil, names_append]
  rfl

theorem wfSig_extend (hw : WFSig [] sig) (hv : v ∉ Sig.names sig) : WFSig [] (sig ++ [(v, T)]) := by
  unfold WFSig at hw ⊢
  rw [List.append_nil] at hw ⊢
  rw [names_append, List.nodup_append]
  refine ⟨hw, by simp [Sig.names], ?_⟩
  rintro x hx y hy rfl
  simp only [Sig.names, List.map_cons, List.map_nil, List.mem_singleton] at hy
  subst hy; exact hv hx

theorem goodCall_extend (hc : GoodCall [] sig call) (ho : o ∉ call) : GoodCall [] (sig ++ [(v, T)]) (call ++ [o]) := by
  refine ⟨by simp [hc.len], ?_, by simp [Sig.names]⟩
  rw [List.nodup_append]
  exact ⟨hc.nodup, by simp, by rintro x hx y hy rfl; rw [List.mem_singleton] at hy; subst hy; exact ho hx⟩

theorem possibleMatches_extra (hw : WFSig [] sig) (hc : GoodCall [] sig call) (hv : v ∉ Sig.names sig) (ho : o ∉ call) {S : Finset Lit}
    (hS : ∀ g ∈ S, g.args.Nodup) :
    possibleMatches [] sig call S (some (o, v)) = possibleMatches [] (sig ++ [(v, T)]) (call ++ [o]) S := by
  unfold possibleMatches
  refine Finset.biUnion_congr rfl fun g hg => ?_
  dsimp only
  by_cases h : o ∈ g.args
  · rw [if_pos h, matchLits_extra (T := T)]
  · rw [if_neg h]
    ext l
    have hw' := wfSig_extend (T := T) hw hv
    have hc' := goodCall_extend (T := T) (v := v) hc ho
    have hn0 : (g.args.filter fun x => (Sig.names ([] : Sig)).contains x).Nodup := (hS g hg).filter _
    rw [List.mem_toFinset, List.mem_toFinset, mem_matchLits hw.params (by simp [Sig.names]) hc.len hn0,
      mem_matchLits hw'.params (by simp [Sig.names]) hc'.len hn0, subst_extend hv hc.len]
    have hlv : ∀ x ∈ l.args, x ≠ v → bindVar (subst (Sig.names sig) call) v o x = subst (Sig.names sig) call x :=
      fun x _ hx => Function.update_of_ne hx _ _
    constructor
    · rintro ⟨h1, h2, h3⟩
      refine ⟨?_, h2, fun x hx => ?_⟩
      · rw [← h1]
        refine congrArg (fun z => (⟨l.name, z, l.pos⟩ : Lit)) (List.map_congr_left fun x hx => hlv x hx ?_)
        rintro rfl
        rcases h3 _ hx with h | h
        · exact hv h
        · simp [Sig.names] at h
      · rcases h3 x hx with h | h
        · left; rw [names_append]; exact List.mem_append_left _ h
        · exact Or.inr h
    · rintro ⟨h1, h2, h3⟩
      have hvl : v ∉ l.args := by
        intro hvl
        apply h
        rw [← h1]
        exact List.mem_map.mpr ⟨v, hvl, by simp⟩
      refine ⟨?_, h2, fun x hx => ?_⟩
      · rw [← h1]
        refine congrArg (fun z => (⟨l.name, z, l.pos⟩ : Lit)) (List.map_congr_left fun x hx => (hlv x hx ?_).symm)
        rintro rfl; exact hvl hx
      · rcases h3 x hx with h | h
        · rw [names_append, List.mem_append] at h
          rcases h with h | h
          · exact Or.inl h
          · simp only [Sig.names, List.map_cons, List.map_nil, List.mem_singleton] at h
            subst h; exact absurd hx hvl
        · exact Or.inr h

/-- Dropping the literals with other objects makes no difference. -/
theorem possibleMatches_reduce (hw : WFSig [] sig) (hc : GoodCall [] sig call) {S : Finset Lit} (hS : ∀ g ∈ S, g.args.Nodup) :
    possibleMatches [] sig call (reduceState S call) = possibleMatches [] sig call S := by
  ext l
  have hS' : ∀ g ∈ reduceState S call, g.args.Nodup := fun g hg => hS g (Finset.mem_filter.mp hg).1
  rw [mem_possibleMatches hw hc.len hS', mem_possibleMatches hw hc.len hS]
  unfold reduceState
  rw [Finset.mem_filter]
  constructor
  · rintro ⟨⟨h1, _⟩, h2⟩; exact ⟨h1, h2⟩
  · rintro ⟨h1, h2, h3⟩
    refine ⟨⟨h1, fun x hx => ?_⟩, h2, h3⟩
    rw [ground_args, List.mem_map] at hx
    obtain ⟨y, hy, rfl⟩ := hx
    have hy' : y ∈ Sig.names sig := (h3 y hy).resolve_right (by simp [Sig.names])
    exact bind_mem_call hw.params (by simp [hc.len]) hy'

end

/-! ### The snapshots with the additional object -/

/-- The component whose call has one more object. -/
def plus (c : Component) (o : String) : Component := { c with call := ⟨c.call.name, c.call.params ++ [o]⟩ }

theorem extend_act (D : Domain) (a v : String) (T : PType) : ((extend D a v T).act a).sig = (D.act a).sig ++ [(v, T)] := by
  simp [extend, ActModel.fresh]

/-- The setting: a call of exact objects in a domain without constants, and one more object. -/
structure Extra (D : Domain) (objs : Sig) (c : Component) (o v : String) (T : PType) : Prop where
  noConsts : D.consts = []
  wf : WFSig [] (D.act c.call.name).sig
  call : ExactCall D objs c
  obj : (o, T) ∈ objs
  out : o ∉ c.call.params
  fresh : v ∉ Sig.names (D.act c.call.name).sig

section
variable {D : Domain} {objs : Sig} {c : Component} {o v : String} {T : PType} {ts : List String} (h : Extra D objs c o v T)
include h

theorem Extra.good0 : GoodCall [] (D.act c.call.name).sig c.call.params := by
  have := h.call.good; rwa [h.noConsts] at this

theorem Extra.wf1 : WFSig [] ((D.act c.call.name).sig ++ [(v, T)]) := wfSig_extend h.wf h.fresh
theorem Extra.good1 : GoodCall [] ((D.act c.call.name).sig ++ [(v, T)]) (c.call.params ++ [o]) := goodCall_extend h.good0 h.out

theorem Extra.wf2 : WFSig (extend D c.call.name v T).consts ((extend D c.call.name v T).act (plus c o).call.name).sig := by
  rw [show (plus c o).call.name = c.call.name from rfl, extend_act]
  rw [show (extend D c.call.name v T).consts = [] from h.noConsts]; exact h.wf1

theorem Extra.good2 : GoodCall (extend D c.call.name v T).consts ((extend D c.call.name v T).act (plus c o).call.name).sig
    (plus c o).call.params := by
  rw [show (plus c o).call.name = c.call.name from rfl, extend_act]
  rw [show (extend D c.call.name v T).consts = [] from h.noConsts]; exact h.good1

theorem Extra.table (hT : T.name ∈ ts) :
    TableOK D.consts ((D.act c.call.name).sig ++ [(v, T)]) (uniObjects D objs ts c.call) (c.call.params ++ [o]) := by
  have h0 := h.call.table (ts := ts)
  refine ⟨h0.nodup, List.rel_append h0.exact (List.Forall₂.cons ?_ List.Forall₂.nil), h0.consts⟩
  exact (mem_uniObjects h.call.names).mpr ⟨List.mem_append_left _ h.obj, Or.inr (Or.inr hT)⟩

theorem Extra.subst : objSubst (extend D c.call.name v T) (plus c o) = bindVar (objSubst D c) v o := by
  unfold objSubst
  rw [show (plus c o).call.name = c.call.name from rfl, extend_act]
  exact subst_extend h.fresh h.good0.len

theorem Extra.find (hT : T.name ∈ ts) (s : State) :
    (∀ l, l ∈ possibleMatches D.consts (D.act c.call.name).sig c.call.params
      (reduceState (stateSnapshot D s (uniObjects D objs ts c.call)) (c.call.params ++ [o])) (some (o, v)) ↔
      TypedLit D.preds ((D.act c.call.name).sig ++ [(v, T)]) l ∧ holds s (ground (bindVar (objSubst D c) v o) l)) := by
  intro l
  have hS : ∀ g ∈ stateSnapshot D s (uniObjects D objs ts c.call), g.args.Nodup := fun g hg => (mem_stateSnapshot.mp hg).1.nodup
  have hS' : ∀ g ∈ reduceState (stateSnapshot D s (uniObjects D objs ts c.call)) (c.call.params ++ [o]), g.args.Nodup :=
    fun g hg => hS g (Finset.mem_filter.mp hg).1
  rw [h.noConsts, possibleMatches_extra (T := T) h.wf h.good0 h.fresh h.out hS', possibleMatches_reduce h.wf1 h.good1 hS]
  have ht := h.table hT
  have hk := h.noConsts
  have := ht.snapshot (D := D) (by rw [hk]; exact h.wf1) (by rw [hk]; exact h.good1) (s := s) (l := l)
  rw [hk] at this
  rw [this, List.append_nil, subst_extend h.fresh h.good0.len]
  rfl

theorem Extra.typed {l : Lit} : TypedLit (extend D c.call.name v T).preds (((extend D c.call.name v T).act (plus c o).call.name).sig ++
    (extend D c.call.name v T).consts) l ↔ TypedLit D.preds ((D.act c.call.name).sig ++ [(v, T)]) l := by
  rw [show (plus c o).call.name = c.call.name from rfl, extend_act]
  rw [show (extend D c.call.name v T).consts = [] from h.noConsts, List.append_nil]; rfl

theorem Extra.before {l : Lit} : before (extend D c.call.name v T) (plus c o) l ↔ holds c.prev (ground (bindVar (objSubst D c) v o) l) := by
  unfold Spec.before; rw [h.subst]; rfl

theorem Extra.after {l : Lit} : after (extend D c.call.name v T) (plus c o) l ↔ holds c.next (ground (bindVar (objSubst D c) v o) l) := by
  unfold Spec.after; rw [h.subst]; rfl

theorem Extra.obsPrev {l : Lit} : l ∈ obsPrev (extend D c.call.name v T) (plus c o) ↔
    TypedLit D.preds ((D.act c.call.name).sig ++ [(v, T)]) l ∧ holds c.prev (ground (bindVar (objSubst D c) v o) l) := by
  rw [obsPrev_iff h.wf2 h.good2, h.typed]
  exact and_congr Iff.rfl h.before

theorem Extra.obsNext {l : Lit} : l ∈ obsNext (extend D c.call.name v T) (plus c o) ↔
    TypedLit D.preds ((D.act c.call.name).sig ++ [(v, T)]) l ∧ holds c.next (ground (bindVar (objSubst D c) v o) l) := by
  rw [obsNext_iff h.wf2 h.good2, h.typed]
  exact and_congr Iff.rfl h.after

theorem Extra.obsEff {l : Lit} : l ∈ obsEff (extend D c.call.name v T) (plus c o) ↔
    TypedLit D.preds ((D.act c.call.name).sig ++ [(v, T)]) l ∧ holds c.next (ground (bindVar (objSubst D c) v o) l) ∧
      ¬ holds c.prev (ground (bindVar (objSubst D c) v o) l) := by
  rw [obsEff_iff h.wf2 h.good2, h.typed]
  exact and_congr Iff.rfl (and_congr h.after (not_congr h.before))

theorem Extra.find_prev (hT : T.name ∈ ts) (b : Bool) :
    findLiteralsExtra D c.call (reduceState (uniSnapshot D objs ts c).1 (c.call.params ++ [o])) o v b =
      if b then Model.obsPrev (extend D c.call.name v T) (plus c o) else (Model.obsPrev (extend D c.call.name v T) (plus c o)).image Lit.neg := by
  have e : possibleMatches D.consts (D.act c.call.name).sig c.call.params
      (reduceState (uniSnapshot D objs ts c).1 (c.call.params ++ [o])) (some (o, v)) =
      Model.obsPrev (extend D c.call.name v T) (plus c o) := by
    ext l; rw [h.obsPrev]; exact h.find hT c.prev l
  unfold findLiteralsExtra
  rw [e]

theorem Extra.find_next (hT : T.name ∈ ts) (b : Bool) :
    findLiteralsExtra D c.call (reduceState (uniSnapshot D objs ts c).2 (c.call.params ++ [o])) o v b =
      if b then Model.obsNext (extend D c.call.name v T) (plus c o) else (Model.obsNext (extend D c.call.name v T) (plus c o)).image Lit.neg := by
  have e : possibleMatches D.consts (D.act c.call.name).sig c.call.params
      (reduceState (uniSnapshot D objs ts c).2 (c.call.params ++ [o])) (some (o, v)) =
      Model.obsNext (extend D c.call.name v T) (plus c o) := by
    ext l; rw [h.obsNext]; exact h.find hT c.next l
  unfold findLiteralsExtra
  rw [e]

end
end Model

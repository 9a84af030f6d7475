import Verif.Lemmas.UniLift

/-! Universal conditional SAM: one transition. -/
namespace Model
open Spec

section
variable {D D' : Domain} (h : SameStatic D D')
include h

theorem uniObjects_static (objs : Sig) (ts : List String) (call : Call) : uniObjects D' objs ts call = uniObjects D objs ts call := by
  unfold uniObjects; rw [h.consts]

theorem uniSnapshot_static (objs : Sig) (ts : List String) (c : Component) : uniSnapshot D' objs ts c = uniSnapshot D objs ts c := by
  unfold uniSnapshot
  rw [uniObjects_static h, stateSnapshot_static h, stateSnapshot_static h]

theorem uniEffectsOf_static (call : Call) (p n : Finset Lit) : uniEffectsOf D' call p n = uniEffectsOf D call p n := by
  unfold uniEffectsOf; rw [h.consts]

theorem liftUni_static (addl : List (String × String)) (table : Sig) (call : Call) : liftUni D' addl table call = liftUni D addl table call := by
  funext g
  unfold liftUni; rw [h.consts, h.sig]

theorem findLiteralsExtra_static (call : Call) (lits : Finset Lit) (o v : String) (b : Bool) :
    findLiteralsExtra D' call lits o v b = findLiteralsExtra D call lits o v b := by
  unfold findLiteralsExtra; rw [h.consts, h.sig]

end

/-- The transition, once for each additional object of the type. -/
def news (T : PType) (objs : Sig) (c : Component) : List Component :=
  (objs.filter fun o => o.2.name == T.name && !c.call.params.contains o.1).map fun o => plus c o.1

/-- The quantified candidates and observed effects of one action and type, after the transitions `hs`. -/
structure QInv (ord : LitOrd) (D : Domain) (n : Nat) (a : String) (T : PType) (v : String) (hs : List Component)
    (q : Option DepSet) (O : Finset Lit) : Prop where
  deps : ∃ d, q = some d ∧ d.OK ∧ d.maxAnte = n ∧ (d.possible.map Prod.fst).Nodup ∧
    ∀ l, d.possible.lookup l = if l ∈ liftedVocab D ((D.act a).sig ++ [(v, T)]) (some v) then
      some ((createCnf ord (liftedVocab D ((D.act a).sig ++ [(v, T)])) n).filter fun A => ∀ c ∈ hs, Surv (extend D a v T) c l A) else none
  obs : ∀ l, l ∈ O ↔ v ∈ l.args ∧ ∃ c ∈ hs, l ∈ obsEff (extend D a v T) c

section
variable {ord : LitOrd} (ho : EnumNodup ord)
variable {D : Domain} {objs : Sig} {c : Component} {ts : List String} {T : PType} {v : String}
include ho

/-- Rule one, one object. -/
theorem removeExistingObj_spec {o : String} (hE : Extra D objs c o v T) (hT : T.name ∈ ts) {d : DepSet} (hd : d.OK) :
    let d' := removeExistingObj ord D c.call (uniSnapshot D objs ts c).1 (uniSnapshot D objs ts c).2 v d o
    d'.OK ∧ d'.maxAnte = d.maxAnte ∧ d'.possible.map Prod.fst = d.possible.map Prod.fst ∧
    ∀ l, d'.possible.lookup l = (d.possible.lookup l).map fun cs => cs.filter fun A =>
      l.neg ∈ obsNext (extend D c.call.name v T) (plus c o) → ¬ A ⊆ obsPrev (extend D c.call.name v T) (plus c o) := by
  intro d'
  set P := obsPrev (extend D c.call.name v T) (plus c o) with hP
  set N := obsNext (extend D c.call.name v T) (plus c o) with hN
  have e : d' = (ord (N.image Lit.neg)).foldl (fun d l => d.remove ord l P false) d := by
    have e1 := hE.find_next hT false
    have e2 := hE.find_prev hT true
    simp only [Bool.false_eq_true, if_false, if_true] at e1 e2
    simp only [d', removeExistingObj]
    rw [e1, e2, ← hP, ← hN]
    congr 1
    funext d l
    split
    · rename_i hn; unfold DepSet.remove; rw [hn]
    · rfl
  obtain ⟨a1, a2, a3, a4⟩ := removes_spec ho (ord (N.image Lit.neg)) P false d hd
  rw [← e] at a1 a2 a3 a4
  refine ⟨a1, a2, a3, fun l => ?_⟩
  rw [a4]
  congr 1
  funext cs
  simp only [ho.mem, neg_image, Bool.false_eq_true, if_false]
  by_cases h1 : l.neg ∈ N <;> simp [h1]

/-- Rule one, all objects of the type. -/
theorem removeExisting_objs (hT : T.name ∈ ts) (os : List String) (hos : ∀ o ∈ os, Extra D objs c o v T) {d : DepSet} (hd : d.OK) :
    let d' := os.foldl (removeExistingObj ord D c.call (uniSnapshot D objs ts c).1 (uniSnapshot D objs ts c).2 v) d
    d'.OK ∧ d'.maxAnte = d.maxAnte ∧ d'.possible.map Prod.fst = d.possible.map Prod.fst ∧
    ∀ l, d'.possible.lookup l = (d.possible.lookup l).map fun cs => cs.filter fun A => ∀ o ∈ os,
      l.neg ∈ obsNext (extend D c.call.name v T) (plus c o) → ¬ A ⊆ obsPrev (extend D c.call.name v T) (plus c o) := by
  induction os generalizing d with
  | nil => simp [hd]
  | cons o os ih =>
    obtain ⟨a1, a2, a3, a4⟩ := removeExistingObj_spec ho (hos o (by simp)) hT hd
    obtain ⟨b1, b2, b3, b4⟩ := ih (fun x hx => hos x (by simp [hx])) a1
    refine ⟨b1, b2.trans a2, b3.trans a3, fun l => ?_⟩
    rw [List.foldl_cons, b4, a4, Option.map_map]
    congr 1
    funext cs
    simp only [Function.comp, List.filter_filter]
    apply List.filter_congr
    intro A _
    simp only [List.forall_mem_cons, Bool.decide_and]
    rw [Bool.and_comm]

/-- Rule two. -/
theorem removeNonExisting_list {es : List UniEff} {t : String} {S : UniEff → Finset Lit} {d : DepSet} (hd : d.OK) :
    let d' := es.foldl (fun d e => if e.type = t then d.remove ord e.lit (S e) true else d) d
    d'.OK ∧ d'.maxAnte = d.maxAnte ∧ d'.possible.map Prod.fst = d.possible.map Prod.fst ∧
    ∀ l, d'.possible.lookup l = (d.possible.lookup l).map fun cs => cs.filter fun A => ∀ e ∈ es, e.type = t → e.lit = l → ∀ x ∈ A, x ∉ S e := by
  induction es generalizing d with
  | nil => simp [hd]
  | cons e es ih =>
    by_cases ht : e.type = t
    · obtain ⟨b1, b2, b3, b4⟩ := ih (d.remove_ok ho hd e.lit (S e) true)
      simp only [List.foldl_cons, if_pos ht]
      refine ⟨b1, b2.trans (DepSet.remove_maxAnte _ _ _ _), b3.trans (DepSet.remove_keys _ _ _ _), fun l => ?_⟩
      rw [b4, lookup_remove ho hd, Option.map_map]
      congr 1
      funext cs
      simp only [Function.comp, if_true]
      by_cases hl : l = e.lit
      · subst hl
        simp only [if_true, List.filter_filter]
        apply List.filter_congr
        intro A _
        simp only [List.forall_mem_cons, ht, forall_const, Bool.decide_and]
        rw [Bool.and_comm]
      · simp only [if_neg hl]
        apply List.filter_congr
        intro A _
        simp only [List.forall_mem_cons, Ne.symm hl, false_imp_iff, implies_true, true_and]
    · obtain ⟨b1, b2, b3, b4⟩ := ih hd
      simp only [List.foldl_cons, if_neg ht]
      refine ⟨b1, b2, b3, fun l => ?_⟩
      rw [b4]
      congr 1
      funext cs
      apply List.filter_congr
      intro A _
      simp only [List.forall_mem_cons, ht, false_imp_iff, true_and]


omit ho in
theorem mem_news {c' : Component} : c' ∈ news T objs c ↔ ∃ o ∈ objs, o.2.name = T.name ∧ o.1 ∉ c.call.params ∧ c' = plus c o.1 := by
  unfold news
  simp only [List.mem_map, List.mem_filter, Bool.and_eq_true, beq_iff_eq, Bool.not_eq_true', List.contains_eq_mem, decide_eq_false_iff_not]
  constructor
  · rintro ⟨o, ⟨h1, h2, h3⟩, rfl⟩; exact ⟨o, h1, h2, h3, rfl⟩
  · rintro ⟨o, h1, h2, h3, rfl⟩; exact ⟨o, ⟨h1, h2, h3⟩, rfl⟩

omit ho in
theorem mem_objectsOfType {ex : List String} {t o : String} : o ∈ objectsOfType objs ex t ↔ ∃ p ∈ objs, p.2.name = t ∧ p.1 ∉ ex ∧ p.1 = o := by
  unfold objectsOfType Sig.names
  simp only [List.mem_map, List.mem_filter, Bool.and_eq_true, beq_iff_eq, Bool.not_eq_true', List.contains_eq_mem, decide_eq_false_iff_not]
  constructor
  · rintro ⟨p, ⟨h1, h2, h3⟩, rfl⟩; exact ⟨p, h1, h3, h2, rfl⟩
  · rintro ⟨p, h1, h2, h3, rfl⟩; exact ⟨p, ⟨h1, h3, h2⟩, rfl⟩

/-- What a transition needs to be handled: the learned types `Ls` with their variables. -/
structure StepOK (D : Domain) (objs : Sig) (c : Component) (ts : List String) (Ls : List PType) (addl : List (String × String)) : Prop where
  noConsts : D.consts = []
  wf : WFSig [] (D.act c.call.name).sig
  call : ExactCall D objs c
  names : (Ls.map PType.name).Nodup
  addl : addl = Ls.map fun t => (t.name, additionalName (D.act c.call.name).sig t)
  sub : ∀ t ∈ Ls, t.name ∈ ts
  types : ∀ o ∈ objs, ∀ t ∈ Ls, o.2.name = t.name → o.2 = t

omit ho in
theorem StepOK.lookup {Ls : List PType} {addl : List (String × String)} (h : StepOK D objs c ts Ls addl) {t : PType} (ht : t ∈ Ls) :
    addl.lookup t.name = some (additionalName (D.act c.call.name).sig t) := by
  rw [h.addl]
  refine lookup_of_mem_nodup ?_ (List.mem_map.mpr ⟨t, ht, rfl⟩)
  rw [List.map_map]; exact h.names

omit ho in
theorem StepOK.of_lookup {Ls : List PType} {addl : List (String × String)} (h : StepOK D objs c ts Ls addl) {t v : String}
    (ht : addl.lookup t = some v) : ∃ t' ∈ Ls, t'.name = t ∧ v = additionalName (D.act c.call.name).sig t' := by
  have := lookup_mem ht
  rw [h.addl, List.mem_map] at this
  obtain ⟨t', h1, h2⟩ := this
  simp only [Prod.mk.injEq] at h2
  exact ⟨t', h1, h2.1, h2.2.symm⟩

omit ho in
theorem StepOK.extra {Ls : List PType} {addl : List (String × String)} (h : StepOK D objs c ts Ls addl) {t : PType} (ht : t ∈ Ls)
    {o : String × PType} (h1 : o ∈ objs) (h2 : o.2.name = t.name) (h3 : o.1 ∉ c.call.params) :
    Extra D objs c o.1 (additionalName (D.act c.call.name).sig t) t := by
  refine ⟨h.noConsts, h.wf, h.call, ?_, h3, additionalName_fresh _ _⟩
  rw [← h.types o h1 t ht h2]; exact h1

/-- Rule one for all the types. -/
theorem removeExistingU_spec {Ls : List PType} {U : UniLearner} (hst : SameStatic D U.base.base.dom)
    (h : StepOK D objs c ts Ls (U.addl c.call.name)) :
    let U' := U.removeExistingU ord objs c.call (uniSnapshot D objs ts c).1 (uniSnapshot D objs ts c).2
    U'.addl = U.addl ∧ U'.obsU = U.obsU ∧ (∀ b, b ≠ c.call.name → U'.q b = U.q b) ∧
    ∀ t ∈ Ls, ∀ d, U.q c.call.name t.name = some d → U'.q c.call.name t.name =
      some ((objectsOfType objs c.call.params t.name).foldl (removeExistingObj ord D c.call (uniSnapshot D objs ts c).1
        (uniSnapshot D objs ts c).2 (additionalName (D.act c.call.name).sig t)) d) := by
  unfold UniLearner.removeExistingU
  rw [h.addl]
  have hn := h.names
  clear h
  induction Ls generalizing U with
  | nil => simp
  | cons t Ls ih =>
    rw [List.map_cons, List.nodup_cons] at hn
    rw [List.map_cons, List.foldl_cons]
    set U1 : UniLearner := (match U.q c.call.name t.name with
      | none => U
      | some d => { U with q := update2 U.q c.call.name t.name (some ((objectsOfType objs c.call.params t.name).foldl
          (removeExistingObj ord U.base.base.dom c.call (uniSnapshot D objs ts c).1 (uniSnapshot D objs ts c).2
            (additionalName (D.act c.call.name).sig t)) d)) }) with hU1
    have k1 : U1.addl = U.addl ∧ U1.obsU = U.obsU ∧ U1.base = U.base ∧ ∀ b, b ≠ c.call.name → U1.q b = U.q b := by
      rw [hU1]
      split
      · exact ⟨rfl, rfl, rfl, fun _ _ => rfl⟩
      · exact ⟨rfl, rfl, rfl, fun b hb => update2_other hb⟩
    have k2 : ∀ x, x ≠ t.name → U1.q c.call.name x = U.q c.call.name x := by
      intro x hx
      rw [hU1]
      split
      · rfl
      · simp [update2, hx]
    have k3 : ∀ d, U.q c.call.name t.name = some d → U1.q c.call.name t.name = some ((objectsOfType objs c.call.params t.name).foldl
          (removeExistingObj ord D c.call (uniSnapshot D objs ts c).1 (uniSnapshot D objs ts c).2
            (additionalName (D.act c.call.name).sig t)) d) := by
      intro d hd
      have e : removeExistingObj ord U.base.base.dom = removeExistingObj ord D := by
        funext call p n v d o
        simp only [removeExistingObj, findLiteralsExtra_static hst]
      rw [hU1, hd]
      simp only [update2, Function.update_self, e]
    obtain ⟨m1, m2, m3, m4⟩ := ih (U := U1) (by rw [k1.2.2.1]; exact hst) hn.2
    refine ⟨m1.trans k1.1, m2.trans k1.2.1, fun b hb => (m3 b hb).trans (k1.2.2.2 b hb), ?_⟩
    intro x hx d hd
    rcases List.mem_cons.mp hx with rfl | hx
    · rw [← k3 d hd]
      -- later rounds do not touch this type
      have : ∀ (Ls : List PType) (V : UniLearner), x.name ∉ Ls.map PType.name →
          ((Ls.map fun t => (t.name, additionalName (D.act c.call.name).sig t)).foldl (fun U tv =>
            match U.q c.call.name tv.1 with
            | none => U
            | some d => { U with q := update2 U.q c.call.name tv.1 (some ((objectsOfType objs c.call.params tv.1).foldl
                (removeExistingObj ord U.base.base.dom c.call (uniSnapshot D objs ts c).1 (uniSnapshot D objs ts c).2 tv.2) d)) }) V).q c.call.name x.name
            = V.q c.call.name x.name := by
        intro Ls
        induction Ls with
        | nil => intro V _; rfl
        | cons y Ls ihL =>
          intro V hV
          rw [List.map_cons, List.mem_cons, not_or] at hV
          rw [List.map_cons, List.foldl_cons, ihL _ hV.2]
          dsimp only
          split
          · rfl
          · simp [update2, hV.1]
      exact this Ls U1 hn.1
    · have hne : x.name ≠ t.name := by
        intro e; exact hn.1 (e ▸ List.mem_map.mpr ⟨x, hx, rfl⟩)
      exact m4 x hx d (by rw [k2 _ hne]; exact hd)


/-- The body of the loop of rule two. -/
def nonStep (ord : LitOrd) (D0 : Domain) (p : Finset Lit) (a : String) (call : Call) (U : UniLearner) (e : UniEff) : UniLearner :=
  match U.q a e.type with
  | none => U
  | some d => { U with q := update2 U.q a e.type (some (d.remove ord e.lit
      (findLiteralsExtra D0 call (reduceState p (call.params ++ [e.obj])) e.obj e.var false) true)) }

omit ho in
theorem foldNonExisting {D0 : Domain} {p : Finset Lit} (a : String) (call : Call) : ∀ (es : List UniEff) (U : UniLearner),
    let U' := es.foldl (nonStep ord D0 p a call) U
    U'.addl = U.addl ∧ U'.obsU = U.obsU ∧ (∀ b, b ≠ a → U'.q b = U.q b) ∧
    ∀ t, U'.q a t = (U.q a t).map fun d => es.foldl (fun d e => if e.type = t then
      d.remove ord e.lit (findLiteralsExtra D0 call (reduceState p (call.params ++ [e.obj])) e.obj e.var false) true else d) d := by
  intro es
  induction es with
  | nil => intro U; simp
  | cons e es ih =>
    intro U
    rw [List.foldl_cons]
    set U1 : UniLearner := nonStep ord D0 p a call U e with hU1
    unfold nonStep at hU1
    obtain ⟨m1, m2, m3, m4⟩ := ih U1
    have k1 : U1.addl = U.addl ∧ U1.obsU = U.obsU ∧ ∀ b, b ≠ a → U1.q b = U.q b := by
      rw [hU1]
      split
      · exact ⟨rfl, rfl, fun _ _ => rfl⟩
      · exact ⟨rfl, rfl, fun b hb => update2_other hb⟩
    have k2 : ∀ t, U1.q a t = (U.q a t).map fun d => if e.type = t then
        d.remove ord e.lit (findLiteralsExtra D0 call (reduceState p (call.params ++ [e.obj])) e.obj e.var false) true else d := by
      intro t
      by_cases ht : e.type = t
      · subst ht
        rw [hU1]
        cases hq : U.q a e.type with
        | none => simp [hq]
        | some d => simp [update2]
      · rw [hU1]
        cases hq : U.q a e.type with
        | none => cases U.q a t <;> simp [ht]
        | some d =>
          have : update2 U.q a e.type (some (d.remove ord e.lit
            (findLiteralsExtra D0 call (reduceState p (call.params ++ [e.obj])) e.obj e.var false) true)) a t = U.q a t := by
            simp [update2, Ne.symm ht]
          simp only [this]
          cases U.q a t <;> simp [ht]
    refine ⟨m1.trans k1.1, m2.trans k1.2.1, fun b hb => (m3 b hb).trans (k1.2.2 b hb), fun t => ?_⟩
    rw [m4, k2, Option.map_map]
    rfl

/-- All the rules, for one transition. -/
theorem applyRulesU_spec {Ls : List PType} {n : Nat} {U U' : UniLearner} (hst : SameStatic D U.base.base.dom)
    (h : StepOK D objs c ts Ls (U.addl c.call.name))
    (hr : U.applyRulesU ord objs c.call (uniSnapshot D objs ts c).1 (uniSnapshot D objs ts c).2 = .ok U') :
    U'.addl = U.addl ∧ (∀ b, b ≠ c.call.name → U'.q b = U.q b ∧ U'.obsU b = U.obsU b) ∧
    ∀ t ∈ Ls, ∀ hs, QInv ord D n c.call.name t (additionalName (D.act c.call.name).sig t) hs (U.q c.call.name t.name) (U.obsU c.call.name t.name) →
      QInv ord D n c.call.name t (additionalName (D.act c.call.name).sig t) (hs ++ news t objs c) (U'.q c.call.name t.name)
        (U'.obsU c.call.name t.name) := by
  have hnd : (Sig.names objs).Nodup := by have := h.call.names; rwa [h.noConsts, List.append_nil] at this
  have hf : ∀ p ∈ U.addl c.call.name, p.2 ∉ Sig.names (D.act c.call.name).sig := by
    intro p hp
    rw [h.addl, List.mem_map] at hp
    obtain ⟨t, _, rfl⟩ := hp
    exact additionalName_fresh _ _
  unfold UniLearner.applyRulesU at hr
  simp only [Bind.bind, Except.bind] at hr
  split at hr
  · simp at hr
  rename_i U1 hU1
  unfold UniLearner.updateObserved at hU1
  simp only [Bind.bind, Except.bind] at hU1
  split at hU1
  · simp at hU1
  rename_i es hes
  simp only [Except.ok.injEq] at hU1
  rw [uniEffectsOf_static hst, liftUni_static hst, hst.consts, h.noConsts, List.append_nil, Py.dictOf_of_nodup hnd] at hes
  have hes' := liftAll_spec ho h.noConsts h.wf h.call hf hes
  have a1 : U1.addl = U.addl ∧ U1.q = U.q ∧ U1.base = U.base := by rw [← hU1]; exact ⟨rfl, rfl, rfl⟩
  have a2 : (∀ b, b ≠ c.call.name → U1.obsU b = U.obsU b) ∧ ∀ t l, l ∈ U1.obsU c.call.name t ↔ l ∈ U.obsU c.call.name t ∨
      ∃ e ∈ es, e.type = t ∧ e.lit = l := by
    rw [← hU1]
    clear hes hes' hU1 hr
    have key : ∀ (es : List UniEff) (f : String → String → Finset Lit),
        let f' := es.foldl (fun f e => update2 f c.call.name e.type (f c.call.name e.type ∪ {e.lit})) f
        (∀ b, b ≠ c.call.name → f' b = f b) ∧ ∀ t l, l ∈ f' c.call.name t ↔ l ∈ f c.call.name t ∨ ∃ e ∈ es, e.type = t ∧ e.lit = l := by
      intro es
      induction es with
      | nil => intro f; simp
      | cons e es ih =>
        intro f
        obtain ⟨g1, g2⟩ := ih (update2 f c.call.name e.type (f c.call.name e.type ∪ {e.lit}))
        refine ⟨fun b hb => (g1 b hb).trans (update2_other hb), fun t l => ?_⟩
        rw [List.foldl_cons, g2]
        by_cases ht : t = e.type
        · subst ht
          simp only [update2, Function.update_self, Finset.mem_union, Finset.mem_singleton, List.mem_cons, exists_eq_or_imp, true_and, or_assoc]
          rw [eq_comm (a := l)]
        · simp [update2, ht, Ne.symm ht]
    exact key es U.obsU
  obtain ⟨b1, b2, b3, b4⟩ := removeExistingU_spec ho (U := U1) (Ls := Ls) (D := D) (objs := objs) (c := c) (ts := ts)
    (by rw [a1.2.2]; exact hst) (by rw [a1.1]; exact h)
  set U2 := U1.removeExistingU ord objs c.call (uniSnapshot D objs ts c).1 (uniSnapshot D objs ts c).2 with hU2
  have hst2 : SameStatic D U2.base.base.dom := by
    have : U2.base = U.base := (removeExistingU_core (U := U1)).base.trans a1.2.2
    rw [this]; exact hst
  unfold UniLearner.removeNonExistingU at hr
  simp only [Bind.bind, Except.bind] at hr
  split at hr
  · simp at hr
  rename_i es2 hes2
  rw [uniEffectsOf_static hst2, liftUni_static hst2, b1, a1.1, hes] at hes2
  simp only [Except.ok.injEq] at hes2 hr
  subst hes2
  obtain ⟨c1, c2, c3, c4⟩ := foldNonExisting (ord := ord) (D0 := U2.base.base.dom) (p := (uniSnapshot D objs ts c).1) c.call.name c.call es U2
  have hr' : es.foldl (nonStep ord U2.base.base.dom (uniSnapshot D objs ts c).1 c.call.name c.call) U2 = U' := hr
  rw [hr'] at c1 c2 c3 c4
  refine ⟨c1.trans (b1.trans a1.1), fun b hb => ⟨(c3 b hb).trans ((b3 b hb).trans (by rw [a1.2.1])), by rw [c2, b2]; exact a2.1 b hb⟩, ?_⟩
  intro t ht hs hq
  set v := additionalName (D.act c.call.name).sig t with hv
  obtain ⟨d, hd, hok, hmax, hkeys, hlk⟩ := hq.deps
  -- which effects belong to the type
  have hmem : ∀ e : UniEff, e ∈ es ∧ e.type = t.name ↔ ∃ o ∈ objs, o.2.name = t.name ∧ o.1 ∉ c.call.params ∧ e = ⟨t.name, o.1, v, e.lit⟩ ∧
      e.lit ∈ obsEff (extend D c.call.name v t) (plus c o.1) ∧ v ∈ e.lit.args := by
    intro e
    constructor
    · rintro ⟨he, hty⟩
      obtain ⟨T, g1, g2, g3, g4, g5, g6⟩ := (hes' e).mp he
      have hTn : T.name = t.name := g4.symm.trans hty
      have hTt : T = t := h.types _ g1.obj t ht hTn
      subst hTt
      have hvv : e.var = v := by
        rw [h.lookup ht] at g3; exact (Option.some.inj g3).symm
      refine ⟨(e.obj, T), g1.obj, rfl, g1.out, ?_, by rw [← hvv]; exact g5, by rw [← hvv]; exact g6⟩
      cases e; simp only at hty hvv ⊢; rw [hty, hvv]
    · rintro ⟨o, h1, h2, h3, h4, h5, h6⟩
      have hty : e.type = t.name := by rw [h4]
      have hob : e.obj = o.1 := by rw [h4]
      have hva : e.var = v := by rw [h4]
      refine ⟨(hes' e).mpr ⟨t, ?_, h.sub t ht, ?_, hty, ?_, ?_⟩, hty⟩
      · rw [hob, hva]; exact h.extra ht h1 h2 h3
      · rw [hva]; exact h.lookup ht
      · rw [hob, hva]; exact h5
      · rw [hva]; exact h6
  refine ⟨?_, ?_⟩
  · -- candidates
    obtain ⟨e1, e2, e3, e4⟩ := removeExisting_objs ho (D := D) (objs := objs) (c := c) (ts := ts) (T := t) (v := v) (h.sub t ht)
      (objectsOfType objs c.call.params t.name) (by
        intro o ho'
        obtain ⟨p, g1, g2, g3, rfl⟩ := mem_objectsOfType.mp ho'
        exact h.extra ht g1 g2 g3) hok
    obtain ⟨f1, f2, f3, f4⟩ := removeNonExisting_list ho (es := es) (t := t.name)
      (S := fun e => findLiteralsExtra U2.base.base.dom c.call (reduceState (uniSnapshot D objs ts c).1 (c.call.params ++ [e.obj])) e.obj e.var false) e1
    have hq2 := b4 t ht d (by rw [a1.2.1]; exact hd)
    have hq3 := c4 t.name
    rw [hq2, Option.map_some] at hq3
    refine ⟨_, hq3, f1, (f2.trans e2).trans hmax, by rw [f3, e3]; exact hkeys, fun l => ?_⟩
    rw [f4, e4, hlk]
    split
    · rename_i hl
      have hvl : v ∈ l.args := by
        have hw := wfSig_extend (T := t) h.wf (additionalName_fresh (D.act c.call.name).sig t)
        have := ((mem_liftedVocab (by rw [h.noConsts]; exact hw)).mp hl).2
        exact this.resolve_left (additionalName_ne _ _)
      simp only [Option.map_some, List.filter_filter, Option.some.injEq]
      apply List.filter_congr
      intro A _
      rw [← Bool.decide_and, ← Bool.decide_and, decide_eq_decide]
      simp only [List.mem_append, or_imp, forall_and]
      constructor
      · rintro ⟨g1, g2, g3⟩
        refine ⟨g3, fun c' hc' => ?_⟩
        obtain ⟨o, k1, k2, k3, rfl⟩ := mem_news.mp hc'
        have hE := h.extra ht k1 k2 k3
        refine ⟨g2 o.1 (mem_objectsOfType.mpr ⟨o, k1, k2, k3, rfl⟩), fun hl' x hx hxn => ?_⟩
        have := g1 ⟨t.name, o.1, v, l⟩ ((hmem _).mpr ⟨o, k1, k2, k3, rfl, hl', hvl⟩).1 rfl rfl x hx
        apply this
        rw [findLiteralsExtra_static hst2, hE.find_prev (h.sub t ht) false]
        simp only [Bool.false_eq_true, if_false]
        exact neg_image.mpr hxn
      · rintro ⟨g1, g2⟩
        refine ⟨fun e he hty hel x hx hxS => ?_, fun o ho' hn => ?_, g1⟩
        · obtain ⟨o, k1, k2, k3, k4, k5, k6⟩ := (hmem e).mp ⟨he, hty⟩
          have hE := h.extra ht k1 k2 k3
          have hob : e.obj = o.1 := by rw [k4]
          have hva : e.var = v := by rw [k4]
          rw [hob, hva, findLiteralsExtra_static hst2, hE.find_prev (h.sub t ht) false] at hxS
          simp only [Bool.false_eq_true, if_false] at hxS
          exact (g2 _ (mem_news.mpr ⟨o, k1, k2, k3, rfl⟩)).2 (by rw [← hel]; exact k5) x hx (neg_image.mp hxS)
        · obtain ⟨p, k1, k2, k3, rfl⟩ := mem_objectsOfType.mp ho'
          exact (g2 _ (mem_news.mpr ⟨p, k1, k2, k3, rfl⟩)).1 hn
    · rfl
  · intro l
    rw [c2, b2, a2.2, hq.obs]
    constructor
    · rintro (⟨h1, c', h2, h3⟩ | ⟨e, he, hty, rfl⟩)
      · exact ⟨h1, c', List.mem_append_left _ h2, h3⟩
      · obtain ⟨o, g1, g2, g3, g4, g5, g6⟩ := (hmem e).mp ⟨he, hty⟩
        exact ⟨g6, plus c o.1, List.mem_append_right _ (mem_news.mpr ⟨o, g1, g2, g3, rfl⟩), g5⟩
    · rintro ⟨h1, c', h2, h3⟩
      rcases List.mem_append.mp h2 with h2 | h2
      · exact Or.inl ⟨h1, c', h2, h3⟩
      · obtain ⟨o, g1, g2, g3, rfl⟩ := mem_news.mp h2
        exact Or.inr ⟨⟨t.name, o.1, v, l⟩, ((hmem _).mpr ⟨o, g1, g2, g3, rfl, h3, h1⟩).1, rfl, rfl⟩

end
end Model

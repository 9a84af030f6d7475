import Verif.Lemmas.UniStep

/-! Universal conditional SAM: all observations. -/
namespace Model
open Spec

/-- The types learned for an action with the list `ts`. -/
def learnedTypes (types : List PType) (ts : List String) : List PType :=
  types.filter fun t => !(t.name == "object") && ts.contains t.name

theorem mem_learnedTypes {types : List PType} {ts : List String} {t : PType} :
    t ∈ learnedTypes types ts ↔ t ∈ types ∧ t.name ≠ "object" ∧ t.name ∈ ts := by
  simp [learnedTypes]

section
variable {ord : LitOrd} (ho : EnumNodup ord)
include ho

theorem initialize_keys_nodup' (n : Nat) (lifted : Finset Lit) (an : Option (Finset Lit)) :
    (((DepSet.new n).initialize ord lifted an).possible.map Prod.fst).Nodup := by
  have := Py.keys_foldl_nodup ((ord lifted).map fun l => (l, createCnf ord (an.getD lifted) n)) [] (by simp)
  rw [List.foldl_map] at this
  exact this

/-- The loop over the types. -/
theorem initFold_spec {D : Domain} {a : String} {n : Nat} : ∀ (Ls : List PType) (U : UniLearner), SameStatic D U.base.base.dom →
    U.base.maxAnte = n → (Ls.map PType.name).Nodup → (∀ t ∈ Ls, t.name ∉ (U.addl a).map Prod.fst) →
    let U' := Ls.foldl (UniLearner.initType ord a) U
    U'.addl a = U.addl a ++ Ls.map (fun t => (t.name, additionalName (D.act a).sig t)) ∧
    (∀ b, b ≠ a → U'.addl b = U.addl b ∧ U'.q b = U.q b) ∧ U'.obsU = U.obsU ∧
    (∀ x, x ∉ Ls.map PType.name → U'.q a x = U.q a x) ∧
    ∀ t ∈ Ls, QInv ord D n a t (additionalName (D.act a).sig t) [] (U'.q a t.name) ∅ := by
  intro Ls
  induction Ls with
  | nil => intro U _ _ _ _; simp
  | cons t Ls ih =>
    intro U hst hn hnd hfr
    rw [List.map_cons, List.nodup_cons] at hnd
    set U1 := UniLearner.initType ord a U t with hU1
    have hx : Py.dictSet (D.act a).sig (additionalName (D.act a).sig t) t = (D.act a).sig ++ [(additionalName (D.act a).sig t, t)] := by
      have h0 := additionalName_fresh (D.act a).sig t
      unfold Sig.names at h0
      unfold Py.dictSet
      rw [if_neg h0]
    have h1 : U1.addl a = U.addl a ++ [(t.name, additionalName (D.act a).sig t)] := by
      rw [hU1]
      unfold UniLearner.initType
      dsimp only
      rw [Function.update_self, hst.sig]
      unfold Py.dictSet
      rw [if_neg (hfr t (by simp))]
    have h2 : ∀ b, b ≠ a → U1.addl b = U.addl b ∧ U1.q b = U.q b := by
      intro b hb
      rw [hU1]
      unfold UniLearner.initType
      exact ⟨by simp [hb], by simp [update2, hb]⟩
    have h3 : ∀ x, x ≠ t.name → U1.q a x = U.q a x := by
      intro x hx
      rw [hU1]
      unfold UniLearner.initType
      simp [update2, hx]
    have h4 : U1.q a t.name = some ((DepSet.new n).initialize ord
        (liftedVocab D ((D.act a).sig ++ [(additionalName (D.act a).sig t, t)]) (some (additionalName (D.act a).sig t)))
        (some (liftedVocab D ((D.act a).sig ++ [(additionalName (D.act a).sig t, t)])))) := by
      rw [hU1]
      unfold UniLearner.initType
      simp only [update2, Function.update_self, hst.sig, hx, hn, liftedVocab_static hst]
    obtain ⟨k1, k2, k3, k4, k5⟩ := ih U1 hst hn hnd.2 (by
      intro x hx
      rw [h1, List.map_append, List.mem_append, not_or]
      refine ⟨hfr x (by simp [hx]), ?_⟩
      simp only [List.map_cons, List.map_nil, List.mem_singleton]
      intro e
      exact hnd.1 (e ▸ List.mem_map.mpr ⟨x, hx, rfl⟩))
    refine ⟨?_, fun b hb => ⟨(k2 b hb).1.trans (h2 b hb).1, (k2 b hb).2.trans (h2 b hb).2⟩, k3, ?_, ?_⟩
    · rw [List.foldl_cons, k1, h1]; simp
    · intro x hx
      rw [List.map_cons, List.mem_cons, not_or] at hx
      rw [List.foldl_cons, k4 x hx.2, h3 x hx.1]
    · intro x hx
      rcases List.mem_cons.mp hx with rfl | hx
      · rw [List.foldl_cons, k4 _ hnd.1, h4]
        refine ⟨⟨_, rfl, DepSet.initialize_ok ho _ _ _, rfl, initialize_keys_nodup' ho _ _ _, fun l => ?_⟩, by simp⟩
        rw [lookup_initialize ho.mem]
        simp
      · exact k5 x hx

/-- A history: each transition with the objects of its observation. -/
abbrev Hist := List (Sig × Component)

/-- The transitions of `a` with one more object. -/
def extras (a : String) (T : PType) (hs : Hist) : List Component :=
  (hs.filter fun h => h.2.call.name = a).flatMap fun h => news T h.1 h.2

omit ho in
theorem mem_extras {a : String} {T : PType} {hs : Hist} {c' : Component} :
    c' ∈ extras a T hs ↔ ∃ h ∈ hs, h.2.call.name = a ∧ c' ∈ news T h.1 h.2 := by
  unfold extras
  simp only [List.mem_flatMap, List.mem_filter, decide_eq_true_eq, and_assoc]

omit ho in
theorem extras_append (a : String) (T : PType) (hs ks : Hist) : extras a T (hs ++ ks) = extras a T hs ++ extras a T ks := by
  simp [extras]

/-- The history of a list of observations. -/
def flat (obs : List UniObs) : Hist := obs.flatMap fun ob => ob.2.map fun c => (ob.1, c)

omit ho in
theorem mem_flat {obs : List UniObs} {h : Sig × Component} : h ∈ flat obs ↔ ∃ ob ∈ obs, ob.1 = h.1 ∧ h.2 ∈ ob.2 := by
  unfold flat
  simp only [List.mem_flatMap, List.mem_map]
  constructor
  · rintro ⟨ob, h1, c, h2, rfl⟩; exact ⟨ob, h1, rfl, h2⟩
  · rintro ⟨ob, h1, h2, h3⟩; exact ⟨ob, h1, h.2, h3, by rw [h2]⟩

omit ho in
theorem mem_withObjects {a : String} {T : PType} {obs : List UniObs} {c' : Component} :
    c' ∈ withObjects a T obs ↔ c' ∈ extras a T (flat obs) := by
  rw [mem_extras]
  unfold withObjects
  simp only [List.mem_flatMap, List.mem_filter, decide_eq_true_eq]
  constructor
  · rintro ⟨ob, h1, c, ⟨h2, rfl⟩, h3⟩
    exact ⟨(ob.1, c), mem_flat.mpr ⟨ob, h1, rfl, h2⟩, rfl, h3⟩
  · rintro ⟨⟨objs, c⟩, h1, rfl, h3⟩
    obtain ⟨ob, k1, k2, k3⟩ := mem_flat.mp h1
    dsimp only at k2 k3 h3
    exact ⟨ob, k1, c, ⟨k3, rfl⟩, by rw [k2]; exact h3⟩

/-- The state of the learner after the history `hs`. -/
structure UniInv (ord : LitOrd) (D : Domain) (iq : String → Finset (String × String)) (types : List PType)
    (umap : List (String × List String)) (n : Nat) (hs : Hist) (U : UniLearner) : Prop where
  base : CondInv ord D iq n (hs.map Prod.snd) U.base
  typesEq : U.types = types
  umapEq : U.umap = umap
  ueffs : U.ueffs = fun _ _ => []
  uconds : U.uconds = fun _ => []
  idle : ∀ a, a ∉ U.base.base.observed → U.addl a = [] ∧ ∀ t, U.obsU a t = ∅
  seen : ∀ a ∈ U.base.base.observed, ∃ ts, umap.lookup a = some ts ∧
    U.addl a = (learnedTypes types ts).map (fun t => (t.name, additionalName (D.act a).sig t)) ∧
    ∀ T ∈ learnedTypes types ts, QInv ord D n a T (additionalName (D.act a).sig T) (extras a T hs) (U.q a T.name) (U.obsU a T.name)

/-- What the objects of the observations need. -/
structure ObjsOK (D : Domain) (types : List PType) (hs : Hist) : Prop where
  noConsts : D.consts = []
  names : (types.map PType.name).Nodup
  known : ∀ h ∈ hs, ∀ o ∈ h.1, ∀ t ∈ types, o.2.name = t.name → o.2 = t
  calls : ∀ h ∈ hs, ExactCall D h.1 h.2

omit ho in
theorem ObjsOK.learned {D : Domain} {types : List PType} {hs : Hist} (h : ObjsOK D types hs) (ts : List String) :
    ((learnedTypes types ts).map PType.name).Nodup := h.names.sublist (List.Sublist.map _ List.filter_sublist)

section
variable {D : Domain} (hD : WFDomain D) {iq : String → Finset (String × String)} {types : List PType} {umap : List (String × List String)}
  {n : Nat} {hs : Hist} {U U' : UniLearner} {objs : Sig} {c : Component}
include hD

/-- One transition. -/
theorem UniInv.step (hI : UniInv ord D iq types umap n hs U) (hO : ObjsOK D types [(objs, c)])
    (h : U.handleComponent ord objs c = .ok U') : UniInv ord D iq types umap n (hs ++ [(objs, c)]) U' := by
  have hcall : ExactCall D objs c := hO.calls (objs, c) (by simp)
  have hcn : c.call.name ∈ U.base.base.dom.names := by
    by_contra hn
    unfold UniLearner.handleComponent at h
    dsimp only at h
    rw [if_pos hn] at h
    simp at h
  have hcn' : c.call.name ∈ D.names := by rw [← hI.base.static.names]; exact hcn
  have hw0 := hD.sigs _ hcn'
  have hw : WFSig [] (D.act c.call.name).sig := by rw [hO.noConsts] at hw0; exact hw0
  obtain ⟨e1, e2, e3, e4, e5, _, e7⟩ := handle_base (U := U) (by rw [hI.base.static.consts, hI.base.static.sig]; exact hw0)
    ((ExactCall_static hI.base.static).mpr hcall) h
  have hI2 : CondInv ord D iq n ((hs ++ [(objs, c)]).map Prod.snd) U'.base := by
    rw [List.map_append]
    by_cases hob : c.call.name ∈ U.base.base.observed
    · obtain ⟨K', f1, f2⟩ := hI.base.step_upd ho hob
      rw [e1] at f1; cases f1; exact f2
    · obtain ⟨K', f1, f2⟩ := hI.base.step_new ho hcn' hob
      rw [e1] at f1; cases f1; exact f2
  have hobs' : ∀ a, a ∈ U'.base.base.observed ↔ a ∈ U.base.base.observed ∨ a = c.call.name := by
    intro a
    rw [hI2.observed, hI.base.observed]
    simp only [List.map_append, List.mem_append, List.map_cons, List.map_nil, List.mem_singleton, or_and_right, exists_or, exists_eq_left]
    rw [eq_comm (a := c.call.name)]
  obtain ⟨ts, hts⟩ : ∃ ts, umap.lookup c.call.name = some ts := by
    rw [hI.umapEq] at e7
    exact Option.ne_none_iff_exists'.mp e7
  -- reduce to the quantified rules
  have key : ∃ V : UniLearner, V.applyRulesU ord objs c.call (uniSnapshot D objs ts c).1 (uniSnapshot D objs ts c).2 = .ok U' ∧
      SameStatic D V.base.base.dom ∧
      V.addl c.call.name = (learnedTypes types ts).map (fun t => (t.name, additionalName (D.act c.call.name).sig t)) ∧
      (∀ b, b ≠ c.call.name → V.addl b = U.addl b ∧ V.q b = U.q b) ∧ V.obsU = U.obsU ∧
      ∀ T ∈ learnedTypes types ts, QInv ord D n c.call.name T (additionalName (D.act c.call.name).sig T) (extras c.call.name T hs)
        (V.q c.call.name T.name) (V.obsU c.call.name T.name) := by
    unfold UniLearner.handleComponent at h
    dsimp only at h
    have hts' : U.umap.lookup c.call.name = some ts := by rw [hI.umapEq]; exact hts
    rw [if_neg (by simpa using hcn), hts'] at h
    dsimp only at h
    rw [uniSnapshot_static hI.base.static] at h
    by_cases hob : c.call.name ∈ U.base.base.observed
    · rw [if_neg (by simpa using hob)] at h
      simp only [Bind.bind, Except.bind] at h
      split at h
      · simp at h
      rename_i K' hK
      obtain ⟨ts', g1, g2, g3⟩ := hI.seen _ hob
      rw [hts] at g1; cases g1
      refine ⟨_, h, ?_, g2, fun _ _ => ⟨rfl, rfl⟩, rfl, g3⟩
      have : U'.base = K' := (applyRulesU_core h).base
      rw [← this]
      exact hI2.static
    · rw [if_pos (by simpa using hob)] at h
      simp only [Bind.bind, Except.bind] at h
      split at h
      · simp at h
      rename_i K' hK
      obtain ⟨g1, g2, g3, _, g5⟩ := initFold_spec ho (a := c.call.name) (n := n) (learnedTypes types ts)
        { U with base := U.base.initDeps ord c.call.name } hI.base.static hI.base.max (hO.learned ts)
        (by intro t _; rw [show ({ U with base := U.base.initDeps ord c.call.name } : UniLearner).addl c.call.name = [] from (hI.idle _ hob).1]; simp)
      have hi : ({ U with base := U.base.initDeps ord c.call.name } : UniLearner).initU ord c.call.name ts =
          (learnedTypes types ts).foldl (UniLearner.initType ord c.call.name) { U with base := U.base.initDeps ord c.call.name } := by
        unfold UniLearner.initU learnedTypes
        rw [← hI.typesEq]
      rw [hi] at h
      refine ⟨_, h, ?_, ?_, g2, g3, ?_⟩
      · have : U'.base = K' := (applyRulesU_core h).base
        rw [← this]
        exact hI2.static
      · rw [show ({ U with base := U.base.initDeps ord c.call.name } : UniLearner).addl c.call.name = [] from (hI.idle _ hob).1,
          List.nil_append] at g1
        exact g1
      · intro T hT
        have e0 : extras c.call.name T hs = [] := by
          rw [List.eq_nil_iff_forall_not_mem]
          intro c' hc'
          obtain ⟨x, h1, h2, _⟩ := mem_extras.mp hc'
          exact hob ((hI.base.observed _).mpr ⟨x.2, List.mem_map.mpr ⟨x, h1, rfl⟩, h2⟩)
        rw [e0]
        dsimp only
        rw [g3, (hI.idle _ hob).2]
        exact g5 T hT
  obtain ⟨V, v1, v2, v3, v4, v5, v6⟩ := key
  have hS : StepOK D objs c ts (learnedTypes types ts) (V.addl c.call.name) :=
    ⟨hO.noConsts, hw, hcall, hO.learned ts, v3, fun t ht => (mem_learnedTypes.mp ht).2.2,
      fun o ho' t ht => hO.known _ (by simp : (objs, c) ∈ [(objs, c)]) o ho' t (mem_learnedTypes.mp ht).1⟩
  obtain ⟨w1, w2, w3⟩ := applyRulesU_spec ho (n := n) v2 hS v1
  have hother : ∀ a, a ≠ c.call.name → U'.addl a = U.addl a ∧ U'.q a = U.q a ∧ U'.obsU a = U.obsU a := by
    intro a ha
    exact ⟨by rw [w1]; exact (v4 a ha).1, ((w2 a ha).1).trans (v4 a ha).2, ((w2 a ha).2).trans (by rw [v5])⟩
  refine ⟨hI2, e2.trans hI.typesEq, e3.trans hI.umapEq, e4.trans hI.ueffs, e5.trans hI.uconds, ?_, ?_⟩
  · intro a ha
    rw [hobs', not_or] at ha
    obtain ⟨k1, _, k3⟩ := hother a ha.2
    rw [k1, k3]
    exact hI.idle a ha.1
  · intro a ha
    by_cases hac : a = c.call.name
    · subst hac
      refine ⟨ts, hts, by rw [w1]; exact v3, fun T hT => ?_⟩
      have := w3 T hT _ (v6 T hT)
      rw [extras_append]
      have e0 : extras c.call.name T [(objs, c)] = news T objs c := by simp [extras]
      rw [e0]
      exact this
    · obtain ⟨k1, k2, k3⟩ := hother a hac
      obtain ⟨ts', g1, g2, g3⟩ := hI.seen a ((hobs' a).mp ha |>.resolve_right hac)
      refine ⟨ts', g1, by rw [k1]; exact g2, fun T hT => ?_⟩
      rw [extras_append, k2, k3]
      have e0 : extras a T [(objs, c)] = [] := by simp [extras, Ne.symm hac]
      rw [e0, List.append_nil]
      exact g3 T hT

theorem UniInv.observation : ∀ (cs : List Component) (hs : Hist) (U : UniLearner),
    UniInv ord D iq types umap n hs U → ObjsOK D types (cs.map fun c => (objs, c)) →
    cs.foldlM (UniLearner.handleComponent ord objs) U = .ok U' → UniInv ord D iq types umap n (hs ++ cs.map fun c => (objs, c)) U' := by
  intro cs
  induction cs with
  | nil => intro hs U hI _ h; cases h; simpa using hI
  | cons c cs ih =>
    intro hs U hI hO h
    rw [List.foldlM_cons] at h
    simp only [Bind.bind, Except.bind] at h
    split at h
    · simp at h
    rename_i V hV
    have h1 := hI.step ho hD ⟨hO.noConsts, hO.names, fun x hx => hO.known x (by
        simp only [List.mem_singleton] at hx; subst hx; simp), fun x hx => hO.calls x (by
        simp only [List.mem_singleton] at hx; subst hx; simp)⟩ hV
    have := ih _ V h1 ⟨hO.noConsts, hO.names, fun x hx => hO.known x (by simp only [List.map_cons, List.mem_cons]; exact Or.inr hx),
      fun x hx => hO.calls x (by simp only [List.map_cons, List.mem_cons]; exact Or.inr hx)⟩ h
    simpa using this

/-- All observations. -/
theorem UniInv.process : ∀ (obs : List UniObs) (hs : Hist) (U : UniLearner),
    UniInv ord D iq types umap n hs U → ObjsOK D types (flat obs) →
    U.process ord obs = .ok U' → UniInv ord D iq types umap n (hs ++ flat obs) U' := by
  intro obs
  induction obs with
  | nil => intro hs U hI _ h; cases h; simpa [flat] using hI
  | cons ob obs ih =>
    intro hs U hI hO h
    unfold UniLearner.process at h
    rw [List.foldlM_cons] at h
    simp only [Bind.bind, Except.bind] at h
    split at h
    · simp at h
    rename_i V hV
    have hf : flat (ob :: obs) = (ob.2.map fun c => (ob.1, c)) ++ flat obs := rfl
    rw [hf] at hO ⊢
    have h1 := UniInv.observation ho hD ob.2 hs U hI ⟨hO.noConsts, hO.names, fun x hx => hO.known x (List.mem_append_left _ hx),
      fun x hx => hO.calls x (List.mem_append_left _ hx)⟩ hV
    have := ih _ V h1 ⟨hO.noConsts, hO.names, fun x hx => hO.known x (List.mem_append_right _ hx),
      fun x hx => hO.calls x (List.mem_append_right _ hx)⟩ h
    rw [← List.append_assoc]
    exact this

omit ho in
theorem UniInv.start (pol : Policy) (n : Nat) (types : List PType) (umap : List (String × List String)) :
    UniInv ord D (fun a => if a ∈ D.names then sameTypePairs (D.act a).sig else (D.act a).ineq) types umap n []
      { UniLearner.init D types umap n pol with base := { CondLearner.init D n pol with base := (Learner.init D pol).deduceIneq } } := by
  have hI := CondInv.start (ord := ord) hD n pol
  refine ⟨hI, rfl, rfl, rfl, rfl, fun a _ => ⟨rfl, fun _ => rfl⟩, fun a ha => ?_⟩
  obtain ⟨c, hc, _⟩ := (hI.observed a).mp ha
  simp at hc

end
end
end Model

import Verif.Model.IncNumSam
import Verif.Props.NumSam
import Verif.Props.IncHullPoint

/-! C111: incremental N-SAM. -/
namespace Props
namespace IncNumSam
open Spec Model Model.IncNumSam

section
variable {K : Type} [Field K] [LinearOrder K] [IsStrictOrderedRing K] [FloorRing K] {cfg : NumCfg K} {D : Domain}

/-- The incremental hull learner after one more observation. -/
def hullStep (cfg : NumCfg K) (ms : List (List String)) (s : IncHull K (List String)) (fl : List (String × K)) : IncHull K (List String) × Bool :=
  let pt := groundMonomials ms fl
  if pt = [] then (s, false) else s.add cfg.lib cfg.digits cfg.margin cfg.plain polyExp (pt.map Prod.fst) (pointFn pt)

/-- The incremental hull learner of an action after its observations. -/
def hullOf (cfg : NumCfg K) (D : Domain) (a : String) (us : List (NumComponent K)) : IncHull K (List String) × Bool :=
  us.foldl (fun s c => let r := hullStep cfg (prevColumns cfg D a) s.1 (fluentsOf cfg D c.comp.call c.prevN); (r.1, s.2 || r.2))
    (IncHull.init (prevColumns cfg D a) none, false)

/-- The storage of an action after its observations. -/
def incOf (cfg : NumCfg K) (D : Domain) (a : String) (us : List (NumComponent K)) : IncStore K :=
  ⟨(storeOf cfg D a us).functions, (storeOf cfg D a us).monomials, (hullOf cfg D a us).1, (storeOf cfg D a us).prev, (storeOf cfg D a us).next⟩

theorem storeOf_snoc (a : String) (us : List (NumComponent K)) (c : NumComponent K) :
    storeOf cfg D a (us ++ [c]) =
      ((storeOf cfg D a us).addPrev (fluentsOf cfg D c.comp.call c.prevN)).addNext (fluentsOf cfg D c.comp.call c.nextN) := by
  unfold storeOf
  rw [List.foldl_append]
  rfl

theorem storeOf_monomials (a : String) (us : List (NumComponent K)) : (storeOf cfg D a us).monomials = prevColumns cfg D a := by
  induction us using List.reverseRecOn with
  | nil => rfl
  | append_singleton us c ih => rw [storeOf_snoc]; exact ih

theorem hullOf_snoc (a : String) (us : List (NumComponent K)) (c : NumComponent K) :
    hullOf cfg D a (us ++ [c]) =
      ((hullStep cfg (prevColumns cfg D a) (hullOf cfg D a us).1 (fluentsOf cfg D c.comp.call c.prevN)).1,
        (hullOf cfg D a us).2 || (hullStep cfg (prevColumns cfg D a) (hullOf cfg D a us).1 (fluentsOf cfg D c.comp.call c.prevN)).2) := by
  unfold hullOf
  rw [List.foldl_append]
  rfl

/-- The incremental learner and N-SAM after the same observations. -/
structure Twin (cfg : NumCfg K) (D : Domain) (hs : List (NumComponent K)) (N : IncLearner K) (M : NumLearner K) : Prop where
  base : M.base = N.base
  inv : StoreInv cfg D hs M
  store : ∀ a, N.store.lookup a = if usableN hs a = [] then none else some (incOf cfg D a (usableN hs a))
  fine : ∀ a, (hullOf cfg D a (usableN hs a)).2 = false

theorem incOf_nil (a : String) : incOf cfg D a [] = IncStore.new ((functionVocab cfg.fns D.consts (D.act a).sig).map cfg.txt) cfg.degree := rfl

theorem incOf_snoc {a : String} {us : List (NumComponent K)} {c : NumComponent K} {st' : IncStore K}
    (hf : (hullOf cfg D a us).2 = false)
    (h : (incOf cfg D a us).addPrev cfg (fluentsOf cfg D c.comp.call c.prevN) = .ok st') :
    st'.addNext (fluentsOf cfg D c.comp.call c.nextN) = incOf cfg D a (us ++ [c]) ∧ (hullOf cfg D a (us ++ [c])).2 = false := by
  unfold IncStore.addPrev at h
  dsimp only at h
  have e : (incOf cfg D a us).monomials = prevColumns cfg D a := storeOf_monomials a us
  have key : (if groundMonomials (incOf cfg D a us).monomials (fluentsOf cfg D c.comp.call c.prevN) = [] then ((incOf cfg D a us).hull, false)
      else (incOf cfg D a us).hull.add cfg.lib cfg.digits cfg.margin cfg.plain polyExp
        ((groundMonomials (incOf cfg D a us).monomials (fluentsOf cfg D c.comp.call c.prevN)).map Prod.fst)
        (pointFn (groundMonomials (incOf cfg D a us).monomials (fluentsOf cfg D c.comp.call c.prevN)))) =
      hullStep cfg (prevColumns cfg D a) (hullOf cfg D a us).1 (fluentsOf cfg D c.comp.call c.prevN) := by
    rw [e]; rfl
  rw [key] at h
  by_cases hq : (hullStep cfg (prevColumns cfg D a) (hullOf cfg D a us).1 (fluentsOf cfg D c.comp.call c.prevN)).2 = true
  · rw [if_pos hq] at h; cases h
  · rw [if_neg hq] at h
    cases h
    rw [hullOf_snoc, hf]
    refine ⟨?_, by simpa using hq⟩
    unfold incOf
    rw [storeOf_snoc, hullOf_snoc]
    rfl

theorem twin_step {hs : List (NumComponent K)} {N N' : IncLearner K} {M : NumLearner K} (h : Twin cfg D hs N M) {c : NumComponent K}
    (hc : c.comp.success = true) (hr : N.handle cfg c = .ok N') : ∃ M', M.handle cfg c = .ok M' ∧ Twin cfg D (hs ++ [c]) N' M' := by
  unfold IncLearner.handle at hr
  cases hb : N.base.handleComponent c.comp with
  | error e => rw [hb] at hr; cases hr
  | ok base =>
    rw [hb] at hr
    dsimp only at hr
    by_cases hd : c.comp.call.params.Nodup
    · rw [if_neg (by rw [containsDuplicates_iff]; exact not_not.mpr hd)] at hr
      have hst := h.inv.static
      rw [h.base] at hst
      rw [liftedFluents_static hst, liftedFluents_static hst] at hr
      cases hp : liftedFluents cfg D c.comp.call c.prevN with
      | error e => rw [hp] at hr; cases hr
      | ok prev =>
        cases hn : liftedFluents cfg D c.comp.call c.nextN with
        | error e => rw [hp, hn] at hr; cases hr
        | ok next =>
          rw [hp, hn] at hr
          dsimp only [lift] at hr
          have hpf : fluentsOf cfg D c.comp.call c.prevN = prev := by unfold fluentsOf; rw [hp]
          have hnf : fluentsOf cfg D c.comp.call c.nextN = next := by unfold fluentsOf; rw [hn]
          have hsel : (if c.comp.call.name ∉ N.base.observed then some (IncStore.new ((functionVocab cfg.fns N.base.dom.consts (N.base.dom.act c.comp.call.name).sig).map cfg.txt) cfg.degree)
              else N.store.lookup c.comp.call.name : Option (IncStore K)) = some (incOf cfg D c.comp.call.name (usableN hs c.comp.call.name)) := by
            have hob := h.inv.observed c.comp.call.name
            rw [h.base] at hob
            by_cases ho : c.comp.call.name ∈ N.base.observed
            · rw [if_neg (not_not.mpr ho), h.store, if_neg (hob.mp ho)]
            · have hem : usableN hs c.comp.call.name = [] := by
                by_contra hne
                exact ho (hob.mpr hne)
              rw [if_pos ho, hem, incOf_nil, hst.consts, hst.sig]
          rw [hsel] at hr
          dsimp only at hr
          cases ha : (incOf cfg D c.comp.call.name (usableN hs c.comp.call.name)).addPrev cfg prev with
          | error e => rw [ha] at hr; cases hr
          | ok st' =>
            rw [ha] at hr
            cases hr
            rw [← hpf] at ha
            obtain ⟨k1, k2⟩ := incOf_snoc (h.fine _) ha
            rw [hnf] at k1
            -- N-SAM
            have hM : ∃ M', M.handle cfg c = .ok M' := by
              unfold NumLearner.handle
              rw [h.base, hb]
              dsimp only
              rw [if_neg (by rw [containsDuplicates_iff]; exact not_not.mpr hd)]
              simp only [Bind.bind, Except.bind]
              rw [liftedFluents_static hst, liftedFluents_static hst, hp, hn]
              dsimp only
              have hob := h.inv.observed c.comp.call.name
              rw [h.base] at hob
              by_cases ho : c.comp.call.name ∈ N.base.observed
              · rw [if_neg (not_not.mpr ho), h.inv.store, if_neg (hob.mp ho)]
                exact ⟨_, rfl⟩
              · rw [if_pos ho]
                exact ⟨_, rfl⟩
            obtain ⟨M', hM⟩ := hM
            obtain ⟨i1, i2⟩ := h.inv.step hc hM
            rw [h.base, hb] at i2
            cases i2
            refine ⟨M', hM, rfl, i1, fun a => ?_, fun a => ?_⟩
            · show (Py.dictSet N.store c.comp.call.name (st'.addNext next)).lookup a = _
              rw [Py.lookup_dictSet]
              by_cases ha' : a = c.comp.call.name
              · subst ha'
                have e : usableN (hs ++ [c]) c.comp.call.name = usableN hs c.comp.call.name ++ [c] := by
                  rw [usableN_snoc, if_pos ⟨hc, rfl, hd⟩]
                rw [if_pos rfl, e, if_neg (by simp), k1]
              · have e : usableN (hs ++ [c]) a = usableN hs a := by
                  rw [usableN_snoc, if_neg (fun k => ha' k.2.1.symm)]
                rw [if_neg ha', e]
                exact h.store a
            · rw [usableN_snoc]
              by_cases ha' : c.comp.success = true ∧ c.comp.call.name = a ∧ c.comp.call.params.Nodup
              · rw [if_pos ha', ← ha'.2.1]; exact k2
              · rw [if_neg ha']; exact h.fine a
    · rw [if_pos (containsDuplicates_iff.mpr hd)] at hr
      cases hr
      have hM : M.handle cfg c = .ok { M with base := base } := by
        unfold NumLearner.handle
        rw [h.base, hb]
        dsimp only
        rw [if_pos (containsDuplicates_iff.mpr hd)]
      obtain ⟨i1, i2⟩ := h.inv.step hc hM
      have e : ∀ a, usableN (hs ++ [c]) a = usableN hs a := fun a => by
        rw [usableN_snoc, if_neg (fun k => hd k.2.2)]
      refine ⟨_, hM, rfl, i1, fun a => ?_, fun a => ?_⟩
      · rw [e]; exact h.store a
      · rw [e]; exact h.fine a

theorem twin_process : ∀ {cs hs : List (NumComponent K)} {N N' : IncLearner K} {M : NumLearner K}, Twin cfg D hs N M →
    IncLearner.process cfg N cs = .ok N' → ∃ M', M.process cfg cs = .ok M' ∧ Twin cfg D (hs ++ cs) N' M' := by
  intro cs
  induction cs with
  | nil => intro hs N N' M h hr; cases hr; exact ⟨M, rfl, by simpa using h⟩
  | cons c cs ih =>
    intro hs N N' M h hr
    have hcat : hs ++ c :: cs = (hs ++ [c]) ++ cs := by simp
    rw [hcat]
    unfold IncLearner.process at hr
    by_cases hc : c.comp.success = true
    · rw [if_pos hc] at hr
      cases hh : N.handle cfg c with
      | error e => rw [hh] at hr; cases hr
      | ok N1 =>
        rw [hh] at hr
        obtain ⟨M1, k1, k2⟩ := twin_step h hc hh
        obtain ⟨M', j1, j2⟩ := ih k2 hr
        refine ⟨M', ?_, j2⟩
        rw [NumLearner.process, List.foldlM_cons, if_pos hc, k1]
        exact j1
    · rw [if_neg hc] at hr
      have hf : ¬ (c.comp.success = true ∧ c.comp.call.params.Nodup) := fun k => hc k.1
      have e : ∀ a, usableN (hs ++ [c]) a = usableN hs a := fun a => by
        rw [usableN_snoc, if_neg (fun k => hc k.1)]
      have T : Twin cfg D (hs ++ [c]) N M := by
        refine ⟨h.base, h.inv.skip hf (SameStatic.refl _) (fun _ => Iff.rfl), fun a => ?_, fun a => ?_⟩
        · rw [e]; exact h.store a
        · rw [e]; exact h.fine a
      obtain ⟨M', j1, j2⟩ := ih T hr
      refine ⟨M', ?_, j2⟩
      rw [NumLearner.process, List.foldlM_cons, if_neg hc]
      exact j1

theorem incModel_spec {store : List (String × IncStore K)} : ∀ {names : List String} {al : List (String × NumPart K)} {info : List (String × NumStatus)},
    Model.IncNumSam.safeModel cfg store names = .ok (al, info) →
    (∀ p ∈ al, p.1 ∈ names ∧ (p.1, NumStatus.ok) ∈ info ∧ ∃ st, store.lookup p.1 = some st ∧ Model.IncNumSam.safeAction cfg p.1 st = .ok p.2) ∧
    (∀ p ∈ info, p.1 ∈ names ∧ ∃ st, store.lookup p.1 = some st ∧
      ((∃ m, Model.IncNumSam.safeAction cfg p.1 st = .ok m ∧ p.2 = .ok ∧ (p.1, m) ∈ al) ∨ Model.IncNumSam.safeAction cfg p.1 st = .error (.notSafe p.2))) ∧
    (∀ a ∈ names, store.lookup a ≠ none → a ∈ info.map Prod.fst) := by
  intro names
  induction names with
  | nil =>
    intro al info h
    simp only [Model.IncNumSam.safeModel, Except.ok.injEq, Prod.mk.injEq] at h
    obtain ⟨rfl, rfl⟩ := h
    simp
  | cons a names ih =>
    intro al info h
    rw [Model.IncNumSam.safeModel] at h
    cases hl : store.lookup a with
    | none =>
      rw [hl] at h
      obtain ⟨h1, h2, h3⟩ := ih h
      refine ⟨fun p hp => ?_, fun p hp => ?_, fun b hb hne => ?_⟩
      · obtain ⟨q1, q2⟩ := h1 p hp; exact ⟨by simp [q1], q2⟩
      · obtain ⟨q1, q2⟩ := h2 p hp; exact ⟨by simp [q1], q2⟩
      · rcases List.mem_cons.mp hb with rfl | hb
        · exact absurd hl hne
        · exact h3 b hb hne
    | some st =>
      rw [hl] at h
      dsimp only at h
      cases hs : Model.IncNumSam.safeAction cfg a st with
      | ok m =>
        rw [hs] at h
        dsimp only at h
        cases hr : Model.IncNumSam.safeModel cfg store names with
        | error e => rw [hr] at h; simp [Except.map] at h
        | ok r =>
          rw [hr] at h
          simp only [Except.map, Except.ok.injEq, Prod.mk.injEq] at h
          obtain ⟨rfl, rfl⟩ := h
          obtain ⟨h1, h2, h3⟩ := ih hr
          refine ⟨fun p hp => ?_, fun p hp => ?_, fun b hb hne => ?_⟩
          · rcases List.mem_cons.mp hp with rfl | hp
            · exact ⟨by simp, by simp, st, hl, hs⟩
            · obtain ⟨q1, q2, q3⟩ := h1 p hp; exact ⟨by simp [q1], by simp [q2], q3⟩
          · rcases List.mem_cons.mp hp with rfl | hp
            · exact ⟨by simp, st, hl, Or.inl ⟨m, hs, rfl, by simp⟩⟩
            · obtain ⟨q1, st', q2, q3⟩ := h2 p hp
              refine ⟨by simp [q1], st', q2, ?_⟩
              rcases q3 with ⟨m', k1, k2, k3⟩ | k
              · exact Or.inl ⟨m', k1, k2, by simp [k3]⟩
              · exact Or.inr k
          · rcases List.mem_cons.mp hb with rfl | hb
            · simp
            · rw [List.map_cons]; exact List.mem_cons_of_mem _ (h3 b hb hne)
      | error e =>
        cases e with
        | py e => rw [hs] at h; simp at h
        | parse => rw [hs] at h; simp at h
        | notSafe s =>
          rw [hs] at h
          dsimp only at h
          cases hr : Model.IncNumSam.safeModel cfg store names with
          | error e => rw [hr] at h; simp [Except.map] at h
          | ok r =>
            rw [hr] at h
            simp only [Except.map, Except.ok.injEq, Prod.mk.injEq] at h
            obtain ⟨rfl, rfl⟩ := h
            obtain ⟨h1, h2, h3⟩ := ih hr
            refine ⟨fun p hp => ?_, fun p hp => ?_, fun b hb hne => ?_⟩
            · obtain ⟨q1, q2, q3⟩ := h1 p hp; exact ⟨by simp [q1], by simp [q2], q3⟩
            · rcases List.mem_cons.mp hp with rfl | hp
              · exact ⟨by simp, st, hl, Or.inr hs⟩
              · obtain ⟨q1, st', q2, q3⟩ := h2 p hp
                exact ⟨by simp [q1], st', q2, q3⟩
            · rcases List.mem_cons.mp hb with rfl | hb
              · simp
              · rw [List.map_cons]; exact List.mem_cons_of_mem _ (h3 b hb hne)

/-- What a call of `learn_action_model` on a fresh incremental learner does, in a domain with functions. -/
structure IncLearned (cfg : NumCfg K) (D : Domain) (policy : Policy) (obs : List (List (NumComponent K)))
    (N' : IncLearner K) (info : List (String × NumStatus)) (L' : Learner) (al : List (String × NumPart K)) : Prop where
  base : ∃ rep, (Learner.init D policy).learn (obs.map fun o => o.map NumComponent.comp) = .ok (L', rep)
  matched : ∀ a, ∀ c ∈ usableN obs.flatten a,
    liftedFluents cfg D c.comp.call c.prevN = .ok (fluentsOf cfg D c.comp.call c.prevN) ∧
    liftedFluents cfg D c.comp.call c.nextN = .ok (fluentsOf cfg D c.comp.call c.nextN)
  fine : ∀ a, (hullOf cfg D a (usableN obs.flatten a)).2 = false
  names : N'.base.dom.names = al.map Prod.fst
  part : ∀ a, N'.num a = (al.lookup a).getD ⟨[], []⟩
  allowed : ∀ p ∈ al, p.1 ∈ D.names ∧ (p.1, NumStatus.ok) ∈ info ∧ usableN obs.flatten p.1 ≠ [] ∧
    Model.IncNumSam.safeAction cfg p.1 (incOf cfg D p.1 (usableN obs.flatten p.1)) = .ok p.2
  infoOf : ∀ p ∈ info, p.1 ∈ D.names ∧ usableN obs.flatten p.1 ≠ [] ∧
    ((∃ m, Model.IncNumSam.safeAction cfg p.1 (incOf cfg D p.1 (usableN obs.flatten p.1)) = .ok m ∧ p.2 = .ok ∧ (p.1, m) ∈ al) ∨
      Model.IncNumSam.safeAction cfg p.1 (incOf cfg D p.1 (usableN obs.flatten p.1)) = .error (.notSafe p.2))
  infoAll : ∀ a ∈ D.names, usableN obs.flatten a ≠ [] → a ∈ info.map Prod.fst
  sig : ∀ a ∈ al.map Prod.fst, (N'.base.dom.act a).sig = (D.act a).sig
  pre : ∀ a ∈ al.map Prod.fst, (N'.base.dom.act a).pre = (L'.dom.act a).pre
  eff : ∀ a ∈ al.map Prod.fst, (N'.base.dom.act a).eff = (L'.dom.act a).eff
  ineq : ∀ a ∈ al.map Prod.fst, (N'.base.dom.act a).ineq = ∅

theorem incLearn_spec {policy : Policy} {obs : List (List (NumComponent K))} {N' : IncLearner K} {info : List (String × NumStatus)}
    (hD : D.names.Nodup) (hfns : cfg.fns ≠ []) (h : (IncLearner.init D policy).learn cfg obs = .ok (N', info)) :
    ∃ L' al, IncLearned cfg D policy obs N' info L' al := by
  unfold IncLearner.learn at h
  rw [if_neg hfns] at h
  dsimp only [IncLearner.init] at h
  obtain ⟨d1, d2, d3, d4, d5, d6, d7, d8⟩ := deduce_spec (L := Learner.init D policy) hD
  have hc : (Learner.init D policy).deduceIneq.completeMissing = (Learner.init D policy).deduceIneq :=
    complete_id (by rw [d7, d1.names]; exact init_sigs D policy true)
  rw [hc] at h
  cases hp : (IncLearner.process cfg ⟨(Learner.init D policy).deduceIneq, [], fun _ => ⟨[], []⟩⟩ obs.flatten : Except IncErr (IncLearner K)) with
  | error e => rw [hp] at h; cases h
  | ok N1 =>
    rw [hp] at h
    dsimp only at h
    have I0 : StoreInv cfg D [] (⟨(Learner.init D policy).deduceIneq, [], fun _ => ⟨[], []⟩⟩ : NumLearner K) := by
      refine ⟨d1, fun a => ?_, fun a => ?_, fun a c hc => ?_⟩
      · rw [d3]; simp [Learner.init, usableN]
      · simp [usableN]
      · simp [usableN] at hc
    have T0 : Twin cfg D [] (⟨(Learner.init D policy).deduceIneq, [], fun _ => ⟨[], []⟩⟩ : IncLearner K)
        (⟨(Learner.init D policy).deduceIneq, [], fun _ => ⟨[], []⟩⟩ : NumLearner K) :=
      ⟨rfl, I0, fun a => by simp [usableN], fun a => rfl⟩
    obtain ⟨M1, hM, T⟩ := twin_process T0 hp
    obtain ⟨_, hb⟩ := StoreInv.process obs.flatten [] _ M1 I0 hM
    rw [List.nil_append] at T
    have I := T.inv
    have hbase := T.base
    rw [hbase] at hb
    have hnames : N1.base.dom.names = D.names := by rw [← hbase]; exact I.static.names
    have hnd : N1.base.dom.names.Nodup := by rw [hnames]; exact hD
    have hl : ∃ rep, (Learner.init D policy).learn (obs.map fun o => o.map NumComponent.comp) =
        .ok (N1.base.handleUnobserved.applyPolicy, rep) := by
      refine ⟨N1.base.handleUnobserved.applyPolicy.report, ?_⟩
      unfold Learner.learn
      rw [hc]
      have : (obs.map fun o => o.map NumComponent.comp).flatten = obs.flatten.map NumComponent.comp := by
        rw [List.map_flatten]
      rw [this]
      simp only [Bind.bind, Except.bind]
      dsimp only at hb
      rw [hb]
    unfold IncLearner.createModel at h
    dsimp only at h
    obtain ⟨u1, u2, u3, u4, u5, u6, u7, u8⟩ := unobserved_spec hnd
    have hpn : N1.base.applyPolicy.dom.names = N1.base.dom.names := ((policy_spec hnd).1).names
    rw [hpn] at h
    cases hs : Model.IncNumSam.safeModel cfg N1.store N1.base.dom.names with
    | error e => rw [hs] at h; cases h
    | ok r =>
      rw [hs] at h
      simp only [Except.map, lift, Except.ok.injEq, Prod.mk.injEq] at h
      obtain ⟨rfl, rfl⟩ := h
      obtain ⟨s1, s2, s3⟩ := incModel_spec (al := r.1) (info := r.2) hs
      have hstore : ∀ {a : String} {st : IncStore K}, N1.store.lookup a = some st →
          usableN obs.flatten a ≠ [] ∧ st = incOf cfg D a (usableN obs.flatten a) := by
        intro a st hst
        rw [T.store] at hst
        split_ifs at hst with hu
        exact ⟨hu, (Option.some.inj hst).symm⟩
      have hact : ∀ a ∈ r.1.map Prod.fst,
          (N1.base.applyPolicy.dom.act a).pre = (N1.base.handleUnobserved.applyPolicy.dom.act a).pre ∧
          (N1.base.applyPolicy.dom.act a).eff = (N1.base.handleUnobserved.applyPolicy.dom.act a).eff := by
        intro a ha
        obtain ⟨p, hp', rfl⟩ := List.mem_map.mp ha
        obtain ⟨q1, _, st, q2, _⟩ := s1 p hp'
        have hobs : p.1 ∈ N1.base.observed := by rw [← hbase]; exact (I.observed _).mpr (hstore q2).1
        have hund : N1.base.handleUnobserved.dom.names.Nodup := by rw [u1.names]; exact hnd
        obtain ⟨a1, a2, _⟩ := policy_spec hnd
        obtain ⟨b1, b2, _⟩ := policy_spec hund
        have e1 := u2 p.1
        have hne : ¬ (p.1 ∈ N1.base.dom.names ∧ p.1 ∉ N1.base.observed) := fun k => k.2 hobs
        rw [if_neg hne, Finset.union_empty] at e1
        have ep := (a2 p.1)
        have fp := (b2 p.1)
        refine ⟨?_, ?_⟩
        · ext l
          rw [ep.2.2, fp.2.2, e1.2.2, e1.1, u1.names, u5]
        · rw [ep.1, fp.1, e1.1]
      refine ⟨_, r.1, ⟨hl, I.matched, T.fine, rfl, fun _ => rfl, ?_, ?_, ?_, ?_, ?_, ?_, ?_⟩⟩
      · intro p hp'
        obtain ⟨q1, q2, st, q3, q4⟩ := s1 p hp'
        obtain ⟨k1, k2⟩ := hstore q3
        exact ⟨by rw [← hnames]; exact q1, q2, k1, by rw [← k2]; exact q4⟩
      · intro p hp'
        obtain ⟨q1, st, q3, q4⟩ := s2 p hp'
        obtain ⟨k1, k2⟩ := hstore q3
        exact ⟨by rw [← hnames]; exact q1, k1, by rw [← k2]; exact q4⟩
      · intro a ha hu
        apply s3 a (by rw [hnames]; exact ha)
        rw [T.store, if_neg hu]
        simp
      · intro a ha
        dsimp only
        rw [if_pos ha]
        exact (((policy_spec hnd).1).sig a).trans (by rw [← hbase]; exact I.static.sig a)
      · intro a ha
        dsimp only
        rw [if_pos ha]
        exact (hact a ha).1
      · intro a ha
        dsimp only
        rw [if_pos ha]
        exact (hact a ha).2
      · intro a ha
        dsimp only
        rw [if_pos ha]

variable {truth : String → Schema} {obs : List (List (NumComponent K))} {N' : IncLearner K} {info : List (String × NumStatus)}
  {a : String} {A : NumSchema K} {policy : Policy}

/-- The points of the states before the usable observations of an action. -/
def points (cfg : NumCfg K) (D : Domain) (a : String) (obs : List (List (NumComponent K))) : List (List String → K) :=
  (usableN obs.flatten a).map (prevRow cfg D a)

theorem hullOf_observe (hne : scopeFns cfg D a ≠ []) : ∀ us : List (NumComponent K), FullObs cfg D a us →
    (∀ c ∈ us, liftedFluents cfg D c.comp.call c.prevN = .ok (fluentsOf cfg D c.comp.call c.prevN)) →
    hullOf cfg D a us = observe cfg.lib cfg.digits cfg.margin cfg.plain polyExp (prevColumns cfg D a) (IncHull.init (prevColumns cfg D a) none)
      (us.map (prevRow cfg D a)) := by
  intro us H hm
  unfold hullOf observe IncHull.addAll
  rw [List.map_map, List.foldl_map]
  have key : ∀ (l : List (NumComponent K)), (∀ c ∈ l, c ∈ us) → ∀ s : IncHull K (List String) × Bool,
      l.foldl (fun s c => let r := hullStep cfg (prevColumns cfg D a) s.1 (fluentsOf cfg D c.comp.call c.prevN); (r.1, s.2 || r.2)) s =
      l.foldl (fun s c => let r := s.1.add cfg.lib cfg.digits cfg.margin cfg.plain polyExp (prevColumns cfg D a) (prevRow cfg D a c); (r.1, s.2 || r.2)) s := by
    intro l
    induction l with
    | nil => intro _ s; rfl
    | cons c l ih =>
      intro hl s
      rw [List.foldl_cons, List.foldl_cons, ih fun c' hc' => hl c' (by simp [hc'])]
      have hc := hl c (by simp)
      obtain ⟨p1, p2⟩ := prev_point H hc (hm c hc)
      have hms : prevColumns cfg D a ≠ [] := by
        obtain ⟨f, hf⟩ := List.exists_mem_of_ne_nil _ hne
        exact List.ne_nil_of_mem (single_mem_prevColumns H.text (mem_scopeFns.mp hf))
      have e : hullStep cfg (prevColumns cfg D a) s.1 (fluentsOf cfg D c.comp.call c.prevN) =
          s.1.add cfg.lib cfg.digits cfg.margin cfg.plain polyExp (prevColumns cfg D a) (prevRow cfg D a c) := by
        unfold hullStep
        dsimp only
        rw [if_neg (by intro k; rw [k] at p1; exact hms p1.symm), p1, p2]
      dsimp only
      rw [e]
  exact key us (fun _ h => h) _

/-- What is known of a returned action. -/
theorem returned (hnd : D.names.Nodup) (hw : WFSig D.consts (D.act a).sig) (hT : WFTruth D truth)
    (hG : GoodData D truth (obs.map fun o => o.map NumComponent.comp)) (hfns : cfg.fns ≠ []) (hplain : cfg.plain = true)
    (h : (IncLearner.init D policy).learn cfg obs = .ok (N', info)) (ha : a ∈ N'.base.dom.names)
    (ht : TextOK cfg.txt cfg.fns D.consts (D.act a).sig) (hsc : ∃ f, InScope cfg.fns D.consts (D.act a).sig f)
    (hN : NumGood cfg D a A obs) {rel : Option (List (List String))} (hrel : relevantOf cfg a = .ok rel)
    (hS : IncSetup cfg.lib cfg.digits polyExp (prevColumns cfg D a) (distinctRows (prevColumns cfg D a) [] (points cfg D a obs))) :
    usableN obs.flatten a ≠ [] ∧
    StoreShape cfg D a (usableN obs.flatten a) (storeOf cfg D a (usableN obs.flatten a)) ∧
    numericEff cfg rel (storeOf cfg D a (usableN obs.flatten a)) = .ok (N'.num a).eff ∧
    ∀ x, (∀ q ∈ (N'.num a).pre, q.holds x) ↔ rel = some [] ∨ InHull (prevColumns cfg D a) (points cfg D a obs) (colVal polyExp x) := by
  obtain ⟨L', al, HL⟩ := incLearn_spec hnd hfns h
  rw [HL.names] at ha
  have hlk : ∃ m, al.lookup a = some m := by
    cases hl : al.lookup a with
    | none => rw [Py.lookup_none_iff] at hl; exact absurd ha hl
    | some m => exact ⟨m, rfl⟩
  obtain ⟨m, hm⟩ := hlk
  obtain ⟨haD, _, hu, hsafe⟩ := HL.allowed _ (lookup_mem hm)
  dsimp only at haD hu hsafe
  have hpart : N'.num a = m := by rw [HL.part, hm]; rfl
  rw [hpart]
  have H := fullObs hw hT hG haD ht hN
  have hne : scopeFns cfg D a ≠ [] := by
    obtain ⟨f, hf⟩ := hsc
    exact List.ne_nil_of_mem (mem_scopeFns.mpr hf)
  have S := storeOf_shape hne _ H (HL.matched a)
  have ho := hullOf_observe hne _ H fun c hc => (HL.matched a c hc).1
  have hf := HL.fine a
  rw [hplain] at ho
  have hrun : observe cfg.lib cfg.digits cfg.margin true polyExp (prevColumns cfg D a) (IncHull.init (prevColumns cfg D a) none)
      (points cfg D a obs) = ((incOf cfg D a (usableN obs.flatten a)).hull, false) := by
    unfold points
    rw [← ho]
    exact Prod.ext rfl hf
  refine ⟨hu, S, ?_⟩
  unfold Model.IncNumSam.safeAction at hsafe
  rw [hrel] at hsafe
  dsimp only at hsafe
  cases hnp : Model.IncNumSam.numericPre rel cfg (incOf cfg D a (usableN obs.flatten a)) with
  | error e => rw [hnp] at hsafe; simp at hsafe
  | ok cs =>
    rw [hnp] at hsafe
    dsimp only at hsafe
    have heq : numericEff cfg rel ⟨(incOf cfg D a (usableN obs.flatten a)).functions, (incOf cfg D a (usableN obs.flatten a)).monomials, ⟨[], []⟩,
        (incOf cfg D a (usableN obs.flatten a)).prev, (incOf cfg D a (usableN obs.flatten a)).next⟩ =
        numericEff cfg rel (storeOf cfg D a (usableN obs.flatten a)) := rfl
    rw [heq] at hsafe
    cases hne' : numericEff cfg rel (storeOf cfg D a (usableN obs.flatten a)) with
    | error e => rw [hne'] at hsafe; simp at hsafe
    | ok es =>
      rw [hne'] at hsafe
      simp only [Except.ok.injEq] at hsafe
      subst hsafe
      refine ⟨rfl, fun x => ?_⟩
      dsimp only
      unfold Model.IncNumSam.numericPre at hnp
      by_cases hr0 : rel = some []
      · rw [if_pos hr0] at hnp
        cases hnp
        simp [hr0]
      · have hdat := C76_data cfg.lib cfg.digits cfg.margin true polyExp (prevColumns cfg D a) (points cfg D a obs)
        rw [hrun] at hdat
        have hrows : (incOf cfg D a (usableN obs.flatten a)).hull.rows ≠ [] := by
          have := hdat.2
          dsimp only at this
          rw [this]
          exact hS.hull.nonempty
        have hrelv : (incOf cfg D a (usableN obs.flatten a)).hull.relevant ≠ [] := by
          obtain ⟨_, g2, _⟩ := observe_data (L := cfg.lib) (d := cfg.digits) (margin := cfg.margin) (plain := true) (colExp := polyExp)
            (points cfg D a obs) (cols := prevColumns cfg D a) (st := IncHull.init (prevColumns cfg D a) none) rfl rfl
          rw [hrun] at g2
          dsimp only at g2
          rw [g2]
          obtain ⟨f, hf⟩ := hsc
          exact List.ne_nil_of_mem (single_mem_prevColumns H.text hf)
        rw [if_neg hr0, if_neg (by rintro (k | k); exacts [hrows k, hrelv k])] at hnp
        cases hsi : (incOf cfg D a (usableN obs.flatten a)).hull.safeInequalities cfg.digits polyExp with
        | notSafe => rw [hsi] at hnp; simp at hnp
        | crash => rw [hsi] at hnp; simp at hnp
        | conds cs' =>
          rw [hsi] at hnp
          dsimp only at hnp
          split_ifs at hnp
          simp only [Except.ok.injEq] at hnp
          subst hnp
          rw [C76_incremental_is_hull hS hrun hsi x, or_iff_right hr0]
          rfl

/-- **C111.** The numeric precondition of a returned action is true in a state exactly when the values of all monomials of the action in that
state are a convex combination of the observed ones — also if fluents are named as relevant, unless the list of the action is empty. -/
theorem C111_precondition_is_hull (hD : WFDomain D) (hT : WFTruth D truth)
    (hG : GoodData D truth (obs.map fun o => o.map NumComponent.comp)) (hfns : cfg.fns ≠ []) (hplain : cfg.plain = true)
    (h : (IncLearner.init D policy).learn cfg obs = .ok (N', info)) (ha : a ∈ N'.base.dom.names)
    (ht : TextOK cfg.txt cfg.fns D.consts (D.act a).sig) (hsc : ∃ f, InScope cfg.fns D.consts (D.act a).sig f)
    (hN : NumGood cfg D a A obs) (hrel : relevantOf cfg a ≠ .ok (some []))
    (hS : IncSetup cfg.lib cfg.digits polyExp (prevColumns cfg D a) (distinctRows (prevColumns cfg D a) [] (points cfg D a obs)))
    (x : String → K) :
    (∀ q ∈ (N'.num a).pre, q.holds x) ↔ InHull (prevColumns cfg D a) (points cfg D a obs) (monoVal x) := by
  obtain ⟨L', al, HL⟩ := incLearn_spec hD.names hfns h
  have ha' := ha
  rw [HL.names] at ha'
  obtain ⟨p, hp, hpa⟩ := List.mem_map.mp ha'
  have haD : a ∈ D.names := hpa ▸ (HL.allowed p hp).1
  have hr : ∃ rel, relevantOf cfg a = .ok rel := by
    have := (HL.allowed p hp).2.2.2
    unfold Model.IncNumSam.safeAction at this
    rw [hpa] at this
    cases hr : relevantOf cfg a with
    | error e => rw [hr] at this; cases this
    | ok rel => exact ⟨rel, rfl⟩
  obtain ⟨rel, hr⟩ := hr
  obtain ⟨_, _, _, k⟩ := returned hD.names (hD.sigs a haD) hT hG hfns hplain h ha ht hsc hN hr hS
  rw [k x, or_iff_right (by rintro rfl; exact hrel hr)]
  exact ⟨inHull_agree fun c hc => colVal_mono ht hc, inHull_agree fun c hc => (colVal_mono ht hc).symm⟩

/-- **C111.** Safety. With data explained by true actions with a convex numeric precondition and affine numeric effects, every returned action is
numerically safe and exact under any policy for negative preconditions; under `noRemove` also its boolean part is. -/
theorem C111_safe (hD : WFDomain D) (hT : WFTruth D truth)
    (hG : GoodData D truth (obs.map fun o => o.map NumComponent.comp))
    (hfns : cfg.fns ≠ []) (hplain : cfg.plain = true) (hallow : cfg.allowUnsafe = false) (hdig : cfg.digits ≤ 10)
    (hR : RegContract cfg.reg)
    (h : (IncLearner.init D policy).learn cfg obs = .ok (N', info)) (ha : a ∈ N'.base.dom.names)
    (ht : TextOK cfg.txt cfg.fns D.consts (D.act a).sig) (hsc : ∃ f, InScope cfg.fns D.consts (D.act a).sig f)
    (hN : NumGood cfg D a A obs) {rel : Option (List (List String))} (hrel : relevantOf cfg a = .ok rel)
    (hC : NumConvex cfg.txt cfg.fns D.consts (D.act a).sig (usedCols rel (prevColumns cfg D a)) A)
    (hS : IncSetup cfg.lib cfg.digits polyExp (prevColumns cfg D a) (distinctRows (prevColumns cfg D a) [] (points cfg D a obs)))
    (hP : CoefficientsPrintable cfg.reg cfg.digits (usedCols rel (prevColumns cfg D a)) (usedCols rel (nextColumns cfg D a)) (regressionRows cfg D a obs))
    (hsd : ∀ e ∈ (N'.num a).eff, e.op ≠ .scaleDown) (x : String → K) (hnum : ∀ q ∈ (N'.num a).pre, q.holds x) :
    A.pre (monoVal x) ∧
    (∀ f, InScope cfg.fns D.consts (D.act a).sig f → applyNumeric (N'.num a).eff x (cfg.txt f) = (A.eff f).value (monoVal x)) ∧
    (∀ n, (∀ f, InScope cfg.fns D.consts (D.act a).sig f → cfg.txt f ≠ n) → applyNumeric (N'.num a).eff x n = x n) ∧
    (policy = .noRemove → ∀ (ρ : String → String) (s : State), applicable (N'.base.dom.act a).pre ρ s →
      applicable (truth a).pre ρ s ∧
      (Spec.Injective D.consts (D.act a).sig ρ → successor (N'.base.dom.act a).eff ρ s = successor (truth a).eff ρ s)) := by
  obtain ⟨L', al, HL⟩ := incLearn_spec hD.names hfns h
  have ha' := ha
  rw [HL.names] at ha'
  obtain ⟨p, hp, hpa⟩ := List.mem_map.mp ha'
  have haD : a ∈ D.names := hpa ▸ (HL.allowed p hp).1
  obtain ⟨hu, S, he, hpre⟩ := returned hD.names (hD.sigs a haD) hT hG hfns hplain h ha ht hsc hN hrel hS
  have hhull : InHull (usedCols rel (prevColumns cfg D a)) ((usableN obs.flatten a).map (prevRow cfg D a)) (colVal polyExp x) := by
    rcases (hpre x).mp hnum with hr0 | hh
    · subst hr0
      refine inHull_congr (cols := []) (fun c => by simp [usedCols]) |>.mp (inHull_nil_cols ?_ _)
      simpa using hu
    · exact inHull_mono (fun c hc => usedCols_sub hc) hh
  obtain ⟨h1, h2, h3⟩ := numeric_core hallow hdig hR ht hN hC hP hu S he hsd x hhull
  refine ⟨h1, h2, h3, fun hpol ρ s hap => ?_⟩
  subst hpol
  obtain ⟨rep, hbase⟩ := HL.base
  rw [HL.pre a ha'] at hap
  exact ⟨C01_preconditions_sufficient hD hT hG hbase haD ρ s hap,
    fun hi => by rw [HL.eff a ha']; exact C02_effects_exact hD hT hG hbase haD ρ hi s hap⟩

/-- **C111.** The same observations given to N-SAM: an action returned by both has the same boolean preconditions and effects and the same numeric
effects, and its numeric preconditions accept the same states (no relevant fluents). -/
theorem C111_same_as_batch (hD : WFDomain D) (hT : WFTruth D truth)
    (hG : GoodData D truth (obs.map fun o => o.map NumComponent.comp))
    (hfns : cfg.fns ≠ []) (hplain : cfg.plain = true) (hnone : cfg.relevant = none)
    (h : (IncLearner.init D policy).learn cfg obs = .ok (N', info)) (ha : a ∈ N'.base.dom.names)
    {M' : NumLearner K} {info' : List (String × NumStatus)}
    (h' : (NumLearner.init D policy).learn cfg obs = .ok (M', info')) (ha' : a ∈ M'.base.dom.names)
    (ht : TextOK cfg.txt cfg.fns D.consts (D.act a).sig) (hsc : ∃ f, InScope cfg.fns D.consts (D.act a).sig f)
    (hN : NumGood cfg D a A obs)
    (hS : IncSetup cfg.lib cfg.digits polyExp (prevColumns cfg D a) (distinctRows (prevColumns cfg D a) [] (points cfg D a obs)))
    (hS' : HullSetup cfg.lib cfg.digits polyExp (prevColumns cfg D a) (hullRows cfg D a obs)) :
    (N'.base.dom.act a).pre = (M'.base.dom.act a).pre ∧ (N'.base.dom.act a).eff = (M'.base.dom.act a).eff ∧
    (N'.num a).eff = (M'.num a).eff ∧ ∀ x, (∀ q ∈ (N'.num a).pre, q.holds x) ↔ ∀ q ∈ (M'.num a).pre, q.holds x := by
  have hrel : relevantOf cfg a = .ok none := by unfold relevantOf; rw [hnone]
  obtain ⟨L1, al, HL⟩ := incLearn_spec hD.names hfns h
  obtain ⟨L2, bl, HB⟩ := numLearn_spec hD.names hfns h'
  have hal := ha
  rw [HL.names] at hal
  have hbl := ha'
  rw [HB.names] at hbl
  obtain ⟨p, hp, hpa⟩ := List.mem_map.mp hal
  have haD : a ∈ D.names := hpa ▸ (HL.allowed p hp).1
  obtain ⟨hu, S, he, hpre⟩ := returned hD.names (hD.sigs a haD) hT hG hfns hplain h ha ht hsc hN hrel hS
  obtain ⟨r1, e1⟩ := HL.base
  obtain ⟨r2, e2⟩ := HB.base
  rw [e1] at e2
  cases e2
  have hlk : ∃ m, bl.lookup a = some m := by
    cases hl : bl.lookup a with
    | none => rw [Py.lookup_none_iff] at hl; exact absurd hbl hl
    | some m => exact ⟨m, rfl⟩
  obtain ⟨m, hm⟩ := hlk
  obtain ⟨_, _, _, hsafe⟩ := HB.allowed _ (lookup_mem hm)
  dsimp only at hsafe
  have hpart : M'.num a = m := by rw [HB.part, hm]; rfl
  refine ⟨by rw [HL.pre a hal, HB.pre a hbl], by rw [HL.eff a hal, HB.eff a hbl], ?_⟩
  rw [hpart]
  unfold Model.safeAction at hsafe
  rw [hrel] at hsafe
  simp only [Bind.bind, Except.bind] at hsafe
  cases hnp : Model.numericPre cfg none (storeOf cfg D a (usableN obs.flatten a)) with
  | error e => rw [hnp] at hsafe; simp at hsafe
  | ok cs =>
    rw [hnp, he] at hsafe
    simp only [Except.ok.injEq] at hsafe
    subst hsafe
    refine ⟨rfl, fun x => ?_⟩
    dsimp only
    rw [hpre x, or_iff_right (by simp)]
    unfold Model.numericPre at hnp
    rw [if_neg (by simp), hplain, S.hullCols hu, S.hullRows hu] at hnp
    cases hsi : safeInequalities cfg.lib cfg.digits cfg.margin true polyExp none (prevColumns cfg D a)
        (dedupBy (fun r : List String → K => (prevColumns cfg D a).map r) ((usableN obs.flatten a).map (prevRow cfg D a))) with
    | notSafe => rw [hsi] at hnp; simp at hnp
    | crash => rw [hsi] at hnp; simp at hnp
    | conds cs' =>
      rw [hsi] at hnp
      dsimp only at hnp
      split_ifs at hnp
      simp only [Except.ok.injEq] at hnp
      subst hnp
      have := C55_precondition_is_hull hS' hsi x
      rw [this]
      unfold points hullRows
      constructor
      · refine inHull_trans ?_
        intro r hr
        obtain ⟨r', k1, k2⟩ := dedupBy_rep (key := fun r : List String → K => (prevColumns cfg D a).map r) hr
        exact inHull_agree (fun c hc => List.map_inj_left.mp k2 c hc) (inHull_row k1)
      · exact inHull_trans fun r hr => inHull_row (dedupBy_mem hr)

/-- The statuses of an action that failed. -/
theorem safeAction_status {st : IncStore K} {s : NumStatus} (h : Model.IncNumSam.safeAction cfg a st = .error (.notSafe s)) :
    s = .convexHullNotFound ∨ s = .noSolutionFound := by
  unfold Model.IncNumSam.safeAction at h
  cases hr : relevantOf cfg a with
  | error e =>
    rw [hr] at h
    simp only [Except.error.injEq] at h
    subst h
    unfold relevantOf at hr
    revert hr
    repeat' split
    all_goals simp_all
  | ok rel =>
    rw [hr] at h
    dsimp only at h
    cases hp : Model.IncNumSam.numericPre rel cfg st with
    | error e =>
      rw [hp] at h
      simp only [Except.error.injEq] at h
      subst h
      unfold Model.IncNumSam.numericPre at hp
      revert hp
      repeat' split
      all_goals simp_all
    | ok pre =>
      rw [hp] at h
      dsimp only at h
      cases he : numericEff cfg rel ⟨st.functions, st.monomials, ⟨[], []⟩, st.prev, st.next⟩ with
      | ok eff => rw [he] at h; cases h
      | error e =>
        rw [he] at h
        simp only [Except.error.injEq] at h
        subst h
        unfold numericEff at he
        revert he
        repeat' split
        all_goals simp_all

/-- **C111.** What is returned and reported: as N-SAM does (C63). -/
theorem C111_returned_actions (hD : D.names.Nodup) (hfns : cfg.fns ≠ [])
    (h : (IncLearner.init D policy).learn cfg obs = .ok (N', info)) :
    (∀ a, a ∈ N'.base.dom.names ↔ (a, NumStatus.ok) ∈ info) ∧
    (∀ a, (∃ s, (a, s) ∈ info) ↔ a ∈ D.names ∧ ∃ c ∈ obs.flatten, c.comp.success = true ∧ c.comp.call.name = a ∧ c.comp.call.params.Nodup) ∧
    (∀ a s s', (a, s) ∈ info → (a, s') ∈ info → s = s') ∧
    (∀ a s, (a, s) ∈ info → s = .ok ∨ s = .convexHullNotFound ∨ s = .noSolutionFound) ∧
    (∀ a ∈ N'.base.dom.names, (N'.base.dom.act a).ineq = ∅) := by
  obtain ⟨L', al, HL⟩ := incLearn_spec hD hfns h
  refine ⟨?_, ?_, ?_, ?_, ?_⟩
  · intro a
    rw [HL.names]
    constructor
    · intro ha
      obtain ⟨p, hp, rfl⟩ := List.mem_map.mp ha
      exact (HL.allowed p hp).2.1
    · intro ha
      rcases (HL.infoOf _ ha).2.2 with ⟨m, _, _, h3⟩ | h3
      · exact List.mem_map.mpr ⟨_, h3, rfl⟩
      · rcases safeAction_status h3 with k | k <;> simp at k
  · intro a
    constructor
    · rintro ⟨s, hs⟩
      obtain ⟨h1, h2, _⟩ := HL.infoOf _ hs
      obtain ⟨c, hc⟩ := List.exists_mem_of_ne_nil _ h2
      exact ⟨h1, c, mem_usableN.mp hc⟩
    · rintro ⟨h1, c, hc⟩
      have := HL.infoAll a h1 (List.ne_nil_of_mem (mem_usableN.mpr hc))
      obtain ⟨p, hp, rfl⟩ := List.mem_map.mp this
      exact ⟨p.2, hp⟩
  · intro a s s' hs hs'
    rcases (HL.infoOf _ hs).2.2 with ⟨m, h1, h2, _⟩ | h1 <;> rcases (HL.infoOf _ hs').2.2 with ⟨m', h1', h2', _⟩ | h1'
    · exact h2.trans h2'.symm
    · dsimp only at h1 h1'; rw [h1] at h1'; simp at h1'
    · dsimp only at h1 h1'; rw [h1] at h1'; simp at h1'
    · dsimp only at h1 h1'; rw [h1] at h1'; simpa using h1'
  · intro a s hs
    rcases (HL.infoOf _ hs).2.2 with ⟨m, _, h2, _⟩ | h2
    · exact .inl h2
    · exact .inr (safeAction_status h2)
  · intro a ha
    rw [HL.names] at ha
    exact HL.ineq a ha

end
end IncNumSam
end Props

import Verif.Lemmas.NumStore
import Verif.Props.LinReg

/-! N-SAM: the safe action model, and the regression data. -/
namespace Model
open Spec

section
variable {α β γ : Type} [DecidableEq β] [DecidableEq γ] {key : α → β} {key' : α → γ}

theorem forall₂_filter {R : α → α → Prop} {p q : α → Bool} {l l' : List α} (h : List.Forall₂ R l l')
    (hpq : ∀ a a', R a a' → p a = q a') : List.Forall₂ R (l.filter p) (l'.filter q) := by
  induction h with
  | nil => exact List.Forall₂.nil
  | @cons a b l l' hab _ ih =>
    rw [List.filter_cons, List.filter_cons, hpq _ _ hab]
    split_ifs
    · exact List.Forall₂.cons hab ih
    · exact ih

theorem dedupBy_forall₂ {R : α → α → Prop} (hk : ∀ a a' b b', R a a' → R b b' → (key a = key b ↔ key' a' = key' b')) {l l' : List α}
    (h : List.Forall₂ R l l') : List.Forall₂ R (dedupBy key l) (dedupBy key' l') := by
  induction h with
  | nil => exact List.Forall₂.nil
  | @cons a b l l' hab _ ih =>
    rw [dedupBy, dedupBy]
    refine List.Forall₂.cons hab (forall₂_filter ih ?_)
    intro c c' hc
    simp only [ne_eq, decide_not, hk c c' a b hc hab]

theorem map_eq_of_forall₂ {δ : Type} {R : α → α → Prop} {g g' : α → δ} {l l' : List α} (h : List.Forall₂ R l l')
    (hg : ∀ a a', R a a' → g a = g' a') : l.map g = l'.map g' := by
  induction h with
  | nil => rfl
  | cons hab _ ih => rw [List.map_cons, List.map_cons, hg _ _ hab, ih]

end

section
variable {K : Type} [Field K] [LinearOrder K] {C : Type} [DecidableEq C]

theorem regData_forall₂ {pc nc nc' : List C} {obs obs' : List ((C → K) × (C → K))}
    (hn : ∀ c, c ∈ nc ↔ c ∈ nc')
    (h : List.Forall₂ (fun o o' => o.1 = o'.1 ∧ ∀ c ∈ nc', o.2 c = o'.2 c) obs obs') :
    List.Forall₂ (fun o o' => o.1 = o'.1 ∧ ∀ c ∈ nc', o.2 c = o'.2 c) (regData pc nc obs) (regData pc nc' obs') := by
  refine dedupBy_forall₂ ?_ h
  intro a a' b b' ha hb
  simp only [Prod.mk.injEq, List.map_inj_left, ha.1, hb.1]
  refine and_congr_right fun _ => ?_
  constructor
  · intro k c hc; rw [← ha.2 c hc, ← hb.2 c hc]; exact k c ((hn c).mpr hc)
  · intro k c hc; rw [ha.2 c ((hn c).mp hc), hb.2 c ((hn c).mp hc)]; exact k c ((hn c).mp hc)

variable [IsStrictOrderedRing K] [FloorRing K]

theorem printable_transfer {R : RegLib K C} {d : Nat} {pc nc nc' : List C} {obs obs' : List ((C → K) × (C → K))}
    (hn : ∀ c, c ∈ nc ↔ c ∈ nc')
    (h : List.Forall₂ (fun o o' => o.1 = o'.1 ∧ ∀ c ∈ nc', o.2 c = o'.2 c) obs obs')
    (hp : Props.CoefficientsPrintable R d pc nc' obs') : Props.CoefficientsPrintable R d pc nc obs := by
  have hd := regData_forall₂ (pc := pc) hn h
  have h1 : (regData pc nc obs).map Prod.fst = (regData pc nc' obs').map Prod.fst := map_eq_of_forall₂ hd fun _ _ k => k.1
  have h2 : regFeats d pc nc obs = regFeats d pc nc' obs' := by
    unfold regFeats
    dsimp only
    rw [h1]
  intro f hf
  have h3 : regLabels pc nc obs f = regLabels pc nc' obs' f := map_eq_of_forall₂ hd fun a b k => by
    rw [k.1, k.2 f ((hn f).mp hf)]
  rw [h2, h3]
  exact hp f ((hn f).mp hf)

end

section
variable {K : Type} [Field K] [LinearOrder K] [IsStrictOrderedRing K] [FloorRing K] {cfg : NumCfg K}

theorem safeModel_spec {store : List (String × NStore K)} : ∀ {names : List String} {al : List (String × NumPart K)} {info : List (String × NumStatus)},
    safeModel cfg store names = .ok (al, info) →
    (∀ p ∈ al, p.1 ∈ names ∧ (p.1, NumStatus.ok) ∈ info ∧ ∃ st, store.lookup p.1 = some st ∧ safeAction cfg p.1 st = .ok p.2) ∧
    (∀ p ∈ info, p.1 ∈ names ∧ ∃ st, store.lookup p.1 = some st ∧
      ((∃ m, safeAction cfg p.1 st = .ok m ∧ p.2 = .ok ∧ (p.1, m) ∈ al) ∨ safeAction cfg p.1 st = .error (.notSafe p.2))) ∧
    (∀ a ∈ names, store.lookup a ≠ none → a ∈ info.map Prod.fst) := by
  intro names
  induction names with
  | nil =>
    intro al info h
    simp only [safeModel, Except.ok.injEq, Prod.mk.injEq] at h
    obtain ⟨rfl, rfl⟩ := h
    simp
  | cons a names ih =>
    intro al info h
    rw [safeModel] at h
    cases hl : store.lookup a with
    | none =>
      rw [hl] at h
      obtain ⟨h1, h2, h3⟩ := ih h
      refine ⟨fun p hp => ?_, fun p hp => ?_, fun b hb hne => ?_⟩
      · obtain ⟨q1, q2⟩ := h1 p hp; exact ⟨by simp [q1], q2⟩
      · obtain ⟨q1, q2⟩ := h2 p hp; exact ⟨by simp [q1], q2⟩
      · rcases List.mem_cons.mp hb with rfl | hb
        · exact absurd hl hne
        · exact h3 b hb hne
    | some st =>
      rw [hl] at h
      dsimp only at h
      cases hs : safeAction cfg a st with
      | ok m =>
        rw [hs] at h
        dsimp only at h
        cases hr : safeModel cfg store names with
        | error e => rw [hr] at h; simp [Except.map] at h
        | ok r =>
          rw [hr] at h
          simp only [Except.map, Except.ok.injEq, Prod.mk.injEq] at h
          obtain ⟨rfl, rfl⟩ := h
          obtain ⟨h1, h2, h3⟩ := ih hr
          refine ⟨fun p hp => ?_, fun p hp => ?_, fun b hb hne => ?_⟩
          · rcases List.mem_cons.mp hp with rfl | hp
            · exact ⟨by simp, by simp, st, hl, hs⟩
            · obtain ⟨q1, q2, q3⟩ := h1 p hp; exact ⟨by simp [q1], by simp [q2], q3⟩
          · rcases List.mem_cons.mp hp with rfl | hp
            · exact ⟨by simp, st, hl, Or.inl ⟨m, hs, rfl, by simp⟩⟩
            · obtain ⟨q1, st', q2, q3⟩ := h2 p hp
              refine ⟨by simp [q1], st', q2, ?_⟩
              rcases q3 with ⟨m', k1, k2, k3⟩ | k
              · exact Or.inl ⟨m', k1, k2, by simp [k3]⟩
              · exact Or.inr k
          · rcases List.mem_cons.mp hb with rfl | hb
            · simp
            · rw [List.map_cons]; exact List.mem_cons_of_mem _ (h3 b hb hne)
      | error e =>
        cases e with
        | py e => rw [hs] at h; simp at h
        | parse => rw [hs] at h; simp at h
        | notSafe s =>
          rw [hs] at h
          dsimp only at h
          cases hr : safeModel cfg store names with
          | error e => rw [hr] at h; simp [Except.map] at h
          | ok r =>
            rw [hr] at h
            simp only [Except.map, Except.ok.injEq, Prod.mk.injEq] at h
            obtain ⟨rfl, rfl⟩ := h
            obtain ⟨h1, h2, h3⟩ := ih hr
            refine ⟨fun p hp => ?_, fun p hp => ?_, fun b hb hne => ?_⟩
            · obtain ⟨q1, q2, q3⟩ := h1 p hp; exact ⟨by simp [q1], by simp [q2], q3⟩
            · rcases List.mem_cons.mp hp with rfl | hp
              · exact ⟨by simp, st, hl, Or.inr hs⟩
              · obtain ⟨q1, st', q2, q3⟩ := h2 p hp
                exact ⟨by simp [q1], st', q2, q3⟩
            · rcases List.mem_cons.mp hb with rfl | hb
              · simp
              · rw [List.map_cons]; exact List.mem_cons_of_mem _ (h3 b hb hne)

/-- What a call of `learn_action_model` on a fresh learner does, in a domain with functions. -/
structure NumLearned (cfg : NumCfg K) (D : Domain) (policy : Policy) (obs : List (List (NumComponent K)))
    (N' : NumLearner K) (info : List (String × NumStatus)) (L' : Learner) (al : List (String × NumPart K)) : Prop where
  base : ∃ rep, (Learner.init D policy).learn (obs.map fun o => o.map NumComponent.comp) = .ok (L', rep)
  matched : ∀ a, ∀ c ∈ usableN obs.flatten a,
    liftedFluents cfg D c.comp.call c.prevN = .ok (fluentsOf cfg D c.comp.call c.prevN) ∧
    liftedFluents cfg D c.comp.call c.nextN = .ok (fluentsOf cfg D c.comp.call c.nextN)
  names : N'.base.dom.names = al.map Prod.fst
  part : ∀ a, N'.num a = (al.lookup a).getD ⟨[], []⟩
  allowed : ∀ p ∈ al, p.1 ∈ D.names ∧ (p.1, NumStatus.ok) ∈ info ∧ usableN obs.flatten p.1 ≠ [] ∧
    safeAction cfg p.1 (storeOf cfg D p.1 (usableN obs.flatten p.1)) = .ok p.2
  infoOf : ∀ p ∈ info, p.1 ∈ D.names ∧ usableN obs.flatten p.1 ≠ [] ∧
    ((∃ m, safeAction cfg p.1 (storeOf cfg D p.1 (usableN obs.flatten p.1)) = .ok m ∧ p.2 = .ok ∧ (p.1, m) ∈ al) ∨
      safeAction cfg p.1 (storeOf cfg D p.1 (usableN obs.flatten p.1)) = .error (.notSafe p.2))
  infoAll : ∀ a ∈ D.names, usableN obs.flatten a ≠ [] → a ∈ info.map Prod.fst
  pre : ∀ a ∈ al.map Prod.fst, (N'.base.dom.act a).pre = (L'.dom.act a).pre
  eff : ∀ a ∈ al.map Prod.fst, (N'.base.dom.act a).eff = (L'.dom.act a).eff
  ineq : ∀ a ∈ al.map Prod.fst, (N'.base.dom.act a).ineq = ∅
  sig : ∀ a ∈ al.map Prod.fst, (N'.base.dom.act a).sig = (D.act a).sig

theorem numLearn_spec {D : Domain} {policy : Policy} {obs : List (List (NumComponent K))} {N' : NumLearner K} {info : List (String × NumStatus)}
    (hD : D.names.Nodup) (hfns : cfg.fns ≠ []) (h : (NumLearner.init D policy).learn cfg obs = .ok (N', info)) :
    ∃ L' al, NumLearned cfg D policy obs N' info L' al := by
  unfold NumLearner.learn at h
  rw [if_neg hfns] at h
  dsimp only [NumLearner.init] at h
  obtain ⟨d1, d2, d3, d4, d5, d6, d7, d8⟩ := deduce_spec (L := Learner.init D policy) hD
  have hc : (Learner.init D policy).deduceIneq.completeMissing = (Learner.init D policy).deduceIneq :=
    complete_id (by rw [d7, d1.names]; exact init_sigs D policy true)
  rw [hc] at h
  simp only [Bind.bind, Except.bind] at h
  cases hp : (NumLearner.process cfg ⟨(Learner.init D policy).deduceIneq, [], fun _ => ⟨[], []⟩⟩ obs.flatten : Except NumErr (NumLearner K)) with
  | error e => rw [hp] at h; simp at h
  | ok N1 =>
    rw [hp] at h
    dsimp only at h
    have I0 : StoreInv cfg D [] (⟨(Learner.init D policy).deduceIneq, [], fun _ => ⟨[], []⟩⟩ : NumLearner K) := by
      refine ⟨d1, fun a => ?_, fun a => ?_, fun a c hc => ?_⟩
      · rw [d3]; simp [Learner.init, usableN]
      · simp [usableN]
      · simp [usableN] at hc
    obtain ⟨I, hb⟩ := StoreInv.process obs.flatten [] _ N1 I0 hp
    rw [List.nil_append] at I
    have hnames : N1.base.dom.names = D.names := I.static.names
    have hnd : N1.base.dom.names.Nodup := by rw [hnames]; exact hD
    have hl : ∃ rep, (Learner.init D policy).learn (obs.map fun o => o.map NumComponent.comp) =
        .ok (N1.base.handleUnobserved.applyPolicy, rep) := by
      refine ⟨N1.base.handleUnobserved.applyPolicy.report, ?_⟩
      unfold Learner.learn
      rw [hc]
      have : (obs.map fun o => o.map NumComponent.comp).flatten = obs.flatten.map NumComponent.comp := by
        rw [List.map_flatten]
      rw [this]
      simp only [Bind.bind, Except.bind]
      dsimp only at hb
      rw [hb]
    unfold NumLearner.createModel at h
    dsimp only at h
    obtain ⟨u1, u2, u3, u4, u5, u6, u7, u8⟩ := unobserved_spec hnd
    have hpn : N1.base.applyPolicy.dom.names = N1.base.dom.names := ((policy_spec hnd).1).names
    rw [hpn] at h
    cases hs : safeModel cfg N1.store N1.base.dom.names with
    | error e => rw [hs] at h; simp [Except.map] at h
    | ok r =>
      rw [hs] at h
      simp only [Except.map, Except.ok.injEq, Prod.mk.injEq] at h
      obtain ⟨rfl, rfl⟩ := h
      obtain ⟨s1, s2, s3⟩ := safeModel_spec (al := r.1) (info := r.2) hs
      have hstore : ∀ {a : String} {st : NStore K}, N1.store.lookup a = some st →
          usableN obs.flatten a ≠ [] ∧ st = storeOf cfg D a (usableN obs.flatten a) := by
        intro a st hst
        rw [I.store] at hst
        split_ifs at hst with hu
        exact ⟨hu, (Option.some.inj hst).symm⟩
      have hact : ∀ a ∈ r.1.map Prod.fst,
          (N1.base.applyPolicy.dom.act a).pre = (N1.base.handleUnobserved.applyPolicy.dom.act a).pre ∧
          (N1.base.applyPolicy.dom.act a).eff = (N1.base.handleUnobserved.applyPolicy.dom.act a).eff := by
        intro a ha
        obtain ⟨p, hp', rfl⟩ := List.mem_map.mp ha
        obtain ⟨q1, _, st, q2, _⟩ := s1 p hp'
        have hobs : p.1 ∈ N1.base.observed := (I.observed _).mpr (hstore q2).1
        have hund : N1.base.handleUnobserved.dom.names.Nodup := by rw [u1.names]; exact hnd
        obtain ⟨a1, a2, _⟩ := policy_spec hnd
        obtain ⟨b1, b2, _⟩ := policy_spec hund
        have e1 := u2 p.1
        have hne : ¬ (p.1 ∈ N1.base.dom.names ∧ p.1 ∉ N1.base.observed) := fun k => k.2 hobs
        rw [if_neg hne, Finset.union_empty] at e1
        have ep := (a2 p.1)
        have fp := (b2 p.1)
        refine ⟨?_, ?_⟩
        · ext l
          rw [ep.2.2, fp.2.2, e1.2.2, e1.1, u1.names, u5]
        · rw [ep.1, fp.1, e1.1]
      refine ⟨_, r.1, ⟨hl, I.matched, rfl, fun _ => rfl, ?_, ?_, ?_, ?_, ?_, ?_, ?_⟩⟩
      · intro p hp'
        obtain ⟨q1, q2, st, q3, q4⟩ := s1 p hp'
        obtain ⟨k1, k2⟩ := hstore q3
        exact ⟨by rw [← hnames]; exact q1, q2, k1, by rw [← k2]; exact q4⟩
      · intro p hp'
        obtain ⟨q1, st, q3, q4⟩ := s2 p hp'
        obtain ⟨k1, k2⟩ := hstore q3
        exact ⟨by rw [← hnames]; exact q1, k1, by rw [← k2]; exact q4⟩
      · intro a ha hu
        apply s3 a (by rw [hnames]; exact ha)
        rw [I.store, if_neg hu]
        simp
      · intro a ha
        dsimp only
        rw [if_pos ha]
        exact (hact a ha).1
      · intro a ha
        dsimp only
        rw [if_pos ha]
        exact (hact a ha).2
      · intro a ha
        dsimp only
        rw [if_pos ha]
      · intro a ha
        dsimp only
        rw [if_pos ha]
        exact (((policy_spec hnd).1).sig a).trans (I.static.sig a)

end
end Model

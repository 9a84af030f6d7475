import Verif.Lemmas.MaPre

/-! What MA-SAM returns, in closed form: preconditions, inequalities, and the actions that are certainly returned. No assumption on the data. -/
namespace Model
open Spec

/-- Steps that change neither the domain nor the list of unsafe actions, and keep: every clause with `a` has one literal. -/
def Lone (a : String) (L : MaLearner) : Prop := ∀ k, ∀ cl ∈ (L.cnf k).clauses, (∃ p ∈ cl, p.1 = a) → cl.length = 1

structure LoneStep (a : String) (L L' : MaLearner) : Prop where
  bad : L'.unsafeActs = L.unsafeActs
  lone : Lone a L → Lone a L'

section
variable {D : Domain} {a : String} {c : JointComponent} {L L' : MaLearner} {k : Call} {us : List Component} {all : List Call}

theorem LoneStep.refl (a L) : LoneStep a L L := ⟨rfl, id⟩
theorem LoneStep.trans {A B C : MaLearner} (h : LoneStep a A B) (h' : LoneStep a B C) : LoneStep a A C :=
  ⟨h'.bad.trans h.bad, fun s => h'.lone (h.lone s)⟩

theorem LoneStep.notEffect (L : MaLearner) (k : String × Bool) (b : String) (l : Lit) : LoneStep a L (L.updCnf k (·.addNotEffect b l)) := by
  refine ⟨rfl, fun h k' cl hc => ?_⟩
  rw [updCnf_cnf] at hc
  split at hc
  · rename_i ek; subst ek
    obtain ⟨d, hd, (⟨_, rfl⟩ | ⟨_, rfl, hne⟩)⟩ := mem_addNotEffect.mp hc
    · exact h k' cl hd
    · rintro ⟨p, hp, e⟩
      have h1 := h k' d hd ⟨p, List.mem_of_mem_erase hp, e⟩
      have h2 := (List.erase_sublist (a := (b, l)) (l := d)).length_le
      have h3 := List.length_pos_iff.mpr hne
      omega
  · exact h k' cl hc

theorem LoneStep.possible (L : MaLearner) (k : String × Bool) {j : List (String × Lit)} (hj : (∀ p ∈ j, p.1 ≠ a) ∨ j.length = 1) :
    LoneStep a L (L.updCnf k (·.addPossible j)) := by
  refine ⟨rfl, fun h k' cl hc => ?_⟩
  rw [updCnf_cnf] at hc
  split at hc
  · rename_i ek; subst ek
    rcases mem_addPossible.mp hc with hc | rfl
    · exact h k' cl hc
    · rintro ⟨p, hp, e⟩
      rcases hj with hj | hj
      · exact absurd e (hj p (List.mem_filter.mp hp).1)
      · have h2 := List.length_filter_le (fun p => decide (p.2 ∉ (L.cnf k').notEff p.1)) j
        have h3 := List.length_pos_of_mem hp
        omega
  · exact h k' cl hc

theorem addNotEffects_lone {call : Call} : ∀ (gs : List Lit) (L : MaLearner), LoneStep a L (L.addNotEffects call gs) := by
  intro gs
  induction gs with
  | nil => intro L; exact LoneStep.refl _ _
  | cons g gs ih =>
    intro L
    unfold MaLearner.addNotEffects at ih ⊢
    rw [List.foldl_cons]
    refine LoneStep.trans ?_ (ih _)
    cases L.matchOf call g with
    | none => exact LoneStep.refl _ _
    | some l => exact LoneStep.notEffect L _ _ _

theorem addMustBe_lone {call : Call} : ∀ (gs : List Lit) (L : MaLearner), LoneStep a L (L.addMustBe call gs) := by
  intro gs
  induction gs with
  | nil => intro L; exact LoneStep.refl _ _
  | cons g gs ih =>
    intro L
    unfold MaLearner.addMustBe at ih ⊢
    rw [List.foldl_cons]
    refine LoneStep.trans ?_ (ih _)
    cases L.matchOf call g with
    | none => exact LoneStep.refl _ _
    | some l => exact LoneStep.possible L _ (Or.inr rfl)

theorem relevantNotEffects_name (consts : Sig) : ∀ (lits : List Lit) (call : Call) (acc : List Lit),
    (lits.foldl (fun st g =>
      let r := computeInteracting consts g.neg [st.1]
      let call' := r.1.headD st.1
      if call' ∈ r.2 then (call', st.2 ++ [g.neg]) else (call', st.2)) (call, acc)).1.name = call.name
  | [], _, _ => rfl
  | g :: lits, call, acc => by
    rw [List.foldl_cons]
    dsimp only
    split
    · rw [relevantNotEffects_name consts lits]; rfl
    · rw [relevantNotEffects_name consts lits]; rfl

theorem notEffectsOfAll_lone (ord : Finset Lit → List Lit) : ∀ (cs : List Call) (L : MaLearner),
    LoneStep a L (L.notEffectsOfAll ord cs).1 ∧ (L.notEffectsOfAll ord cs).2.map Call.name = cs.map Call.name
  | [], L => ⟨LoneStep.refl _ _, rfl⟩
  | k :: cs, L => by
    unfold MaLearner.notEffectsOfAll
    dsimp only
    obtain ⟨i1, i2⟩ := notEffectsOfAll_lone ord cs (L.addNotEffects (relevantNotEffects L.base.dom.consts k (ord L.snap.2)).1
      (relevantNotEffects L.base.dom.consts k (ord L.snap.2)).2)
    refine ⟨(addNotEffects_lone _ _).trans i1, ?_⟩
    rw [List.map_cons, List.map_cons, i2]
    congr 1
    exact relevantNotEffects_name _ _ _ _

theorem handleConcurrent_lone {g : Lit} {calls : List Call} {r : MaLearner × List Call} (h : L.handleConcurrent g calls = .ok r)
    (hc : ∀ k ∈ calls, k.name ≠ a) : LoneStep a L r.1 ∧ r.2.map Call.name = calls.map Call.name := by
  have hn : (computeInteracting L.base.dom.consts g calls).1.map Call.name = calls.map Call.name := by
    unfold computeInteracting; simp [List.map_map, Function.comp_def]
  have hi : ∀ k ∈ (computeInteracting L.base.dom.consts g calls).2, k.name ≠ a := by
    intro k hk
    unfold computeInteracting at hk
    simp only [List.mem_filter, List.mem_map] at hk
    obtain ⟨⟨k', hk', rfl⟩, _⟩ := hk
    exact hc k' hk'
  unfold MaLearner.handleConcurrent at h
  dsimp only at h
  split at h
  · simp only [Except.ok.injEq] at h; subst h; exact ⟨addMustBe_lone _ _, hn⟩
  · simp only [Bind.bind, Except.bind] at h
    split at h
    · cases h
    · rename_i cl hcl
      simp only [Except.ok.injEq] at h; subst h
      refine ⟨LoneStep.possible L _ (Or.inl fun p hp => ?_), hn⟩
      obtain ⟨k, hk, e, _⟩ := jointClause_mem hcl p hp
      rw [e]; exact hi k hk

theorem concurrentAll_lone : ∀ (gs : List Lit) {calls : List Call} {L L' : MaLearner}, L.concurrentAll calls gs = .ok L' →
    (∀ k ∈ calls, k.name ≠ a) → LoneStep a L L'
  | [], _, _, _, h, _ => by simp only [MaLearner.concurrentAll, Except.ok.injEq] at h; subst h; exact LoneStep.refl _ _
  | g :: gs, calls, L, L', h, hc => by
    unfold MaLearner.concurrentAll at h
    simp only [Bind.bind, Except.bind] at h
    cases hr : L.handleConcurrent g calls with
    | error e => rw [hr] at h; cases h
    | ok r =>
      rw [hr] at h
      simp only at h
      obtain ⟨i1, i2⟩ := handleConcurrent_lone (a := a) hr hc
      refine i1.trans (concurrentAll_lone gs h ?_)
      intro k hk
      have : k.name ∈ r.2.map Call.name := List.mem_map_of_mem hk
      rw [i2] at this
      obtain ⟨k', hk', e⟩ := List.mem_map.mp this
      rw [← e]; exact hc k' hk'

theorem updatePreconds_lone : LoneStep a L ((L.takeSnapshot c k).updatePreconds k) := by
  unfold MaLearner.updatePreconds MaLearner.takeSnapshot
  split <;> exact ⟨rfl, id⟩

theorem updates_lone : ∀ (cs : List Call) (L : MaLearner), LoneStep a L (cs.foldl (fun L call => (L.takeSnapshot c call).updatePreconds call) L)
  | [], L => LoneStep.refl _ _
  | k :: cs, L => (updatePreconds_lone (c := c) (k := k)).trans (updates_lone cs _)

theorem verifyAll_lone : ∀ (cs : List Call) {L L' : MaLearner} {b : Bool}, L.verifyAll cs = .ok (L', b) → LoneStep a L L'
  | [], L, L', b, h => by
    simp only [MaLearner.verifyAll, Except.ok.injEq, Prod.mk.injEq] at h
    obtain ⟨rfl, _⟩ := h; exact LoneStep.refl _ _
  | k :: cs, L, L', b, h => by
    unfold MaLearner.verifyAll at h
    split at h
    · cases h
    · simp only [Bind.bind, Except.bind] at h
      split at h
      · cases h
      · rename_i r hr
        obtain ⟨L2, b2⟩ := r
        simp only [Except.ok.injEq, Prod.mk.injEq] at h
        obtain ⟨rfl, _⟩ := h
        have := verifyAll_lone cs (L := { L with base := (L.base.verifyDuplication k).1 }) hr
        exact ⟨this.bad, this.lone⟩

/-- A transition in which `a` acts alone, is not executed, or objects are repeated, adds no clause that could make `a` unsafe. -/
theorem component_lone {ord : Finset Lit → List Lit} (h : L.handleComponent ord c = .ok L')
    (hc : (∀ k ∈ c.calls, k.params.Nodup) → c.calls.length = 1 ∨ ∀ k ∈ c.calls, k.name ≠ a) : LoneStep a L L' := by
  unfold MaLearner.handleComponent at h
  simp only [Bind.bind, Except.bind] at h
  split at h
  · cases h
  · rename_i r hr
    obtain ⟨L1, b⟩ := r
    obtain ⟨_, v2, _⟩ := verifyAll_spec _ _ _ _ hr
    have h1 : LoneStep a L L1 := verifyAll_lone _ hr
    simp only at h
    cases b with
    | true => simp only [if_pos, Except.ok.injEq] at h; subst h; exact h1
    | false =>
      have hn := (v2 rfl).2
      simp only [Bool.false_eq_true, if_false] at h
      split at h
      · cases h
      · split at h
        · rename_i call hcalls
          simp only [Except.ok.injEq] at h
          subst h
          unfold MaLearner.updateSingle
          dsimp only
          exact h1.trans (updatePreconds_lone.trans ((addMustBe_lone _ _).trans (addNotEffects_lone _ _)))
        · rename_i hnot
          rcases hc hn with hc | hc
          · obtain ⟨k, hk⟩ := List.length_eq_one_iff.mp hc
            exact absurd hk (hnot k)
          · unfold MaLearner.updateMultiple at h
            dsimp only at h
            obtain ⟨n1, n2⟩ := notEffectsOfAll_lone (a := a) ord c.calls
              (c.calls.foldl (fun L call => (L.takeSnapshot c call).updatePreconds call) L1)
            refine h1.trans ((updates_lone c.calls L1).trans (n1.trans (concurrentAll_lone _ h ?_)))
            intro k hk
            have : k.name ∈ (MaLearner.notEffectsOfAll ord _ c.calls).2.map Call.name := List.mem_map_of_mem hk
            rw [n2] at this
            obtain ⟨k', hk', e⟩ := List.mem_map.mp this
            rw [← e]; exact hc k' hk'

theorem components_lone {ord : Finset Lit → List Lit} : ∀ (cs : List JointComponent) {L L' : MaLearner},
    cs.foldlM (fun L c => L.handleComponent ord c) L = .ok L' →
    (∀ c ∈ cs, (∀ k ∈ c.calls, k.params.Nodup) → c.calls.length = 1 ∨ ∀ k ∈ c.calls, k.name ≠ a) → LoneStep a L L'
  | [], L, L', h, _ => by
    simp only [List.foldlM_nil, pure, Except.pure, Except.ok.injEq] at h
    subst h; exact LoneStep.refl _ _
  | c :: cs, L, L', h, hc => by
    rw [List.foldlM_cons] at h
    simp only [Bind.bind, Except.bind] at h
    cases hr : L.handleComponent ord c with
    | error e => rw [hr] at h; cases h
    | ok L1 =>
      rw [hr] at h
      exact (component_lone hr (hc c (by simp))).trans (components_lone cs h fun c' hc' => hc c' (by simp [hc']))

theorem MaPre.init (hD : WFDomain D) :
    MaPre D [] [] ({ MaLearner.init D with cnf := fun _ => Cnf.empty, base := (MaLearner.init D).base.deduceIneq } : MaLearner).base := by
  obtain ⟨d1, d2, d3, _, d5, _⟩ := deduce_spec (L := Learner.init D .noRemove true) hD.names
  refine ⟨d1, fun b => ?_, fun b hb l => ?_, fun b hb q => ?_, d5⟩
  · rw [show (MaLearner.init D).base.deduceIneq.observed = [] from d3]; simp
  · rw [show ((MaLearner.init D).base.deduceIneq.dom.act b).pre = (D.act b).pre from (d2 b).1, (hD.empty b hb).1]; simp
  · rw [show ((MaLearner.init D).base.deduceIneq.dom.act b).ineq = _ from (d2 b).2.2]
    simp [Learner.init, (hD.empty b hb).2.2, hb, dupsOf]

theorem constructFold_ineq : ∀ (xs : List String) (L : MaLearner) (b : String),
    ((xs.foldl MaLearner.constructOne L).base.dom.act b).ineq = (L.base.dom.act b).ineq
  | [], _, _ => rfl
  | x :: xs, L, b => by
    rw [List.foldl_cons, constructFold_ineq xs]
    exact (constructOne_static L x).2.2.2.2.2.1 b

/-- What MA-SAM learned, from the usable calls and all calls of the data. -/
structure MaForm (D : Domain) (us : List Component) (calls : List Call) (L : MaLearner) : Prop where
  sig : ∀ b, (L.base.dom.act b).sig = (D.act b).sig
  names : ∀ b ∈ L.base.dom.names, b ∈ D.names
  pre : ∀ b ∈ D.names, ∀ l, l ∈ (L.base.dom.act b).pre ↔
    ((∃ u ∈ us, u.call.name = b) ∧ ∀ u ∈ us, u.call.name = b → l ∈ obsPrev D u) ∨
    ((∀ u ∈ us, u.call.name ≠ b) ∧ l ∈ liftedVocab D (D.act b).sig)
  ineq : ∀ b ∈ D.names, ∀ q, q ∈ (L.base.dom.act b).ineq ↔ q ∈ sameTypePairs (D.act b).sig ∧ ¬ dupsOf D b calls q

theorem ma_form {ord : Finset Lit → List Lit} {obs : List (List JointComponent)} {rep : List (String × Status)} (hD : WFDomain D)
    (h : (MaLearner.init D .noRemove).learn ord obs = .ok (L', rep)) :
    MaForm D (obs.flatten.flatMap usableCalls) (obs.flatten.flatMap JointComponent.calls) L' ∧
    (∀ b ∈ D.names, (∀ c ∈ obs.flatten, (∀ k ∈ c.calls, k.params.Nodup) → c.calls.length = 1 ∨ ∀ k ∈ c.calls, k.name ≠ b) → b ∈ L'.base.dom.names) := by
  unfold MaLearner.learn at h
  simp only [Bind.bind, Except.bind] at h
  split at h
  · simp at h
  · rename_i L1 hL1
    simp only [Except.ok.injEq, Prod.mk.injEq] at h
    have hp := (MaPre.init hD).components _ hL1
    simp only [List.nil_append] at hp
    have hl : ∀ b, (∀ c ∈ obs.flatten, (∀ k ∈ c.calls, k.params.Nodup) → c.calls.length = 1 ∨ ∀ k ∈ c.calls, k.name ≠ b) → LoneStep b _ L1 :=
      fun b hb => components_lone (a := b) _ hL1 hb
    obtain ⟨rfl, -⟩ := h
    have hn : L1.base.dom.names.Nodup := by rw [hp.static.names]; exact hD.names
    obtain ⟨u1, u2, u3, _, u5, _⟩ := unobserved_spec hn
    have hn2 : L1.base.handleUnobserved.dom.names.Nodup := by rw [u1.names]; exact hn
    obtain ⟨c1, c2, c3, c4, c5, c6, c7, _⟩ := constructFold L1.base.handleUnobserved.dom.names hn2
      { L1 with base := L1.base.handleUnobserved }
    have c8 := constructFold_ineq L1.base.handleUnobserved.dom.names { L1 with base := L1.base.handleUnobserved }
    simp only at c1 c2 c3 c4 c5 c6 c7 c8
    have hpol : L1.constructSafe.base.policy = .noRemove := by
      unfold MaLearner.constructSafe
      simp only
      rw [c4, u5, hp.policy]
    have happ : L1.constructSafe.base.applyPolicy = L1.constructSafe.base := by
      unfold Learner.applyPolicy; rw [hpol]; rfl
    rw [happ]
    unfold MaLearner.constructSafe
    simp only
    have hnames : L1.base.handleUnobserved.dom.names = D.names := by rw [u1.names, hp.static.names]
    generalize L1.base.handleUnobserved.dom.names.foldl MaLearner.constructOne { L1 with base := L1.base.handleUnobserved } = L2 at *
    refine ⟨⟨fun b => (c1.sig b).trans ((u1.sig b).trans (hp.static.sig b)), fun b hb => ?_, fun b hb l => ?_, fun b hb q => ?_⟩, fun b hb hc => ?_⟩
    · simp only [List.mem_filter] at hb
      rw [c1.names, hnames] at hb; exact hb.1
    · show l ∈ (L2.base.dom.act b).pre ↔ _
      rw [c5, (u2 b).2.2, Finset.mem_union, hp.pre b hb, hp.static.names, liftedVocab_static hp.static, hp.static.sig]
      by_cases ho : ∃ u ∈ obs.flatten.flatMap usableCalls, u.call.name = b
      · rw [if_neg (by rw [hp.observed]; exact fun hh => hh.2 ho)]
        constructor
        · rintro (hh | hh)
          · exact Or.inl hh
          · cases hh
        · rintro (hh | ⟨hh, _⟩)
          · exact Or.inl hh
          · obtain ⟨u, hu, e⟩ := ho; exact absurd e (hh u hu)
      · rw [if_pos ⟨hb, by rw [hp.observed]; exact ho⟩]
        constructor
        · rintro (hh | hh)
          · exact absurd hh.1 ho
          · exact Or.inr ⟨fun u hu e => ho ⟨u, hu, e⟩, hh⟩
        · rintro (hh | ⟨_, hh⟩)
          · exact absurd hh.1 ho
          · exact Or.inr hh
    · show q ∈ (L2.base.dom.act b).ineq ↔ _
      rw [c8, (u2 b).2.1, hp.ineq b hb]
    · have hlone := hl b hc
      simp only [List.mem_filter, Bool.not_eq_true', ← Bool.not_eq_true, List.contains_iff_mem]
      refine ⟨by rw [c1.names, hnames]; exact hb, ?_⟩
      rw [c7]
      rintro (hh | ⟨_, hh⟩)
      · rw [hlone.bad] at hh; cases hh
      · have : ({ L1 with base := L1.base.handleUnobserved } : MaLearner).isActionSafe b (L1.base.handleUnobserved.dom.act b).pre = true := by
          unfold MaLearner.isActionSafe
          rw [List.all_eq_true]
          intro pd _
          rw [List.all_eq_true]
          intro s _
          rw [Bool.or_eq_true]
          right
          rw [isActionSafe_iff]
          intro cl hcl hm hlen
          obtain ⟨p, hp', e⟩ := List.mem_map.mp hm
          exact absurd (hlone.lone (fun _ _ h => by cases h) _ cl hcl ⟨p, hp', e⟩) hlen
        rw [this] at hh; cases hh

end
end Model

import Verif.Lemmas.MaShape

/-! The preconditions MA-SAM learns, in closed form: every call of every joint transition without repeated objects counts like an observation of its own.
No assumption on the data. -/
namespace Model
open Spec

/-- All inequality pairs that a list of calls contradicts. -/
def dupsOf (D : Domain) (a : String) (cs : List Call) (q : String × String) : Prop :=
  ∃ k ∈ cs, k.name = a ∧ ¬ k.params.Nodup ∧ q ∈ duplicatePairs (D.act a).sig k.params

/-- The state of the learner apart from CNFs, after the usable calls `us` and all calls `all`. -/
structure MaPre (D : Domain) (us : List Component) (all : List Call) (B : Learner) : Prop where
  static : SameStatic D B.dom
  observed : ∀ a, a ∈ B.observed ↔ ∃ u ∈ us, u.call.name = a
  pre : ∀ a ∈ D.names, ∀ l, l ∈ (B.dom.act a).pre ↔ (∃ u ∈ us, u.call.name = a) ∧ ∀ u ∈ us, u.call.name = a → l ∈ obsPrev D u
  ineq : ∀ a ∈ D.names, ∀ q, q ∈ (B.dom.act a).ineq ↔ q ∈ sameTypePairs (D.act a).sig ∧ ¬ dupsOf D a all q
  policy : B.policy = .noRemove

section
variable {D : Domain} {c : JointComponent} {L L' : MaLearner} {k : Call} {us : List Component} {all : List Call}

theorem MaPre.update (h : MaPre D us all L.base) (hk : k.name ∈ D.names) :
    MaPre D (us ++ [single c k]) all ((L.takeSnapshot c k).updatePreconds k).base := by
  have hcall : (single c k).call = k := rfl
  by_cases ho : k.name ∈ L.base.observed
  · obtain ⟨e1, _⟩ := updatePreconds_upd (c := c) ho
    rw [obsPrev_static h.static] at e1
    rw [e1]
    obtain ⟨u0, hu0, hn0⟩ := (h.observed _).mp ho
    refine ⟨h.static.trans (sameStatic_setAct rfl), fun a => ?_, fun a ha l => ?_, fun a ha q => ?_, h.policy⟩
    · rw [h.observed]
      constructor
      · rintro ⟨u, hu, e⟩; exact ⟨u, by simp [hu], e⟩
      · rintro ⟨u, hu, e⟩
        rcases List.mem_append.mp hu with hu | hu
        · exact ⟨u, hu, e⟩
        · rw [List.mem_singleton] at hu; subst hu
          rw [hcall] at e; subst e; exact ⟨u0, hu0, hn0⟩
    · simp only [setAct_act]
      split
      · rename_i e; subst e
        rw [Finset.mem_filter, h.pre _ ha]
        constructor
        · rintro ⟨⟨k1, k2⟩, k3⟩
          refine ⟨⟨u0, by simp [hu0], hn0⟩, fun u hu e => ?_⟩
          rcases List.mem_append.mp hu with hu | hu
          · exact k2 u hu e
          · rw [List.mem_singleton] at hu; subst hu; exact k3
        · rintro ⟨_, k2⟩
          exact ⟨⟨⟨u0, hu0, hn0⟩, fun u hu e => k2 u (by simp [hu]) e⟩, k2 _ (by simp) rfl⟩
      · rename_i hne
        rw [h.pre _ ha]
        have : ∀ u ∈ us ++ [single c k], u.call.name = a → u ∈ us := fun u hu e => by
          rcases List.mem_append.mp hu with hu | hu
          · exact hu
          · rw [List.mem_singleton] at hu; subst hu; exact absurd e.symm hne
        constructor
        · rintro ⟨⟨u, hu, e⟩, k2⟩
          exact ⟨⟨u, by simp [hu], e⟩, fun u hu e => k2 u (this u hu e) e⟩
        · rintro ⟨⟨u, hu, e⟩, k2⟩
          exact ⟨⟨u, this u hu e, e⟩, fun u hu e => k2 u (by simp [hu]) e⟩
    · simp only [setAct_act]
      split
      · rename_i e; subst e; exact h.ineq _ ha q
      · exact h.ineq a ha q
  · obtain ⟨e1, _⟩ := updatePreconds_new (c := c) ho
    rw [obsPrev_static h.static] at e1
    rw [e1]
    have hno : ∀ u ∈ us, u.call.name ≠ k.name := fun u hu e => ho ((h.observed _).mpr ⟨u, hu, e⟩)
    refine ⟨h.static.trans (sameStatic_setAct rfl), fun a => ?_, fun a ha l => ?_, fun a ha q => ?_, h.policy⟩
    · rw [List.mem_append, h.observed, List.mem_singleton]
      constructor
      · rintro (⟨u, hu, e⟩ | rfl)
        · exact ⟨u, by simp [hu], e⟩
        · exact ⟨single c k, by simp, rfl⟩
      · rintro ⟨u, hu, e⟩
        rcases List.mem_append.mp hu with hu | hu
        · exact Or.inl ⟨u, hu, e⟩
        · rw [List.mem_singleton] at hu; subst hu; exact Or.inr e.symm
    · simp only [setAct_act]
      split
      · rename_i e; subst e
        rw [Finset.mem_union, h.pre _ ha]
        constructor
        · rintro (⟨⟨u, hu, e⟩, _⟩ | k3)
          · exact absurd e (hno u hu)
          · refine ⟨⟨single c k, by simp, rfl⟩, fun u hu e => ?_⟩
            rcases List.mem_append.mp hu with hu | hu
            · exact absurd e (hno u hu)
            · rw [List.mem_singleton] at hu; subst hu; exact k3
        · rintro ⟨_, k2⟩
          exact Or.inr (k2 _ (by simp) rfl)
      · rename_i hne
        rw [h.pre _ ha]
        have : ∀ u ∈ us ++ [single c k], u.call.name = a → u ∈ us := fun u hu e => by
          rcases List.mem_append.mp hu with hu | hu
          · exact hu
          · rw [List.mem_singleton] at hu; subst hu; exact absurd e.symm hne
        constructor
        · rintro ⟨⟨u, hu, e⟩, k2⟩
          exact ⟨⟨u, by simp [hu], e⟩, fun u hu e => k2 u (this u hu e) e⟩
        · rintro ⟨⟨u, hu, e⟩, k2⟩
          exact ⟨⟨u, this u hu e, e⟩, fun u hu e => k2 u (by simp [hu]) e⟩
    · simp only [setAct_act]
      split
      · rename_i e; subst e; exact h.ineq _ ha q
      · exact h.ineq a ha q

theorem MaPre.updates : ∀ (cs : List Call) {L : MaLearner} {us : List Component}, MaPre D us all L.base → (∀ k ∈ cs, k.name ∈ D.names) →
    MaPre D (us ++ cs.map (single c)) all (cs.foldl (fun L call => (L.takeSnapshot c call).updatePreconds call) L).base
  | [], _, _, h, _ => by simpa using h
  | k :: cs, L, us, h, hk => by
    have := MaPre.updates cs (h.update (c := c) (hk k (by simp))) (fun k' hk' => hk k' (by simp [hk']))
    simpa using this

theorem addNotEffects_base (D : Domain) (L : MaLearner) (call : Call) (gs : List Lit) : (L.addNotEffects call gs).base = L.base :=
  (addNotEffects_shape (D := D) gs L).base

theorem addMustBe_base (call : Call) : ∀ (gs : List Lit) (L : MaLearner), (L.addMustBe call gs).base = L.base := by
  intro gs
  induction gs with
  | nil => intro L; rfl
  | cons g gs ih =>
    intro L
    unfold MaLearner.addMustBe at ih ⊢
    rw [List.foldl_cons, ih]
    cases L.matchOf call g <;> rfl

theorem handleConcurrent_base {g : Lit} {calls : List Call} {r : MaLearner × List Call} (h : L.handleConcurrent g calls = .ok r) : r.1.base = L.base := by
  unfold MaLearner.handleConcurrent at h
  dsimp only at h
  split at h
  · simp only [Except.ok.injEq] at h; subst h; exact addMustBe_base _ _ _
  · simp only [Bind.bind, Except.bind] at h
    split at h
    · cases h
    · simp only [Except.ok.injEq] at h; subst h; rfl

theorem concurrentAll_base : ∀ (gs : List Lit) {calls : List Call} {L L' : MaLearner}, L.concurrentAll calls gs = .ok L' → L'.base = L.base
  | [], _, _, _, h => by simp only [MaLearner.concurrentAll, Except.ok.injEq] at h; subst h; rfl
  | g :: gs, calls, L, L', h => by
    unfold MaLearner.concurrentAll at h
    simp only [Bind.bind, Except.bind] at h
    cases hr : L.handleConcurrent g calls with
    | error e => rw [hr] at h; cases h
    | ok r =>
      rw [hr] at h
      simp only at h
      rw [concurrentAll_base gs h, handleConcurrent_base hr]

theorem MaPre.verify (h : MaPre D us all L.base) (call : Call) (hk : ¬ call.params.Nodup → call.name ∈ D.names) :
    MaPre D us (all ++ [call]) (L.base.verifyDuplication call).1 := by
  unfold Learner.verifyDuplication
  split
  · rename_i hd
    have hnd : ¬ call.params.Nodup := fun hn => by rw [containsDuplicates_false.mpr hn] at hd; cases hd
    refine ⟨h.static.trans (sameStatic_setAct rfl), h.observed, fun a ha l => ?_, fun a ha q => ?_, h.policy⟩
    · simp only [setAct_act]
      split
      · rename_i e; subst e; exact h.pre _ ha l
      · exact h.pre a ha l
    · simp only [setAct_act]
      split
      · rename_i e; subst e
        simp only [Finset.mem_sdiff, List.mem_toFinset, h.ineq _ ha, h.static.sig]
        constructor
        · rintro ⟨⟨k1, k2⟩, k3⟩
          refine ⟨k1, ?_⟩
          rintro ⟨k, hk, e, hn, hq⟩
          rcases List.mem_append.mp hk with hk | hk
          · exact k2 ⟨k, hk, e, hn, hq⟩
          · rw [List.mem_singleton] at hk; subst hk; exact k3 hq
        · rintro ⟨k1, k2⟩
          exact ⟨⟨k1, fun ⟨k, hk, r⟩ => k2 ⟨k, by simp [hk], r⟩⟩, fun hq => k2 ⟨call, by simp, rfl, hnd, hq⟩⟩
      · rename_i hne
        rw [h.ineq a ha]
        constructor
        · rintro ⟨k1, k2⟩
          refine ⟨k1, ?_⟩
          rintro ⟨k, hk, e, r⟩
          rcases List.mem_append.mp hk with hk | hk
          · exact k2 ⟨k, hk, e, r⟩
          · rw [List.mem_singleton] at hk; subst hk; exact hne e.symm
        · rintro ⟨k1, k2⟩
          exact ⟨k1, fun ⟨k, hk, r⟩ => k2 ⟨k, by simp [hk], r⟩⟩
  · rename_i hd
    have hnd : call.params.Nodup := containsDuplicates_false.mp (by simpa using hd)
    refine ⟨h.static, h.observed, h.pre, fun a ha q => ?_, h.policy⟩
    rw [h.ineq a ha]
    constructor
    · rintro ⟨k1, k2⟩
      refine ⟨k1, ?_⟩
      rintro ⟨k, hk, e, hn, r⟩
      rcases List.mem_append.mp hk with hk | hk
      · exact k2 ⟨k, hk, e, hn, r⟩
      · rw [List.mem_singleton] at hk; subst hk; exact hn hnd
    · rintro ⟨k1, k2⟩
      exact ⟨k1, fun ⟨k, hk, r⟩ => k2 ⟨k, by simp [hk], r⟩⟩

theorem MaPre.verifyAll : ∀ (cs : List Call) {all : List Call} {L L' : MaLearner} {b : Bool}, MaPre D us all L.base → L.verifyAll cs = .ok (L', b) →
    MaPre D us (all ++ cs) L'.base
  | [], all, L, L', b, h, hv => by
    simp only [MaLearner.verifyAll, Except.ok.injEq, Prod.mk.injEq] at hv
    obtain ⟨rfl, _⟩ := hv
    simpa using h
  | k :: cs, all, L, L', b, h, hv => by
    unfold MaLearner.verifyAll at hv
    split at hv
    · cases hv
    · rename_i hk
      simp only [Bind.bind, Except.bind] at hv
      split at hv
      · cases hv
      · rename_i r hr
        obtain ⟨L2, b2⟩ := r
        simp only [Except.ok.injEq, Prod.mk.injEq] at hv
        obtain ⟨rfl, _⟩ := hv
        have h1 := h.verify k (fun hn => by
          by_contra hk'
          refine hk ⟨by rw [h.static.names]; exact hk', ?_⟩
          cases hd : containsDuplicates k.params with
          | true => rfl
          | false => exact absurd (containsDuplicates_false.mp hd) hn)
        have := MaPre.verifyAll cs (L := { L with base := (L.base.verifyDuplication k).1 }) h1 hr
        simpa using this

/-- The calls that count, of a joint transition. -/
def usableCalls (c : JointComponent) : List Component := if c.calls.all (fun k => !containsDuplicates k.params) then c.calls.map (single c) else []

theorem mem_usableCalls {u : Component} : u ∈ usableCalls c ↔ (∀ k ∈ c.calls, k.params.Nodup) ∧ ∃ k ∈ c.calls, u = single c k := by
  unfold usableCalls
  split
  · rename_i h
    simp only [List.all_eq_true, Bool.not_eq_true', containsDuplicates_false] at h
    rw [List.mem_map]
    exact ⟨fun ⟨k, hk, e⟩ => ⟨h, k, hk, e.symm⟩, fun ⟨_, k, hk, e⟩ => ⟨k, hk, e.symm⟩⟩
  · rename_i h
    constructor
    · intro hu; cases hu
    · rintro ⟨h', _⟩
      refine absurd ?_ h
      simp only [List.all_eq_true, Bool.not_eq_true', containsDuplicates_false]
      exact h'

theorem MaPre.component {ord : Finset Lit → List Lit} (h : MaPre D us all L.base) (hc : L.handleComponent ord c = .ok L') :
    MaPre D (us ++ usableCalls c) (all ++ c.calls) L'.base := by
  unfold MaLearner.handleComponent at hc
  simp only [Bind.bind, Except.bind] at hc
  split at hc
  · cases hc
  · rename_i r hr
    obtain ⟨L1, b⟩ := r
    obtain ⟨v1, v2, v3⟩ := verifyAll_spec _ _ _ _ hr
    have h1 := h.verifyAll _ hr
    simp only at hc
    cases b with
    | true =>
      simp only [if_pos, Except.ok.injEq] at hc
      subst hc
      obtain ⟨k, hk, hn⟩ := v3 rfl
      have : usableCalls c = [] := by
        unfold usableCalls
        rw [if_neg]
        simp only [List.all_eq_true, Bool.not_eq_true', containsDuplicates_false]
        exact fun hh => hn (hh k hk)
      rw [this]; simpa using h1
    | false =>
      obtain ⟨rfl, hn⟩ := v2 rfl
      have hu : usableCalls c = c.calls.map (single c) := by
        unfold usableCalls
        rw [if_pos]
        simp only [List.all_eq_true, Bool.not_eq_true', containsDuplicates_false]
        exact hn
      rw [hu]
      simp only [Bool.false_eq_true, if_false] at hc
      split at hc
      · cases hc
      · rename_i hnames
        have hnm : ∀ k ∈ c.calls, k.name ∈ D.names := by
          intro k hk
          by_contra hk'
          exact hnames ⟨k, hk, by rw [h.static.names]; exact hk'⟩
        split at hc
        · rename_i call hcalls
          simp only [Except.ok.injEq] at hc
          subst hc
          have := h1.update (c := c) (hnm call (by rw [hcalls]; simp))
          unfold MaLearner.updateSingle
          dsimp only
          rw [addNotEffects_base D, addMustBe_base, hcalls]
          rw [hcalls] at this
          exact this
        · unfold MaLearner.updateMultiple at hc
          dsimp only at hc
          rw [concurrentAll_base _ hc, (notEffectsOfAll_shape (D := D) ord c.calls _).base]
          exact h1.updates c.calls hnm

theorem MaPre.components {ord : Finset Lit → List Lit} : ∀ (cs : List JointComponent) {us : List Component} {all : List Call} {L L' : MaLearner},
    MaPre D us all L.base → cs.foldlM (fun L c => L.handleComponent ord c) L = .ok L' →
    MaPre D (us ++ cs.flatMap usableCalls) (all ++ cs.flatMap JointComponent.calls) L'.base
  | [], us, all, L, L', h, hc => by
    simp only [List.foldlM_nil, pure, Except.pure, Except.ok.injEq] at hc
    subst hc; simpa using h
  | c :: cs, us, all, L, L', h, hc => by
    rw [List.foldlM_cons] at hc
    simp only [Bind.bind, Except.bind] at hc
    cases hr : L.handleComponent ord c with
    | error e => rw [hr] at hc; cases hc
    | ok L1 =>
      rw [hr] at hc
      have := MaPre.components cs (h.component hr) hc
      simpa using this

end
end Model

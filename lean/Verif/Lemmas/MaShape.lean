import Verif.Lemmas.MaSamLearn

/-! The form of the clauses and of the preconditions MA-SAM stores. -/
namespace Model
open Spec

/-- The literals of a clause belong to its CNF, are over parameters of their actions, and have one length. -/
structure ClauseShape (D : Domain) (k : String × Bool) (c : List (String × Lit)) : Prop where
  names : ∀ p ∈ c, p.1 ∈ D.names
  key : ∀ p ∈ c, keyOf p.2 = k
  args : ∀ p ∈ c, ∀ x ∈ p.2.args, x ∈ Sig.names (D.act p.1).sig
  nodup : ∀ p ∈ c, p.2.args.Nodup
  len : ∀ p ∈ c, ∀ q ∈ c, p.2.args.length = q.2.args.length

theorem ClauseShape.sub {D : Domain} {k : String × Bool} {c d : List (String × Lit)} (h : ClauseShape D k c) (hs : ∀ p ∈ d, p ∈ c) :
    ClauseShape D k d :=
  ⟨fun p hp => h.names p (hs p hp), fun p hp => h.key p (hs p hp), fun p hp => h.args p (hs p hp), fun p hp => h.nodup p (hs p hp),
    fun p hp q hq => h.len p (hs p hp) q (hs q hq)⟩

/-- All clauses have the form. -/
def Shape (D : Domain) (L : MaLearner) : Prop := ∀ k, ∀ c ∈ (L.cnf k).clauses, ClauseShape D k c

/-- Preconditions are typed literals over the signature. -/
def PreShape (D : Domain) (L : MaLearner) : Prop :=
  ∀ a ∈ D.names, ∀ l ∈ (L.base.dom.act a).pre, TypedLit D.preds ((D.act a).sig ++ D.consts) l

/-- Steps that only change CNFs and keep the form. -/
structure ShapeStep (D : Domain) (L L' : MaLearner) : Prop where
  base : L'.base = L.base
  snap : L'.snap = L.snap
  shape : Shape D L → Shape D L'

theorem ShapeStep.refl (D L) : ShapeStep D L L := ⟨rfl, rfl, fun h => h⟩
theorem ShapeStep.trans {D} {A B C : MaLearner} (h : ShapeStep D A B) (k : ShapeStep D B C) : ShapeStep D A C :=
  ⟨k.base.trans h.base, k.snap.trans h.snap, fun s => k.shape (h.shape s)⟩

section
variable {D : Domain} {truth : String → Schema} {c : JointComponent} {L L' : MaLearner} {k : Call} {g e : Lit}

theorem ShapeStep.notEffect (L : MaLearner) (k : String × Bool) (a : String) (l : Lit) :
    ShapeStep D L (L.updCnf k (·.addNotEffect a l)) := by
  refine ⟨rfl, rfl, fun h k' c hc => ?_⟩
  rw [updCnf_cnf] at hc
  split at hc
  · rename_i ek; subst ek
    obtain ⟨d, hd, (⟨_, rfl⟩ | ⟨_, rfl, _⟩)⟩ := mem_addNotEffect.mp hc
    · exact h k' c hd
    · exact (h k' d hd).sub fun p hp => List.mem_of_mem_erase hp
  · exact h k' c hc

theorem ShapeStep.possible (L : MaLearner) (k : String × Bool) {j : List (String × Lit)} (hj : ClauseShape D k j) :
    ShapeStep D L (L.updCnf k (·.addPossible j)) := by
  refine ⟨rfl, rfl, fun h k' c hc => ?_⟩
  rw [updCnf_cnf] at hc
  split at hc
  · rename_i ek; subst ek
    rcases mem_addPossible.mp hc with hc | rfl
    · exact h k' c hc
    · exact hj.sub fun p hp => (List.mem_filter.mp hp).1
  · exact h k' c hc

theorem addNotEffects_shape {call : Call} : ∀ (gs : List Lit) (L : MaLearner), ShapeStep D L (L.addNotEffects call gs) := by
  intro gs
  induction gs with
  | nil => intro L; exact ShapeStep.refl _ _
  | cons g gs ih =>
    intro L
    unfold MaLearner.addNotEffects
    rw [List.foldl_cons]
    have h1 : ShapeStep D L (match L.matchOf call g with
        | none => L
        | some l => L.updCnf (keyOf g) (·.addNotEffect call.name l)) := by
      cases hm : L.matchOf call g with
      | none => exact ShapeStep.refl _ _
      | some l => exact ShapeStep.notEffect L _ _ _
    exact h1.trans (ih _)

/-- What a match of a ground literal looks like. -/
theorem JCtx.matchShape (h : JCtx D truth c) (hs : SameStatic D L.base.dom) (hk : k ∈ c.calls) (hnd : g.args.Nodup) {l : Lit}
    (hm : L.matchOf k g = some l) : keyOf l = keyOf g ∧ (∀ x ∈ l.args, x ∈ Sig.names (D.act k.name).sig) ∧ l.args.Nodup ∧
      l.args.length = g.args.length := by
  obtain ⟨h1, h2⟩ := matchOf_sound h.consts hs (h.wfD.sigs _ (h.names k hk)) (h.goodCall hk).len hnd hm
  refine ⟨by rw [← h1]; rfl, h2, ?_, by rw [← h1]; simp [ground]⟩
  rw [← h1] at hnd
  exact List.Nodup.of_map _ hnd

theorem JCtx.addMustBe_shape (h : JCtx D truth c) (hk : k ∈ c.calls) : ∀ (gs : List Lit) (L : MaLearner), SameStatic D L.base.dom →
    (∀ g ∈ gs, g.args.Nodup) → ShapeStep D L (L.addMustBe k gs) := by
  intro gs
  induction gs with
  | nil => intro L _ _; exact ShapeStep.refl _ _
  | cons g gs ih =>
    intro L hs hg
    unfold MaLearner.addMustBe
    rw [List.foldl_cons]
    have h1 : ShapeStep D L (match L.matchOf k g with
        | none => L
        | some l => L.updCnf (keyOf g) (·.addPossible [(k.name, l)])) := by
      cases hm : L.matchOf k g with
      | none => exact ShapeStep.refl _ _
      | some l =>
        obtain ⟨m1, m2, m3, _⟩ := h.matchShape hs hk (hg g (by simp)) hm
        refine ShapeStep.possible L _ ⟨?_, ?_, ?_, ?_, ?_⟩
        · intro p hp; rw [List.mem_singleton.mp hp]; exact h.names k hk
        · intro p hp; rw [List.mem_singleton.mp hp]; exact m1
        · intro p hp; rw [List.mem_singleton.mp hp]; exact m2
        · intro p hp; rw [List.mem_singleton.mp hp]; exact m3
        · intro p hp q hq; rw [List.mem_singleton.mp hp, List.mem_singleton.mp hq]
    exact h1.trans (ih _ (by rw [h1.base]; exact hs) fun g' hg' => hg g' (by simp [hg']))

theorem jointClause_mem {cs : List Call} {cl : List (String × Lit)} (h : L.jointClause cs g = .ok cl) :
    ∀ p ∈ cl, ∃ k ∈ cs, p.1 = k.name ∧ L.matchOf k g = some p.2 := by
  unfold MaLearner.jointClause at h
  induction cs generalizing cl with
  | nil =>
    simp only [List.mapM_nil, Pure.pure, Except.pure, Except.ok.injEq] at h
    subst h; simp
  | cons k cs ih =>
    rw [List.mapM_cons] at h
    cases hm : L.matchOf k g with
    | none => simp [hm, Bind.bind, Except.bind] at h
    | some l =>
      simp only [hm, Bind.bind, Except.bind] at h
      split at h
      · simp at h
      · rename_i rest hr
        simp only [Pure.pure, Except.pure, Except.ok.injEq] at h
        subst h
        intro p hp
        rcases List.mem_cons.mp hp with rfl | hp
        · exact ⟨k, by simp, rfl, hm⟩
        · obtain ⟨k', h1, h2⟩ := ih hr p hp
          exact ⟨k', by simp [h1], h2⟩

theorem JCtx.concurrent_shape (h : JCtx D truth c) (hs : SameStatic D L.base.dom) (hnd : g.args.Nodup) {calls : List Call}
    {r : MaLearner × List Call} (hc : ∀ k ∈ calls, k ∈ c.calls) (hr : L.handleConcurrent g calls = .ok r) :
    ShapeStep D L r.1 ∧ r.2 = calls := by
  unfold MaLearner.handleConcurrent at hr
  simp only [hs.consts, h.consts, computeInteracting_nil] at hr
  have hcs : ∀ k ∈ calls.filter (fun c => g.args.all fun o => c.params.contains o), k ∈ c.calls :=
    fun k hk => hc k (List.mem_filter.mp hk).1
  revert hr hcs
  generalize calls.filter (fun c => g.args.all fun o => c.params.contains o) = cs
  intro hr hcs
  split at hr
  · rename_i k0 
    simp only [Except.ok.injEq] at hr
    subst hr
    exact ⟨h.addMustBe_shape (hcs k0 (by simp)) [g] L hs (by simpa using hnd), rfl⟩
  · simp only [Bind.bind, Except.bind] at hr
    split at hr
    · simp at hr
    · rename_i cl hcl
      simp only [Except.ok.injEq] at hr
      subst hr
      have hm := jointClause_mem hcl
      have hsh : ∀ p ∈ cl, p.1 ∈ D.names ∧ keyOf p.2 = keyOf g ∧ (∀ x ∈ p.2.args, x ∈ Sig.names (D.act p.1).sig) ∧ p.2.args.Nodup ∧
          p.2.args.length = g.args.length := by
        intro p hp
        obtain ⟨k', hk', e1, e2⟩ := hm p hp
        obtain ⟨m1, m2, m3, m4⟩ := h.matchShape hs (hcs k' hk') hnd e2
        rw [e1]
        exact ⟨h.names _ (hcs k' hk'), m1, m2, m3, m4⟩
      exact ⟨ShapeStep.possible L _ ⟨fun p hp => (hsh p hp).1, fun p hp => (hsh p hp).2.1, fun p hp => (hsh p hp).2.2.1,
        fun p hp => (hsh p hp).2.2.2.1, fun p hp q hq => (hsh p hp).2.2.2.2.trans (hsh q hq).2.2.2.2.symm⟩, rfl⟩

theorem JCtx.concurrentAll_shape (h : JCtx D truth c) : ∀ (gs : List Lit) (L L' : MaLearner), SameStatic D L.base.dom →
    (∀ g ∈ gs, g.args.Nodup) → L.concurrentAll c.calls gs = .ok L' → ShapeStep D L L' := by
  intro gs
  induction gs with
  | nil =>
    intro L L' _ _ hr
    simp only [MaLearner.concurrentAll, Except.ok.injEq] at hr
    subst hr; exact ShapeStep.refl _ _
  | cons g gs ih =>
    intro L L' hs hg hr
    unfold MaLearner.concurrentAll at hr
    simp only [Bind.bind, Except.bind] at hr
    split at hr
    · simp at hr
    · rename_i r hr1
      obtain ⟨s1, e1⟩ := h.concurrent_shape hs (hg g (by simp)) (fun _ hk => hk) hr1
      rw [e1] at hr
      exact s1.trans (ih _ _ (by rw [s1.base]; exact hs) (fun g' hg' => hg g' (by simp [hg'])) hr)

theorem JCtx.concurrentAll_shape_nil (h0 : D.consts = []) : ∀ (gs : List Lit) (L L' : MaLearner), SameStatic D L.base.dom →
    L.concurrentAll [] gs = .ok L' → ShapeStep D L L' := by
  intro gs
  induction gs with
  | nil =>
    intro L L' _ hr
    simp only [MaLearner.concurrentAll, Except.ok.injEq] at hr
    subst hr; exact ShapeStep.refl _ _
  | cons g gs ih =>
    intro L L' hs hr
    have e1 := handleConcurrent_ok (g := g) (L := L) (by rw [hs.consts, h0]) (calls := []) (by simp)
    unfold MaLearner.concurrentAll at hr
    rw [e1] at hr
    simp only [Bind.bind, Except.bind, List.filter_nil, List.map_nil] at hr
    have s1 : ShapeStep D L (L.updCnf (keyOf g) (·.addPossible [])) :=
      ShapeStep.possible L _ ⟨by simp, by simp, by simp, by simp, by simp⟩
    exact s1.trans (ih _ _ hs hr)

theorem notEffectsOfAll_shape (ord : Finset Lit → List Lit) : ∀ (cs : List Call) (L : MaLearner),
    ShapeStep D L (L.notEffectsOfAll ord cs).1 := by
  intro cs
  induction cs with
  | nil => intro L; exact ShapeStep.refl _ _
  | cons k cs ih =>
    intro L
    unfold MaLearner.notEffectsOfAll
    exact (addNotEffects_shape _ _).trans (ih _)

/-- The preconditions after one snapshot. -/
theorem JCtx.preStep (h : JCtx D truth c) (hk : k ∈ c.calls) (hs : SameStatic D L.base.dom) (hp : PreShape D L) (hsh : Shape D L) :
    PreShape D ((L.takeSnapshot c k).updatePreconds k) ∧ Shape D ((L.takeSnapshot c k).updatePreconds k) ∧
    SameStatic D ((L.takeSnapshot c k).updatePreconds k).base.dom ∧
    ((L.takeSnapshot c k).updatePreconds k).snap = tripletSnapshot D (Model.single c k) := by
  by_cases ho : k.name ∈ L.base.observed
  · obtain ⟨e1, e2, e3, _⟩ := updatePreconds_upd (c := c) ho
    refine ⟨?_, ?_, ?_, by rw [e2, tripletSnapshot_static hs]⟩
    · intro a ha l hl
      rw [e1] at hl
      simp only [setAct_act] at hl
      split at hl
      · rename_i ea; subst ea; exact hp _ ha l (Finset.mem_filter.mp hl).1
      · exact hp a ha l hl
    · intro k'; rw [e3]; exact hsh k'
    · rw [e1]; exact hs.trans (sameStatic_setAct rfl)
  · obtain ⟨e1, e2, e3, _⟩ := updatePreconds_new (c := c) ho
    rw [obsPrev_static hs] at e1
    refine ⟨?_, ?_, ?_, by rw [e2, tripletSnapshot_static hs]⟩
    · intro a ha l hl
      rw [e1] at hl
      simp only [setAct_act] at hl
      split at hl
      · rename_i ea; subst ea
        rcases Finset.mem_union.mp hl with hl | hl
        · exact hp _ ha l hl
        · rw [obsPrev_iff (c := Model.single c k) (h.wfD.sigs _ (h.names k hk)) (h.goodCall hk)] at hl
          exact hl.1
      · exact hp a ha l hl
    · intro k'; rw [e3]; exact hsh k'
    · rw [e1]; exact hs.trans (sameStatic_setAct rfl)

theorem JCtx.preSteps (h : JCtx D truth c) : ∀ (cs : List Call) (L : MaLearner), (∀ k ∈ cs, k ∈ c.calls) → SameStatic D L.base.dom →
    PreShape D L → Shape D L →
    let L' := cs.foldl (fun L call => (L.takeSnapshot c call).updatePreconds call) L
    PreShape D L' ∧ Shape D L' ∧ SameStatic D L'.base.dom ∧
      ∀ last, cs.getLast? = some last → L'.snap = tripletSnapshot D (Model.single c last) := by
  intro cs
  induction cs with
  | nil => intro L _ hs hp hsh; exact ⟨hp, hsh, hs, by simp⟩
  | cons k cs ih =>
    intro L hk hs hp hsh
    obtain ⟨p1, p2, p3, p4⟩ := h.preStep (hk k (by simp)) hs hp hsh
    obtain ⟨q1, q2, q3, q4⟩ := ih _ (fun k' hk' => hk k' (by simp [hk'])) p3 p1 p2
    dsimp only
    rw [List.foldl_cons]
    refine ⟨q1, q2, q3, fun last hl => ?_⟩
    cases cs with
    | nil =>
      simp only [List.getLast?_singleton, Option.some.injEq] at hl
      subst hl; exact p4
    | cons k' cs' => exact q4 last (by simpa using hl)

theorem PreShape.step (hp : PreShape D L) (s : ShapeStep D L L') : PreShape D L' := by
  intro a ha l hl
  rw [s.base] at hl
  exact hp a ha l hl

/-- One component keeps the form. -/
theorem component_shape {ord : Finset Lit → List Lit} (ho : GoodOrd ord) (hc : D.consts = [])
    (hD : WFDomain D) (hT : WFTruth D truth) (hs : SameStatic D L.base.dom) (hp : PreShape D L) (hsh : Shape D L)
    (h1 : JointComponent.NoDup c → JointExplained truth c) (h : L.handleComponent ord c = .ok L') :
    PreShape D L' ∧ Shape D L' ∧ SameStatic D L'.base.dom := by
  unfold MaLearner.handleComponent at h
  simp only [Bind.bind, Except.bind] at h
  split at h
  · simp at h
  · rename_i r hr
    obtain ⟨L1, b⟩ := r
    obtain ⟨v1, v2, v3⟩ := verifyAll_spec _ _ _ _ hr
    simp only at h
    cases b with
    | true =>
      simp only [if_pos, Except.ok.injEq] at h
      subst h
      refine ⟨?_, ?_, hs.trans v1.static⟩
      · intro a ha l hl; rw [v1.pre] at hl; exact hp a ha l hl
      · intro k; rw [v1.cnf]; exact hsh k
    | false =>
      obtain ⟨rfl, hn⟩ := v2 rfl
      simp only [Bool.false_eq_true, if_false] at h
      split at h
      · simp at h
      · rename_i hnames
        have hnm : ∀ k ∈ c.calls, k.name ∈ D.names := by
          intro k hk
          by_contra hk'
          exact hnames ⟨k, hk, by rw [hs.names]; exact hk'⟩
        have hj : JCtx D truth c := ⟨hc, hD, hT, hnm, h1 hn, hn⟩
        split at h
        · rename_i call hcalls
          have hk : call ∈ c.calls := by rw [hcalls]; simp
          simp only [Except.ok.injEq] at h
          subst h
          obtain ⟨p1, p2, p3, p4⟩ := hj.preStep hk hs hp hsh
          unfold MaLearner.updateSingle
          dsimp only
          revert p1 p2 p3 p4
          generalize (L1.takeSnapshot c call).updatePreconds call = L2
          intro p1 p2 p3 p4
          have s1 := hj.addMustBe_shape hk (ord ((extractEffects L2.snap.1 L2.snap.2).1 ∪ (extractEffects L2.snap.1 L2.snap.2).2)) _ p3
            (fun g hg => (changed_of_mem (D := D) (c := c) (last := call) ho (by rw [p4] at hg; exact hg)).1)
          revert s1
          generalize L2.addMustBe call (ord ((extractEffects L2.snap.1 L2.snap.2).1 ∪ (extractEffects L2.snap.1 L2.snap.2).2)) = L3
          intro s1
          have s2 := s1.trans (addNotEffects_shape (D := D) (call := (relevantNotEffects L3.base.dom.consts call (ord L3.snap.2)).1)
            (relevantNotEffects L3.base.dom.consts call (ord L3.snap.2)).2 L3)
          exact ⟨p1.step s2, s2.shape p2, by rw [s2.base]; exact p3⟩
        · unfold MaLearner.updateMultiple at h
          dsimp only at h
          obtain ⟨p1, p2, p3, p4⟩ := hj.preSteps c.calls L1 (fun _ hk => hk) hs hp hsh
          revert h p1 p2 p3 p4
          generalize c.calls.foldl (fun L call => (L.takeSnapshot c call).updatePreconds call) L1 = L2
          intro h p1 p2 p3 p4
          cases hl : c.calls.getLast? with
          | none =>
            rw [List.getLast?_eq_none_iff] at hl
            rw [hl] at h
            have s := JCtx.concurrentAll_shape_nil hc _ _ _ p3 h
            exact ⟨p1.step s, s.shape p2, by rw [s.base]; exact p3⟩
          | some last =>
            have hsn := p4 last hl
            have s1 := notEffectsOfAll_shape (D := D) ord c.calls L2
            obtain ⟨_, e2⟩ := hj.notEffectsOfAll ord (objs := callObjects D (D.act last.name).sig last.params)
              (fun g hg => (ho _ _).mp hg) c.calls L2 (fun _ hk => hk) p3 (by rw [hsn]; rfl)
            rw [e2] at h
            have s2 := s1.trans (hj.concurrentAll_shape _ _ _ (by rw [s1.base]; exact p3)
              (fun g hg => (changed_of_mem (D := D) (c := c) (last := last) ho (by rw [hsn] at hg; exact hg)).1) h)
            exact ⟨p1.step s2, s2.shape p2, by rw [s2.base]; exact p3⟩

theorem components_shape {ord : Finset Lit → List Lit} (ho : GoodOrd ord) (hc : D.consts = [])
    (hD : WFDomain D) (hT : WFTruth D truth) : ∀ (cs : List JointComponent) (L L' : MaLearner),
    (∀ c ∈ cs, JointComponent.NoDup c → JointExplained truth c) → SameStatic D L.base.dom → PreShape D L → Shape D L →
    cs.foldlM (fun L c => L.handleComponent ord c) L = .ok L' → PreShape D L' ∧ Shape D L' ∧ SameStatic D L'.base.dom := by
  intro cs
  induction cs with
  | nil =>
    intro L L' _ hs hp hsh h
    simp only [List.foldlM_nil, Pure.pure, Except.pure, Except.ok.injEq] at h
    subst h; exact ⟨hp, hsh, hs⟩
  | cons c cs ih =>
    intro L L' h1 hs hp hsh h
    rw [List.foldlM_cons] at h
    simp only [Bind.bind, Except.bind] at h
    split at h
    · simp at h
    · rename_i L1 hL1
      obtain ⟨s1, s2, s3⟩ := component_shape ho hc hD hT hs hp hsh (h1 c (by simp)) hL1
      exact ih L1 L' (fun c hc => h1 c (by simp [hc])) s3 s1 s2 h

end
end Model

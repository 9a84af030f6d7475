import Verif.Model.TripletsJob
import Verif.Props.Triplets
import Verif.Props.Plans
import Verif.Props.Stats
import Verif.Props.SamConstants

/-! C122: the learning curve of an experiment. -/
namespace Props
namespace Curve
open Model Model.Triplets Spec Spec.Plans Props.Triplets

section more
variable {D : Domain} {truth : String → Schema} {obs₁ obs₂ : List (List Component)} {inj : Bool} {L₁ L₂ : Learner}
  {rep₁ rep₂ : List (String × Status)}

theorem good_sub (hG : GoodData D truth obs₂) (hsub : ∀ c ∈ obs₁.flatten, c ∈ obs₂.flatten) : GoodData D truth obs₁ :=
  ⟨fun c hc => hG.explained c (hsub c hc), fun c hc => hG.noConst c (hsub c hc)⟩

/-- More data only remove preconditions and inequalities and only add effects, of observed and of unobserved actions. -/
theorem more (hD : WFDomain D) (hT : WFTruth D truth) (hG : GoodData D truth obs₂) (hsub : ∀ c ∈ obs₁.flatten, c ∈ obs₂.flatten)
    (h₁ : (Learner.init D .noRemove inj).learn obs₁ = .ok (L₁, rep₁)) (h₂ : (Learner.init D .noRemove inj).learn obs₂ = .ok (L₂, rep₂))
    {a : String} (ha : a ∈ D.names) :
    (L₂.dom.act a).pre ⊆ (L₁.dom.act a).pre ∧ (L₂.dom.act a).ineq ⊆ (L₁.dom.act a).ineq ∧ (L₁.dom.act a).eff ⊆ (L₂.dom.act a).eff := by
  by_cases ho : Observed obs₁ a
  · obtain ⟨k1, k2⟩ := C06_preconditions_shrink hD (by decide) hsub h₁ h₂ ha ho
    exact ⟨k1, k2, (C06_monotone_constants hD hT hG hsub h₁ h₂ ha ho).2.1⟩
  · have hu : usable obs₁.flatten a = [] := by
      by_contra hn; exact ho (observed_iff_usable.mpr hn)
    have hno : a ∉ L₁.observed := by rw [(closed_form hD h₁ ha).2.2.1]; simp [hu]
    obtain ⟨i2, _, _⟩ := SafeInv.learn hD hT hG (SafeInv.init hD _ _) rfl h₂
    obtain ⟨i1, _, hv⟩ := SafeInv.learn hD hT (good_sub hG hsub) (SafeInv.init hD _ _) rfl h₁
    refine ⟨fun l hl => hv a ha hno ((liftedVocab_typed (hD.sigs a ha)).mpr (i2.preTyped a ha l hl)), ?_, by rw [i1.effEmpty a ha hno]; exact Finset.empty_subset _⟩
    intro q; rw [ineq_form hD h₁ ha, ineq_form hD h₂ ha]
    rintro ⟨k1, k2⟩; exact ⟨k1, fun c hc => k2 c (hsub c hc)⟩

/-- A step with distinct objects of the domain learned from fewer data is a step of the domain learned from more. -/
theorem step_more (hD : WFDomain D) (hT : WFTruth D truth) (hG : GoodData D truth obs₂) (hsub : ∀ c ∈ obs₁.flatten, c ∈ obs₂.flatten)
    (h₁ : (Learner.init D .noRemove inj).learn obs₁ = .ok (L₁, rep₁)) (h₂ : (Learner.init D .noRemove inj).learn obs₂ = .ok (L₂, rep₂))
    {s s' : State} {c : Call} (hc : c.params.Nodup ∧ ∀ o ∈ c.params, o ∉ Sig.names D.consts) (hs : (returned L₁.dom).step s c s') :
    (returned L₂.dom).step s c s' := by
  obtain ⟨k1, k2, k3, k4, k5⟩ := hs
  obtain ⟨n1, s1⟩ := Props.Plans.static hD h₁
  obtain ⟨n2, s2⟩ := Props.Plans.static hD h₂
  simp only [returned, Strips.binding, n1, s1] at k1 k2 k3 k4 k5
  obtain ⟨m1, m2, _⟩ := more hD hT hG hsub h₁ h₂ k1
  have hinj := subst_injective (hD.sigs _ k1) ⟨k2, hc.1, hc.2⟩
  have happ : applicable (L₂.dom.act c.name).pre (subst (Sig.names (D.act c.name).sig) c.params) s := fun l hl => k3 l (m1 hl)
  refine ⟨by simpa [returned, n2] using k1, by simpa [returned, s2] using k2, ?_, ?_, ?_⟩
  · simpa only [returned, Strips.binding, s2] using happ
  · simp only [returned, Strips.binding, s2]
    exact fun q hq => k4 q (m2 hq)
  · simp only [returned, Strips.binding, s2]
    rw [k5, C02_effects_exact hD hT (good_sub hG hsub) h₁ k1 _ hinj _ k3, C02_effects_exact hD hT hG h₂ k1 _ hinj _ happ]

/-- **C122, plans are never lost.** A plan with distinct objects that solves a problem in the domain SAM learned from some real data solves it in the domain
learned from any more real data, and in the true domain. -/
theorem C122_plans_kept (hD : WFDomain D) (hT : WFTruth D truth) (hG : GoodData D truth obs₂) (hsub : ∀ c ∈ obs₁.flatten, c ∈ obs₂.flatten)
    (h₁ : (Learner.init D .noRemove inj).learn obs₁ = .ok (L₁, rep₁)) (h₂ : (Learner.init D .noRemove inj).learn obs₂ = .ok (L₂, rep₂))
    (P : Problem) {plan : List Call} (hd : Distinct D.consts plan) (hs : (returned L₁.dom).Solves P plan) :
    (returned L₂.dom).Solves P plan ∧ (real D truth).Solves P plan := by
  refine ⟨?_, Props.Plans.C117_plans_correct hD hT (good_sub hG hsub) h₁ P hd hs⟩
  obtain ⟨s, hl, hg⟩ := hs
  exact ⟨s, Props.Plans.leads_of_steps (ok := fun c : Call => c.params.Nodup ∧ ∀ o ∈ c.params, o ∉ Sig.names D.consts)
    (fun s a s' ha => step_more hD hT hG hsub h₁ h₂ ha) hd hl, hg⟩

/-- **C122, semantic curve.** On any test data the precision of the preconditions is 1 with fewer and with more training data, and the recall does not
sink. -/
theorem C122_semantic (hD : WFDomain D) (hT : WFTruth D truth) (hG : GoodData D truth obs₂) (hsub : ∀ c ∈ obs₁.flatten, c ∈ obs₂.flatten)
    (h₁ : (Learner.init D .noRemove inj).learn obs₁ = .ok (L₁, rep₁)) (h₂ : (Learner.init D .noRemove inj).learn obs₂ = .ok (L₂, rep₂))
    {a : String} (ha : a ∈ D.names) (xs : List (State × Call)) {p r r' : ℚ}
    (hp : (preCounts L₁.dom.names (appOf L₁.dom.act) (appTrue truth) xs).precision a = some p)
    (hr : (preCounts L₁.dom.names (appOf L₁.dom.act) (appTrue truth) xs).recall a = some r)
    (hr' : (preCounts L₂.dom.names (appOf L₂.dom.act) (appTrue truth) xs).recall a = some r') : p = 1 ∧ r ≤ r' := by
  refine ⟨C65_sam hD hT (good_sub hG hsub) h₁ ha xs hp, ?_⟩
  obtain ⟨n1, s1⟩ := Props.Plans.static hD h₁
  obtain ⟨n2, s2⟩ := Props.Plans.static hD h₂
  rw [n1, ← n2] at hr
  obtain ⟨m1, m2, _⟩ := more hD hT hG hsub h₁ h₂ ha
  refine C65_recall_monotone (fun x hx hl => ?_) (fun x hx hl => ?_) hr hr'
  · have hxa : x.2.name = a := by simpa using (List.mem_filter.mp hx).2
    unfold appOf at hl ⊢
    rw [decide_eq_true_eq] at hl ⊢
    rw [hxa] at hl ⊢
    rw [s1] at hl; rw [s2]
    exact ⟨fun l h => hl.1 l (m1 h), fun q h => hl.2 q (m2 h)⟩
  · have hxa : x.2.name = a := by simpa using (List.mem_filter.mp hx).2
    unfold appOf at hl
    unfold appTrue
    rw [decide_eq_true_eq] at hl ⊢
    rw [hxa] at hl ⊢
    rw [hT.params a ha]
    rw [s2] at hl
    exact C01_preconditions_sufficient hD hT hG h₂ ha _ _ hl.1

/-- **C122, syntactic curve.** Compared with the true actions, the recall of the preconditions is always 1, and neither the precision of the preconditions
nor the recall of the effects sinks with more data. -/
theorem C122_syntactic (hD : WFDomain D) (hT : WFTruth D truth) (hG : GoodData D truth obs₂) (hsub : ∀ c ∈ obs₁.flatten, c ∈ obs₂.flatten)
    (h₁ : (Learner.init D .noRemove inj).learn obs₁ = .ok (L₁, rep₁)) (h₂ : (Learner.init D .noRemove inj).learn obs₂ = .ok (L₂, rep₂))
    {names : List String} (hnd : names.Nodup) {a : String} (hn : a ∈ names) (ha : a ∈ D.names) (T : String → ActModel)
    (hTa : (T a).pre = (truth a).pre ∧ (T a).eff = (truth a).eff) :
    let st₁ := (evaluated (names.map fun b => (b, L₁.dom.act b, T b))).export a
    let st₂ := (evaluated (names.map fun b => (b, L₂.dom.act b, T b))).export a
    st₁.preRecall = 1 ∧ st₂.preRecall = 1 ∧ st₁.prePrecision ≤ st₂.prePrecision ∧ st₁.effRecall ≤ st₂.effRecall := by
  have hG₁ := good_sub hG hsub
  have r1 := (C64_sam hD hT hG₁ h₁ hnd hn ha T hTa).1
  have r2 := (C64_sam hD hT hG h₂ hnd hn ha T hTa).1
  dsimp only at r1 r2 ⊢
  refine ⟨r1, r2, ?_⟩
  have hl : ∀ L : Learner, (names.map fun b => (b, L.dom.act b, T b)).map Prod.fst = names := fun L => by simp [List.map_map, Function.comp_def]
  obtain ⟨p1, _, q1, e1, _⟩ := C64_report (by rw [hl L₁]; exact hnd) (List.mem_map.mpr ⟨a, hn, rfl⟩)
  obtain ⟨p2, _, q2, e2, _⟩ := C64_report (by rw [hl L₂]; exact hnd) (List.mem_map.mpr ⟨a, hn, rfl⟩)
  obtain ⟨m1, _, m3⟩ := more hD hT hG hsub h₁ h₂ ha
  rw [q2, recall_eq_precision, precision_eq_one] at r2
  rw [p1, p2, e1, e2]
  constructor
  · by_cases hz : (L₂.dom.act a).pre = ∅
    · have ht : (T a).pre = ∅ := by rw [hz] at r2; exact Finset.subset_empty.mp r2
      rw [if_neg (by simp [ht]), if_neg (by simp [ht]), show Spec.precision (L₂.dom.act a).pre (T a).pre = 1 by simp [Spec.precision, hz]]
      exact precision_le_one _ _
    · have hz1 : (L₁.dom.act a).pre ≠ ∅ := fun h => hz (Finset.subset_empty.mp (h ▸ m1))
      rw [if_neg (by simp [hz1]), if_neg (by simp [hz])]
      unfold Spec.precision
      rw [if_neg hz, if_neg hz1]
      unfold Spec.share
      rw [Finset.inter_eq_right.mpr r2, Finset.inter_eq_right.mpr (r2.trans m1)]
      exact div_le_div_of_nonneg_left (by positivity) (by exact_mod_cast Finset.card_pos.mpr (Finset.nonempty_iff_ne_empty.mpr hz))
        (by exact_mod_cast Finset.card_le_card m1)
  · unfold Spec.recall
    split_ifs
    · exact le_refl _
    · unfold Spec.share
      exact div_le_div_of_nonneg_right (by exact_mod_cast Finset.card_le_card (Finset.inter_subset_inter_left m3)) (by positivity)

end more
/-! ### The rounds of the job -/

theorem mapM_ok {α β : Type} {f : α → Except Err β} : ∀ {l : List α}, (∃ r, l.mapM f = .ok r) ↔ ∀ x ∈ l, ∃ y, f x = .ok y
  | [] => by simp [pure, Except.pure]
  | x :: l => by
    rw [List.mapM_cons]
    simp only [Bind.bind, Except.bind, List.forall_mem_cons]
    cases hx : f x with
    | error e => simp
    | ok y =>
      rw [← mapM_ok (l := l)]
      cases hl : l.mapM f with
      | error e => simp
      | ok r => simp [pure, Except.pure]

theorem mapM_get {α β : Type} {f : α → Except Err β} : ∀ {l : List α} {r : List β}, l.mapM f = .ok r →
    r.length = l.length ∧ ∀ i (hi : i < l.length) (hr : i < r.length), f l[i] = .ok r[i]
  | [], r, h => by simp [pure, Except.pure] at h; subst h; simp
  | x :: l, r, h => by
    rw [List.mapM_cons] at h
    simp only [Bind.bind, Except.bind] at h
    cases hx : f x with
    | error e => rw [hx] at h; simp at h
    | ok y =>
      rw [hx] at h
      simp only at h
      cases hl : l.mapM f with
      | error e => rw [hl] at h; simp at h
      | ok r' =>
        rw [hl] at h
        simp only [pure, Except.pure, Except.ok.injEq] at h
        subst h
        obtain ⟨i1, i2⟩ := mapM_get hl
        refine ⟨by simp [i1], fun i hi hr => ?_⟩
        cases i with
        | zero => exact hx
        | succ i => exact i2 i (by simpa using hi) (by simpa using hr)

theorem rounds_get {α : Type} (obs : List α) (bound : Nat) : (rounds obs bound).length = bound - 1 ∧
    ∀ i (hi : i < (rounds obs bound).length), (rounds obs bound)[i] = obs.take (i + 1) := by
  unfold rounds rangeStep
  refine ⟨by simp, fun i hi => ?_⟩
  simp [Nat.add_comm]

section job
variable {D : Domain} {n bound : Nat} {joint : List (Obs JointComponent)}

/-- The single-agent transitions of pieces: those in which exactly one agent acts. -/
def solo (pieces : List (Obs JointComponent)) (c : Component) : Prop :=
  ∃ w ∈ pieces, ∃ j ∈ w.comps, ∃ k, j.calls = [k] ∧ c = ⟨j.prev, k, j.next, true⟩

theorem mem_singles {cs : List JointComponent} {x : Component} :
    x ∈ singles cs ↔ ∃ j ∈ cs, ∃ k, j.calls = [k] ∧ x = ⟨j.prev, k, j.next, true⟩ := by
  unfold singles
  rw [List.mem_filterMap]
  constructor
  · rintro ⟨j, hj, hx⟩
    refine ⟨j, hj, ?_⟩
    match hk : j.calls with
    | [] => rw [hk] at hx; simp at hx
    | k :: _ :: _ => rw [hk] at hx; simp at hx
    | [k] => rw [hk] at hx; simp at hx; exact ⟨k, rfl, hx.symm⟩
  · rintro ⟨j, hj, k, hk, rfl⟩
    exact ⟨j, hj, by rw [hk]⟩

theorem training_spec {t : List (List Component)} (h : samTraining n joint = .ok t) :
    ∃ pieces, chunks n joint = .ok pieces ∧ t.length = pieces.length ∧ (∀ w ∈ pieces, ∀ j ∈ w.comps, j.calls ≠ []) ∧
      (∃ w ∈ pieces, ∃ j ∈ w.comps, 1 < j.calls.length) ∧
      ∀ m x, x ∈ (t.take m).flatten ↔ solo (pieces.take m) x := by
  unfold samTraining at h
  simp only [Bind.bind, Except.bind] at h
  cases hp : chunks n joint with
  | error e => rw [hp] at h; simp at h
  | ok pieces =>
    rw [hp] at h
    simp only at h
    cases hb : pieces.mapM (fun o => baseline o.comps) with
    | error e => rw [hb] at h; simp at h
    | ok bs =>
      rw [hb] at h
      simp only at h
      cases hr : datasetRatio bs with
      | error e => rw [hr] at h; simp at h
      | ok q =>
        rw [hr] at h
        simp only [Except.ok.injEq] at h
        subst h
        obtain ⟨g1, g2⟩ := mapM_get hb
        refine ⟨pieces, rfl, by simp [g1], fun w hw => ?_, ?_, fun m x => ?_⟩
        · exact (C102_defined_iff w.comps).mp (mapM_ok.mp ⟨bs, hb⟩ w hw)
        · have hb' : (pieces.map Obs.comps).mapM baseline = .ok bs := by rw [List.mapM_map]; exact hb
          by_contra hno
          have : ∃ e, datasetRatio bs = .error e := (C102_ratio_raises hb').mpr (by
            intro cs hcs c hc
            obtain ⟨w, hw, rfl⟩ := List.mem_map.mp hcs
            unfold concurrent
            by_contra hcc
            exact hno ⟨w, hw, c, hc, by simpa using hcc⟩)
          rw [hr] at this
          obtain ⟨e, he⟩ := this
          cases he
        · constructor
          · intro hx
            obtain ⟨cs, hcs, hx⟩ := List.mem_flatten.mp hx
            obtain ⟨i, hi, rfl⟩ := List.mem_iff_getElem.mp hcs
            simp only [List.length_take, List.length_map] at hi
            have hi2 : i < bs.length := by omega
            have hi3 : i < pieces.length := by omega
            simp only [List.getElem_take, List.getElem_map] at hx
            have := (C102_members (g2 i hi3 hi2) x).mp hx
            obtain ⟨j, hj, k, hk, rfl⟩ := mem_singles.mp this
            exact ⟨pieces[i], List.mem_take_iff_getElem.mpr ⟨i, by omega, rfl⟩, j, hj, k, hk, rfl⟩
          · rintro ⟨w, hw, j, hj, k, hk, rfl⟩
            obtain ⟨i, hi, rfl⟩ := List.mem_take_iff_getElem.mp hw
            have hi3 : i < pieces.length := by omega
            have hi2 : i < bs.length := by omega
            have := (C102_members (g2 i hi3 hi2) _).mpr (mem_singles.mpr ⟨j, hj, k, hk, rfl⟩)
            exact List.mem_flatten.mpr ⟨bs[i].comps, List.mem_take_iff_getElem.mpr ⟨i, by simp; omega, by simp⟩, this⟩

theorem training_ok_iff : (∃ t, samTraining n joint = .ok t) ↔ ∃ pieces, chunks n joint = .ok pieces ∧
    (∀ w ∈ pieces, ∀ j ∈ w.comps, j.calls ≠ []) ∧ ∃ w ∈ pieces, ∃ j ∈ w.comps, 1 < j.calls.length := by
  constructor
  · rintro ⟨t, ht⟩
    obtain ⟨p, h1, _, h3, h4, _⟩ := training_spec ht
    exact ⟨p, h1, h3, h4⟩
  · rintro ⟨pieces, hp, h3, w, hw, j, hj, hk⟩
    obtain ⟨bs, hb⟩ := mapM_ok.mpr fun w hw => (C102_defined_iff w.comps).mpr (h3 w hw)
    have hb' : (pieces.map Obs.comps).mapM baseline = .ok bs := by rw [List.mapM_map]; exact hb
    unfold samTraining
    simp only [Bind.bind, Except.bind, hp, hb]
    cases hr : datasetRatio bs with
    | ok q => exact ⟨_, rfl⟩
    | error e =>
      have := (C102_ratio_raises hb').mp ⟨e, hr⟩ _ (List.mem_map_of_mem hw) j hj
      unfold concurrent at this
      simp at this
      omega

/-- **C122, when the job ends normally.** The job of the single-agent baseline returns exactly when: a piece has a transition in which several agents act,
no piece has one in which nobody acts, and the solo actions in the pieces used by the rounds are actions of the domain. So on a data set in which agents
always act alone it raises before the first round. -/
theorem C122_returns_iff (hD : WFDomain D) (hb : 1 < bound) :
    (∃ ms, samRounds D n bound joint = .ok ms) ↔ ∃ pieces, chunks n joint = .ok pieces ∧ (∀ w ∈ pieces, ∀ j ∈ w.comps, j.calls ≠ []) ∧
      (∃ w ∈ pieces, ∃ j ∈ w.comps, 1 < j.calls.length) ∧ ∀ c, solo (pieces.take (bound - 1)) c → c.call.name ∈ D.names := by
  constructor
  · rintro ⟨ms, h⟩
    unfold samRounds at h
    simp only [Bind.bind, Except.bind] at h
    cases ht : samTraining n joint with
    | error e => rw [ht] at h; simp at h
    | ok t =>
      rw [ht] at h
      simp only at h
      obtain ⟨p, h1, _, h3, h4, h5⟩ := training_spec ht
      refine ⟨p, h1, h3, h4, fun c hc => ?_⟩
      have hlast : t.take (bound - 1) ∈ rounds t bound := by
        obtain ⟨l1, l2⟩ := rounds_get t bound
        have := l2 (bound - 2) (by omega)
        rw [show bound - 2 + 1 = bound - 1 by omega] at this
        rw [← this]; exact List.getElem_mem _
      have hok := mapM_ok.mp ⟨ms, h⟩ _ hlast
      obtain ⟨w, hw, j, hj, k, hk, rfl⟩ := hc
      exact (learn_ok_iff (L0 := Learner.init D .noRemove true) (obs := t.take (bound - 1)) hD.names (init_sigs D _ true)).mp hok _
        ((h5 _ _).mpr ⟨w, hw, j, hj, k, hk, rfl⟩) rfl
  · rintro ⟨p, h1, h3, h4, h5⟩
    obtain ⟨t, ht⟩ := training_ok_iff.mpr ⟨p, h1, h3, h4⟩
    obtain ⟨p', h1', _, _, _, h6⟩ := training_spec ht
    rw [h1] at h1'
    cases h1'
    unfold samRounds
    simp only [Bind.bind, Except.bind, ht]
    refine mapM_ok.mpr fun obs hobs => ?_
    refine (learn_ok_iff (L0 := Learner.init D .noRemove true) hD.names (init_sigs D _ true)).mpr fun c hc _ => ?_
    obtain ⟨i, hi, rfl⟩ := List.mem_iff_getElem.mp hobs
    obtain ⟨l1, l2⟩ := rounds_get t bound
    rw [l2 i hi] at hc
    obtain ⟨w, hw, r⟩ := (h6 _ _).mp hc
    exact h5 c ⟨w, List.take_subset_take_left _ (by omega) hw, r⟩

/-- **C122, the rounds.** The job makes `bound - 1` rounds; round `i` learns from exactly the solo transitions of the first `i` pieces; from the round on that
uses all pieces, all rounds learn the same. -/
theorem C122_rounds {ms : List (Learner × List (String × Status))} (h : samRounds D n bound joint = .ok ms) : ∃ (pieces : List (Obs JointComponent)) (training : List (List Component)), chunks n joint = .ok pieces ∧ ms.length = bound - 1 ∧
    (∀ i, ∀ hi : i < ms.length, (Learner.init D).learn (training.take (i + 1)) = .ok ms[i]) ∧
    (∀ m c, c ∈ (training.take m).flatten ↔ solo (pieces.take m) c) ∧
    ∀ i j, ∀ hi : i < ms.length, ∀ hj : j < ms.length, pieces.length ≤ i + 1 → pieces.length ≤ j + 1 → ms[i] = ms[j] := by
  unfold samRounds at h
  simp only [Bind.bind, Except.bind] at h
  cases ht : samTraining n joint with
  | error e => rw [ht] at h; simp at h
  | ok t =>
    rw [ht] at h
    simp only at h
    obtain ⟨p, h1, hlen, _, _, h5⟩ := training_spec ht
    obtain ⟨g1, g2⟩ := mapM_get h
    obtain ⟨l1, l2⟩ := rounds_get t bound
    have key : ∀ i, ∀ hi : i < ms.length, (Learner.init D).learn (t.take (i + 1)) = .ok ms[i] := fun i hi => by
      rw [← l2 i (by omega)]; exact g2 i (by omega) hi
    refine ⟨p, t, h1, by omega, key, h5, fun i j hi hj k1 k2 => ?_⟩
    have e1 := key i hi
    have e2 := key j hj
    rw [List.take_of_length_le (by omega)] at e1 e2
    rw [e1] at e2
    injection e2

/-- **C122, the learning curve of the job.** If the transitions in which one agent acts are real, then for all rounds `i ≤ j`: a plan with distinct objects
that solves a problem in the domain of round `i` solves it in the domain of round `j` and in the true domain; on all test data the precision of the
preconditions is 1 and their recall does not sink. -/
theorem C122_curve {ms : List (Learner × List (String × Status))} (hD : WFDomain D) {truth : String → Schema} (hT : WFTruth D truth)
    (hreal : ∀ o ∈ joint, ∀ c ∈ o.comps, ∀ k, c.calls = [k] →
      JointExplained truth c ∧ (k.params.Nodup → ∀ o ∈ k.params, o ∉ Sig.names D.consts))
    (h : samRounds D n bound joint = .ok ms) {i j : Nat} (hij : i ≤ j) (hj : j < ms.length) :
    (∀ (P : Problem) (plan : List Call), Distinct D.consts plan → (returned (ms[i]'(by omega)).1.dom).Solves P plan →
      (returned ms[j].1.dom).Solves P plan ∧ (real D truth).Solves P plan) ∧
    ∀ a ∈ D.names, ∀ (xs : List (State × Call)) (p r r' : ℚ),
      (preCounts (ms[i]'(by omega)).1.dom.names (appOf (ms[i]'(by omega)).1.dom.act) (appTrue truth) xs).precision a = some p →
      (preCounts (ms[i]'(by omega)).1.dom.names (appOf (ms[i]'(by omega)).1.dom.act) (appTrue truth) xs).recall a = some r →
      (preCounts ms[j].1.dom.names (appOf ms[j].1.dom.act) (appTrue truth) xs).recall a = some r' → p = 1 ∧ r ≤ r' := by
  obtain ⟨pieces, t, hp, _, h3, h4, _⟩ := C122_rounds h
  have hG : GoodData D truth (t.take (j + 1)) := by
    have key : ∀ x ∈ (t.take (j + 1)).flatten, ∃ o ∈ joint, ∃ c ∈ o.comps, ∃ k, c.calls = [k] ∧ x = ⟨c.prev, k, c.next, true⟩ := by
      intro x hx
      obtain ⟨w, hw, c, hc, r⟩ := (h4 _ _).mp hx
      have hw := List.mem_of_mem_take hw
      rcases Nat.eq_zero_or_pos n with rfl | hn
      · have := (C101_zero_raises joint).mp ⟨pieces, hp⟩
        subst this
        simp [chunks] at hp
        subst hp; cases hw
      · obtain ⟨r', h', hm, _⟩ := C101_pieces hn joint
        rw [hp] at h'
        cases h'
        obtain ⟨_, o, ho, _, hin⟩ := hm w hw
        exact ⟨o, ho, c, hin.subset hc, r⟩
    constructor
    · intro x hx _
      obtain ⟨o, ho, c, hc, k, hk, rfl⟩ := key x hx
      exact explained_of_single hk (hreal o ho c hc k hk).1
    · intro x hx _ hnd
      obtain ⟨o, ho, c, hc, k, hk, rfl⟩ := key x hx
      exact (hreal o ho c hc k hk).2 hnd
  have hsub : ∀ c ∈ (t.take (i + 1)).flatten, c ∈ (t.take (j + 1)).flatten := by
    intro c hc
    obtain ⟨w, hw, hc⟩ := List.mem_flatten.mp hc
    exact List.mem_flatten.mpr ⟨w, List.take_subset_take_left _ (by omega) hw, hc⟩
  have e1 := h3 i (by omega)
  have e2 := h3 j hj
  exact ⟨fun P plan hd hs => C122_plans_kept hD hT hG hsub e1 e2 P hd hs,
    fun a ha xs p r r' hp hr hr' => C122_semantic hD hT hG hsub e1 e2 ha xs hp hr hr'⟩

/-- **C122, the size of the experiment.** For the domains "rover" and "grid_overcooked" the job makes 100 rounds with pieces of 10 transitions, for all other
domains 20 rounds with pieces of 5. -/
theorem C122_job_sizes {d : String} {ms : List (Learner × List (String × Status))} (h : samRounds D (sizes d).1 (sizes d).2 joint = .ok ms) :
    (if d ∈ ["rover", "grid_overcooked"] then ms.length = 100 else ms.length = 20) ∧
    ∃ pieces, chunks (sizes d).1 joint = .ok pieces ∧ ∀ w ∈ pieces, w.comps.length = if d ∈ ["rover", "grid_overcooked"] then 10 else 5 := by
  obtain ⟨pieces, _, hp, hl, _⟩ := C122_rounds h
  have hs : sizes d = if d ∈ ["rover", "grid_overcooked"] then (10, 101) else (5, 21) := by
    unfold sizes; simp
  have hw : ∀ {n}, 0 < n → chunks n joint = .ok pieces → ∀ w ∈ pieces, w.comps.length = n := by
    intro n hn hp w hw
    obtain ⟨r, h', hm, _⟩ := C101_pieces hn joint
    rw [hp] at h'
    cases h'
    exact (hm w hw).1
  by_cases hd : d ∈ ["rover", "grid_overcooked"]
  · rw [if_pos hd] at hs
    rw [hs] at hp hl
    refine ⟨by rw [if_pos hd]; exact hl, pieces, by rw [hs]; exact hp, fun w h => by rw [if_pos hd]; exact hw (by decide) hp w h⟩
  · rw [if_neg hd] at hs
    rw [hs] at hp hl
    refine ⟨by rw [if_neg hd]; exact hl, pieces, by rw [hs]; exact hp, fun w h => by rw [if_neg hd]; exact hw (by decide) hp w h⟩

end job
end Curve
end Props

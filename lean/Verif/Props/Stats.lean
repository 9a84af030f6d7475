import Verif.Lemmas.Stats
import Verif.Props.SamSafety
import Mathlib.Data.Finset.Sigma
import Mathlib.Algebra.BigOperators.Group.Finset.Sigma

/-! C64: the syntactic evaluation of a learned model; C65: the semantic evaluation of preconditions. -/
namespace Props
open Model Spec

section syntactic

/-- The calculator after any sequence of `add_action_data` (name, learned action, true action). -/
def evaluated (l : List (String × ActModel × ActModel)) : SynCalc := SynCalc.init.addAll l

/-- Harmonic mean, 0 when both are 0. -/
def harmonic (p r : ℚ) : ℚ := if p = 0 ∧ r = 0 then 0 else 2 * (p * r) / (p + r)

/-- **C64.** Whatever else was added, the statistics exported for an action are the precision and recall of its learned
preconditions, effects and both together, with the F1 score their harmonic mean. The only deviation: an empty learned set gets
precision 0 unless the true set is empty too. -/
theorem C64_report {l : List (String × ActModel × ActModel)} (hnd : (l.map Prod.fst).Nodup) {a : String} {x y : ActModel}
    (h : (a, x, y) ∈ l) :
    let st := (evaluated l).export a
    st.prePrecision = (if x.pre = ∅ ∧ y.pre ≠ ∅ then 0 else Spec.precision x.pre y.pre) ∧
    st.effPrecision = (if x.eff = ∅ ∧ y.eff ≠ ∅ then 0 else Spec.precision x.eff y.eff) ∧
    st.preRecall = Spec.recall x.pre y.pre ∧ st.effRecall = Spec.recall x.eff y.eff ∧
    st.actPrecision = Spec.precision (tagged x.pre x.eff) (tagged y.pre y.eff) ∧
    st.actRecall = Spec.recall (tagged x.pre x.eff) (tagged y.pre y.eff) ∧
    st.f1 = harmonic st.actPrecision st.actRecall := by
  obtain ⟨h1, h2, h3, h4⟩ := SynCalc.addAll_get l SynCalc.init hnd h
  have h1' : (evaluated l).pre a = x.pre := h1
  have h2' : (evaluated l).gtPre a = y.pre := h2
  have h3' : (evaluated l).eff a = x.eff := h3
  have h4' : (evaluated l).gtEff a = y.eff := h4
  dsimp only [SynCalc.export]
  rw [SynCalc.actionPrecision_eq, SynCalc.actionRecall_eq, h1', h2', h3', h4', synPrecision_eq, synPrecision_eq, synRecall_eq,
    synRecall_eq]
  exact ⟨rfl, rfl, rfl, rfl, rfl, rfl, rfl⟩

theorem harmonic_bounds {p r : ℚ} (hp : 0 ≤ p) (hp1 : p ≤ 1) (hr : 0 ≤ r) (hr1 : r ≤ 1) :
    0 ≤ harmonic p r ∧ harmonic p r ≤ 1 ∧ (harmonic p r = 1 ↔ p = 1 ∧ r = 1) := by
  unfold harmonic
  split_ifs with h
  · refine ⟨le_refl _, zero_le_one, by rw [h.1]; simp⟩
  · have hs : 0 < p + r := by
      rcases hp.eq_or_lt with e | e
      · rcases hr.eq_or_lt with e' | e'
        · exact absurd ⟨e.symm, e'.symm⟩ h
        · linarith
      · linarith
    refine ⟨by positivity, (div_le_one hs).mpr (by nlinarith), ?_⟩
    rw [div_eq_one_iff_eq hs.ne']
    constructor
    · intro e
      have e1 : p * (1 - r) + r * (1 - p) = 0 := by linarith
      have e2 : 0 ≤ p * (1 - r) := mul_nonneg hp (by linarith)
      have e3 : 0 ≤ r * (1 - p) := mul_nonneg hr (by linarith)
      have e4 : p * (1 - r) = 0 := by linarith
      have e5 : r * (1 - p) = 0 := by linarith
      rcases mul_eq_zero.mp e4 with k | k
      · rcases mul_eq_zero.mp e5 with k' | k'
        · rw [k, k'] at hs; simp at hs
        · rw [k] at k'; norm_num at k'
      · have k1 : r = 1 := by linarith
        rw [k1] at e5
        exact ⟨by linarith, k1⟩
    · rintro ⟨rfl, rfl⟩; norm_num

/-- **C64.** All seven numbers are between 0 and 1; F1 is 1 exactly when the learned action has the true preconditions and the
true effects; the action precision is 1 exactly when nothing wrong was learned, the recall exactly when nothing is missing. -/
theorem C64_perfect_iff {l : List (String × ActModel × ActModel)} (hnd : (l.map Prod.fst).Nodup) {a : String} {x y : ActModel}
    (h : (a, x, y) ∈ l) :
    let st := (evaluated l).export a
    (∀ v ∈ [st.prePrecision, st.effPrecision, st.preRecall, st.effRecall, st.actPrecision, st.actRecall, st.f1], 0 ≤ v ∧ v ≤ 1) ∧
    (st.f1 = 1 ↔ x.pre = y.pre ∧ x.eff = y.eff) ∧
    (st.actPrecision = 1 ↔ x.pre ⊆ y.pre ∧ x.eff ⊆ y.eff) ∧ (st.actRecall = 1 ↔ y.pre ⊆ x.pre ∧ y.eff ⊆ x.eff) := by
  obtain ⟨r1, r2, r3, r4, r5, r6, r7⟩ := C64_report hnd h
  dsimp only
  have hb := harmonic_bounds (precision_nonneg (tagged x.pre x.eff) (tagged y.pre y.eff))
    (precision_le_one (tagged x.pre x.eff) (tagged y.pre y.eff))
    (precision_nonneg (tagged y.pre y.eff) (tagged x.pre x.eff)) (precision_le_one (tagged y.pre y.eff) (tagged x.pre x.eff))
  have hP : ∀ A B : Finset Lit, 0 ≤ (if A = ∅ ∧ B ≠ ∅ then 0 else Spec.precision A B) ∧
      (if A = ∅ ∧ B ≠ ∅ then 0 else Spec.precision A B) ≤ 1 := by
    intro A B; split_ifs
    · exact ⟨le_refl _, zero_le_one⟩
    · exact ⟨precision_nonneg _ _, precision_le_one _ _⟩
  rw [r5, r6, recall_eq_precision] at r7
  refine ⟨?_, ?_, ?_, ?_⟩
  · intro v hv
    simp only [List.mem_cons, List.not_mem_nil, or_false] at hv
    rcases hv with rfl | rfl | rfl | rfl | rfl | rfl | rfl
    · rw [r1]; exact hP _ _
    · rw [r2]; exact hP _ _
    · rw [r3]; exact ⟨precision_nonneg _ _, precision_le_one _ _⟩
    · rw [r4]; exact ⟨precision_nonneg _ _, precision_le_one _ _⟩
    · rw [r5]; exact ⟨precision_nonneg _ _, precision_le_one _ _⟩
    · rw [r6]; exact ⟨precision_nonneg _ _, precision_le_one _ _⟩
    · rw [r7]; exact ⟨hb.1, hb.2.1⟩
  · rw [r7, hb.2.2, precision_eq_one, precision_eq_one, tagged_subset, tagged_subset]
    constructor
    · rintro ⟨⟨a1, a2⟩, b1, b2⟩; exact ⟨a1.antisymm b1, a2.antisymm b2⟩
    · rintro ⟨e1, e2⟩; rw [e1, e2]; exact ⟨⟨fun _ k => k, fun _ k => k⟩, fun _ k => k, fun _ k => k⟩
  · rw [r5, precision_eq_one, tagged_subset]
  · rw [r6, recall_eq_precision, precision_eq_one, tagged_subset]

/-- All the literals of all the actions of a list. -/
def allItems (names : List String) (A : String → ActModel) : Finset (Σ _ : String, Lit ⊕ Lit) :=
  names.toFinset.sigma fun a => tagged (A a).pre (A a).eff

theorem sum_card {names : List String} (hnd : names.Nodup) (f : String → Finset (Lit ⊕ Lit)) :
    (names.map fun a => (f a).card).sum = (names.toFinset.sigma f).card := by
  rw [Finset.card_sigma]
  induction names with
  | nil => simp
  | cons a l ih =>
    rw [List.nodup_cons] at hnd
    rw [List.map_cons, List.sum_cons, List.toFinset_cons, Finset.sum_insert (by simpa using hnd.1), ih hnd.2]

/-- **C64.** The precision and recall of the whole model are those of all literals of all evaluated actions. -/
theorem C64_domain {names : List String} (hnd : names.Nodup) (L T : String → ActModel) :
    (evaluated (names.map fun a => (a, L a, T a))).domPrecision = Spec.precision (allItems names L) (allItems names T) ∧
    (evaluated (names.map fun a => (a, L a, T a))).domRecall = Spec.recall (allItems names L) (allItems names T) := by
  have hl : (names.map fun a => (a, L a, T a)).map Prod.fst = names := by simp [List.map_map, Function.comp_def]
  have hlearned : (evaluated (names.map fun a => (a, L a, T a))).learned = names := by
    unfold evaluated; rw [SynCalc.addAll_learned, hl]; rfl
  have hget : ∀ a ∈ names, let C := evaluated (names.map fun a => (a, L a, T a))
      C.pre a = (L a).pre ∧ C.gtPre a = (T a).pre ∧ C.eff a = (L a).eff ∧ C.gtEff a = (T a).eff := fun a ha =>
    SynCalc.addAll_get _ SynCalc.init (by rw [hl]; exact hnd) (List.mem_map.mpr ⟨a, ha, rfl⟩)
  have hi : ∀ A B : String → ActModel, allItems names A ∩ allItems names B =
      names.toFinset.sigma fun a => tagged (A a).pre (A a).eff ∩ tagged (B a).pre (B a).eff := by
    intro A B; ext ⟨a, x⟩; simp only [allItems, Finset.mem_inter, Finset.mem_sigma]; tauto
  have hd : ∀ A B : String → ActModel, allItems names A \ allItems names B =
      names.toFinset.sigma fun a => tagged (A a).pre (A a).eff \ tagged (B a).pre (B a).eff := by
    intro A B; ext ⟨a, x⟩; simp only [allItems, Finset.mem_sdiff, Finset.mem_sigma]; tauto
  unfold SynCalc.domPrecision SynCalc.domRecall
  rw [hlearned]
  have t1 : names.map (evaluated (names.map fun a => (a, L a, T a))).tp =
      names.map fun a => (tagged (L a).pre (L a).eff ∩ tagged (T a).pre (T a).eff).card := by
    apply List.map_congr_left; intro a ha
    obtain ⟨g1, g2, g3, g4⟩ := hget a ha
    rw [SynCalc.tp_eq, g1, g2, g3, g4]
  have t2 : names.map (evaluated (names.map fun a => (a, L a, T a))).fp =
      names.map fun a => (tagged (L a).pre (L a).eff \ tagged (T a).pre (T a).eff).card := by
    apply List.map_congr_left; intro a ha
    obtain ⟨g1, g2, g3, g4⟩ := hget a ha
    rw [SynCalc.fp_eq, g1, g2, g3, g4]
  have t3 : names.map (evaluated (names.map fun a => (a, L a, T a))).fn =
      names.map fun a => (tagged (T a).pre (T a).eff \ tagged (L a).pre (L a).eff).card := by
    apply List.map_congr_left; intro a ha
    obtain ⟨g1, g2, g3, g4⟩ := hget a ha
    rw [SynCalc.fn_eq, g1, g2, g3, g4]
  rw [t1, t2, t3, sum_card hnd, sum_card hnd, sum_card hnd, ← hi, ← hd, ← hd, quotient_eq]
  refine ⟨rfl, ?_⟩
  rw [Finset.inter_comm, quotient_eq]; rfl

/-- **C64, SAM.** For the model returned by SAM (no negative preconditions removed), evaluated against the true actions, the
recall of the preconditions is 1, and the precision of the effects is 1, except 0 when no effect was learned of an action that has
effects. -/
theorem C64_sam {D : Domain} {truth : String → Schema} {obs : List (List Component)} {L' : Learner}
    {rep : List (String × Status)} {inj : Bool} (hD : WFDomain D) (hT : WFTruth D truth) (hG : GoodData D truth obs)
    (h : (Learner.init D .noRemove inj).learn obs = .ok (L', rep)) {names : List String} (hnd : names.Nodup)
    {a : String} (hn : a ∈ names) (ha : a ∈ D.names) (T : String → ActModel)
    (hTa : (T a).pre = (truth a).pre ∧ (T a).eff = (truth a).eff) :
    let st := (evaluated (names.map fun b => (b, L'.dom.act b, T b))).export a
    st.preRecall = 1 ∧ st.effPrecision = (if (L'.dom.act a).eff = ∅ ∧ (truth a).eff ≠ ∅ then 0 else 1) := by
  obtain ⟨h1, _, h3⟩ := SafeInv.learn hD hT hG (SafeInv.init hD _ _) rfl h
  have hl : (names.map fun b => (b, L'.dom.act b, T b)).map Prod.fst = names := by simp [List.map_map, Function.comp_def]
  obtain ⟨_, r2, r3, _⟩ := C64_report (by rw [hl]; exact hnd) (List.mem_map.mpr ⟨a, hn, rfl⟩)
  dsimp only
  rw [r3, r2, hTa.1, hTa.2, recall_eq_precision, precision_eq_one]
  constructor
  · intro l hl
    by_cases ho : a ∈ L'.observed
    · exact h1.preComplete a ho hl
    · exact h3 a ha ho ((liftedVocab_typed (hD.sigs a ha)).mpr (hT.params a ha ▸ (hT.wf a ha).pre l hl))
  · split_ifs
    · rfl
    · exact (precision_eq_one _ _).mpr (fun e he => C04_no_spurious_effects hD hT hG h ha he)

/-! Examples and limits. -/

private def mk (pre eff : Finset Lit) : ActModel := ⟨[], pre, ∅, eff⟩
private def p1 : Lit := ⟨"p", ["?x"], true⟩
private def p2 : Lit := ⟨"q", ["?x"], true⟩
private def p3 : Lit := ⟨"r", ["?x"], false⟩

/-- One of two learned preconditions is right, and one of two true effects was learned. -/
example : (evaluated [("a", mk {p1, p2} {p3}, mk {p1} {p3, p2}), ("b", mk ∅ ∅, mk {p1} ∅)]).export "a" =
    ⟨1 / 2, 1, 1, 1 / 2, 2 / 3, 2 / 3, 2 / 3⟩ := by decide +kernel

/-- An action learned without preconditions gets precision 0 for them although nothing wrong was learned, while an action that was
not learned at all is reported with effects precision 1 and preconditions recall 1 (learning_statistics_manager.py:176-185). -/
theorem C64_limit_empty_learned :
    ((evaluated [("b", mk ∅ {p1}, mk {p1} {p1})]).export "b").prePrecision = 0 ∧
    ((evaluated [("b", mk ∅ {p1}, mk {p1} {p1})]).export "b").actPrecision = 1 ∧
    unlearnedStats.effPrecision = 1 ∧ unlearnedStats.preRecall = 1 := by decide +kernel

/-- An action added twice is counted twice in the values of the whole model, its first data being lost (lines 97-105): repeating a
badly learned action lowers the precision. -/
theorem C64_limit_added_twice :
    (evaluated [("a", mk {p1} ∅, mk {p1} ∅), ("b", mk {p2} ∅, mk ∅ ∅)]).domPrecision = 1 / 2 ∧
    (evaluated [("a", mk {p1} ∅, mk {p1} ∅), ("b", mk {p2} ∅, mk ∅ ∅), ("b", mk {p2} ∅, mk ∅ ∅)]).domPrecision = 1 / 3 := by
  decide +kernel

/-- SAM on the world of `Props/World.lean`. -/
example : ∃ L' rep, (Learner.init World.D .noRemove false).learn World.obs = .ok (L', rep) ∧
    ((evaluated (World.D.names.map fun b => (b, L'.dom.act b, mk (World.truth b).pre (World.truth b).eff))).export "move").preRecall = 1 := by
  obtain ⟨⟨L', rep⟩, h⟩ := World.learns .noRemove false
  exact ⟨L', rep, h, (C64_sam World.wfD World.wfT World.good h (by decide) (by decide) (by decide)
    (fun b => mk (World.truth b).pre (World.truth b).eff) ⟨rfl, rfl⟩).1⟩

end syntactic

section preconditions
variable {names : List String} {appL appM : State → Call → Bool} {xs : List (State × Call)} {a : String}

/-- The executions of an action in the test data. -/
abbrev runs (a : String) (xs : List (State × Call)) : List (State × Call) := xs.filter fun x => x.2.name = a

/-- Executions that a model accepts. -/
def accepted (app : State → Call → Bool) (l : List (State × Call)) : ℕ := l.countP fun x => app x.1 x.2
/-- Executions that both models accept. -/
def agreed (appL appM : State → Call → Bool) (l : List (State × Call)) : ℕ := l.countP fun x => appL x.1 x.2 && appM x.1 x.2

theorem accepted_split (p q : State → Call → Bool) (l : List (State × Call)) :
    accepted p l = agreed p q l + l.countP fun x => p x.1 x.2 && !q x.1 x.2 := by
  induction l with
  | nil => rfl
  | cons x l ih =>
    unfold accepted agreed at *
    rw [List.countP_cons, List.countP_cons, List.countP_cons, ih]
    cases p x.1 x.2 <;> cases q x.1 x.2 <;> simp <;> omega

theorem agreed_comm (p q : State → Call → Bool) (l : List (State × Call)) : agreed p q l = agreed q p l := by
  unfold agreed; congr 1; funext x; exact Bool.and_comm _ _

/-- **C65.** The reported precision and recall of the preconditions of a learned action that occurs in the test data: of the
executions the learned model accepts, the share the true model accepts; and of those the true model accepts, the share the learned
model accepts. When no execution is accepted by both, the recall is 0 and the precision 1 or 0 as the learned model accepts none
or some. An action that was not learned or not tested has no value (and is reported with 1 and 0). -/
theorem C65_preconditions_metric :
    let k := preCounts names appL appM xs
    let r := runs a xs
    (a ∈ names ∧ r ≠ [] →
      k.precision a = some (if agreed appL appM r = 0 then (if accepted appL r = 0 then 1 else 0) else (agreed appL appM r : ℚ) / accepted appL r) ∧
      k.recall a = some (if agreed appL appM r = 0 then 0 else (agreed appL appM r : ℚ) / accepted appM r)) ∧
    (a ∉ names ∨ r = [] → k.precision a = none ∧ k.recall a = none) := by
  have hs := preFold_spec names appL appM xs .zero a
  dsimp only at hs ⊢
  obtain ⟨h1, h2, h3⟩ := hs
  have h1' : (preCounts names appL appM xs).tp a = _ := h1
  have h2' : (preCounts names appL appM xs).fp a = _ := h2
  have h3' : (preCounts names appL appM xs).fn a = _ := h3
  constructor
  · rintro ⟨ha, hr⟩
    have hr' : runsOf a xs ≠ [] := hr
    rw [if_pos ha] at h1' h2' h3'
    rw [if_neg hr'] at h1'
    have e1 : (preCounts names appL appM xs).tp a = some (agreed appL appM (runs a xs)) := by
      rw [h1']; simp only [Counts.zero, Option.getD_none, zero_add]; rfl
    have e2 := accepted_split appL appM (runs a xs)
    have e3 := accepted_split appM appL (runs a xs)
    have f2 : (preCounts names appL appM xs).fp a = (runs a xs).countP fun x => appL x.1 x.2 && !appM x.1 x.2 := by
      rw [h2']; simp only [Counts.zero, zero_add]; rfl
    have f3 : (preCounts names appL appM xs).fn a = (runs a xs).countP fun x => appM x.1 x.2 && !appL x.1 x.2 := by
      rw [h3']; simp only [Counts.zero, zero_add]
      show List.countP _ (runs a xs) = _
      congr 1; funext x; exact Bool.and_comm _ _
    rw [← f2] at e2
    rw [← f3, agreed_comm appM appL] at e3
    unfold Counts.precision Counts.recall
    rw [e1, Option.map_some, Option.map_some]
    refine ⟨?_, ?_⟩
    · congr 1
      split_ifs with hz h0 h0 h0
      · rfl
      · omega
      · omega
      · rfl
      · rw [e2]; push_cast; rfl
    · congr 1
      split_ifs
      · rfl
      · rw [e3]; push_cast; rfl
  · intro hor
    have hy : (if a ∈ names then runsOf a xs else []) = [] := by
      rcases hor with h | h
      · rw [if_neg h]
      · split_ifs
        · exact h
        · rfl
    rw [hy, if_pos rfl] at h1'
    unfold Counts.precision Counts.recall
    rw [h1']
    exact ⟨rfl, rfl⟩

/-- C65: the values are between 0 and 1. -/
theorem C65_bounds {p r : ℚ} (hp : (preCounts names appL appM xs).precision a = some p)
    (hr : (preCounts names appL appM xs).recall a = some r) : 0 ≤ p ∧ p ≤ 1 ∧ 0 ≤ r ∧ r ≤ 1 :=
  counts_bounds _ _ hp hr

theorem agreed_eq_of_safe (hsafe : ∀ x ∈ runs a xs, appL x.1 x.2 = true → appM x.1 x.2 = true) :
    agreed appL appM (runs a xs) = accepted appL (runs a xs) := by
  unfold agreed accepted
  apply List.countP_congr
  intro x hx
  have := hsafe x hx
  cases h : appL x.1 x.2 <;> simp_all

/-- **C65.** A safe model (every execution it accepts is really possible) always gets precision 1; its recall is the share of the
possible executions that it accepts, if it accepts one. -/
theorem C65_safe (hsafe : ∀ x ∈ runs a xs, appL x.1 x.2 = true → appM x.1 x.2 = true) :
    (∀ p, (preCounts names appL appM xs).precision a = some p → p = 1) ∧
    (∀ r, (preCounts names appL appM xs).recall a = some r →
      r = (accepted appL (runs a xs) : ℚ) / accepted appM (runs a xs)) := by
  have hm := C65_preconditions_metric (names := names) (appL := appL) (appM := appM) (xs := xs) (a := a)
  dsimp only at hm
  by_cases hc : a ∈ names ∧ runs a xs ≠ []
  · obtain ⟨h1, h2⟩ := hm.1 hc
    rw [agreed_eq_of_safe hsafe] at h1 h2
    constructor
    · intro p hp
      rw [h1] at hp
      injection hp with hp
      rw [← hp]
      split_ifs with h
      · rfl
      · exact div_self (by exact_mod_cast h)
    · intro r hr
      rw [h2] at hr
      injection hr with hr
      rw [← hr]
      split_ifs with h
      · rw [h]; simp
      · rfl
  · have := hm.2 (by tauto)
    rw [this.1, this.2]
    exact ⟨fun _ h => by simp at h, fun _ h => by simp at h⟩

/-- **C65.** Between two safe models of which the second accepts more, the second has at least the recall of the first. -/
theorem C65_recall_monotone {appL' : State → Call → Bool}
    (hmore : ∀ x ∈ runs a xs, appL x.1 x.2 = true → appL' x.1 x.2 = true)
    (hsafe : ∀ x ∈ runs a xs, appL' x.1 x.2 = true → appM x.1 x.2 = true) {r r' : ℚ}
    (hr : (preCounts names appL appM xs).recall a = some r) (hr' : (preCounts names appL' appM xs).recall a = some r') : r ≤ r' := by
  rw [(C65_safe (names := names) (fun x hx h => hsafe x hx (hmore x hx h))).2 r hr, (C65_safe (names := names) hsafe).2 r' hr']
  apply div_le_div_of_nonneg_right _ (by positivity)
  unfold accepted
  exact_mod_cast List.countP_mono_left (fun x hx h => hmore x hx h)

/-- C65: the order of the test data is irrelevant. -/
theorem C65_order {ys : List (State × Call)} (hp : xs.Perm ys) :
    (preCounts names appL appM xs).precision a = (preCounts names appL appM ys).precision a ∧
    (preCounts names appL appM xs).recall a = (preCounts names appL appM ys).recall a := by
  have hr : (runs a xs).Perm (runs a ys) := hp.filter _
  have e1 : agreed appL appM (runs a xs) = agreed appL appM (runs a ys) := hr.countP_eq _
  have e2 : accepted appL (runs a xs) = accepted appL (runs a ys) := hr.countP_eq _
  have e3 : accepted appM (runs a xs) = accepted appM (runs a ys) := hr.countP_eq _
  have e4 : runs a xs = [] ↔ runs a ys = [] := by
    constructor <;> intro h
    · rw [h] at hr; exact hr.nil_eq.symm
    · rw [h] at hr; exact hr.eq_nil
  have hx := C65_preconditions_metric (names := names) (appL := appL) (appM := appM) (xs := xs) (a := a)
  have hy := C65_preconditions_metric (names := names) (appL := appL) (appM := appM) (xs := ys) (a := a)
  dsimp only at hx hy
  by_cases hc : a ∈ names ∧ runs a xs ≠ []
  · obtain ⟨h1, h2⟩ := hx.1 hc
    obtain ⟨h3, h4⟩ := hy.1 ⟨hc.1, fun k => hc.2 (e4.mpr k)⟩
    rw [h1, h2, h3, h4, e1, e2, e3]
    exact ⟨rfl, rfl⟩
  · have h1 := hx.2 (by tauto)
    have h2 := hy.2 (by rw [← e4]; tauto)
    rw [h1.1, h1.2, h2.1, h2.2]
    exact ⟨rfl, rfl⟩

/-- Whether a call is applicable according to an action model. -/
def appOf (act : String → ActModel) (s : State) (c : Call) : Bool :=
  decide (applicable (act c.name).pre (subst (Sig.names (act c.name).sig) c.params) s ∧
    ineqHolds (act c.name).ineq (subst (Sig.names (act c.name).sig) c.params))

/-- Whether a call is applicable according to the true actions. -/
def appTrue (truth : String → Schema) (s : State) (c : Call) : Bool :=
  decide (applicable (truth c.name).pre (subst (Sig.names (truth c.name).params) c.params) s)

/-- **C65, SAM.** On any test data whatever, the model returned by SAM is reported with precondition precision 1. -/
theorem C65_sam {D : Domain} {truth : String → Schema} {obs : List (List Component)} {L' : Learner}
    {rep : List (String × Status)} {inj : Bool} (hD : WFDomain D) (hT : WFTruth D truth) (hG : GoodData D truth obs)
    (h : (Learner.init D .noRemove inj).learn obs = .ok (L', rep)) {a : String} (ha : a ∈ D.names)
    (xs : List (State × Call)) {p : ℚ}
    (hp : (preCounts L'.dom.names (appOf L'.dom.act) (appTrue truth) xs).precision a = some p) : p = 1 := by
  refine (C65_safe (names := L'.dom.names) (fun x hx hl => ?_)).1 p hp
  have hxa : x.2.name = a := by simpa using (List.mem_filter.mp hx).2
  unfold appOf at hl
  unfold appTrue
  rw [decide_eq_true_eq] at hl ⊢
  rw [hxa] at hl ⊢
  rw [hT.params a ha]
  have hsig : (L'.dom.act a).sig = (D.act a).sig := (learn_spec (L0 := Learner.init D .noRemove inj) hD.names (init_sigs D _ inj) h).1.static.sig a
  rw [hsig] at hl
  exact C01_preconditions_sufficient hD hT hG h ha _ _ hl.1

/-! Examples and limits. -/

private def s0 : State := ∅
private def calls : List (State × Call) :=
  [(s0, ⟨"a", ["x"]⟩), (s0, ⟨"a", ["y"]⟩), (s0, ⟨"b", []⟩), (s0, ⟨"a", ["z"]⟩), (s0, ⟨"c", []⟩)]
private def aL (_ : State) (c : Call) : Bool := c.params == ["x"]
private def aM (_ : State) (c : Call) : Bool := c.params == ["x"] || c.params == ["y"]

example : (preCounts ["a", "b"] aL aM calls).precision "a" = some 1 ∧ (preCounts ["a", "b"] aL aM calls).recall "a" = some (1 / 2) ∧
    (preCounts ["a", "b"] aL aM calls).precision "c" = none := by decide +kernel
example : ∀ x ∈ runs "a" calls, aL x.1 x.2 = true → aM x.1 x.2 = true := by decide +kernel

/-- An action that is impossible in all tested states, and rightly rejected by the learned model, is reported with recall 0
(semantic_performance_calculator.py:50-53). -/
theorem C65_limit_nothing_possible : (preCounts ["b"] aL aM calls).recall "b" = some 0 ∧
    (runs "b" calls).all (fun x => !aM x.1 x.2) = true := by decide +kernel

end preconditions
end Props

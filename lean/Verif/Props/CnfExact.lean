import Verif.Props.MaSam

/-! C141: the clauses decide exactly what the reports decide. -/
namespace Props
open Model Spec

namespace CnfExact
variable {ops : List CnfOp}

/-- An assignment of effects to actions that agrees with all reports. -/
def Explains (ops : List CnfOp) (T : String → Lit → Prop) : Prop := ∀ op ∈ ops, op.Truthful T

/-- All pairs that were not reported as non-effects, except `q`. -/
def most (ops : List CnfOp) (q : String × Lit → Prop) (a : String) (l : Lit) : Prop := CnfOp.notEffect a l ∉ ops ∧ ¬ q (a, l)

/-- **C141 (certain effects).** A pair is a unit clause exactly when every assignment of effects that agrees with the reports contains it. -/
theorem C141_units_are_certain (hex : ∃ T, Explains ops T) (hs : ∀ op ∈ ops, op.Simple) (a : String) (l : Lit) :
    [(a, l)] ∈ (runCnf ops).clauses ↔ ∀ T, Explains ops T → T a l := by
  constructor
  · intro h T hT
    obtain ⟨p, hp, k⟩ := (C21_clauses_exact ops hT hs).2 _ h
    rw [List.mem_singleton.mp hp] at k
    exact k
  · intro h
    obtain ⟨T0, h0⟩ := hex
    by_contra hno
    refine absurd (h (most ops (· = (a, l))) ?_) (fun k => k.2 rfl)
    intro op hop
    cases op with
    | notEffect b m => exact fun k => k.1 hop
    | possible j =>
      obtain ⟨e1, e2⟩ := C21_clauses_exact ops h0 hs
      have hc := (e1 _).mpr ⟨j, hop, rfl⟩
      by_contra hall
      have hsub : ∀ p ∈ j.filter (fun p => p.2 ∉ (runCnf ops).notEff p.1), p = (a, l) := by
        intro p hp
        obtain ⟨p1, p2⟩ := List.mem_filter.mp hp
        by_contra hne
        refine hall ⟨p, p1, ?_, hne⟩
        rw [← C21_not_effects_exact]
        simpa using p2
      obtain ⟨p, hp, _⟩ := e2 _ hc
      have hnd : (j.filter (fun p => p.2 ∉ (runCnf ops).notEff p.1)).Nodup := (show j.Nodup from hs _ hop).filter _
      have : j.filter (fun p => p.2 ∉ (runCnf ops).notEff p.1) = [(a, l)] := by
        revert hnd hsub hp
        generalize j.filter (fun p => p.2 ∉ (runCnf ops).notEff p.1) = c
        intro hsub hp hnd
        match c with
        | [] => simp at hp
        | [q] => rw [hsub q (by simp)]
        | q :: r :: c => 
          have h1 := hsub q (by simp)
          have h2 := hsub r (by simp)
          rw [h1, h2] at hnd
          simp at hnd
      rw [this] at hc
      exact hno hc

/-- **C141 (excluded effects).** A pair was reported as a non-effect exactly when no assignment that agrees with the reports contains it. -/
theorem C141_excluded (hex : ∃ T, Explains ops T) (a : String) (l : Lit) :
    l ∈ (runCnf ops).notEff a ↔ ∀ T, Explains ops T → ¬ T a l := by
  rw [C21_not_effects_exact]
  constructor
  · intro h T hT
    exact hT _ h
  · intro h
    by_contra hno
    obtain ⟨T0, h0⟩ := hex
    refine h (most ops (fun _ => False)) ?_ ⟨hno, id⟩
    intro op hop
    cases op with
    | notEffect b m => exact fun k => k.1 hop
    | possible j =>
      obtain ⟨p, hp, k⟩ := h0 _ hop
      exact ⟨p, hp, fun hn => h0 _ hn k, id⟩

/-- **C141 (extracted effects).** The effects that are extracted for an action are its certain ones that are not among the given preconditions. -/
theorem C141_extracted_effects (hex : ∃ T, Explains ops T) (hs : ∀ op ∈ ops, op.Simple) (a : String) (pre : Finset Lit) (l : Lit) :
    l ∈ (runCnf ops).extractEffects a pre ↔ (∀ T, Explains ops T → T a l) ∧ l ∉ pre := by
  rw [mem_extractEffects', C141_units_are_certain hex hs]

/-- **C141 (safe actions).** If no clause mentions an action twice, an action is declared safe exactly when all assignments that agree with the
reports agree with each other on every literal that was reported as a possible effect of the action and is not among the given preconditions. -/
theorem C141_safe_iff_determined (hex : ∃ T, Explains ops T) (hs : ∀ op ∈ ops, op.Simple)
    (hd : ∀ j, CnfOp.possible j ∈ ops → (j.map Prod.fst).Nodup) (a : String) (pre : Finset Lit) :
    (runCnf ops).isActionSafe a pre = true ↔
      ∀ j l, CnfOp.possible j ∈ ops → (a, l) ∈ j → l ∉ pre → ∀ T T', Explains ops T → Explains ops T' → (T a l ↔ T' a l) := by
  obtain ⟨T0, h0⟩ := id hex
  obtain ⟨e1, e2⟩ := C21_clauses_exact ops h0 hs
  have hfst : ∀ {j : List (String × Lit)}, (j.map Prod.fst).Nodup → ∀ {l m}, (a, l) ∈ j → (a, m) ∈ j → l = m := by
    intro j hj l m h1 h2
    have := List.inj_on_of_nodup_map hj h1 h2 rfl
    simpa using this
  rw [isActionSafe_iff]
  constructor
  · intro h j l hj hl hpre T T' hT hT'
    by_cases hn : l ∈ (runCnf ops).notEff a
    · have := (C141_excluded hex a l).mp hn
      exact ⟨fun k => absurd k (this T hT), fun k => absurd k (this T' hT')⟩
    · have hc := (e1 _).mpr ⟨j, hj, rfl⟩
      have hlc : (a, l) ∈ j.filter (fun p => p.2 ∉ (runCnf ops).notEff p.1) := List.mem_filter.mpr ⟨hl, by simpa using hn⟩
      have hunit : [(a, l)] ∈ (runCnf ops).clauses := by
        by_cases hlen : (j.filter (fun p => p.2 ∉ (runCnf ops).notEff p.1)).length = 1
        · obtain ⟨q, hq⟩ := List.length_eq_one_iff.mp hlen
          rw [hq] at hc hlc
          rw [List.mem_singleton.mp hlc]
          exact hc
        · rcases h _ hc (List.mem_map.mpr ⟨_, hlc, rfl⟩) hlen with ⟨m, hm, hmc⟩ | k
          · rw [hfst (hd j hj) hl (List.mem_filter.mp hmc).1]
            exact hm
          · exact absurd (k l hlc) hpre
      have := (C141_units_are_certain hex hs a l).mp hunit
      exact ⟨fun _ => this T' hT', fun _ => this T hT⟩
  · intro h c hc hac hlen
    obtain ⟨j, hj, rfl⟩ := (e1 c).mp hc
    obtain ⟨⟨b, l⟩, hl, hb⟩ := List.mem_map.mp hac
    dsimp only at hb
    subst hb
    obtain ⟨hlj, hln⟩ := List.mem_filter.mp hl
    by_cases hpre : l ∈ pre
    · right
      intro m hm
      rw [hfst (hd j hj) (List.mem_filter.mp hm).1 hlj]
      exact hpre
    · left
      refine ⟨l, (C141_units_are_certain hex hs _ l).mpr ?_, hl⟩
      -- some explaining assignment contains the pair, so all do
      have hnot : ¬ ∀ T, Explains ops T → ¬ T b l := by
        rw [← C141_excluded hex]
        simpa using hln
      push Not at hnot
      obtain ⟨T1, h1, h2⟩ := hnot
      exact fun T hT => (h j l hj hlj hpre T1 T h1 hT).mp h2

/-- **C141 (undecided actions).** An action that is not declared safe has a possible effect that is not settled by the reports: one assignment that
agrees with them contains it and another does not. -/
theorem C141_unsafe_is_ambiguous (hex : ∃ T, Explains ops T) (hs : ∀ op ∈ ops, op.Simple)
    (hd : ∀ j, CnfOp.possible j ∈ ops → (j.map Prod.fst).Nodup) (a : String) (pre : Finset Lit) :
    (runCnf ops).isActionSafe a pre = false ↔
      ∃ j l T T', CnfOp.possible j ∈ ops ∧ (a, l) ∈ j ∧ l ∉ pre ∧ Explains ops T ∧ Explains ops T' ∧ T a l ∧ ¬ T' a l := by
  rw [Bool.eq_false_iff, Ne, C141_safe_iff_determined hex hs hd]
  constructor
  · intro h
    push Not at h
    obtain ⟨j, l, h1, h2, h3, T, T', h4, h5, h6⟩ := h
    rcases h6 with ⟨k1, k2⟩ | ⟨k1, k2⟩
    · exact ⟨j, l, T, T', h1, h2, h3, h4, h5, k1, k2⟩
    · exact ⟨j, l, T', T, h1, h2, h3, h5, h4, k2, k1⟩
  · rintro ⟨j, l, T, T', h1, h2, h3, h4, h5, k1, k2⟩ h
    exact k2 ((h j l h1 h2 h3 T T' h4 h5).mp k1)

/-- Two agents that make `p` true together, then the first is seen not to: the effect is the second's. Before the second report nothing is certain. -/
example : let A := ("a", Limits.P "?x")
    let B := ("b", Limits.P "?y")
    Explains [.possible [A, B], .notEffect "a" (Limits.P "?x")] (fun b l => (b, l) = B) ∧
    (∀ op ∈ [CnfOp.possible [A, B], .notEffect "a" (Limits.P "?x")], op.Simple) ∧
    [B] ∈ (runCnf [.possible [A, B], .notEffect "a" (Limits.P "?x")]).clauses ∧
    (runCnf [.possible [A, B]]).isActionSafe "a" ∅ = false ∧
    (runCnf [.possible [A, B], .notEffect "a" (Limits.P "?x")]).isActionSafe "a" ∅ = true := by
  refine ⟨?_, ?_, by decide, by decide, by decide⟩
  · intro op hop
    simp only [List.mem_cons, List.not_mem_nil, or_false] at hop
    rcases hop with rfl | rfl
    · exact ⟨("b", Limits.P "?y"), by simp, rfl⟩
    · simp [CnfOp.Truthful]
  · intro op hop
    simp only [List.mem_cons, List.not_mem_nil, or_false] at hop
    rcases hop with rfl | rfl <;> simp [CnfOp.Simple]

/-- **C141 needs distinct actions.** If a clause mentions an action twice, the action is declared safe although a possible effect is open. -/
theorem C141_needs_distinct_actions : ∃ (ops : List CnfOp) (l m : Lit) (T T' : String → Lit → Prop), (∀ op ∈ ops, op.Simple) ∧
    Explains ops T ∧ Explains ops T' ∧ CnfOp.possible [("a", l), ("a", m)] ∈ ops ∧ T "a" l ∧ ¬ T' "a" l ∧ (runCnf ops).isActionSafe "a" ∅ = true := by
  refine ⟨[.possible [("a", Limits.P "?x")], .possible [("a", Limits.P "?y"), ("a", Limits.P "?x")]], Limits.P "?y", Limits.P "?x",
    fun _ _ => True, fun _ l => l = Limits.P "?x", ?_, ?_, ?_, by simp, trivial, by decide, by decide⟩
  · intro op hop
    simp only [List.mem_cons, List.not_mem_nil, or_false] at hop
    rcases hop with rfl | rfl
    · simp [CnfOp.Simple]
    · show List.Nodup _
      decide
  · intro op hop
    simp only [List.mem_cons, List.not_mem_nil, or_false] at hop
    rcases hop with rfl | rfl
    · exact ⟨_, List.mem_singleton_self _, trivial⟩
    · exact ⟨_, List.mem_cons_self, trivial⟩
  · intro op hop
    simp only [List.mem_cons, List.not_mem_nil, or_false] at hop
    rcases hop with rfl | rfl
    · exact ⟨_, List.mem_singleton_self _, rfl⟩
    · exact ⟨_, List.mem_cons_of_mem _ (List.mem_singleton_self _), rfl⟩

section
open MaLimits Limits

/-- Two joint transitions: "a" and "b" on one object, which becomes `p`; then "a" and "b" on different objects, of which the one of "b" becomes `p`. The
agents are listed in the given order in the second. -/
def twoSteps (second : List Call) : List (List JointComponent) :=
  [[⟨∅, [⟨"a", ["o1"]⟩, ⟨"b", ["o1"]⟩], {A "p" ["o1"]}⟩], [⟨∅, second, {A "p" ["o2"]}⟩]]

/-- **C141 (limit of MA-SAM).** The reports that MA-SAM makes depend on the order of the agents, because only objects of the last executed action
are looked at. The same transitions, with the agents of one joint action in the other order, make it return or drop the action "a". The data
settle that "a" adds nothing: in every action model that explains them `p` is not an effect of "a". -/
theorem C141_order_of_agents : ∃ (D : Domain) (truth : String → Schema) (ord : Finset Lit → List Lit) (L₁ L₂ : MaLearner) (r₁ r₂ : List (String × Status)),
    JointProblemOK D truth (twoSteps [⟨"a", ["o1"]⟩, ⟨"b", ["o2"]⟩]) ∧ JointProblemOK D truth (twoSteps [⟨"b", ["o2"]⟩, ⟨"a", ["o1"]⟩]) ∧
    GoodOrd ord ∧ D.consts = [] ∧
    (MaLearner.init D).learn ord (twoSteps [⟨"a", ["o1"]⟩, ⟨"b", ["o2"]⟩]) = .ok (L₁, r₁) ∧ "a" ∉ L₁.base.dom.names ∧
    (MaLearner.init D).learn ord (twoSteps [⟨"b", ["o2"]⟩, ⟨"a", ["o1"]⟩]) = .ok (L₂, r₂) ∧ "a" ∈ L₂.base.dom.names ∧
    (∀ M, WFTruth D M → (∀ c ∈ (twoSteps [⟨"a", ["o1"]⟩, ⟨"b", ["o2"]⟩]).flatten, JointExplained M c) → P "?x" ∉ (M "a").eff) := by
  let D := dom2 [p1] [] x1 x1
  let ord := ordOf (univP ["o1", "o2"])
  obtain ⟨r₁, h₁⟩ := runMa_eq (ord := ord) (L := MaLearner.init D) (obs := twoSteps [⟨"a", ["o1"]⟩, ⟨"b", ["o2"]⟩]) (by decide +kernel)
  obtain ⟨r₂, h₂⟩ := runMa_eq (ord := ord) (L := MaLearner.init D) (obs := twoSteps [⟨"b", ["o2"]⟩, ⟨"a", ["o1"]⟩]) (by decide +kernel)
  refine ⟨D, tru2 x1 ∅ x1 {P "?x"}, ord, _, _, r₁, r₂, by decide +kernel, by decide +kernel, ordOf_good _, rfl, h₁, by decide +kernel, h₂,
    by decide +kernel, ?_⟩
  intro M hM hE hp
  have := (hE ⟨∅, [⟨"a", ["o1"]⟩, ⟨"b", ["o2"]⟩], {A "p" ["o2"]}⟩ (by simp [twoSteps])).effects ⟨"a", ["o1"]⟩ (by simp) _ hp
  have hs : callSubst M ⟨"a", ["o1"]⟩ = subst ["?x"] ["o1"] := by
    unfold callSubst
    rw [hM.params "a" (by decide)]
    rfl
  rw [hs] at this
  exact absurd this (by decide +kernel)

end

end CnfExact
end Props

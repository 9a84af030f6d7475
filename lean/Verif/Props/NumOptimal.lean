import Verif.Lemmas.Farkas
import Verif.Props.NumPlans
import Verif.Props.IncNumSamCase
import Verif.Props.NumSamCase
import Verif.Props.SamOptimal

/-! C140: the learned numeric preconditions are the most permissive safe ones. -/
namespace Props
open Model Spec

namespace NumOptimal

section
variable {K : Type} [Field K] [LinearOrder K] [IsStrictOrderedRing K] [FloorRing K] {C : Type} [DecidableEq C]

theorem used_nodup {L : List C} (h : L.Nodup) (rel : Option (List C)) : (usedCols rel L).Nodup := by
  unfold usedCols
  cases rel with
  | none => exact h
  | some fs => exact h.filter _

/-- **C140 (batch).** The learned inequalities hold in a state exactly when every linear inequality over the used columns that holds in all
observations holds there. -/
theorem C140_batch {L : NumLib K C} {d : Nat} {colExp : C → NExp K} {cols : List C} {rows : List (C → K)}
    (S : HullSetup L d colExp cols rows ∨ ProjSetup L d colExp cols rows) {margin : K} {relevant : Option (List C)} {cs : List (NCond K)}
    (hout : safeInequalities L d margin true colExp relevant cols rows = .conds cs) (x : String → K) :
    (∀ q ∈ cs, q.holds x) ↔ ∀ (coef : C → K) (b : K), (∀ r ∈ rows, linForm coef (usedCols relevant cols) r ≤ b) →
      linForm coef (usedCols relevant cols) (fun c => (colExp c).eval x) ≤ b := by
  rw [← inHull_iff_halfspaces (used_nodup (S.elim (fun S => S.nodup) fun S => S.nodup) relevant)]
  exact S.elim (fun S => C55_precondition_is_hull S hout x) fun S => C70_projected_precondition_is_hull S hout x

/-- **C140 (incremental).** The same for the incremental learner after any series of observations. -/
theorem C140_incremental {L : NumLib K C} {d : Nat} {margin : K} {colExp : C → NExp K} {cols : List C} {pts : List (C → K)}
    (S : IncSetup L d colExp cols (distinctRows cols [] pts)) {st : IncHull K C}
    (hrun : observe L d margin true colExp cols (IncHull.init cols none) pts = (st, false)) {cs : List (NCond K)}
    (hout : st.safeInequalities d colExp = .conds cs) (x : String → K) :
    (∀ q ∈ cs, q.holds x) ↔ ∀ (coef : C → K) (b : K), (∀ r ∈ pts, linForm coef cols r ≤ b) →
      linForm coef cols (fun c => (colExp c).eval x) ≤ b := by
  rw [← inHull_iff_halfspaces S.hull.nodup]
  exact C76_incremental_is_hull S hrun hout x

end

section
variable {K : Type} [Field K] [LinearOrder K] [IsStrictOrderedRing K] [FloorRing K]
variable {cfg : NumCfg K} {D : Domain} {truth : String → Schema} {obs : List (List (NumComponent K))}
  {N' : NumLearner K} {info : List (String × NumStatus)} {a : String} {A : NumSchema K}

/-- The numeric precondition of a returned action is the convex hull of the observed values of the used monomials. -/
theorem pre_iff_hull (hD : WFDomain D) (hT : WFTruth D truth) (hG : GoodData D truth (obs.map fun o => o.map NumComponent.comp))
    (hfns : cfg.fns ≠ []) (hplain : cfg.plain = true)
    (h : (NumLearner.init D .noRemove).learn cfg obs = .ok (N', info)) (ha : a ∈ N'.base.dom.names)
    (ht : TextOK cfg.txt cfg.fns D.consts (D.act a).sig) (hsc : ∃ f, InScope cfg.fns D.consts (D.act a).sig f)
    (hN : NumGood cfg D a A obs) {rel : Option (List (List String))} (hrel : relevantOf cfg a = .ok rel)
    (hS : HullSetup cfg.lib cfg.digits polyExp (prevColumns cfg D a) (hullRows cfg D a obs) ∨
      ProjSetup cfg.lib cfg.digits polyExp (prevColumns cfg D a) (hullRows cfg D a obs)) (x : String → K) :
    (∀ q ∈ (N'.num a).pre, q.holds x) ↔
      InHull (usedCols rel (prevColumns cfg D a)) ((usableN obs.flatten a).map (prevRow cfg D a)) (monoVal x) := by
  obtain ⟨L', al, HL⟩ := numLearn_spec hD.names hfns h
  rw [HL.names] at ha
  have hlk : ∃ m, al.lookup a = some m := by
    cases hl : al.lookup a with
    | none => rw [Py.lookup_none_iff] at hl; exact absurd ha hl
    | some m => exact ⟨m, rfl⟩
  obtain ⟨m, hm'⟩ := hlk
  obtain ⟨haD, _, hu, hsafe⟩ := HL.allowed _ (lookup_mem hm')
  dsimp only at haD hu hsafe
  have hpart : N'.num a = m := by rw [HL.part, hm']; rfl
  rw [hpart]
  have H := fullObs (hD.sigs a haD) hT hG haD ht hN
  have hne : scopeFns cfg D a ≠ [] := by
    obtain ⟨f, hf⟩ := hsc
    exact List.ne_nil_of_mem (mem_scopeFns.mpr hf)
  have S := storeOf_shape hne _ H (HL.matched a)
  have hu' : (usableN obs.flatten a).map (prevRow cfg D a) ≠ [] := by simpa using hu
  unfold safeAction at hsafe
  rw [hrel] at hsafe
  simp only [Bind.bind, Except.bind] at hsafe
  cases hnp : numericPre cfg rel (storeOf cfg D a (usableN obs.flatten a)) with
  | error e => rw [hnp] at hsafe; simp at hsafe
  | ok cs =>
    cases hne' : numericEff cfg rel (storeOf cfg D a (usableN obs.flatten a)) with
    | error e => rw [hnp, hne'] at hsafe; simp at hsafe
    | ok es =>
      rw [hnp, hne'] at hsafe
      simp only [Except.ok.injEq] at hsafe
      subst hsafe
      dsimp only
      unfold numericPre at hnp
      by_cases hr0 : rel = some []
      · rw [if_pos hr0] at hnp
        simp only [Except.ok.injEq] at hnp
        subst hnp; subst hr0
        refine ⟨fun _ => inHull_congr (cols := []) (fun c => by simp [usedCols]) |>.mp (inHull_nil_cols hu' _), fun _ => by simp⟩
      · rw [if_neg hr0, hplain, S.hullCols hu, S.hullRows hu] at hnp
        cases hsi : safeInequalities cfg.lib cfg.digits cfg.margin true polyExp rel (prevColumns cfg D a)
            (dedupBy (fun r : List String → K => (prevColumns cfg D a).map r) ((usableN obs.flatten a).map (prevRow cfg D a))) with
        | notSafe => rw [hsi] at hnp; simp at hnp
        | crash => rw [hsi] at hnp; simp at hnp
        | conds cs' =>
          rw [hsi] at hnp
          dsimp only at hnp
          split_ifs at hnp
          simp only [Except.ok.injEq] at hnp
          subst hnp
          have hh := hS.elim (fun hS => C55_precondition_is_hull hS hsi x) fun hS => C70_projected_precondition_is_hull hS hsi x
          rw [hh]
          have e : ∀ c ∈ usedCols rel (prevColumns cfg D a), (polyExp c : NExp K).eval x = monoVal x c :=
            fun c hc => colVal_mono ht (usedCols_sub hc)
          constructor
          · intro k
            exact inHull_trans (fun r hr => inHull_row (dedupBy_mem hr)) (inHull_agree e k)
          · intro k
            refine inHull_trans (fun r hr => ?_) (inHull_agree (fun c hc => (e c hc).symm) k)
            obtain ⟨r', k1, k2⟩ := dedupBy_rep (key := fun r : List String → K => (prevColumns cfg D a).map r) hr
            exact inHull_agree (fun q hq => List.map_inj_left.mp k2 q (usedCols_sub hq)) (inHull_row k1)

/-- All usable observations of the action satisfy the condition on the values of the monomials. -/
def HeldBefore (cfg : NumCfg K) (D : Domain) (a : String) (obs : List (List (NumComponent K))) (P : (List String → K) → Prop) : Prop :=
  ∀ c ∈ obs.flatten, c.comp.success = true → c.comp.call.name = a → c.comp.call.params.Nodup →
    ∀ y, Lifts cfg.txt cfg.fns D.consts (D.act a).sig (subst (Sig.names (D.act a).sig) c.comp.call.params) (fun g => (c.prevN.lookup g).getD 0) y → P (monoVal y)

/-- The rows of the observations satisfy a linear inequality exactly when it held before them. -/
theorem held_iff (ht : TextOK cfg.txt cfg.fns D.consts (D.act a).sig) {used : List (List String)} (hused : ∀ q ∈ used, q ∈ prevColumns cfg D a)
    (coef : List String → K) (b : K) :
    (∀ r ∈ (usableN obs.flatten a).map (prevRow cfg D a), linForm coef used r ≤ b) ↔
      HeldBefore cfg D a obs (fun v => linForm coef used v ≤ b) := by
  have hrow : ∀ c : NumComponent K, c.comp.call.name = a → ∀ y,
      Lifts cfg.txt cfg.fns D.consts (D.act a).sig (subst (Sig.names (D.act a).sig) c.comp.call.params) (fun g => (c.prevN.lookup g).getD 0) y →
      linForm coef used (prevRow cfg D a c) = linForm coef used (monoVal y) := by
    intro c hn y hy
    unfold linForm
    congr 1
    apply List.map_congr_left
    intro q hq
    have hq' := hused q hq
    rw [prevRow_lifts ht c hq']
    congr 1
    unfold monoVal
    congr 1
    apply List.map_congr_left
    intro n hnq
    obtain ⟨f, hf, rfl⟩ := (mem_prevColumns ht hq').2 n hnq
    have e4 := stateVal_lifts ht (Model.callSubst D c) c.prevN f hf
    rw [e4, hy f hf]
    unfold Model.callSubst
    rw [hn]
  constructor
  · intro k c hc hs hn hd y hy
    rw [← hrow c hn y hy]
    exact k _ (List.mem_map_of_mem (mem_usableN.mpr ⟨hc, hs, hn, hd⟩))
  · intro k r hr
    obtain ⟨c, hc, rfl⟩ := List.mem_map.mp hr
    obtain ⟨hc, hs, hn, hd⟩ := mem_usableN.mp hc
    have hl := stateVal_lifts (cfg := cfg) (D := D) (a := a) ht (Model.callSubst D c) c.prevN
    have hl' : Lifts cfg.txt cfg.fns D.consts (D.act a).sig (subst (Sig.names (D.act a).sig) c.comp.call.params) (fun g => (c.prevN.lookup g).getD 0)
        (stateVal cfg.txt (scopeFns cfg D a) (Model.callSubst D c) c.prevN) := by
      unfold Model.callSubst at hl ⊢
      rw [hn] at hl ⊢
      exact hl
    rw [hrow c hn _ hl']
    exact k c hc hs hn hd _ hl'

/-- **C140.** The numeric precondition of an action that N-SAM returned is true in a state exactly when every linear inequality over the used
monomials that held before all its usable observations holds there: no linear precondition that is certain from the data is missing,
and none that is learned is uncertain. -/
theorem C140_numeric_precondition_exact (hD : WFDomain D) (hT : WFTruth D truth) (hG : GoodData D truth (obs.map fun o => o.map NumComponent.comp))
    (hfns : cfg.fns ≠ []) (hplain : cfg.plain = true)
    (h : (NumLearner.init D .noRemove).learn cfg obs = .ok (N', info)) (ha : a ∈ N'.base.dom.names)
    (ht : TextOK cfg.txt cfg.fns D.consts (D.act a).sig) (hsc : ∃ f, InScope cfg.fns D.consts (D.act a).sig f)
    (hN : NumGood cfg D a A obs) {rel : Option (List (List String))} (hrel : relevantOf cfg a = .ok rel)
    (hS : HullSetup cfg.lib cfg.digits polyExp (prevColumns cfg D a) (hullRows cfg D a obs) ∨
      ProjSetup cfg.lib cfg.digits polyExp (prevColumns cfg D a) (hullRows cfg D a obs)) (x : String → K) :
    (∀ q ∈ (N'.num a).pre, q.holds x) ↔
      ∀ (coef : List String → K) (b : K), HeldBefore cfg D a obs (fun v => linForm coef (usedCols rel (prevColumns cfg D a)) v ≤ b) →
        linForm coef (usedCols rel (prevColumns cfg D a)) (monoVal x) ≤ b := by
  rw [pre_iff_hull hD hT hG hfns hplain h ha ht hsc hN hrel hS x, inHull_iff_halfspaces (used_nodup (prevColumns_nodup ht) rel)]
  constructor
  · intro k coef b hb
    exact k coef b ((held_iff ht (fun q hq => usedCols_sub hq) coef b).mpr hb)
  · intro k coef b hb
    exact k coef b ((held_iff ht (fun q hq => usedCols_sub hq) coef b).mp hb)

/-- **C140 (incremental N-SAM).** The same for incremental N-SAM, over all monomials. -/
theorem C140_incremental_precondition_exact {policy : Policy} {I' : Model.IncNumSam.IncLearner K} (hD : WFDomain D) (hT : WFTruth D truth)
    (hG : GoodData D truth (obs.map fun o => o.map NumComponent.comp)) (hfns : cfg.fns ≠ []) (hplain : cfg.plain = true)
    (h : (Model.IncNumSam.IncLearner.init D policy).learn cfg obs = .ok (I', info)) (ha : a ∈ I'.base.dom.names)
    (ht : TextOK cfg.txt cfg.fns D.consts (D.act a).sig) (hsc : ∃ f, InScope cfg.fns D.consts (D.act a).sig f)
    (hN : NumGood cfg D a A obs) (hrel : relevantOf cfg a ≠ .ok (some []))
    (hS : IncSetup cfg.lib cfg.digits polyExp (prevColumns cfg D a) (distinctRows (prevColumns cfg D a) [] (Props.IncNumSam.points cfg D a obs)))
    (x : String → K) :
    (∀ q ∈ (I'.num a).pre, q.holds x) ↔
      ∀ (coef : List String → K) (b : K), HeldBefore cfg D a obs (fun v => linForm coef (prevColumns cfg D a) v ≤ b) →
        linForm coef (prevColumns cfg D a) (monoVal x) ≤ b := by
  rw [Props.IncNumSam.C111_precondition_is_hull hD hT hG hfns hplain h ha ht hsc hN hrel hS x, inHull_iff_halfspaces (prevColumns_nodup ht)]
  constructor
  · intro k coef b hb
    exact k coef b ((held_iff ht (fun q hq => hq) coef b).mpr hb)
  · intro k coef b hb
    exact k coef b ((held_iff ht (fun q hq => hq) coef b).mp hb)

/-- **C140 (acceptance).** A state is accepted by a returned action exactly when it is accepted by all candidates: all action models that
explain the boolean parts of the transitions, with all linear numeric preconditions that held before all usable observations. -/
theorem C140_accepts_iff (hD : WFDomain D) (hT : WFTruth D truth) (hG : GoodData D truth (obs.map fun o => o.map NumComponent.comp))
    (hfns : cfg.fns ≠ []) (hplain : cfg.plain = true)
    (h : (NumLearner.init D .noRemove).learn cfg obs = .ok (N', info)) (ha : a ∈ N'.base.dom.names)
    (ht : TextOK cfg.txt cfg.fns D.consts (D.act a).sig) (hsc : ∃ f, InScope cfg.fns D.consts (D.act a).sig f)
    (hN : NumGood cfg D a A obs) {rel : Option (List (List String))} (hrel : relevantOf cfg a = .ok rel)
    (hS : HullSetup cfg.lib cfg.digits polyExp (prevColumns cfg D a) (hullRows cfg D a obs) ∨
      ProjSetup cfg.lib cfg.digits polyExp (prevColumns cfg D a) (hullRows cfg D a obs)) (ρ : String → String) (s : State) (x : String → K) :
    (applicable (N'.base.dom.act a).pre ρ s ∧ ∀ q ∈ (N'.num a).pre, q.holds x) ↔
      ∀ (M : String → Schema) (P : List ((List String → K) × K)), Candidate D M (obs.map fun o => o.map NumComponent.comp) →
        (∀ p ∈ P, HeldBefore cfg D a obs (fun v => linForm p.1 (usedCols rel (prevColumns cfg D a)) v ≤ p.2)) →
        applicable (M a).pre ρ s ∧ ∀ p ∈ P, linForm p.1 (usedCols rel (prevColumns cfg D a)) (monoVal x) ≤ p.2 := by
  have hnum := C140_numeric_precondition_exact hD hT hG hfns hplain h ha ht hsc hN hrel hS x
  obtain ⟨L', al, HL⟩ := numLearn_spec hD.names hfns h
  obtain ⟨rep, hbase⟩ := HL.base
  have ha' := ha
  rw [HL.names] at ha'
  obtain ⟨p, hp, hpa⟩ := List.mem_map.mp ha'
  have haD : a ∈ D.names := hpa ▸ (HL.allowed p hp).1
  have hcand : Candidate D truth (obs.map fun o => o.map NumComponent.comp) := ⟨hT, fun c hc hs _ => hG.explained c hc hs⟩
  have hbool := SamOptimal.C139_accepts_iff hD hcand (fun c hc hs hd => hG.noConst c hc hs hd) hbase haD ρ s
  rw [HL.pre a ha', hbool, hnum]
  constructor
  · rintro ⟨k1, k2⟩ M P hM hP
    exact ⟨k1 M hM, fun p hp => k2 p.1 p.2 (hP p hp)⟩
  · intro k
    refine ⟨fun M hM => (k M [] hM (by simp)).1, fun coef b hb => ?_⟩
    exact (k truth [(coef, b)] hcand (by simpa using hb)).2 (coef, b) (by simp)

end

/-! ### A case -/

section
open NumWorld
open World hiding obs

/-- Moving costs fuel: all hypotheses hold; with 4 units of fuel `move` is accepted, with 6 it is not, because `fuel ≤ 5` held in all observations. -/
example : ∃ N' info, (NumLearner.init D .noRemove).learn cfg obs = .ok (N', info) ∧ "move" ∈ N'.base.dom.names ∧
    WFDomain D ∧ WFTruth D truth ∧ GoodData D truth (obs.map fun o => o.map NumComponent.comp) ∧ cfg.fns ≠ [] ∧ cfg.plain = true ∧
    TextOK cfg.txt cfg.fns D.consts (D.act "move").sig ∧ NumGood cfg D "move" truthN obs ∧ relevantOf cfg "move" = .ok none ∧
    HullSetup cfg.lib cfg.digits polyExp (prevColumns cfg D "move") (hullRows cfg D "move" obs) ∧
    (∀ q ∈ (N'.num "move").pre, q.holds (fun _ => (4 : ℚ))) ∧ ¬ (∀ q ∈ (N'.num "move").pre, q.holds (fun _ => (6 : ℚ))) := by
  obtain ⟨N', info, h1, h2, h3, _, _⟩ := run
  refine ⟨N', info, h1, by rw [h2]; simp, wfD, wfT, good, by simp [cfg], rfl, textOK, explained, rfl, setup, ?_, ?_⟩
  · rw [h3]; decide +kernel
  · rw [h3]; decide +kernel

end
end NumOptimal
end Props

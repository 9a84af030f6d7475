import Verif.Lemmas.UniConstruct
import Verif.Lemmas.CondLearn

/-! The outcome of `UniversallyConditionalSAM.learn_action_model`, in terms of the data. -/
namespace Model
open Spec

section
variable {add : Cond → Cond → Cond} {deep : Bool} {ord : LitOrd} (hadd : AddOK add) (ho : EnumNodup ord)
include hadd ho

/-- One action. -/
theorem uniConstruct_one {U : UniLearner} {a : String} {d0 : DepSet} (qd : String → DepSet)
    (hd : U.base.deps a = some d0) (hok : d0.OK) (hnd : (d0.possible.map Prod.fst).Nodup) (hcb : U.base.base.cannotBe a = ∅)
    (hc0 : U.base.conds a = []) (he0 : U.base.condEffs a = []) (heff : (U.base.base.dom.act a).eff = ∅)
    {ts : List String} (hts : U.umap.lookup a = some ts) (hts0 : ts = [] → U.addl a = [])
    (hn : ((U.addl a).map Prod.fst).Nodup) (hu : U.uconds a = [])
    (hq : ∀ tv ∈ U.addl a, U.q a tv.1 = some (qd tv.1) ∧ (qd tv.1).OK ∧ ((qd tv.1).possible.map Prod.fst).Nodup)
    (hue : U.ueffs a = fun _ => []) :
    ∃ U', U.constructAction add deep ord a = .ok U' ∧ SameBase a { U with base := U'.base } U' ∧ Touch a U.base U'.base ∧
      (∀ u ∈ U'.uconds a, ∃ tv ∈ U.addl a, u.var = tv.2 ∧ u.type = tv.1 ∧ ∃ l cs,
        ((qd tv.1).removePre ord (U'.base.preLits a)).possible.lookup l = some cs ∧ 2 ≤ cs.length ∧
        CondFrom add deep ord (U'.base.preLits a) (U'.uconds a) ((qd tv.1).removePre ord (U'.base.preLits a)) (U.obsU a tv.1) l u.cond) ∧
      ∀ tv ∈ U.addl a, QBuilt add deep ord (U'.base.preLits a) (U'.uconds a) ((qd tv.1).removePre ord (U'.base.preLits a)) tv.2 tv.1
        (U.obsU a tv.1) (U'.ueffs a tv.1) := by
  obtain ⟨K', k1, k2, _⟩ := constructAction_spec hadd ho hd hok hnd hcb hc0 he0 heff
  cases hcs : ts with
  | nil =>
    refine ⟨{ U with base := K' }, ?_, SameBase.refl a _, k2, ?_, ?_⟩
    · unfold UniLearner.constructAction
      simp only [Bind.bind, Except.bind, k1, hts, hcs]
    · intro u hu'
      rw [show ({ U with base := K' } : UniLearner).uconds a = [] from hu] at hu'
      simp at hu'
    · intro tv htv
      rw [hts0 hcs] at htv
      simp at htv
  | cons t0 ts0 =>
    let V : UniLearner := ({ U with base := K' } : UniLearner).removePreU deep ord a
    have hp : ({ U with base := K' } : UniLearner).preLits deep a = K'.preLits a := by
      unfold UniLearner.preLits
      rw [show ({ U with base := K' } : UniLearner).uconds a = [] from hu]
      simp [upreLits, Cond.litsAll]
    obtain ⟨U2, more, e1, e2, e3, e4, e5, e6, e7⟩ := verifyTypes_spec (deep := deep) (a := a) hadd ho
      (fun t => (qd t).removePre ord (K'.preLits a)) (U.addl a) V hn (by
        intro tv htv
        obtain ⟨g1, g2, g3⟩ := hq tv htv
        obtain ⟨r1, r2⟩ := removePre_ok ho g2 g3 (K'.preLits a)
        refine ⟨?_, r1, r2, ?_⟩
        · simp only [V, UniLearner.removePreU, Function.update_self]
          rw [hp]
          rw [show ({ U with base := K' } : UniLearner).q a tv.1 = some (qd tv.1) from g1]
          rfl
        · show U.ueffs a tv.1 = []
          rw [hue])
    have hcon : V.constructU add deep ord a = .ok { U2 with ueffs := Function.update U2.ueffs a fun t => compress (U2.ueffs a t) } := by
      unfold UniLearner.constructU
      rw [show V.addl a = U.addl a from rfl, e1]
      rfl
    have hall : U.constructAction add deep ord a = .ok { U2 with ueffs := Function.update U2.ueffs a fun t => compress (U2.ueffs a t) } := by
      unfold UniLearner.constructAction
      simp only [Bind.bind, Except.bind, k1, hts, hcs]
      exact hcon
    have hbase : U2.base = K' := e2.base
    refine ⟨_, hall, (constructAction_base hall).2, by rw [hbase]; exact k2, ?_, ?_⟩
    · intro u hu'
      rw [show V.uconds a = [] from hu, List.nil_append] at e5
      dsimp only at hu' ⊢
      rw [e5] at hu'
      rw [hbase]
      exact e6 u hu'
    · intro tv htv
      have := e7 tv htv
      dsimp only
      rw [Function.update_self, hbase]
      exact this

/-- All actions. -/
theorem uniConstruct_all (D0 : String → DepSet) (qd : String → String → DepSet) : ∀ (as : List String) (U : UniLearner), as.Nodup →
    (∀ a ∈ as, U.base.deps a = some (D0 a) ∧ (D0 a).OK ∧ ((D0 a).possible.map Prod.fst).Nodup ∧ U.base.base.cannotBe a = ∅ ∧
      U.base.conds a = [] ∧ U.base.condEffs a = [] ∧ (U.base.base.dom.act a).eff = ∅) →
    (∀ a ∈ as, (∃ ts, U.umap.lookup a = some ts ∧ (ts = [] → U.addl a = [])) ∧ ((U.addl a).map Prod.fst).Nodup ∧ U.uconds a = [] ∧
      (∀ tv ∈ U.addl a, U.q a tv.1 = some (qd a tv.1) ∧ (qd a tv.1).OK ∧ ((qd a tv.1).possible.map Prod.fst).Nodup) ∧
      U.ueffs a = fun _ => []) →
    ∃ U', as.foldlM (UniLearner.constructAction add deep ord) U = .ok U' ∧ U'.types = U.types ∧ U'.umap = U.umap ∧ U'.addl = U.addl ∧
      U'.obsU = U.obsU ∧
      (∀ a, a ∉ as → U'.uconds a = U.uconds a ∧ U'.ueffs a = U.ueffs a ∧ U'.base.conds a = U.base.conds a ∧
        U'.base.base.dom.act a = U.base.base.dom.act a) ∧
      ∀ a ∈ as, (∀ u ∈ U'.uconds a, ∃ tv ∈ U.addl a, u.var = tv.2 ∧ u.type = tv.1 ∧ ∃ l cs,
          ((qd a tv.1).removePre ord (U'.base.preLits a)).possible.lookup l = some cs ∧ 2 ≤ cs.length ∧
          CondFrom add deep ord (U'.base.preLits a) (U'.uconds a) ((qd a tv.1).removePre ord (U'.base.preLits a)) (U.obsU a tv.1) l u.cond) ∧
        ∀ tv ∈ U.addl a, QBuilt add deep ord (U'.base.preLits a) (U'.uconds a) ((qd a tv.1).removePre ord (U'.base.preLits a)) tv.2 tv.1
          (U.obsU a tv.1) (U'.ueffs a tv.1) := by
  intro as
  induction as with
  | nil => intro U _ _ _; exact ⟨U, rfl, rfl, rfl, rfl, rfl, by simp, by simp⟩
  | cons b as ih =>
    intro U hnd h1 h2
    obtain ⟨hb, hnd'⟩ := List.nodup_cons.mp hnd
    obtain ⟨a1, a2, a3, a4, a5, a6, a7⟩ := h1 b (by simp)
    obtain ⟨⟨ts, b1, b2⟩, b3, b4, b5, b6⟩ := h2 b (by simp)
    obtain ⟨U1, e1, e2, e3, e4, e5⟩ := uniConstruct_one (deep := deep) hadd ho (qd b) a1 a2 a3 a4 a5 a6 a7 b1 b2 b3 b4 b5 b6
    have hne : ∀ a ∈ as, a ≠ b := fun a ha e => hb (e ▸ ha)
    obtain ⟨U2, f1, f2, f3, f4, f5, f6, f7⟩ := ih U1 hnd' (by
        intro a ha
        obtain ⟨c1, c2, c3, c4, c5, c6, c7⟩ := h1 a (by simp [ha])
        exact ⟨by rw [e3.deps a (hne a ha), c1], c2, c3, by rw [e3.cannotBe, c4], by rw [e3.conds a (hne a ha), c5],
          by rw [e3.condEffs a (hne a ha), c6], by rw [e3.acts a (hne a ha), c7]⟩) (by
        intro a ha
        obtain ⟨⟨ts, c1, c1'⟩, c2, c3, c4, c5⟩ := h2 a (by simp [ha])
        refine ⟨⟨ts, by rw [e2.umap]; exact c1, by rw [e2.addl]; exact c1'⟩, by rw [e2.addl]; exact c2,
          by rw [e2.ucondsOther a (hne a ha)]; exact c3, ?_, by rw [e2.ueffsOther a (hne a ha)]; exact c5⟩
        intro tv htv
        rw [e2.addl] at htv
        rw [e2.qOther a (hne a ha)]
        exact c4 tv htv)
    refine ⟨U2, ?_, f2.trans e2.types, f3.trans e2.umap, f4.trans e2.addl, f5.trans e2.obsU, ?_, ?_⟩
    · rw [List.foldlM_cons, e1]; exact f1
    · intro a ha
      simp only [List.mem_cons, not_or] at ha
      obtain ⟨g1, g2, g3, g4⟩ := f6 a ha.2
      exact ⟨g1.trans (e2.ucondsOther a ha.1), g2.trans (e2.ueffsOther a ha.1), g3.trans (e3.conds a ha.1), g4.trans (e3.acts a ha.1)⟩
    · intro a ha
      rcases List.mem_cons.mp ha with rfl | ha
      · obtain ⟨g1, g2, g3, g4⟩ := f6 a hb
        have hp : U2.base.preLits a = U1.base.preLits a := by
          unfold CondLearner.preLits
          rw [g3, g4]
        rw [hp, g1, g2]
        exact ⟨e4, e5⟩
      · have := f7 a ha
        rw [e2.addl, e2.obsU] at this
        exact this

/-- What is learned of one action and type, beside the part without quantifiers. -/
structure QuantOutcome (add : Cond → Cond → Cond) (deep : Bool) (ord : LitOrd) (D : Domain) (n : Nat) (obs : List UniObs) (U' : UniLearner)
    (a : String) (T : PType) (v : String) (d : DepSet) : Prop where
  ok : d.OK
  lookup : ∀ l, d.possible.lookup l = if l ∈ U'.base.preLits a then none
    else if l ∈ liftedVocab D ((D.act a).sig ++ [(v, T)]) (some v) then
      some (((createCnf ord (liftedVocab D ((D.act a).sig ++ [(v, T)])) n).filter
        fun A => ∀ c ∈ withObjects a T obs, Surv (extend D a v T) c l A).filter fun A => ∀ x ∈ A, x ∉ U'.base.preLits a)
    else none
  obsU : ∀ l, l ∈ U'.obsU a T.name ↔ v ∈ l.args ∧ ∃ c ∈ withObjects a T obs, l ∈ obsEff (extend D a v T) c
  built : QBuilt add deep ord (U'.base.preLits a) (U'.uconds a) d v T.name (U'.obsU a T.name) (U'.ueffs a T.name)

/-- The outcome for one action. -/
structure UniOutcome (add : Cond → Cond → Cond) (deep : Bool) (ord : LitOrd) (D : Domain) (types : List PType)
    (umap : List (String × List String)) (n : Nat) (obs : List UniObs) (U' : UniLearner) (a : String) (ts : List String) : Prop where
  base : CondOutcome add ord D n (allComps obs) U'.base a
  listed : umap.lookup a = some ts
  addl : U'.addl a = (learnedTypes types ts).map fun t => (t.name, additionalName (D.act a).sig t)
  quant : ∀ T ∈ learnedTypes types ts, ∃ d, QuantOutcome add deep ord D n obs U' a T (additionalName (D.act a).sig T) d
  conds : ∀ u ∈ U'.uconds a, ∃ T ∈ learnedTypes types ts, u.var = additionalName (D.act a).sig T ∧ u.type = T.name ∧
    ∃ d l cs, QuantOutcome add deep ord D n obs U' a T (additionalName (D.act a).sig T) d ∧ d.possible.lookup l = some cs ∧ 2 ≤ cs.length ∧
      CondFrom add deep ord (U'.base.preLits a) (U'.uconds a) d (U'.obsU a T.name) l u.cond

omit hadd ho in
theorem map_snd_flat (obs : List UniObs) : (flat obs).map Prod.snd = allComps obs := by
  unfold flat allComps
  rw [List.map_flatMap]
  congr 1
  funext ob
  rw [List.map_map]
  exact List.map_id _

/-- If no component raises, all is returned, and this is what. -/
theorem uniLearn_spec {D : Domain} (hD : WFDomain D) {types : List PType} {umap : List (String × List String)} {n : Nat} {p : Policy}
    {obs : List UniObs} (hO : ObjsOK D types (flat obs)) {V : UniLearner}
    (hV : ({ UniLearner.init D types umap n p with base := { CondLearner.init D n p with base := (Learner.init D p).deduceIneq } } :
      UniLearner).process ord obs = .ok V) :
    ∃ U', (UniLearner.init D types umap n p).learn add deep ord obs = .ok (U', U'.base.base.report) ∧
      (CondLearner.init D n p).learn add ord (obs.map Prod.snd) = .ok (U'.base, U'.base.base.report) ∧
      U'.types = types ∧ U'.umap = umap ∧ (∀ a, a ∈ U'.base.base.observed ↔ ∃ c ∈ allComps obs, c.call.name = a) ∧
      (∀ a ∈ U'.base.base.observed, a ∈ D.names) ∧
      ∀ a ∈ U'.base.base.observed, ∃ ts, UniOutcome add deep ord D types umap n obs U' a ts := by
  have hI := UniInv.process ho hD obs [] _ (UniInv.start (ord := ord) hD p n types umap) hO hV
  rw [List.nil_append] at hI
  have hB := hI.base
  rw [map_snd_flat] at hB
  let V1 : UniLearner := { V with base := { V.base with base := { V.base.base with dom := { V.base.base.dom with names := V.base.base.observed } } } }
  obtain ⟨D0, hD0⟩ : ∃ D0 : String → DepSet, ∀ a ∈ V.base.base.observed, V.base.deps a = some (D0 a) := by
    refine ⟨fun a => (V.base.deps a).getD (DepSet.new n), fun a ha => ?_⟩
    obtain ⟨d, hd, _⟩ := hB.deps a ha
    simp [hd]
  let qd : String → String → DepSet := fun a t => (V.q a t).getD (DepSet.new n)
  have hqd : ∀ a ∈ V.base.base.observed, ∀ tv ∈ V.addl a, V.q a tv.1 = some (qd a tv.1) ∧ (qd a tv.1).OK ∧
      ((qd a tv.1).possible.map Prod.fst).Nodup := by
    intro a ha tv htv
    obtain ⟨ts, g1, g2, g3⟩ := hI.seen a ha
    rw [g2, List.mem_map] at htv
    obtain ⟨T, hT, rfl⟩ := htv
    obtain ⟨d, k1, k2, _, k4, _⟩ := (g3 T hT).deps
    have : qd a T.name = d := by simp only [qd, k1, Option.getD_some]
    dsimp only
    rw [this]
    exact ⟨k1, k2, k4⟩
  obtain ⟨U2, f1, f2, f3, f4, f5, _, f7⟩ := uniConstruct_all (deep := deep) hadd ho D0 qd V.base.base.observed V1 hB.obsNodup (by
      intro a ha
      obtain ⟨d, k1, k2, _, k4, _⟩ := hB.deps a ha
      have : D0 a = d := by have := hD0 a ha; rw [k1] at this; simpa using this.symm
      exact ⟨hD0 a ha, by rw [this]; exact k2, by rw [this]; exact k4, by simp [V1, hB.cannotBe], by simp [V1, hB.conds],
        by simp [V1, hB.condEffs], hB.eff a (hB.obsNames a ha)⟩) (by
      intro a ha
      obtain ⟨ts, g1, g2, _⟩ := hI.seen a ha
      refine ⟨⟨ts, by rw [show V1.umap = V.umap from rfl, hI.umapEq]; exact g1, fun e => ?_⟩, ?_, by
        rw [show V1.uconds = V.uconds from rfl, hI.uconds], hqd a ha, by rw [show V1.ueffs = V.ueffs from rfl, hI.ueffs]⟩
      · rw [show V1.addl a = V.addl a from rfl, g2, e]
        simp [learnedTypes]
      · rw [show V1.addl a = V.addl a from rfl, g2, List.map_map]
        exact hO.learned ts)
  have hlearn : (UniLearner.init D types umap n p).learn add deep ord obs = .ok (U2, U2.base.base.report) := by
    unfold UniLearner.learn
    simp only [Bind.bind, Except.bind]
    rw [show ({ UniLearner.init D types umap n p with base := { (UniLearner.init D types umap n p).base with
      base := (UniLearner.init D types umap n p).base.base.deduceIneq } } : UniLearner).process ord obs = .ok V from hV]
    have : V.constructSafe add deep ord = .ok U2 := f1
    dsimp only
    rw [this]
  obtain ⟨hbl, hcn⟩ := learn_base ho hD (fun ob hob c hc => hO.calls (ob.1, c) (mem_flat.mpr ⟨ob, hob, rfl, hc⟩)) hlearn
  have hfl : (obs.map Prod.snd).flatten = allComps obs := by unfold allComps; rw [List.flatMap_def]
  obtain ⟨K', k1, k2, k3, k4, k5, k6⟩ := condLearn_spec hadd ho hD n p (obs.map Prod.snd) (by rw [hfl]; exact fun c hc => (hcn c hc).1)
  have hK : K' = U2.base := by
    have := hbl.symm.trans k1
    simp only [Except.ok.injEq, Prod.mk.injEq] at this
    exact this.1.symm
  subst hK
  rw [hfl] at k5 k6
  refine ⟨U2, hlearn, hbl, f2.trans hI.typesEq, f3.trans hI.umapEq, k5, ?_, ?_⟩
  · intro a ha
    obtain ⟨c, hc, rfl⟩ := (k5 a).mp ha
    exact (hcn c hc).1
  · intro a ha
    have ha' : a ∈ V.base.base.observed := (hB.observed a).mpr ((k5 a).mp ha)
    obtain ⟨ts, g1, g2, g3⟩ := hI.seen a ha'
    obtain ⟨c1, c2⟩ := f7 a ha'
    have hq : ∀ T ∈ learnedTypes types ts, QuantOutcome add deep ord D n obs U2 a T (additionalName (D.act a).sig T)
        ((qd a T.name).removePre ord (U2.base.preLits a)) := by
      intro T hT
      obtain ⟨d, q1, q2, q3, q4, q5⟩ := (g3 T hT).deps
      have hd : qd a T.name = d := by simp only [qd, q1, Option.getD_some]
      have hmem : (T.name, additionalName (D.act a).sig T) ∈ V1.addl a := by
        rw [show V1.addl a = V.addl a from rfl, g2]
        exact List.mem_map.mpr ⟨T, hT, rfl⟩
      have hob : U2.obsU a T.name = V.obsU a T.name := by rw [f5]
      refine ⟨(removePre_ok ho (by rw [hd]; exact q2) (by rw [hd]; exact q4) _).1, ?_, ?_, ?_⟩
      · intro l
        rw [lookup_removePre ho (by rw [hd]; exact q2), hd, q5]
        by_cases hl : l ∈ U2.base.preLits a
        · rw [if_pos hl, if_pos hl]
        · rw [if_neg hl, if_neg hl]
          split
          · rw [Option.map_some]
            congr 2
            apply List.filter_congr
            intro A _
            rw [decide_eq_decide]
            simp only [mem_withObjects]
          · rfl
      · intro l
        rw [hob, (g3 T hT).obs]
        simp only [mem_withObjects]
      · rw [hob]
        exact c2 _ hmem
    refine ⟨ts, k6 a ha, g1, by rw [f4]; exact g2, fun T hT => ⟨_, hq T hT⟩, ?_⟩
    intro u hu
    obtain ⟨tv, h1, h2, h3, l, cs, h4, h5, h6⟩ := c1 u hu
    rw [show V1.addl a = V.addl a from rfl, g2, List.mem_map] at h1
    obtain ⟨T, hT, rfl⟩ := h1
    exact ⟨T, hT, h2, h3, _, l, cs, hq T hT, h4, h5, by rw [f5]; exact h6⟩

end
end Model

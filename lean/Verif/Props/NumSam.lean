import Verif.Lemmas.NumModel
import Verif.Lemmas.HullMargin
import Verif.Props.SamSafety
import Verif.Props.Projection

/-!
C61, C62, C63: N-SAM from observations to the learned model: what is stored, safety of the learned
actions (boolean and numeric), and which actions are returned.
-/
namespace Props
open Spec Model

section
variable {K : Type} [Field K] [LinearOrder K]

/-- The usable observations of an action are explained by its true numeric part. -/
def NumGood (cfg : NumCfg K) (D : Domain) (a : String) (A : NumSchema K) (obs : List (List (NumComponent K))) : Prop :=
  ∀ c ∈ obs.flatten, c.comp.success = true → c.comp.call.name = a → c.comp.call.params.Nodup →
    NumExplained cfg.txt cfg.fns D.consts (D.act a).sig A c

theorem mem_usableN {hs : List (NumComponent K)} {a : String} {c : NumComponent K} :
    c ∈ usableN hs a ↔ c ∈ hs ∧ c.comp.success = true ∧ c.comp.call.name = a ∧ c.comp.call.params.Nodup := by
  unfold usableN
  rw [List.mem_filter, decide_eq_true_eq]

theorem fullObs {cfg : NumCfg K} {D : Domain} {truth : String → Schema} {a : String} {A : NumSchema K} {obs : List (List (NumComponent K))}
    (hw : WFSig D.consts (D.act a).sig) (hT : WFTruth D truth) (hG : GoodData D truth (obs.map fun o => o.map NumComponent.comp)) (ha : a ∈ D.names)
    (ht : TextOK cfg.txt cfg.fns D.consts (D.act a).sig) (hN : NumGood cfg D a A obs) :
    FullObs cfg D a (usableN obs.flatten a) := by
  have hall : ∀ c ∈ usableN obs.flatten a, NumExplained cfg.txt cfg.fns D.consts (D.act a).sig A c ∧ c.comp.call.name = a ∧
      Explained truth c.comp := by
    intro c hc
    obtain ⟨h1, h2, h3, h4⟩ := mem_usableN.mp hc
    refine ⟨hN c h1 h2 h3 h4, h3, hG.explained c.comp ?_ h2⟩
    rw [← List.map_flatten]
    exact List.mem_map.mpr ⟨c, h1, rfl⟩
  refine ⟨hw, ht, fun c hc => (hall c hc).2.1, ?_, fun c hc => (hall c hc).1.prevKeys, fun c hc => (hall c hc).1.nextKeys,
    fun c hc => (hall c hc).1.prevArgs, fun c hc => (hall c hc).1.nextArgs, ?_, ?_⟩
  · intro c hc
    have := (hall c hc).2.2.arity
    rw [(hall c hc).2.1, hT.params a ha] at this
    exact this
  · intro c hc f hf
    have := (hall c hc).1.prevDef f hf
    unfold callSubst
    rw [(hall c hc).2.1]
    exact this
  · intro c hc f hf
    unfold callSubst
    rw [(hall c hc).2.1]
    exact ⟨_, (hall c hc).1.next _ (stateVal_lifts ht _ _) f hf⟩

end

section
variable {K : Type} [Field K] [LinearOrder K] [IsStrictOrderedRing K] [FloorRing K]
variable {cfg : NumCfg K} {D : Domain} {truth : String → Schema} {obs : List (List (NumComponent K))}
  {N' : NumLearner K} {info : List (String × NumStatus)} {a : String} {A : NumSchema K}

/-- **C61.** What is stored when every observation gives a value to every function of the action: the
convex hull learner has one row for each distinct point, the regression learner one row for each
observation, over all monomials and functions of the action; each row holds the products of the values
of the functions in the observed state. -/
theorem C61_storage {policy : Policy} (hD : WFDomain D) (hT : WFTruth D truth)
    (hG : GoodData D truth (obs.map fun o => o.map NumComponent.comp)) {N : NumLearner K}
    (h : NumLearner.process cfg (NumLearner.init D policy) obs.flatten = .ok N) (ha : a ∈ D.names)
    (ht : TextOK cfg.txt cfg.fns D.consts (D.act a).sig) (hN : NumGood cfg D a A obs)
    (hsc : ∃ f, InScope cfg.fns D.consts (D.act a).sig f) (hu : usableN obs.flatten a ≠ []) :
    ∃ st, N.store.lookup a = some st ∧
      st.prev.cols = prevColumns cfg D a ∧ st.hull.cols = prevColumns cfg D a ∧ (∀ m, m ∈ st.next.cols ↔ m ∈ nextColumns cfg D a) ∧
      List.Forall₂ (fun r c => ∀ x, Lifts cfg.txt cfg.fns D.consts (D.act a).sig (callSubst D c) (fun g => (c.prevN.lookup g).getD 0) x →
        ∀ m ∈ prevColumns cfg D a, r m = monoVal x m) st.prev.rows (usableN obs.flatten a) ∧
      List.Forall₂ (fun r c => ∀ f, InScope cfg.fns D.consts (D.act a).sig f → c.nextN.lookup (groundFn (callSubst D c) f) = some (r [cfg.txt f]))
        st.next.rows (usableN obs.flatten a) ∧
      (∀ r ∈ st.prev.rows, ∃ r' ∈ st.hull.rows, ∀ m ∈ prevColumns cfg D a, r' m = r m) ∧
      (∀ r ∈ st.hull.rows, r ∈ st.prev.rows) ∧
      st.hull.rows.Pairwise (fun r r' => ∃ m ∈ prevColumns cfg D a, r m ≠ r' m) := by
  have I0 : StoreInv cfg D [] (NumLearner.init D policy : NumLearner K) :=
    ⟨SameStatic.refl _, fun a => by simp [NumLearner.init, Learner.init, usableN], fun a => by simp [usableN, NumLearner.init],
      fun a c hc => by simp [usableN] at hc⟩
  obtain ⟨I, _⟩ := StoreInv.process obs.flatten [] _ N I0 h
  rw [List.nil_append] at I
  have H := fullObs (hD.sigs a ha) hT hG ha ht hN
  have hne : scopeFns cfg D a ≠ [] := by
    obtain ⟨f, hf⟩ := hsc
    exact List.ne_nil_of_mem (mem_scopeFns.mpr hf)
  have S := storeOf_shape hne _ H (I.matched a)
  refine ⟨_, by rw [I.store, if_neg hu], S.prevCols hu, S.hullCols hu, S.nextCols hu, ?_, ?_, ?_, ?_, ?_⟩
  · rw [S.prevRows hu]
    generalize usableN obs.flatten a = us
    induction us with
    | nil => exact List.Forall₂.nil
    | cons c us ih =>
      refine List.Forall₂.cons ?_ ih
      intro x hx m hm
      unfold prevRow frameRow
      rw [if_pos hm]
      unfold monoVal
      congr 1
      apply List.map_congr_left
      intro n hn
      obtain ⟨f, hf, rfl⟩ := (mem_prevColumns ht hm).2 n hn
      rw [stateVal_txt ht hf, hx f hf]
  · have hr := S.nextRows hu
    have hdef := H.nextDef
    revert hr hdef
    generalize (storeOf cfg D a (usableN obs.flatten a)).next.rows = rs
    generalize usableN obs.flatten a = us
    intro hr hdef
    induction hr with
    | nil => exact List.Forall₂.nil
    | @cons r c rs us hrc _ ih =>
      refine List.Forall₂.cons ?_ (ih fun c hc => hdef c (by simp [hc]))
      intro f hf
      have hm : [cfg.txt f] ∈ nextColumns cfg D a := List.mem_map.mpr ⟨f, mem_scopeFns.mpr hf, rfl⟩
      rw [hrc _ hm]
      obtain ⟨v, hv⟩ := hdef c (by simp) f hf
      unfold nextRow frameRow
      rw [if_pos hm, hv]
      unfold monoVal
      simp only [List.map_cons, List.map_nil, List.prod_cons, List.prod_nil, mul_one]
      rw [stateVal_txt ht hf, hv]
      rfl
  · rw [S.prevRows hu, S.hullRows hu]
    intro r hr
    obtain ⟨r', h1, h2⟩ := dedupBy_rep (key := fun r : List String → K => (prevColumns cfg D a).map r) hr
    exact ⟨r', h1, fun m hm => List.map_inj_left.mp h2 m hm⟩
  · rw [S.prevRows hu, S.hullRows hu]
    exact fun r hr => dedupBy_mem hr
  · rw [S.hullRows hu]
    have := dedupBy_nodup (key := fun r : List String → K => (prevColumns cfg D a).map r) ((usableN obs.flatten a).map (prevRow cfg D a))
    rw [List.Nodup, List.pairwise_map] at this
    refine this.imp ?_
    intro r r' hne
    by_contra hk
    push Not at hk
    exact hne (List.map_inj_left.mpr hk)

/-- The data of the regression: the rows before and after, one pair for each usable observation. -/
def regressionRows (cfg : NumCfg K) (D : Domain) (a : String) (obs : List (List (NumComponent K))) :
    List ((List String → K) × (List String → K)) :=
  (usableN obs.flatten a).map fun c => (prevRow cfg D a c, nextRow cfg D a c)

/-- The data of the convex hull: the distinct rows. -/
def hullRows (cfg : NumCfg K) (D : Domain) (a : String) (obs : List (List (NumComponent K))) : List (List String → K) :=
  dedupBy (fun r : List String → K => (prevColumns cfg D a).map r) ((usableN obs.flatten a).map (prevRow cfg D a))

theorem column_setup (ht : TextOK cfg.txt cfg.fns D.consts (D.act a).sig) {nc : List (List String)} (hnd : nc.Nodup)
    (hnc : ∀ m, m ∈ nc ↔ m ∈ nextColumns cfg D a) : ColumnSetup (K := K) polyExp (fun c => c.headD "") (prevColumns cfg D a) nc := by
  refine ⟨prevColumns_nodup ht, hnd, fun _ _ _ _ h => polyExp_injective h, ?_, ?_, ?_⟩
  · intro m hm h
    have : m = ["(dummy)"] := polyExp_injective (K := K) (by rw [h]; rfl)
    subst this
    obtain ⟨f, hf, e⟩ := (mem_prevColumns ht hm).2 "(dummy)" (by simp)
    exact ht.notDummy f hf e
  · intro m hm
    obtain ⟨f, _, rfl⟩ := List.mem_map.mp ((hnc m).mp hm)
    rfl
  · intro m hm m' hm' e
    obtain ⟨f, _, rfl⟩ := List.mem_map.mp ((hnc m).mp hm)
    obtain ⟨g, _, rfl⟩ := List.mem_map.mp ((hnc m').mp hm')
    simpa using e

theorem usedCols_iff {rel : Option (List (List String))} {l l' : List (List String)} (h : ∀ m, m ∈ l ↔ m ∈ l') (m : List String) :
    m ∈ usedCols rel l ↔ m ∈ usedCols rel l' := by
  unfold usedCols
  cases rel with
  | none => exact h m
  | some fs => simp [h m]

theorem colVal_mono (ht : TextOK cfg.txt cfg.fns D.consts (D.act a).sig) {x : String → K} {m : List String} (hm : m ∈ prevColumns cfg D a) :
    colVal polyExp x m = monoVal x m := eval_polyExp x (mem_prevColumns ht hm).1

theorem affine_congr {aff : Affine K (List String)} {v v' : List String → K} (h : ∀ c ∈ aff.cols, v c = v' c) : aff.value v = aff.value v' := by
  unfold Affine.value
  congr 2
  exact List.map_congr_left fun c hc => by rw [h c hc]

theorem prevRow_lifts (ht : TextOK cfg.txt cfg.fns D.consts (D.act a).sig) (c : NumComponent K) {m : List String} (hm : m ∈ prevColumns cfg D a) :
    prevRow cfg D a c m = monoVal (stateVal cfg.txt (scopeFns cfg D a) (callSubst D c) c.prevN) m := by
  unfold prevRow frameRow
  rw [if_pos hm]

/-- A condition that is convex in the used columns does not depend on other columns. -/
theorem convex_congr [IsStrictOrderedRing K] {used : List (List String)} {A : NumSchema K} {txt : Atom → String} {fns consts sig}
    (hC : NumConvex txt fns consts sig used A) {v v' : List String → K} (h : ∀ c ∈ used, v' c = v c) (hv : A.pre v) : A.pre v' :=
  hC.convex [v] v' (by simpa using hv) ⟨[1], rfl, by simp, by simp, fun c hc => by simp [h c hc]⟩

theorem usedCols_sub {rel : Option (List (List String))} {l : List (List String)} {m : List String} (h : m ∈ usedCols rel l) : m ∈ l := by
  unfold usedCols at h
  cases rel with
  | none => exact h
  | some fs => exact (List.mem_filter.mp h).1

/-- The run of the regression behind learned effects. -/
theorem effects_run (hallow : cfg.allowUnsafe = false) (ht : TextOK cfg.txt cfg.fns D.consts (D.act a).sig)
    (S : StoreShape cfg D a (usableN obs.flatten a) (storeOf cfg D a (usableN obs.flatten a))) (hu : usableN obs.flatten a ≠ []) {rel : Option (List (List String))}
    (hP : CoefficientsPrintable cfg.reg cfg.digits (usedCols rel (prevColumns cfg D a)) (usedCols rel (nextColumns cfg D a)) (regressionRows cfg D a obs))
    (hr0 : rel ≠ some []) {es : List (NEffect K)}
    (hne' : numericEff cfg rel (storeOf cfg D a (usableN obs.flatten a)) = .ok es) :
    ∃ nc rs, constructEffects cfg.reg cfg.digits false polyExp (fun c => c.headD "") rel (prevColumns cfg D a) nc
        (((usableN obs.flatten a).map (prevRow cfg D a)).zip rs) = .ok es ∧
      ColumnSetup (K := K) polyExp (fun c => c.headD "") (prevColumns cfg D a) nc ∧
      CoefficientsPrintable cfg.reg cfg.digits (usedCols rel (prevColumns cfg D a)) (usedCols rel nc)
        (((usableN obs.flatten a).map (prevRow cfg D a)).zip rs) ∧
      (∀ m, m ∈ nc ↔ m ∈ nextColumns cfg D a) ∧
      List.Forall₂ (fun r c => ∀ m ∈ nextColumns cfg D a, r m = nextRow cfg D a c m) rs (usableN obs.flatten a) := by
  unfold numericEff at hne'
  have hlen : (storeOf cfg D a (usableN obs.flatten a)).prev.rows.length = (storeOf cfg D a (usableN obs.flatten a)).next.rows.length := by
    rw [S.prevRows hu, S.nextLen hu, List.length_map]
  rw [if_neg hr0, if_neg (fun k => k.2 hlen), S.prevCols hu, hallow] at hne'
  have hce : constructEffects cfg.reg cfg.digits false polyExp (fun c => c.headD "") rel (prevColumns cfg D a)
      (storeOf cfg D a (usableN obs.flatten a)).next.cols
      ((storeOf cfg D a (usableN obs.flatten a)).prev.rows.zip (storeOf cfg D a (usableN obs.flatten a)).next.rows) = .ok es := by
    revert hne'
    split
    · next h => intro k; simp only [Except.ok.injEq] at k; rw [h, k]
    · simp
    · simp
    · simp
  have hrows := S.nextRows hu
  rw [S.prevRows hu] at hce
  have hnn := S.nextNodup hu
  have hnc := S.nextCols hu
  refine ⟨_, _, hce, column_setup (K := K) ht hnn hnc, ?_, hnc, hrows⟩
  refine printable_transfer (usedCols_iff (rel := rel) hnc) ?_ hP
  unfold regressionRows
  clear hce hne' hlen hnn hnc S hu hP
  revert hrows
  generalize (storeOf cfg D a (usableN obs.flatten a)).next.rows = rs
  generalize usableN obs.flatten a = us
  intro hrows
  induction hrows with
  | nil => exact List.Forall₂.nil
  | @cons r c rs us hrc _ ih => exact List.Forall₂.cons ⟨rfl, fun q hq => hrc q (usedCols_sub hq)⟩ ih

/-- The stored next value of a used function is the value of the true effect in the stored row. -/
theorem effect_rows {rel : Option (List (List String))}
    (hC : NumConvex cfg.txt cfg.fns D.consts (D.act a).sig (usedCols rel (prevColumns cfg D a)) A)
    (ht : TextOK cfg.txt cfg.fns D.consts (D.act a).sig) (hN : NumGood cfg D a A obs) {rs : List (List String → K)}
    (hrows : List.Forall₂ (fun r c => ∀ m ∈ nextColumns cfg D a, r m = nextRow cfg D a c m) rs (usableN obs.flatten a))
    {f : Atom} (hf : InScope cfg.fns D.consts (D.act a).sig f) (hfu : [cfg.txt f] ∈ usedCols rel (prevColumns cfg D a))
    {i : Nat} {hr : i < rs.length} (hi' : i < (usableN obs.flatten a).length) :
    rs[i] [cfg.txt f] = (A.eff f).value (prevRow cfg D a (usableN obs.flatten a)[i]) := by
  have hlen' : rs.length = (usableN obs.flatten a).length := hrows.length_eq
  have hfc : [cfg.txt f] ∈ nextColumns cfg D a := List.mem_map.mpr ⟨f, mem_scopeFns.mpr hf, rfl⟩
  have hcu : (usableN obs.flatten a)[i] ∈ usableN obs.flatten a := List.getElem_mem _
  obtain ⟨h1, h2, h3, h4⟩ := mem_usableN.mp hcu
  rw [List.forall₂_iff_get] at hrows
  have hrv := hrows.2 i (by rw [hlen']; exact hi') hi' _ hfc
  simp only [List.get_eq_getElem] at hrv
  rw [hrv]
  unfold nextRow frameRow
  rw [if_pos hfc]
  unfold monoVal
  simp only [List.map_cons, List.map_nil, List.prod_cons, List.prod_nil, mul_one]
  rw [stateVal_txt ht hf]
  have hnx := (hN _ h1 h2 h3 h4).next _ (stateVal_lifts ht _ _) f hf
  have hcs : callSubst D (usableN obs.flatten a)[i] = subst (Sig.names (D.act a).sig) (usableN obs.flatten a)[i].comp.call.params := by
    unfold callSubst; rw [h3]
  rw [hcs, hnx, Option.getD_some]
  apply affine_congr
  intro q hq
  rw [prevRow_lifts ht _ (usedCols_sub (hC.effUsed f hf hfu q hq)), hcs]

/-- States in the hull of the observations: the true precondition holds there and learned effects are the true ones. -/
theorem numeric_core (hallow : cfg.allowUnsafe = false) (hdig : cfg.digits ≤ 10) (hR : RegContract cfg.reg)
    (ht : TextOK cfg.txt cfg.fns D.consts (D.act a).sig) (hN : NumGood cfg D a A obs) {rel : Option (List (List String))}
    (hC : NumConvex cfg.txt cfg.fns D.consts (D.act a).sig (usedCols rel (prevColumns cfg D a)) A)
    (hP : CoefficientsPrintable cfg.reg cfg.digits (usedCols rel (prevColumns cfg D a)) (usedCols rel (nextColumns cfg D a)) (regressionRows cfg D a obs))
    (hu : usableN obs.flatten a ≠ [])
    (S : StoreShape cfg D a (usableN obs.flatten a) (storeOf cfg D a (usableN obs.flatten a)))
    {es : List (NEffect K)} (hne' : numericEff cfg rel (storeOf cfg D a (usableN obs.flatten a)) = .ok es)
    (hsd : ∀ e ∈ es, e.op ≠ .scaleDown) (x : String → K)
    (hhull : InHull (usedCols rel (prevColumns cfg D a)) ((usableN obs.flatten a).map (prevRow cfg D a)) (colVal polyExp x)) :
    A.pre (monoVal x) ∧
    (∀ f, InScope cfg.fns D.consts (D.act a).sig f → applyNumeric es x (cfg.txt f) = (A.eff f).value (monoVal x)) ∧
    (∀ n, (∀ f, InScope cfg.fns D.consts (D.act a).sig f → cfg.txt f ≠ n) → applyNumeric es x n = x n) := by
  -- the true precondition held in all rows
  have hrowsPre : ∀ r ∈ (usableN obs.flatten a).map (prevRow cfg D a), A.pre r := by
    intro r hr
    obtain ⟨c, hc, rfl⟩ := List.mem_map.mp hr
    obtain ⟨h1, h2, h3, h4⟩ := mem_usableN.mp hc
    have hx := (hN c h1 h2 h3 h4).pre _ (stateVal_lifts ht _ _)
    refine convex_congr hC (fun q hq => ?_) hx
    have hq' : q ∈ prevColumns cfg D a := by
      unfold usedCols at hq
      cases rel with
      | none => exact hq
      | some fs => exact (List.mem_filter.mp hq).1
    rw [prevRow_lifts ht c hq']
    unfold callSubst
    rw [h3]
  have hcols : ∀ q ∈ usedCols rel (prevColumns cfg D a), q ∈ prevColumns cfg D a := by
    intro q hq
    unfold usedCols at hq
    cases rel with
    | none => exact hq
    | some fs => exact (List.mem_filter.mp hq).1
  have hApre : A.pre (monoVal x) := by
    refine convex_congr hC (fun q hq => (colVal_mono ht (hcols q hq)).symm) ?_
    exact hC.convex _ _ hrowsPre hhull
  refine ⟨hApre, ?_, ?_⟩
  · -- effects
    intro f hf
    by_cases hr0 : rel = some []
    · unfold numericEff at hne'
      rw [if_pos hr0] at hne'
      simp only [Except.ok.injEq] at hne'
      subst hne'
      subst hr0
      rw [hC.effFrame f hf (by simp [usedCols])]
      show x (cfg.txt f) = _
      simp [monoVal]
    · obtain ⟨nc, rs, hce, hs1, hP', hnc, hrows⟩ := effects_run hallow ht S hu hP hr0 hne'
      have hlen' : rs.length = (usableN obs.flatten a).length := hrows.length_eq
      have hobs : ((usableN obs.flatten a).map (prevRow cfg D a)).zip rs ≠ [] := by
        intro hz
        have := congrArg List.length hz
        rw [List.length_zip, List.length_map, hlen', min_self, List.length_nil] at this
        exact hu (List.length_eq_zero_iff.mp this)
      have hmap : (((usableN obs.flatten a).map (prevRow cfg D a)).zip rs).map Prod.fst = (usableN obs.flatten a).map (prevRow cfg D a) :=
        List.map_fst_zip (by rw [hlen', List.length_map])
      have hfc : [cfg.txt f] ∈ nextColumns cfg D a := List.mem_map.mpr ⟨f, mem_scopeFns.mpr hf, rfl⟩
      by_cases hfu : [cfg.txt f] ∈ usedCols rel (prevColumns cfg D a)
      · have hfn : [cfg.txt f] ∈ usedCols rel nc := by
          rw [usedCols_iff hnc]
          unfold usedCols at hfu ⊢
          cases rel with
          | none => exact hfc
          | some fs => exact List.mem_filter.mpr ⟨hfc, (List.mem_filter.mp hfu).2⟩
        have := C58_effects_exact hR hdig hs1 hP' hr0 hobs hce hsd hfn (A.eff f) (hC.effUsed f hf hfu) (by
          intro o ho
          obtain ⟨i, hi, rfl⟩ := List.mem_iff_getElem.mp ho
          have hi' : i < (usableN obs.flatten a).length := by
            rw [List.length_zip, List.length_map] at hi; omega
          rw [List.getElem_zip]
          dsimp only
          rw [List.getElem_map]
          exact effect_rows hC ht hN hrows hf hfu hi') x (by rw [hmap]; exact hhull)
        have this' : applyNumeric es x (cfg.txt f) = _ := this
        rw [this']
        exact affine_congr fun q hq => colVal_mono ht (hcols q (hC.effUsed f hf hfu q hq))
      · rw [hC.effFrame f hf hfu, C58_frame hR hdig hs1 hP' hce hsd]
        · simp [monoVal]
        · intro g hg e
          have hg' := (usedCols_iff (rel := rel) hnc g).mp hg
          have hgn : g ∈ nextColumns cfg D a := by
            unfold usedCols at hg'
            cases rel with
            | none => exact hg'
            | some fs => exact (List.mem_filter.mp hg').1
          obtain ⟨f', hf', rfl⟩ := List.mem_map.mp hgn
          have : cfg.txt f' = cfg.txt f := e
          rw [this] at hg'
          apply hfu
          unfold usedCols at hg' ⊢
          cases rel with
          | none => exact single_mem_prevColumns ht hf
          | some fs => exact List.mem_filter.mpr ⟨single_mem_prevColumns ht hf, (List.mem_filter.mp hg').2⟩
  · intro n hn
    by_cases hr0 : rel = some []
    · unfold numericEff at hne'
      rw [if_pos hr0] at hne'
      simp only [Except.ok.injEq] at hne'
      subst hne'
      rfl
    · obtain ⟨nc, rs, hce, hs1, hP', hnc, hrows⟩ := effects_run hallow ht S hu hP hr0 hne'
      refine C58_frame hR hdig hs1 hP' hce hsd ?_ x
      intro g hg e
      have hg' := (usedCols_iff (rel := rel) hnc g).mp hg
      obtain ⟨f', hf', rfl⟩ := List.mem_map.mp (usedCols_sub hg')
      exact hn f' (mem_scopeFns.mp hf') e

/-- The numeric part of C62, which does not depend on the boolean parts the learner started with. -/
theorem numeric_part_safe {policy : Policy} (hnd : D.names.Nodup) (hw : WFSig D.consts (D.act a).sig) (hT : WFTruth D truth)
    (hG : GoodData D truth (obs.map fun o => o.map NumComponent.comp))
    (hfns : cfg.fns ≠ []) (hplain : cfg.plain = true) (hallow : cfg.allowUnsafe = false) (hdig : cfg.digits ≤ 10)
    (hR : RegContract cfg.reg)
    (h : (NumLearner.init D policy).learn cfg obs = .ok (N', info)) (ha : a ∈ N'.base.dom.names)
    (ht : TextOK cfg.txt cfg.fns D.consts (D.act a).sig) (hsc : ∃ f, InScope cfg.fns D.consts (D.act a).sig f)
    (hN : NumGood cfg D a A obs) {rel : Option (List (List String))} (hrel : relevantOf cfg a = .ok rel)
    (hC : NumConvex cfg.txt cfg.fns D.consts (D.act a).sig (usedCols rel (prevColumns cfg D a)) A)
    (hS : HullSetup cfg.lib cfg.digits polyExp (prevColumns cfg D a) (hullRows cfg D a obs) ∨
      ProjSetup cfg.lib cfg.digits polyExp (prevColumns cfg D a) (hullRows cfg D a obs))
    (hP : CoefficientsPrintable cfg.reg cfg.digits (usedCols rel (prevColumns cfg D a)) (usedCols rel (nextColumns cfg D a)) (regressionRows cfg D a obs))
    (hsd : ∀ e ∈ (N'.num a).eff, e.op ≠ .scaleDown) (x : String → K) (hnum : ∀ q ∈ (N'.num a).pre, q.holds x) :
    A.pre (monoVal x) ∧
    (∀ f, InScope cfg.fns D.consts (D.act a).sig f → applyNumeric (N'.num a).eff x (cfg.txt f) = (A.eff f).value (monoVal x)) ∧
    (∀ n, (∀ f, InScope cfg.fns D.consts (D.act a).sig f → cfg.txt f ≠ n) → applyNumeric (N'.num a).eff x n = x n) := by
  obtain ⟨L', al, HL⟩ := numLearn_spec hnd hfns h
  rw [HL.names] at ha
  obtain ⟨p, hp, hpa⟩ := List.mem_map.mp ha
  have hlk : ∃ m, al.lookup a = some m := by
    cases hl : al.lookup a with
    | none => rw [Py.lookup_none_iff] at hl; exact absurd ha hl
    | some m => exact ⟨m, rfl⟩
  obtain ⟨m, hm⟩ := hlk
  have hmem := lookup_mem hm
  obtain ⟨haD, _, hu, hsafe⟩ := HL.allowed _ hmem
  dsimp only at haD hu hsafe
  have hpart : N'.num a = m := by rw [HL.part, hm]; rfl
  rw [hpart] at hsd hnum ⊢
  have H := fullObs hw hT hG haD ht hN
  have hne : scopeFns cfg D a ≠ [] := by
    obtain ⟨f, hf⟩ := hsc
    exact List.ne_nil_of_mem (mem_scopeFns.mpr hf)
  have S := storeOf_shape hne _ H (HL.matched a)
  -- what the learned numeric part is
  unfold safeAction at hsafe
  rw [hrel] at hsafe
  simp only [Bind.bind, Except.bind] at hsafe
  cases hnp : numericPre cfg rel (storeOf cfg D a (usableN obs.flatten a)) with
  | error e => rw [hnp] at hsafe; simp at hsafe
  | ok cs =>
    cases hne' : numericEff cfg rel (storeOf cfg D a (usableN obs.flatten a)) with
    | error e => rw [hnp, hne'] at hsafe; simp at hsafe
    | ok es =>
      rw [hnp, hne'] at hsafe
      simp only [Except.ok.injEq] at hsafe
      subst hsafe
      dsimp only at hnum hsd ⊢
      -- the state is in the hull of the observations
      have hhull : InHull (usedCols rel (prevColumns cfg D a)) ((usableN obs.flatten a).map (prevRow cfg D a)) (colVal polyExp x) := by
        unfold numericPre at hnp
        by_cases hr0 : rel = some []
        · subst hr0
          refine inHull_congr (cols := []) (fun c => by simp [usedCols]) |>.mp (inHull_nil_cols ?_ _)
          simpa using hu
        · rw [if_neg hr0, hplain, S.hullCols hu, S.hullRows hu] at hnp
          cases hsi : safeInequalities cfg.lib cfg.digits cfg.margin true polyExp rel (prevColumns cfg D a)
              (dedupBy (fun r : List String → K => (prevColumns cfg D a).map r) ((usableN obs.flatten a).map (prevRow cfg D a))) with
          | notSafe => rw [hsi] at hnp; simp at hnp
          | crash => rw [hsi] at hnp; simp at hnp
          | conds cs' =>
            rw [hsi] at hnp
            dsimp only at hnp
            split_ifs at hnp
            simp only [Except.ok.injEq] at hnp
            subst hnp
            have := (hS.elim (fun hS => C55_precondition_is_hull hS hsi x) fun hS => C70_projected_precondition_is_hull hS hsi x).mp hnum
            refine inHull_trans (pts := dedupBy (fun r : List String → K => (prevColumns cfg D a).map r)
              ((usableN obs.flatten a).map (prevRow cfg D a))) ?_ this
            intro r hr
            exact inHull_row (dedupBy_mem hr)
      exact numeric_core hallow hdig hR ht hN hC hP hu S hne' hsd x hhull

/-- **C62.** N-SAM is safe. Let the data be explained by true actions whose numeric precondition is
convex and whose numeric effects are affine in the used monomials. Then for every action of the returned
model, in every state (boolean part `s`, values `x` of the lifted functions) and every substitution: if
the learned preconditions hold, so do the true ones (also when the observations span a smaller space and
are projected); the learned effects give every function of the
action exactly its true next value and change no other fluent; and if the substitution is injective, the
boolean successor is the true one. -/
theorem C62_numeric_model_safe (hD : WFDomain D) (hT : WFTruth D truth)
    (hG : GoodData D truth (obs.map fun o => o.map NumComponent.comp))
    (hfns : cfg.fns ≠ []) (hplain : cfg.plain = true) (hallow : cfg.allowUnsafe = false) (hdig : cfg.digits ≤ 10)
    (hR : RegContract cfg.reg)
    (h : (NumLearner.init D .noRemove).learn cfg obs = .ok (N', info)) (ha : a ∈ N'.base.dom.names)
    (ht : TextOK cfg.txt cfg.fns D.consts (D.act a).sig) (hsc : ∃ f, InScope cfg.fns D.consts (D.act a).sig f)
    (hN : NumGood cfg D a A obs) {rel : Option (List (List String))} (hrel : relevantOf cfg a = .ok rel)
    (hC : NumConvex cfg.txt cfg.fns D.consts (D.act a).sig (usedCols rel (prevColumns cfg D a)) A)
    (hS : HullSetup cfg.lib cfg.digits polyExp (prevColumns cfg D a) (hullRows cfg D a obs) ∨
      ProjSetup cfg.lib cfg.digits polyExp (prevColumns cfg D a) (hullRows cfg D a obs))
    (hP : CoefficientsPrintable cfg.reg cfg.digits (usedCols rel (prevColumns cfg D a)) (usedCols rel (nextColumns cfg D a)) (regressionRows cfg D a obs))
    (hsd : ∀ e ∈ (N'.num a).eff, e.op ≠ .scaleDown)
    (ρ : String → String) (s : State) (x : String → K)
    (hpre : applicable (N'.base.dom.act a).pre ρ s) (hnum : ∀ q ∈ (N'.num a).pre, q.holds x) :
    applicable (truth a).pre ρ s ∧ A.pre (monoVal x) ∧
    (∀ f, InScope cfg.fns D.consts (D.act a).sig f → applyNumeric (N'.num a).eff x (cfg.txt f) = (A.eff f).value (monoVal x)) ∧
    (∀ n, (∀ f, InScope cfg.fns D.consts (D.act a).sig f → cfg.txt f ≠ n) → applyNumeric (N'.num a).eff x n = x n) ∧
    (Spec.Injective D.consts (D.act a).sig ρ → successor (N'.base.dom.act a).eff ρ s = successor (truth a).eff ρ s) := by
  obtain ⟨L', al, HL⟩ := numLearn_spec hD.names hfns h
  obtain ⟨rep, hbase⟩ := HL.base
  have ha' := ha
  rw [HL.names] at ha'
  obtain ⟨p, hp, hpa⟩ := List.mem_map.mp ha'
  have haD : a ∈ D.names := hpa ▸ (HL.allowed p hp).1
  rw [HL.pre a ha'] at hpre
  obtain ⟨h1, h2, h3⟩ := numeric_part_safe hD.names (hD.sigs a haD) hT hG hfns hplain hallow hdig hR h ha ht hsc hN hrel hC hS hP hsd x hnum
  exact ⟨C01_preconditions_sufficient hD hT hG hbase haD ρ s hpre, h1, h2, h3,
    fun hi => by rw [HL.eff a ha']; exact C02_effects_exact hD hT hG hbase haD ρ hi s hpre⟩

/-- The statuses of an action that failed. -/
theorem safeAction_status {st : NStore K} {s : NumStatus} (h : safeAction cfg a st = .error (.notSafe s)) :
    s = .convexHullNotFound ∨ s = .noSolutionFound := by
  unfold safeAction relevantOf numericPre numericEff at h
  simp only [Bind.bind, Except.bind] at h
  revert h
  split
  · next h => intro k; revert h; repeat' split
              all_goals simp_all
  · split
    · next h =>
        intro k; revert h; repeat' split
        all_goals simp_all
    · split
      · next h =>
          intro k; revert h; repeat' split
          all_goals simp_all
      · simp

/-- **C63.** What is returned: exactly the actions with status `ok` are in the learned model; the report
gives a status, and only one, to exactly the actions of the domain with a usable observation; and a
status other than `ok` says that no convex hull or no effect was found. -/
theorem C63_returned_actions {policy : Policy} (hD : D.names.Nodup) (hfns : cfg.fns ≠ [])
    (h : (NumLearner.init D policy).learn cfg obs = .ok (N', info)) :
    (∀ a, a ∈ N'.base.dom.names ↔ (a, NumStatus.ok) ∈ info) ∧
    (∀ a, (∃ s, (a, s) ∈ info) ↔ a ∈ D.names ∧ ∃ c ∈ obs.flatten, c.comp.success = true ∧ c.comp.call.name = a ∧ c.comp.call.params.Nodup) ∧
    (∀ a s s', (a, s) ∈ info → (a, s') ∈ info → s = s') ∧
    (∀ a s, (a, s) ∈ info → s = .ok ∨ s = .convexHullNotFound ∨ s = .noSolutionFound) := by
  obtain ⟨L', al, HL⟩ := numLearn_spec hD hfns h
  refine ⟨?_, ?_, ?_, ?_⟩
  · intro a
    rw [HL.names]
    constructor
    · intro ha
      obtain ⟨p, hp, rfl⟩ := List.mem_map.mp ha
      exact (HL.allowed p hp).2.1
    · intro ha
      rcases (HL.infoOf _ ha).2.2 with ⟨m, _, _, h3⟩ | h3
      · exact List.mem_map.mpr ⟨_, h3, rfl⟩
      · rcases safeAction_status h3 with k | k <;> simp at k
  · intro a
    constructor
    · rintro ⟨s, hs⟩
      obtain ⟨h1, h2, _⟩ := HL.infoOf _ hs
      obtain ⟨c, hc⟩ := List.exists_mem_of_ne_nil _ h2
      exact ⟨h1, c, mem_usableN.mp hc⟩
    · rintro ⟨h1, c, hc⟩
      have := HL.infoAll a h1 (List.ne_nil_of_mem (mem_usableN.mpr hc))
      obtain ⟨p, hp, rfl⟩ := List.mem_map.mp this
      exact ⟨p.2, hp⟩
  · intro a s s' hs hs'
    rcases (HL.infoOf _ hs).2.2 with ⟨m, h1, h2, _⟩ | h1 <;> rcases (HL.infoOf _ hs').2.2 with ⟨m', h1', h2', _⟩ | h1'
    · exact h2.trans h2'.symm
    · dsimp only at h1 h1'; rw [h1] at h1'; simp at h1'
    · dsimp only at h1 h1'; rw [h1] at h1'; simp at h1'
    · dsimp only at h1 h1'; rw [h1] at h1'; simpa using h1'
  · intro a s hs
    rcases (HL.infoOf _ hs).2.2 with ⟨m, _, h2, _⟩ | h2
    · exact .inl h2
    · exact .inr (safeAction_status h2)

/-- **C63 (relevant fluents).** If relevant fluents are given and learning returns, they are given for every action that was observed:
an observed action without an entry makes learning raise. -/
theorem C63_missing_fluents {policy : Policy} (hD : D.names.Nodup) (hfns : cfg.fns ≠ []) {m : List (String × List (List String))}
    (hm : cfg.relevant = some m) (ha : a ∈ D.names)
    (ho : ∃ c ∈ obs.flatten, c.comp.success = true ∧ c.comp.call.name = a ∧ c.comp.call.params.Nodup) (hno : m.lookup a = none) :
    ∃ e, (NumLearner.init D policy).learn cfg obs = .error e := by
  cases h : (NumLearner.init D policy).learn cfg obs with
  | error e => exact ⟨e, rfl⟩
  | ok r =>
    obtain ⟨N', info⟩ := r
    obtain ⟨s, hs⟩ := ((C63_returned_actions hD hfns h).2.1 a).mpr ⟨ha, ho⟩
    obtain ⟨L', al, HL⟩ := numLearn_spec hD hfns h
    have hr : relevantOf cfg a = .error (.py .keyError) := by unfold relevantOf; rw [hm]; simp only [hno]
    have : ∀ st, safeAction cfg a st = .error (.py .keyError) := fun st => by unfold safeAction; rw [hr]; rfl
    rcases (HL.infoOf _ hs).2.2 with ⟨p, h1, _, _⟩ | h1
    · rw [this] at h1; cases h1
    · rw [this] at h1; cases h1

/-- **C63 (effects).** When the true effects are affine in the used monomials, no observed action is
reported without a solution for its effects. -/
theorem C63_effects_found {policy : Policy} (hD : WFDomain D) (hT : WFTruth D truth)
    (hG : GoodData D truth (obs.map fun o => o.map NumComponent.comp)) (hfns : cfg.fns ≠ []) (hR : RegContract cfg.reg)
    (h : (NumLearner.init D policy).learn cfg obs = .ok (N', info)) (ha : a ∈ D.names)
    (ht : TextOK cfg.txt cfg.fns D.consts (D.act a).sig) (hsc : ∃ f, InScope cfg.fns D.consts (D.act a).sig f)
    (hN : NumGood cfg D a A obs) {rel : Option (List (List String))} (hrel : relevantOf cfg a = .ok rel)
    (hC : NumConvex cfg.txt cfg.fns D.consts (D.act a).sig (usedCols rel (prevColumns cfg D a)) A) :
    (a, NumStatus.noSolutionFound) ∉ info := by
  intro hin
  obtain ⟨L', al, HL⟩ := numLearn_spec hD.names hfns h
  obtain ⟨_, hu, hst⟩ := HL.infoOf _ hin
  dsimp only at hu hst
  have H := fullObs (hD.sigs a ha) hT hG ha ht hN
  have hne : scopeFns cfg D a ≠ [] := by
    obtain ⟨f, hf⟩ := hsc
    exact List.ne_nil_of_mem (mem_scopeFns.mpr hf)
  have S := storeOf_shape hne _ H (HL.matched a)
  have herr : safeAction cfg a (storeOf cfg D a (usableN obs.flatten a)) = .error (.notSafe .noSolutionFound) := by
    rcases hst with ⟨_, _, h2, _⟩ | h2
    · simp at h2
    · exact h2
  have heff : ∃ es, numericEff cfg rel (storeOf cfg D a (usableN obs.flatten a)) = .ok es := by
    unfold numericEff
    by_cases hr0 : rel = some []
    · exact ⟨[], by rw [if_pos hr0]⟩
    have hlen : (storeOf cfg D a (usableN obs.flatten a)).prev.rows.length = (storeOf cfg D a (usableN obs.flatten a)).next.rows.length := by
      rw [S.prevRows hu, S.nextLen hu, List.length_map]
    rw [if_neg hr0, if_neg (fun k => k.2 hlen), S.prevCols hu, S.prevRows hu]
    have hnc := S.nextCols hu
    have hrows := S.nextRows hu
    have hs := column_setup (K := K) ht (S.nextNodup hu) hnc
    obtain ⟨es, hes⟩ := C59_effects_found (d := cfg.digits) (unsafeOk := cfg.allowUnsafe) (relevant := rel)
      (obs := ((usableN obs.flatten a).map (prevRow cfg D a)).zip (storeOf cfg D a (usableN obs.flatten a)).next.rows) hR hs (by
        intro q hq
        obtain ⟨f, hf, rfl⟩ := List.mem_map.mp ((hnc q).mp hq)
        exact single_mem_prevColumns ht (mem_scopeFns.mp hf)) (by
        intro q hq
        have hq' := (usedCols_iff (rel := rel) hnc q).mp hq
        have hfc := usedCols_sub hq'
        obtain ⟨f, hf', rfl⟩ := List.mem_map.mp hfc
        have hf := mem_scopeFns.mp hf'
        have hfu : [cfg.txt f] ∈ usedCols rel (prevColumns cfg D a) := by
          unfold usedCols at hq' ⊢
          cases rel with
          | none => exact single_mem_prevColumns ht hf
          | some fs => exact List.mem_filter.mpr ⟨single_mem_prevColumns ht hf, (List.mem_filter.mp hq').2⟩
        refine ⟨A.eff f, hC.effUsed f hf hfu, ?_⟩
        intro o ho
        obtain ⟨i, hi, rfl⟩ := List.mem_iff_getElem.mp ho
        have hi' : i < (usableN obs.flatten a).length := by
          rw [List.length_zip, List.length_map] at hi; omega
        rw [List.getElem_zip]
        dsimp only
        rw [List.getElem_map]
        exact effect_rows hC ht hN hrows hf hfu hi')
    exact ⟨es, by rw [hes]⟩
  obtain ⟨es, hes⟩ := heff
  unfold safeAction at herr
  rw [hrel] at herr
  simp only [Bind.bind, Except.bind] at herr
  cases hnp : numericPre cfg rel (storeOf cfg D a (usableN obs.flatten a)) with
  | error e =>
    rw [hnp] at herr
    simp only [Except.error.injEq] at herr
    subst herr
    unfold numericPre at hnp
    revert hnp
    repeat' split
    all_goals simp
  | ok cs => rw [hnp, hes] at herr; simp at herr

/-- Limit of C62: the actions N-SAM returns never have inequality preconditions, although SAM learns
them from the same data; so they can be applied with the same object for two parameters, where C62 says
nothing about the boolean effects. -/
theorem C62_limit_inequalities_dropped {policy : Policy} (hD : D.names.Nodup) (hfns : cfg.fns ≠ [])
    (h : (NumLearner.init D policy).learn cfg obs = .ok (N', info)) : ∀ a ∈ N'.base.dom.names, (N'.base.dom.act a).ineq = ∅ := by
  obtain ⟨L', al, HL⟩ := numLearn_spec hD hfns h
  intro a ha
  rw [HL.names] at ha
  exact HL.ineq a ha

end
end Props

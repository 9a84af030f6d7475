import Verif.Lemmas.NumSam
import Verif.Spec.NumLearning
import Verif.Props.NumMatch

/-! N-SAM: the data frames when every function in scope has a value in every observation. -/
namespace Model
open Spec

theorem lookup_map_inj {α κ β : Type} [DecidableEq α] [DecidableEq κ] {t : α → κ} {m : List (α × β)} {f : α}
    (h : ∀ p ∈ m, t p.1 = t f → p.1 = f) : (m.map fun p => (t p.1, p.2)).lookup (t f) = m.lookup f := by
  induction m with
  | nil => rfl
  | cons p m ih =>
    obtain ⟨a, b⟩ := p
    rw [List.map_cons, List.lookup_cons, List.lookup_cons]
    by_cases e : a = f
    · subst e; simp
    · have e' : ¬ t f = t a := fun k => e (h (a, b) (by simp) k.symm)
      have e2 : ¬ f = a := fun k => e k.symm
      rw [show (t f == t a) = false by simpa using e', show (f == a) = false by simpa using e2]
      exact ih fun p hp => h p (by simp [hp])

/-- The equality test used by `lookup` does not matter. -/
theorem lookup_inst {κ β : Type} [DecidableEq κ] [i : BEq κ] [LawfulBEq κ] (k : κ) (l : List (κ × β)) :
    @List.lookup κ β instBEqOfDecidableEq k l = @List.lookup κ β i k l := by
  induction l with
  | nil => rfl
  | cons p l ih =>
    rw [@List.lookup_cons, @List.lookup_cons, ih]
    by_cases h : k = p.1
    · simp [h]
    · have h1 : @BEq.beq κ instBEqOfDecidableEq k p.1 = false := by simpa using h
      have h2 : @BEq.beq κ i k p.1 = false := by simpa using h
      rw [h1, h2]

section
variable {K : Type} [Field K] [LinearOrder K] {cfg : NumCfg K} {D : Domain} {a : String}

/-- The lifted functions in scope of an action. -/
def scopeFns (cfg : NumCfg K) (D : Domain) (a : String) : List Atom := functionVocab cfg.fns D.consts (D.act a).sig
/-- The columns of an action: monomials before, functions after. -/
def prevColumns (cfg : NumCfg K) (D : Domain) (a : String) : List (List String) := createMonomials ((scopeFns cfg D a).map cfg.txt) cfg.degree
def nextColumns (cfg : NumCfg K) (D : Domain) (a : String) : List (List String) := (scopeFns cfg D a).map fun f => [cfg.txt f]
/-- The substitution of the call of a component. -/
def callSubst (D : Domain) (c : NumComponent K) : String → String := subst (Sig.names (D.act c.comp.call.name).sig) c.comp.call.params
/-- The rows of an observation. -/
def prevRow (cfg : NumCfg K) (D : Domain) (a : String) (c : NumComponent K) : List String → K :=
  frameRow (prevColumns cfg D a) (stateVal cfg.txt (scopeFns cfg D a) (callSubst D c) c.prevN)
def nextRow (cfg : NumCfg K) (D : Domain) (a : String) (c : NumComponent K) : List String → K :=
  frameRow (nextColumns cfg D a) (stateVal cfg.txt (scopeFns cfg D a) (callSubst D c) c.nextN)

theorem mem_scopeFns {f : Atom} : f ∈ scopeFns cfg D a ↔ InScope cfg.fns D.consts (D.act a).sig f :=
  (Props.C60_vocabulary f).2

theorem scopeFns_nodup : (scopeFns cfg D a).Nodup := (Props.C60_vocabulary (⟨"", []⟩ : Atom)).1

theorem _root_.Spec.InScope.liftable {fns : List PredDecl} {consts sig : Sig} {f : Atom} (h : InScope fns consts sig f) : Liftable fns consts sig f := by
  obtain ⟨hnd, pd, hpd, hn, hf⟩ := h
  refine ⟨⟨pd, hpd, hn, hf.length_eq.symm⟩, ?_⟩
  intro x hx
  obtain ⟨i, hi, rfl⟩ := List.mem_iff_getElem.mp hx
  rw [List.forall₂_iff_get] at hf
  obtain ⟨t, ht, _⟩ := hf.2 i hi (by rw [← hf.1]; exact hi)
  exact List.mem_map.mpr ⟨_, ht, rfl⟩

theorem txt_nodup (ht : TextOK cfg.txt cfg.fns D.consts (D.act a).sig) : ((scopeFns cfg D a).map cfg.txt).Nodup := by
  refine (List.nodup_map_iff_inj_on scopeFns_nodup).mpr ?_
  intro f hf g hg e
  exact ht.inj f g (mem_scopeFns.mp hf).liftable (mem_scopeFns.mp hg).liftable e

theorem prevColumns_nodup (ht : TextOK cfg.txt cfg.fns D.consts (D.act a).sig) : (prevColumns cfg D a).Nodup :=
  createMonomials_nodup (txt_nodup ht) _

theorem mem_prevColumns (ht : TextOK cfg.txt cfg.fns D.consts (D.act a).sig) {m : List String} (hm : m ∈ prevColumns cfg D a) :
    m ≠ [] ∧ ∀ n ∈ m, ∃ f, InScope cfg.fns D.consts (D.act a).sig f ∧ cfg.txt f = n := by
  have := (mem_createMonomials (txt_nodup ht)).mp hm
  refine ⟨this.1, fun n hn => ?_⟩
  obtain ⟨f, hf, e⟩ := List.mem_map.mp (this.2.2.1 n hn)
  exact ⟨f, mem_scopeFns.mp hf, e⟩

theorem single_mem_prevColumns (ht : TextOK cfg.txt cfg.fns D.consts (D.act a).sig) {f : Atom} (hf : InScope cfg.fns D.consts (D.act a).sig f) :
    [cfg.txt f] ∈ prevColumns cfg D a := by
  refine (mem_createMonomials (txt_nodup ht)).mpr ⟨by simp, by simp, ?_, ?_, by simp⟩
  · intro n hn
    rw [List.mem_singleton.mp hn]
    exact List.mem_map.mpr ⟨f, mem_scopeFns.mpr hf, rfl⟩
  · split_ifs <;> simp only [List.length_singleton] <;> omega

/-- The state valuation is the one the state gives. -/
theorem stateVal_txt (ht : TextOK cfg.txt cfg.fns D.consts (D.act a).sig) {ρ : String → String} {σ : List (Atom × K)} {f : Atom}
    (hf : InScope cfg.fns D.consts (D.act a).sig f) :
    stateVal cfg.txt (scopeFns cfg D a) ρ σ (cfg.txt f) = (σ.lookup (groundFn ρ f)).getD 0 := by
  unfold stateVal
  have hex : ∃ g ∈ scopeFns cfg D a, (cfg.txt g == cfg.txt f) = true := ⟨f, mem_scopeFns.mpr hf, by simp⟩
  cases hfi : (scopeFns cfg D a).find? fun g => cfg.txt g == cfg.txt f with
  | none =>
    rw [List.find?_eq_none] at hfi
    obtain ⟨g, hg, e⟩ := hex
    exact absurd e (hfi g hg)
  | some g =>
    have h1 := List.find?_some hfi
    have h2 := List.mem_of_find?_eq_some hfi
    have : g = f := ht.inj g f (mem_scopeFns.mp h2).liftable hf.liftable (by simpa using h1)
    subst this
    rfl

theorem stateVal_lifts (ht : TextOK cfg.txt cfg.fns D.consts (D.act a).sig) (ρ : String → String) (σ : List (Atom × K)) :
    Lifts cfg.txt cfg.fns D.consts (D.act a).sig ρ (fun g => (σ.lookup g).getD 0) (stateVal cfg.txt (scopeFns cfg D a) ρ σ) :=
  fun _ hf => stateVal_txt ht hf

/-- What the matcher gives for a state. -/
theorem fluents_lookup {call : Call} (hw : WFSig D.consts (D.act call.name).sig) (hlen : call.params.length = (D.act call.name).sig.length)
    (ht : TextOK cfg.txt cfg.fns D.consts (D.act call.name).sig) {state : List (Atom × K)}
    (hkeys : (state.map Prod.fst).Nodup) (hargs : ∀ p ∈ state, p.1.args.Nodup) {fl : List (String × K)}
    (h : liftedFluents cfg D call state = .ok fl) :
    (fl.map Prod.fst).Nodup ∧ ∀ f, Liftable cfg.fns D.consts (D.act call.name).sig f →
      fl.lookup (cfg.txt f) = state.lookup (groundFn (subst (Sig.names (D.act call.name).sig) call.params) f) := by
  unfold liftedFluents at h
  cases hm : matchFunctions cfg.fns (Sig.names D.consts) (Sig.names (D.act call.name).sig) call.params
      (numericSnapshot state (call.params ++ Sig.names D.consts)) with
  | error e => rw [hm] at h; simp at h
  | ok m =>
    rw [hm] at h
    simp only [Except.ok.injEq] at h
    subst h
    have hx := Props.C60_matches_exact hw hlen hkeys hargs hm
    have hnd : (m.map Prod.fst).Nodup := by
      unfold matchFunctions at hm
      simp only [Bind.bind, Except.bind] at hm
      cases hes : cfg.fns.mapM (functionEntries (Sig.names D.consts) (Sig.names (D.act call.name).sig) call.params
          (numericSnapshot state (call.params ++ Sig.names D.consts))) with
      | error e => rw [hes] at hm; simp at hm
      | ok es =>
        rw [hes] at hm
        simp only [Except.ok.injEq] at hm
        subst hm
        exact Py.dictOf_keys_nodup _
    have hlift : ∀ p ∈ m, Liftable cfg.fns D.consts (D.act call.name).sig p.1 := by
      intro p hp
      obtain ⟨h1, h2, _⟩ := (hx p.1 p.2).mp (lookup_of_mem_nodup hnd hp)
      exact ⟨h1, h2⟩
    refine ⟨?_, fun f hf => ?_⟩
    · rw [List.map_map]
      show (m.map fun p => cfg.txt p.1).Nodup
      have : (m.map fun p => cfg.txt p.1) = (m.map Prod.fst).map cfg.txt := by rw [List.map_map]; rfl
      rw [this]
      refine (List.nodup_map_iff_inj_on hnd).mpr ?_
      intro f hf g hg e
      obtain ⟨p, hp, rfl⟩ := List.mem_map.mp hf
      obtain ⟨q, hq, rfl⟩ := List.mem_map.mp hg
      exact ht.inj _ _ (hlift p hp) (hlift q hq) e
    · rw [lookup_map_inj (t := cfg.txt) (f := f) (fun p hp e => ht.inj _ _ (hlift p hp) hf e)]
      apply Option.ext
      intro v
      rw [hx]
      exact ⟨fun k => k.2.2, fun k => ⟨hf.1, hf.2, k⟩⟩

theorem keys_groundMonomials {ms : List (List String)} {fl : List (String × K)} (hnd : ms.Nodup)
    (hall : ∀ m ∈ ms, ∀ n ∈ m, n ∈ fl.map Prod.fst) : (groundMonomials ms fl).map Prod.fst = ms := by
  unfold groundMonomials
  suffices hs : ∀ (l : List (List String)) (acc : List (List String × K)), (acc.map Prod.fst ++ l).Nodup → (∀ m ∈ l, ∀ n ∈ m, n ∈ fl.map Prod.fst) →
      (l.foldl (fun acc m =>
        if m.any (fun c => !(fl.map Prod.fst).contains c) then acc
        else Py.dictSet acc m (m.map fun c => (fl.lookup c).getD 0).prod) acc).map Prod.fst = acc.map Prod.fst ++ l by
    simpa using hs ms [] (by simpa using hnd) hall
  intro l
  induction l with
  | nil => intro acc _ _; simp
  | cons m l ih =>
    intro acc hnd hall
    have hany : (m.any fun c => !(fl.map Prod.fst).contains c) = false := by
      rw [List.any_eq_false]
      intro n hn
      have := hall m (by simp) n hn
      simpa using this
    have hm : m ∉ acc.map Prod.fst := by
      intro hm
      rw [List.nodup_append] at hnd
      exact hnd.2.2 m hm m (by simp) rfl
    rw [List.foldl_cons, hany]
    have hk : (Py.dictSet acc m (m.map fun c => (fl.lookup c).getD 0).prod).map Prod.fst = acc.map Prod.fst ++ [m] := by
      rw [Py.keys_dictSet, if_neg hm]
    rw [if_neg (by simp), ih, hk]
    · simp
    · rw [hk]; simpa using hnd
    · exact fun m hm => hall m (by simp [hm])

/-- The hypotheses on the observations of one action, as far as the storage needs them. -/
structure FullObs (cfg : NumCfg K) (D : Domain) (a : String) (us : List (NumComponent K)) : Prop where
  wf : WFSig D.consts (D.act a).sig
  text : TextOK cfg.txt cfg.fns D.consts (D.act a).sig
  name : ∀ c ∈ us, c.comp.call.name = a
  len : ∀ c ∈ us, c.comp.call.params.length = (D.act a).sig.length
  prevKeys : ∀ c ∈ us, (c.prevN.map Prod.fst).Nodup
  nextKeys : ∀ c ∈ us, (c.nextN.map Prod.fst).Nodup
  prevArgs : ∀ c ∈ us, ∀ p ∈ c.prevN, p.1.args.Nodup
  nextArgs : ∀ c ∈ us, ∀ p ∈ c.nextN, p.1.args.Nodup
  prevDef : ∀ c ∈ us, ∀ f, InScope cfg.fns D.consts (D.act a).sig f → ∃ v, c.prevN.lookup (groundFn (callSubst D c) f) = some v
  nextDef : ∀ c ∈ us, ∀ f, InScope cfg.fns D.consts (D.act a).sig f → ∃ v, c.nextN.lookup (groundFn (callSubst D c) f) = some v

theorem prev_point {c : NumComponent K} {us : List (NumComponent K)} (H : FullObs cfg D a us) (hc : c ∈ us)
    (hm : liftedFluents cfg D c.comp.call c.prevN = .ok (fluentsOf cfg D c.comp.call c.prevN)) :
    (groundMonomials (prevColumns cfg D a) (fluentsOf cfg D c.comp.call c.prevN)).map Prod.fst = prevColumns cfg D a ∧
    pointFn (groundMonomials (prevColumns cfg D a) (fluentsOf cfg D c.comp.call c.prevN)) = prevRow cfg D a c := by
  have hn := H.name c hc
  obtain ⟨_, hl⟩ := fluents_lookup (by rw [hn]; exact H.wf) (by rw [hn]; exact H.len c hc) (by rw [hn]; exact H.text)
    (H.prevKeys c hc) (H.prevArgs c hc) hm
  rw [hn] at hl
  have hsub : callSubst D c = subst (Sig.names (D.act a).sig) c.comp.call.params := by unfold callSubst; rw [hn]
  have hlook : ∀ f, InScope cfg.fns D.consts (D.act a).sig f →
      (fluentsOf cfg D c.comp.call c.prevN).lookup (cfg.txt f) = c.prevN.lookup (groundFn (callSubst D c) f) := by
    intro f hf
    rw [hl f hf.liftable, hsub]
  have hall : ∀ m ∈ prevColumns cfg D a, ∀ n ∈ m, n ∈ (fluentsOf cfg D c.comp.call c.prevN).map Prod.fst := by
    intro m hm n hn
    obtain ⟨f, hf, rfl⟩ := (mem_prevColumns H.text hm).2 n hn
    obtain ⟨v, hv⟩ := H.prevDef c hc f hf
    by_contra hk
    rw [← Py.lookup_none_iff, hlook f hf, hv] at hk
    simp at hk
  refine ⟨keys_groundMonomials (prevColumns_nodup H.text) hall, ?_⟩
  funext m
  unfold pointFn prevRow frameRow
  rw [lookup_inst, lookup_groundMonomials]
  by_cases hm' : m ∈ prevColumns cfg D a
  · rw [if_pos ⟨hm', hall m hm'⟩, if_pos hm', Option.getD_some]
    unfold monoVal
    congr 1
    apply List.map_congr_left
    intro n hn
    obtain ⟨f, hf, rfl⟩ := (mem_prevColumns H.text hm').2 n hn
    rw [hlook f hf, stateVal_txt H.text hf]
  · rw [if_neg (fun k => hm' k.1), if_neg hm', Option.getD_none]

/-- The sample of the next state. -/
def nextFrame (cfg : NumCfg K) (D : Domain) (a : String) (c : NumComponent K) : Frame (List String) K :=
  nextSample (((scopeFns cfg D a).map cfg.txt).map ([·])) ((fluentsOf cfg D c.comp.call c.nextN).map fun p => ([p.1], p.2))

theorem next_point {c : NumComponent K} {us : List (NumComponent K)} (H : FullObs cfg D a us) (hc : c ∈ us) (hne : scopeFns cfg D a ≠ [])
    (hm : liftedFluents cfg D c.comp.call c.nextN = .ok (fluentsOf cfg D c.comp.call c.nextN)) :
    (nextFrame cfg D a c).cols.Nodup ∧ (∀ m, m ∈ (nextFrame cfg D a c).cols ↔ m ∈ nextColumns cfg D a) ∧
    ∃ r, (nextFrame cfg D a c).rows = [r] ∧ ∀ m ∈ nextColumns cfg D a, r m = nextRow cfg D a c m := by
  have hn := H.name c hc
  obtain ⟨hnd, hl⟩ := fluents_lookup (by rw [hn]; exact H.wf) (by rw [hn]; exact H.len c hc) (by rw [hn]; exact H.text)
    (H.nextKeys c hc) (H.nextArgs c hc) hm
  rw [hn] at hl
  have hsub : callSubst D c = subst (Sig.names (D.act a).sig) c.comp.call.params := by unfold callSubst; rw [hn]
  have hlook : ∀ f, InScope cfg.fns D.consts (D.act a).sig f →
      (fluentsOf cfg D c.comp.call c.nextN).lookup (cfg.txt f) = c.nextN.lookup (groundFn (callSubst D c) f) := by
    intro f hf
    rw [hl f hf.liftable, hsub]
  have hkey : ∀ f, InScope cfg.fns D.consts (D.act a).sig f → cfg.txt f ∈ (fluentsOf cfg D c.comp.call c.nextN).map Prod.fst := by
    intro f hf
    obtain ⟨v, hv⟩ := H.nextDef c hc f hf
    by_contra hk
    rw [← Py.lookup_none_iff, hlook f hf, hv] at hk
    simp at hk
  have hpt : ((fluentsOf cfg D c.comp.call c.nextN).map fun p => ([p.1], p.2)) ≠ [] := by
    obtain ⟨f, hf⟩ := List.exists_mem_of_ne_nil _ hne
    have := hkey f (mem_scopeFns.mp hf)
    intro h
    rw [List.map_eq_nil_iff] at h
    rw [h] at this
    simp at this
  have hcols : (nextFrame cfg D a c).cols =
      (((fluentsOf cfg D c.comp.call c.nextN).map Prod.fst).map ([·])).filter (· ∈ ((scopeFns cfg D a).map cfg.txt).map ([·])) := by
    unfold nextFrame nextSample sampleFrame
    simp only [List.map_map]
    rfl
  refine ⟨?_, ?_, ?_⟩
  · rw [hcols]
    exact (hnd.map (fun a b h => by simpa using h)).filter _
  · intro m
    rw [hcols, List.mem_filter]
    unfold nextColumns
    simp only [List.mem_map, decide_eq_true_eq, exists_exists_and_eq_and]
    constructor
    · rintro ⟨_, f, hf, rfl⟩
      exact ⟨f, hf, rfl⟩
    · rintro ⟨f, hf, rfl⟩
      refine ⟨?_, f, hf, rfl⟩
      obtain ⟨p, hp, e⟩ := List.mem_map.mp (hkey f (mem_scopeFns.mp hf))
      exact ⟨p, hp, by rw [e]⟩
  · refine ⟨pointFn ((fluentsOf cfg D c.comp.call c.nextN).map fun p => ([p.1], p.2)), ?_, ?_⟩
    · unfold nextFrame nextSample sampleFrame
      dsimp only
      rw [if_neg hpt]
    · intro m hm'
      unfold nextRow frameRow
      rw [if_pos hm']
      obtain ⟨f, hf, rfl⟩ := List.mem_map.mp hm'
      have hf' := mem_scopeFns.mp hf
      unfold pointFn
      rw [lookup_map_inj (t := fun n : String => [n]) (f := cfg.txt f) (fun p _ e => by simpa using e), hlook f hf']
      unfold monoVal
      simp only [List.map_cons, List.map_nil, List.prod_cons, List.prod_nil, mul_one]
      rw [stateVal_txt H.text hf']

/-- The frames of an action after its observations. -/
structure StoreShape (cfg : NumCfg K) (D : Domain) (a : String) (us : List (NumComponent K)) (st : NStore K) : Prop where
  functions : st.functions = (scopeFns cfg D a).map cfg.txt
  monomials : st.monomials = prevColumns cfg D a
  empty : us = [] → st.hull.rows = [] ∧ st.prev.rows = [] ∧ st.next.rows = []
  hullCols : us ≠ [] → st.hull.cols = prevColumns cfg D a
  hullRows : us ≠ [] → st.hull.rows = dedupBy (fun r : List String → K => (prevColumns cfg D a).map r) (us.map (prevRow cfg D a))
  prevCols : us ≠ [] → st.prev.cols = prevColumns cfg D a
  prevRows : us ≠ [] → st.prev.rows = us.map (prevRow cfg D a)
  nextNodup : us ≠ [] → st.next.cols.Nodup
  nextCols : us ≠ [] → ∀ m, m ∈ st.next.cols ↔ m ∈ nextColumns cfg D a
  nextLen : us ≠ [] → st.next.rows.length = us.length
  nextRows : us ≠ [] → List.Forall₂ (fun r c => ∀ m ∈ nextColumns cfg D a, r m = nextRow cfg D a c m) st.next.rows us

theorem storeOf_shape (hne : scopeFns cfg D a ≠ []) : ∀ us : List (NumComponent K), FullObs cfg D a us →
    (∀ c ∈ us, liftedFluents cfg D c.comp.call c.prevN = .ok (fluentsOf cfg D c.comp.call c.prevN) ∧
      liftedFluents cfg D c.comp.call c.nextN = .ok (fluentsOf cfg D c.comp.call c.nextN)) →
    StoreShape cfg D a us (storeOf cfg D a us) := by
  intro us
  induction us using List.reverseRecOn with
  | nil =>
    intro _ _
    refine ⟨rfl, rfl, fun _ => ⟨rfl, rfl, rfl⟩, ?_, ?_, ?_, ?_, ?_, ?_, ?_, ?_⟩ <;> intro h <;> exact absurd rfl h
  | append_singleton us c ih =>
    intro H hmt
    have H' : FullObs cfg D a us := ⟨H.wf, H.text, fun c hc => H.name c (by simp [hc]), fun c hc => H.len c (by simp [hc]),
      fun c hc => H.prevKeys c (by simp [hc]), fun c hc => H.nextKeys c (by simp [hc]), fun c hc => H.prevArgs c (by simp [hc]),
      fun c hc => H.nextArgs c (by simp [hc]), fun c hc => H.prevDef c (by simp [hc]), fun c hc => H.nextDef c (by simp [hc])⟩
    have I := ih H' fun c hc => hmt c (by simp [hc])
    obtain ⟨p1, p2⟩ := prev_point H (by simp : c ∈ us ++ [c]) (hmt c (by simp)).1
    obtain ⟨n1, n2, r, n3, n4⟩ := next_point H (by simp : c ∈ us ++ [c]) hne (hmt c (by simp)).2
    have hms : prevColumns cfg D a ≠ [] := by
      obtain ⟨f, hf⟩ := List.exists_mem_of_ne_nil _ hne
      exact List.ne_nil_of_mem (single_mem_prevColumns H.text (mem_scopeFns.mp hf))
    have hnc : nextColumns cfg D a ≠ [] := by
      unfold nextColumns
      simpa using hne
    have hst : storeOf cfg D a (us ++ [c]) = ((storeOf cfg D a us).addPrev (fluentsOf cfg D c.comp.call c.prevN)).addNext
        (fluentsOf cfg D c.comp.call c.nextN) := by
      unfold storeOf
      rw [List.foldl_append, List.foldl_cons, List.foldl_nil]
    revert I hst
    generalize storeOf cfg D a us = st
    generalize storeOf cfg D a (us ++ [c]) = st'
    intro I hst
    subst hst
    have hH := addPoint_same (F := st.hull) (pts := us.map (prevRow cfg D a)) hms p1 (by
      by_cases hu : us = []
      · exact Or.inl ⟨by simp [hu], (I.empty hu).1⟩
      · exact Or.inr ⟨by simpa using hu, I.hullCols hu, I.hullRows hu⟩)
    have hP := addObs_same (F := st.prev) (G := sampleFrame (groundMonomials (prevColumns cfg D a) (fluentsOf cfg D c.comp.call c.prevN)))
      (pts := us.map (prevRow cfg D a)) (r := prevRow cfg D a c) (by
        unfold sampleFrame
        dsimp only
        rw [if_neg (by intro h; rw [h] at p1; exact hms p1.symm), p2]) (by
        show (groundMonomials (prevColumns cfg D a) (fluentsOf cfg D c.comp.call c.prevN)).map Prod.fst ≠ []
        rw [p1]; exact hms) (by
      by_cases hu : us = []
      · exact Or.inl ⟨by simp [hu], (I.empty hu).2.1⟩
      · refine Or.inr ⟨by simpa using hu, by rw [I.prevCols hu]; exact hms, ?_, I.prevRows hu⟩
        intro m hm
        show m ∈ (groundMonomials (prevColumns cfg D a) (fluentsOf cfg D c.comp.call c.prevN)).map Prod.fst
        rw [p1, ← I.prevCols hu]; exact hm)
    have hN := addObs_same (F := st.next) (G := nextFrame cfg D a c) (pts := st.next.rows) n3
      (by
        obtain ⟨m, hm⟩ := List.exists_mem_of_ne_nil _ hnc
        exact List.ne_nil_of_mem ((n2 m).mpr hm)) (by
      by_cases hu : us = []
      · exact Or.inl ⟨(I.empty hu).2.2, (I.empty hu).2.2⟩
      · refine Or.inr ⟨?_, ?_, ?_, rfl⟩
        · intro h
          have := I.nextLen hu
          rw [h] at this
          exact hu (List.length_eq_zero_iff.mp this.symm)
        · obtain ⟨m, hm⟩ := List.exists_mem_of_ne_nil _ hnc
          exact List.ne_nil_of_mem ((I.nextCols hu m).mpr hm)
        · intro m hm
          exact (n2 m).mpr ((I.nextCols hu m).mp hm))
    have e1 : ((st.addPrev (fluentsOf cfg D c.comp.call c.prevN)).addNext (fluentsOf cfg D c.comp.call c.nextN)).hull =
        storePoint st.hull (groundMonomials (prevColumns cfg D a) (fluentsOf cfg D c.comp.call c.prevN)) := by
      rw [← I.monomials]; rfl
    have e2 : ((st.addPrev (fluentsOf cfg D c.comp.call c.prevN)).addNext (fluentsOf cfg D c.comp.call c.nextN)).prev =
        addObs st.prev (sampleFrame (groundMonomials (prevColumns cfg D a) (fluentsOf cfg D c.comp.call c.prevN))) := by
      rw [← I.monomials]; rfl
    have e3 : ((st.addPrev (fluentsOf cfg D c.comp.call c.prevN)).addNext (fluentsOf cfg D c.comp.call c.nextN)).next =
        addObs st.next (nextFrame cfg D a c) := by
      unfold nextFrame
      rw [← I.functions]; rfl
    have hnr : st.next.rows = [] ↔ us = [] := by
      constructor
      · intro h
        by_contra hu
        have := I.nextLen hu
        rw [h] at this
        exact hu (List.length_eq_zero_iff.mp this.symm)
      · exact fun hu => (I.empty hu).2.2
    refine ⟨I.functions, I.monomials, by simp, ?_, ?_, ?_, ?_, ?_, ?_, ?_, ?_⟩ <;> intro _
    · rw [e1]; exact hH.1
    · rw [e1, hH.2, p2, List.map_append]; rfl
    · rw [e2, hP.2]
      split_ifs with hu
      · exact p1
      · exact I.prevCols (by simpa using hu)
    · rw [e2, hP.1, List.map_append]; rfl
    · rw [e3, hN.2]
      split_ifs with hu
      · exact n1
      · exact I.nextNodup (fun h => hu (hnr.mpr h))
    · rw [e3, hN.2]
      split_ifs with hu
      · exact n2
      · exact I.nextCols (fun h => hu (hnr.mpr h))
    · rw [e3, hN.1, List.length_append, List.length_append]
      by_cases hu : us = []
      · rw [hnr.mpr hu, hu]; rfl
      · rw [I.nextLen hu]; rfl
    · rw [e3, hN.1]
      by_cases hu : us = []
      · rw [hnr.mpr hu, hu]
        exact List.Forall₂.cons n4 List.Forall₂.nil
      · exact List.rel_append (I.nextRows hu) (List.Forall₂.cons n4 List.Forall₂.nil)

end
end Model

import Verif.Model.NumSam
import Verif.Lemmas.NumMatch
import Verif.Lemmas.Monomials
import Verif.Lemmas.SamPolicy
import Verif.Lemmas.LinReg

/-! N-SAM: what is stored. -/
namespace Model
open Spec

/-! ### Frames -/

section
variable {α β : Type} [DecidableEq β] {key : α → β}

theorem dedupBy_append_single (l : List α) (a : α) :
    dedupBy key (l ++ [a]) = if ∃ b ∈ l, key b = key a then dedupBy key l else dedupBy key l ++ [a] := by
  induction l with
  | nil => simp [dedupBy]
  | cons b l ih =>
    rw [List.cons_append, dedupBy, ih, dedupBy]
    by_cases h1 : key b = key a
    · have hx : ∃ c ∈ b :: l, key c = key a := ⟨b, List.mem_cons_self, h1⟩
      rw [if_pos hx]
      by_cases h2 : ∃ c ∈ l, key c = key a
      · rw [if_pos h2]
      · rw [if_neg h2, List.filter_append]; simp [h1]
    · by_cases h2 : ∃ c ∈ l, key c = key a
      · rw [if_pos h2, if_pos]
        obtain ⟨c, hc, h⟩ := h2
        exact ⟨c, by simp [hc], h⟩
      · rw [if_neg h2, if_neg, List.filter_append]
        · have : ¬ key a = key b := fun h => h1 h.symm
          simp [this]
        · rintro ⟨c, hc, h⟩
          rcases List.mem_cons.mp hc with rfl | hc
          · exact h1 h
          · exact h2 ⟨c, hc, h⟩

theorem dedupBy_nodup (l : List α) : ((dedupBy key l).map key).Nodup := by
  induction l with
  | nil => simp [dedupBy]
  | cons a l ih =>
    rw [dedupBy, List.map_cons, List.nodup_cons]
    refine ⟨?_, (List.Sublist.map _ List.filter_sublist).nodup ih⟩
    intro h
    obtain ⟨b, hb, h⟩ := List.mem_map.mp h
    have := (List.mem_filter.mp hb).2
    simp [h] at this

theorem dedupBy_of_nodup {l : List α} (h : (l.map key).Nodup) : dedupBy key l = l := by
  induction l with
  | nil => rfl
  | cons a l ih =>
    rw [List.map_cons, List.nodup_cons] at h
    rw [dedupBy, ih h.2, List.filter_eq_self.mpr]
    intro b hb
    simp only [ne_eq, decide_not, Bool.not_eq_eq_eq_not, Bool.not_true, decide_eq_false_iff_not]
    intro e
    exact h.1 (List.mem_map.mpr ⟨b, hb, e⟩)

theorem dedupBy_congr {γ : Type} [DecidableEq γ] {key' : α → γ} (h : ∀ a b, key a = key b ↔ key' a = key' b) (l : List α) :
    dedupBy key l = dedupBy key' l := by
  induction l with
  | nil => rfl
  | cons a l ih =>
    rw [dedupBy, dedupBy, ih]
    congr 1
    apply List.filter_congr
    intro b _
    simp only [ne_eq, decide_not, h b a]

theorem dedupBy_ne_nil {l : List α} (h : l ≠ []) : dedupBy key l ≠ [] := by
  cases l with
  | nil => exact absurd rfl h
  | cons a l => simp [dedupBy]

end

section
variable {C K : Type} [DecidableEq C] [DecidableEq K] [Zero K]

/-- With the same columns in each sample, the hull frame keeps the distinct points. -/
theorem addPoint_same {ms : List C} (hms : ms ≠ []) {F : Frame C K} {pts : List (C → K)} {pt : List (C × K)}
    (hpt : pt.map Prod.fst = ms)
    (hF : pts = [] ∧ F.rows = [] ∨ pts ≠ [] ∧ F.cols = ms ∧ F.rows = dedupBy (fun r : C → K => ms.map r) pts) :
    (storePoint F pt).cols = ms ∧ (storePoint F pt).rows = dedupBy (fun r : C → K => ms.map r) (pts ++ [pointFn pt]) := by
  have hne : pt ≠ [] := by rintro rfl; exact hms hpt.symm
  rcases hF with ⟨rfl, hr⟩ | ⟨hp, hc, hr⟩
  · unfold storePoint
    rw [if_pos hr]
    simp only [sampleFrame, hpt, hne, if_false, List.nil_append, true_and]
    rfl
  · have hrne : F.rows ≠ [] := by rw [hr]; exact dedupBy_ne_nil hp
    unfold storePoint
    rw [if_neg hrne]
    have hG : concatFrame F (sampleFrame pt) = ⟨ms, F.rows ++ [pointFn pt]⟩ := by
      unfold concatFrame sampleFrame
      simp only [hne, if_false, List.cons_ne_nil, hpt, hc]
      congr 1
      exact List.filter_eq_self.mpr (by simp)
    rw [hG]
    dsimp only
    rw [if_neg hms]
    have hd : dedupBy (fun r : C → K => ms.map r) F.rows = F.rows := by
      rw [hr]; exact dedupBy_of_nodup (dedupBy_nodup _)
    rw [dedupBy_append_single, dedupBy_append_single, hd]
    by_cases hex : ∃ b ∈ pts, ms.map b = ms.map (pointFn pt)
    · have hex' : ∃ b ∈ F.rows, ms.map b = ms.map (pointFn pt) := by
        obtain ⟨b, hb, he⟩ := hex
        obtain ⟨b', hb', he'⟩ := dedupBy_rep (key := fun r : C → K => ms.map r) hb
        exact ⟨b', by rw [hr]; exact hb', he'.trans he⟩
      rw [if_pos hex', if_pos hex, if_pos rfl]
      exact ⟨hc, hr⟩
    · have hex' : ¬ ∃ b ∈ F.rows, ms.map b = ms.map (pointFn pt) := by
        rintro ⟨b, hb, he⟩
        rw [hr] at hb
        exact hex ⟨b, dedupBy_mem hb, he⟩
      rw [if_neg hex', if_neg hex, if_neg (by simp), hr]
      exact ⟨rfl, rfl⟩

/-- The regression frames keep all samples. -/
theorem addObs_same {F G : Frame C K} {pts : List (C → K)} {r : C → K} (hG : G.rows = [r]) (hGc : G.cols ≠ [])
    (hF : pts = [] ∧ F.rows = [] ∨ pts ≠ [] ∧ F.cols ≠ [] ∧ (∀ c ∈ F.cols, c ∈ G.cols) ∧ F.rows = pts) :
    (addObs F G).rows = pts ++ [r] ∧ (addObs F G).cols = if pts = [] then G.cols else F.cols := by
  unfold addObs
  rcases hF with ⟨rfl, hr⟩ | ⟨hp, hc, hsub, hr⟩
  · rw [if_pos (Or.inl hr)]
    exact ⟨by rw [hG]; rfl, by simp⟩
  · rw [if_neg (by rintro (h | h)
                   · exact hp (hr ▸ h)
                   · exact hc h)]
    unfold concatFrame
    rw [if_neg (by rw [hG]; simp), if_neg hp]
    exact ⟨by simp [hr, hG], List.filter_eq_self.mpr fun c hc => by simpa using hsub c hc⟩

end

/-! ### The store -/

section
variable {K : Type} [Field K] [LinearOrder K] {cfg : NumCfg K}

/-- The successful components of an action without repeated objects. -/
def usableN (hs : List (NumComponent K)) (a : String) : List (NumComponent K) :=
  hs.filter fun c => c.comp.success = true ∧ c.comp.call.name = a ∧ c.comp.call.params.Nodup

theorem usableN_comp (hs : List (NumComponent K)) (a : String) :
    (usableN hs a).map NumComponent.comp = usable (hs.map NumComponent.comp) a := by
  unfold usableN usable
  rw [List.filter_map]
  congr 1
  apply List.filter_congr
  intro c _
  have : containsDuplicates c.comp.call.params = !decide c.comp.call.params.Nodup := by
    by_cases hd : c.comp.call.params.Nodup
    · rw [Bool.eq_iff_iff, containsDuplicates_iff]; simp [hd]
    · rw [Bool.eq_iff_iff, containsDuplicates_iff]; simp [hd]
  simp [this, and_assoc, Bool.and_assoc]

/-- The lifted fluents of the two states of a component (empty if matching fails). -/
def fluentsOf (cfg : NumCfg K) (D : Domain) (call : Call) (state : List (Atom × K)) : List (String × K) :=
  match liftedFluents cfg D call state with
  | .ok m => m
  | .error _ => []

/-- The store of an action after its components. -/
def storeOf (cfg : NumCfg K) (D : Domain) (a : String) (us : List (NumComponent K)) : NStore K :=
  us.foldl (fun st c => (st.addPrev (fluentsOf cfg D c.comp.call c.prevN)).addNext (fluentsOf cfg D c.comp.call c.nextN))
    (NStore.new ((functionVocab cfg.fns D.consts (D.act a).sig).map cfg.txt) cfg.degree)

structure StoreInv (cfg : NumCfg K) (D : Domain) (hs : List (NumComponent K)) (N : NumLearner K) : Prop where
  static : SameStatic D N.base.dom
  observed : ∀ a, a ∈ N.base.observed ↔ usableN hs a ≠ []
  store : ∀ a, N.store.lookup a = if usableN hs a = [] then none else some (storeOf cfg D a (usableN hs a))
  matched : ∀ a, ∀ c ∈ usableN hs a, liftedFluents cfg D c.comp.call c.prevN = .ok (fluentsOf cfg D c.comp.call c.prevN) ∧
    liftedFluents cfg D c.comp.call c.nextN = .ok (fluentsOf cfg D c.comp.call c.nextN)

theorem liftedFluents_static {D D' : Domain} (h : SameStatic D D') (call : Call) (s : List (Atom × K)) :
    liftedFluents cfg D' call s = liftedFluents cfg D call s := by
  unfold liftedFluents
  rw [h.consts, h.sig]

theorem usableN_snoc (hs : List (NumComponent K)) (c : NumComponent K) (a : String) :
    usableN (hs ++ [c]) a = if c.comp.success = true ∧ c.comp.call.name = a ∧ c.comp.call.params.Nodup then usableN hs a ++ [c] else usableN hs a := by
  unfold usableN
  rw [List.filter_append]
  split_ifs with h
  · rw [List.filter_cons_of_pos (by simpa using h)]; simp
  · rw [List.filter_cons_of_neg (by simpa using h)]; simp

theorem StoreInv.skip {D : Domain} {hs : List (NumComponent K)} {N : NumLearner K} (h : StoreInv cfg D hs N) {c : NumComponent K}
    (hc : ¬ (c.comp.success = true ∧ c.comp.call.params.Nodup)) {base : Learner}
    (hb : SameStatic N.base.dom base.dom) (ho : ∀ a, a ∈ base.observed ↔ a ∈ N.base.observed) :
    StoreInv cfg D (hs ++ [c]) { N with base := base } := by
  have e : ∀ a, usableN (hs ++ [c]) a = usableN hs a := by
    intro a
    rw [usableN_snoc, if_neg]
    rintro ⟨h1, _, h3⟩
    exact hc ⟨h1, h3⟩
  refine ⟨h.static.trans hb, fun a => ?_, fun a => ?_, fun a => ?_⟩
  · rw [e]; exact (ho a).trans (h.observed a)
  · rw [e]; exact h.store a
  · rw [e]; exact h.matched a

theorem StoreInv.step {D : Domain} {hs : List (NumComponent K)} {N N' : NumLearner K} (h : StoreInv cfg D hs N) {c : NumComponent K}
    (hc : c.comp.success = true) (hr : N.handle cfg c = .ok N') :
    StoreInv cfg D (hs ++ [c]) N' ∧ N.base.handleComponent c.comp = .ok N'.base := by
  unfold NumLearner.handle at hr
  cases hb : N.base.handleComponent c.comp with
  | error e => rw [hb] at hr; simp at hr
  | ok base =>
    rw [hb] at hr
    dsimp only at hr
    have hI := (Inv.refl N.base).step hc hb
    by_cases hd : c.comp.call.params.Nodup
    · rw [if_neg (by rw [containsDuplicates_iff]; exact not_not.mpr hd)] at hr
      simp only [Bind.bind, Except.bind] at hr
      rw [liftedFluents_static h.static, liftedFluents_static h.static] at hr
      cases hp : liftedFluents cfg D c.comp.call c.prevN with
      | error e => rw [hp] at hr; simp at hr
      | ok prev =>
        cases hn : liftedFluents cfg D c.comp.call c.nextN with
        | error e => rw [hp, hn] at hr; simp at hr
        | ok next =>
          rw [hp, hn] at hr
          dsimp only at hr
          have hpf : fluentsOf cfg D c.comp.call c.prevN = prev := by unfold fluentsOf; rw [hp]
          have hnf : fluentsOf cfg D c.comp.call c.nextN = next := by unfold fluentsOf; rw [hn]
          have hobs : ∀ a, a ∈ base.observed ↔ usableN (hs ++ [c]) a ≠ [] := by
            intro a
            have := hI.observed a
            rw [this, h.observed, usableN_snoc, List.nil_append]
            by_cases ha : c.comp.call.name = a
            · rw [if_pos ⟨hc, ha, hd⟩]
              have : usable [c.comp] a ≠ [] := by
                rw [usable_single_of hc ha hd]; simp
              simp [this]
            · rw [if_neg (fun k => ha k.2.1)]
              have : usable [c.comp] a = [] := by
                rw [usable_single_not]
                exact fun k => ha k.2.1
              simp [this]
          have hst : N.base.dom.consts = D.consts := h.static.consts
          have hsig : (N.base.dom.act c.comp.call.name).sig = (D.act c.comp.call.name).sig := h.static.sig _
          have hmatched : ∀ a, ∀ c' ∈ usableN (hs ++ [c]) a,
              liftedFluents cfg D c'.comp.call c'.prevN = .ok (fluentsOf cfg D c'.comp.call c'.prevN) ∧
              liftedFluents cfg D c'.comp.call c'.nextN = .ok (fluentsOf cfg D c'.comp.call c'.nextN) := by
            intro a c' hc'
            rw [usableN_snoc] at hc'
            split_ifs at hc' with hu
            · rcases List.mem_append.mp hc' with k | k
              · exact h.matched a c' k
              · rw [List.mem_singleton.mp k, hpf, hnf]; exact ⟨hp, hn⟩
            · exact h.matched a c' hc'
          by_cases ho : c.comp.call.name ∈ N.base.observed
          · have hne := (h.observed _).mp ho
            rw [if_neg (not_not.mpr ho), h.store, if_neg hne] at hr
            simp only [Except.ok.injEq] at hr
            subst hr
            refine ⟨⟨h.static.trans hI.static, hobs, fun a => ?_, hmatched⟩, rfl⟩
            dsimp only
            rw [Py.lookup_dictSet]
            by_cases ha : a = c.comp.call.name
            · subst ha
              have hu : usableN (hs ++ [c]) c.comp.call.name = usableN hs c.comp.call.name ++ [c] := by
                rw [usableN_snoc, if_pos ⟨hc, rfl, hd⟩]
              rw [if_pos rfl, hu, if_neg (by simp)]
              unfold storeOf
              rw [List.foldl_append, List.foldl_cons, List.foldl_nil, hpf, hnf]
            · have hu : usableN (hs ++ [c]) a = usableN hs a := by
                rw [usableN_snoc, if_neg (fun k => ha k.2.1.symm)]
              rw [if_neg ha, hu]
              exact h.store a
          · have hem : usableN hs c.comp.call.name = [] := by
              by_contra hne
              exact ho ((h.observed _).mpr hne)
            rw [if_pos ho, hst, hsig] at hr
            simp only [Except.ok.injEq] at hr
            subst hr
            refine ⟨⟨h.static.trans hI.static, hobs, fun a => ?_, hmatched⟩, rfl⟩
            dsimp only
            rw [Py.lookup_dictSet]
            by_cases ha : a = c.comp.call.name
            · subst ha
              have hu : usableN (hs ++ [c]) c.comp.call.name = usableN hs c.comp.call.name ++ [c] := by
                rw [usableN_snoc, if_pos ⟨hc, rfl, hd⟩]
              rw [if_pos rfl, hu, if_neg (by simp), hem]
              unfold storeOf
              rw [List.nil_append, List.foldl_cons, List.foldl_nil, hpf, hnf]
            · have hu : usableN (hs ++ [c]) a = usableN hs a := by
                rw [usableN_snoc, if_neg (fun k => ha k.2.1.symm)]
              rw [if_neg ha, hu]
              exact h.store a
    · rw [if_pos (containsDuplicates_iff.mpr hd)] at hr
      simp only [Except.ok.injEq] at hr
      subst hr
      refine ⟨h.skip (fun k => hd k.2) hI.static (fun a => ?_), rfl⟩
      have := hI.observed a
      rw [this, List.nil_append, usable_single_not]
      · simp
      · exact fun k => hd k.2.2

theorem StoreInv.process {D : Domain} : ∀ (cs hs : List (NumComponent K)) (N N' : NumLearner K), StoreInv cfg D hs N →
    N.process cfg cs = .ok N' →
    StoreInv cfg D (hs ++ cs) N' ∧ N.base.processComponents (cs.map NumComponent.comp) = .ok N'.base := by
  intro cs
  induction cs with
  | nil =>
    intro hs N N' h hr
    simp only [NumLearner.process, List.foldlM_nil, pure, Except.pure, Except.ok.injEq] at hr
    subst hr
    exact ⟨by simpa using h, rfl⟩
  | cons c cs ih =>
    intro hs N N' h hr
    simp only [NumLearner.process, List.foldlM_cons] at hr
    have hcat : hs ++ c :: cs = (hs ++ [c]) ++ cs := by simp
    rw [hcat]
    cases hc : c.comp.success with
    | true =>
      simp only [hc, if_true] at hr
      cases hs' : N.handle cfg c with
      | error e => rw [hs'] at hr; simp [Bind.bind, Except.bind] at hr
      | ok N1 =>
        rw [hs'] at hr
        simp only [Bind.bind, Except.bind] at hr
        obtain ⟨h1, h2⟩ := h.step hc hs'
        obtain ⟨h3, h4⟩ := ih _ N1 N' h1 hr
        refine ⟨h3, ?_⟩
        rw [Learner.processComponents, List.map_cons, List.foldlM_cons, if_pos hc, h2]
        exact h4
    | false =>
      simp only [hc] at hr
      have hr' : N.process cfg cs = .ok N' := by
        simpa [NumLearner.process, Bind.bind, Except.bind] using hr
      obtain ⟨h3, h4⟩ := ih (hs ++ [c]) N N' (h.skip (by simp [hc]) (SameStatic.refl _) (fun _ => Iff.rfl)) hr'
      refine ⟨h3, ?_⟩
      rw [Learner.processComponents, List.map_cons, List.foldlM_cons, if_neg (by simp [hc])]
      exact h4

end
end Model

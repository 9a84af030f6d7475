import Verif.Props.NumOptimal
import Verif.Props.SamPac
import Verif.Lemmas.PacMean
import Verif.Lemmas.PacLine
import Mathlib.Algebra.Order.CompleteField
import Mathlib.Analysis.SpecialFunctions.Trigonometric.Arctan

/-! C148: which trajectories the actions N-SAM learns from the others refuse. -/
namespace Props
open Model Spec

namespace NumSamGeneral
open NumOptimal

section
variable {K : Type} [Field K] [LinearOrder K] [IsStrictOrderedRing K] [FloorRing K]
variable {cfg : NumCfg K} {D : Domain} {truth : String → Schema} {a : String} {A : NumSchema K} {W : Finset (String × Lit)}

/-- The learned action refuses some successful execution in the trajectory (with distinct objects): its boolean precondition or its numeric
precondition is false in the state before. -/
def Refuses (cfg : NumCfg K) (D : Domain) (a : String) (N : NumLearner K) (o : List (NumComponent K)) : Prop :=
  ∃ c ∈ o, c.comp.success = true ∧ c.comp.call.name = a ∧ c.comp.call.params.Nodup ∧
    ∃ y, Lifts cfg.txt cfg.fns D.consts (D.act a).sig (subst (Sig.names (D.act a).sig) c.comp.call.params) (fun g => (c.prevN.lookup g).getD 0) y ∧
      ¬ (applicable (N.base.dom.act a).pre (subst (Sig.names (D.act a).sig) c.comp.call.params) c.comp.prev ∧ ∀ q ∈ (N.num a).pre, q.holds y)

/-- What N-SAM needs to learn the action from the trajectories (as in C62 and C140). -/
structure Learnt (cfg : NumCfg K) (D : Domain) (truth : String → Schema) (a : String) (A : NumSchema K) (rel : Option (List (List String)))
    (obs : List (List (NumComponent K))) (N : NumLearner K) : Prop where
  good : GoodData D truth (obs.map fun o => o.map NumComponent.comp)
  run : ∃ info, (NumLearner.init D .noRemove).learn cfg obs = .ok (N, info)
  returned : a ∈ N.base.dom.names
  explained : NumGood cfg D a A obs
  libs : HullSetup cfg.lib cfg.digits polyExp (prevColumns cfg D a) (hullRows cfg D a obs) ∨
    ProjSetup cfg.lib cfg.digits polyExp (prevColumns cfg D a) (hullRows cfg D a obs)

/-- A trajectory that is refused contradicts a literal, or a linear inequality, that the training trajectories do not contradict. -/
theorem refused_cases (hD : WFDomain D) (hT : WFTruth D truth) (haD : a ∈ D.names) (hW : Covers D truth W) (hfns : cfg.fns ≠ []) (hplain : cfg.plain = true)
    (ht : TextOK cfg.txt cfg.fns D.consts (D.act a).sig) (hsc : ∃ f, InScope cfg.fns D.consts (D.act a).sig f)
    {rel : Option (List (List String))} (hrel : relevantOf cfg a = .ok rel) {obs : List (List (NumComponent K))} {N : NumLearner K}
    (H : Learnt cfg D truth a A rel obs N) {o : List (NumComponent K)}
    (hto : ∀ c ∈ o, c.comp.success = true → c.comp.call.params.Nodup → Explained truth c.comp) (hbad : Refuses cfg D a N o) :
    (∃ q ∈ W, SamPac.Contradicts truth (o.map NumComponent.comp) q ∧ ∀ o' ∈ obs, ¬ SamPac.Contradicts truth (o'.map NumComponent.comp) q) ∨
    ∃ coef b, HeldBefore cfg D a obs (fun v => linForm coef (usedCols rel (prevColumns cfg D a)) v ≤ b) ∧
      ∃ c ∈ o, c.comp.success = true ∧ c.comp.call.name = a ∧ c.comp.call.params.Nodup ∧
        ∃ y, Lifts cfg.txt cfg.fns D.consts (D.act a).sig (subst (Sig.names (D.act a).sig) c.comp.call.params) (fun g => (c.prevN.lookup g).getD 0) y ∧
          b < linForm coef (usedCols rel (prevColumns cfg D a)) (monoVal y) := by
  obtain ⟨c, hc, hs, hn, hd, y, hy, hno⟩ := hbad
  obtain ⟨info, h⟩ := H.run
  rw [C140_accepts_iff hD hT H.good hfns hplain h H.returned ht hsc H.explained hrel H.libs] at hno
  push Not at hno
  obtain ⟨M, P, hM, hP, hfail⟩ := hno
  by_cases happ : applicable (M a).pre (subst (Sig.names (D.act a).sig) c.comp.call.params) c.comp.prev
  · obtain ⟨p, hp, hlt⟩ := hfail happ
    exact Or.inr ⟨p.1, p.2, hP p hp, c, hc, hs, hn, hd, y, hy, hlt⟩
  left
  unfold applicable at happ
  push Not at happ
  obtain ⟨l, hl, hf⟩ := happ
  have hsub : ∀ (T : String → Schema), WFTruth D T → ∀ c : Component, c.call.name = a → substOf T c = subst (Sig.names (D.act a).sig) c.call.params := by
    intro T hT' c hc
    unfold substOf; rw [hc, hT'.params a haD]
  have hx := hto c hc hs hd
  refine ⟨(a, l), hW a haD l (hM.wf.params a haD ▸ (hM.wf.wf a haD).pre l hl) (fun hp => hf ?_), ⟨c.comp, List.mem_map_of_mem hc, hs, hd, hn, ?_⟩, ?_⟩
  · rw [← hsub truth hT _ hn]
    exact hx.app l (by rw [hn]; exact hp)
  · rw [hsub truth hT _ hn]; exact hf
  · rintro o' ho' ⟨c', hc', hs', hd', hn', hf'⟩
    dsimp only at hn'
    have hx' := hM.explains c' (List.mem_flatten.mpr ⟨_, List.mem_map_of_mem ho', hc'⟩) hs' hd'
    apply hf'
    rw [hsub truth hT _ hn', ← hsub M hM.wf _ hn']
    exact hx'.app l (by rw [hn']; exact hl)

/-- The values of the used monomial before the executions of the action in a trajectory. -/
def valuesOf (cfg : NumCfg K) (D : Domain) (a : String) (f : List String) (o : List (NumComponent K)) : Set K :=
  {v | ∃ c ∈ o, c.comp.success = true ∧ c.comp.call.name = a ∧ c.comp.call.params.Nodup ∧
    ∃ y, Lifts cfg.txt cfg.fns D.consts (D.act a).sig (subst (Sig.names (D.act a).sig) c.comp.call.params) (fun g => (c.prevN.lookup g).getD 0) y ∧
      v = monoVal y f}

/-- The trajectory contradicts a literal of `W`, or a linear inequality in the monomial, that the training trajectories do not contradict. -/
def Caught (cfg : NumCfg K) (D : Domain) (truth : String → Schema) (W : Finset (String × Lit)) (a : String) (f : List String)
    (obs : List (List (NumComponent K))) (o : List (NumComponent K)) : Prop :=
  (∃ q ∈ W, SamPac.Contradicts truth (o.map NumComponent.comp) q ∧ ∀ o' ∈ obs, ¬ SamPac.Contradicts truth (o'.map NumComponent.comp) q) ∨
  ∃ k b : K, (∀ o' ∈ obs, ∀ w ∈ valuesOf cfg D a f o', k * w ≤ b) ∧ ∃ v ∈ valuesOf cfg D a f o, b < k * v

theorem caught_of_cases {f : List String} {obs : List (List (NumComponent K))} {o : List (NumComponent K)}
    (h : (∃ q ∈ W, SamPac.Contradicts truth (o.map NumComponent.comp) q ∧ ∀ o' ∈ obs, ¬ SamPac.Contradicts truth (o'.map NumComponent.comp) q) ∨
      ∃ coef b, HeldBefore cfg D a obs (fun v => linForm coef [f] v ≤ b) ∧
        ∃ c ∈ o, c.comp.success = true ∧ c.comp.call.name = a ∧ c.comp.call.params.Nodup ∧
          ∃ y, Lifts cfg.txt cfg.fns D.consts (D.act a).sig (subst (Sig.names (D.act a).sig) c.comp.call.params) (fun g => (c.prevN.lookup g).getD 0) y ∧
            b < linForm coef [f] (monoVal y)) : Caught cfg D truth W a f obs o := by
  rcases h with h | ⟨coef, b, hheld, c, hc, hs, hn, hd, y, hy, hlt⟩
  · exact Or.inl h
  · simp only [linForm, List.map_cons, List.map_nil, List.sum_cons, List.sum_nil, add_zero] at hheld hlt
    refine Or.inr ⟨coef f, b, ?_, _, ⟨c, hc, hs, hn, hd, y, hy, rfl⟩, hlt⟩
    rintro o' ho' w ⟨c', hc', hs', hn', hd', y', hy', rfl⟩
    exact hheld c' (List.mem_flatten.mpr ⟨_, ho', hc'⟩) hs' hn' hd' y' hy'

theorem caught_count {f : List String} {n : ℕ} {o : Fin (n + 1) → List (NumComponent K)} {bad : Finset (Fin (n + 1))}
    (hbad : ∀ i ∈ bad, Caught cfg D truth W a f (List.ofFn fun j => o (i.succAbove j)) (o i)) : bad.card ≤ W.card + 2 := by
  classical
  set p1 : Fin (n + 1) → Prop := fun i => ∃ q ∈ W, SamPac.Contradicts truth ((o i).map NumComponent.comp) q ∧
    ∀ j, j ≠ i → ¬ SamPac.Contradicts truth ((o j).map NumComponent.comp) q with hp1
  have h1 : (bad.filter p1).card ≤ W.card :=
    Pac.leave_one_out (contra := fun i q => SamPac.Contradicts truth ((o i).map NumComponent.comp) q) fun i hi => (Finset.mem_filter.mp hi).2
  have key : ∀ i ∈ bad.filter (fun i => ¬ p1 i), ∃ k b v : K, v ∈ valuesOf cfg D a f (o i) ∧ b < k * v ∧
      ∀ j, j ≠ i → ∀ w ∈ valuesOf cfg D a f (o j), k * w ≤ b := by
    intro i hi
    obtain ⟨hib, hnp⟩ := Finset.mem_filter.mp hi
    rcases hbad i hib with ⟨q, hq, h1, h2⟩ | ⟨k, b, hall, v, hv, hlt⟩
    · exact absurd ⟨q, hq, h1, fun j hj => by
        obtain ⟨k, rfl⟩ := Fin.exists_succAbove_eq hj
        exact h2 _ (List.mem_ofFn.mpr ⟨k, rfl⟩)⟩ hnp
    · refine ⟨k, b, v, hv, hlt, fun j hj w hw => ?_⟩
      obtain ⟨l, rfl⟩ := Fin.exists_succAbove_eq hj
      exact hall _ (List.mem_ofFn.mpr ⟨l, rfl⟩) w hw
  have h2 : (bad.filter fun i => ¬ p1 i).card ≤ 2 := by
    choose! k b v hv hlt hle using key
    have hinj : Set.InjOn (fun i => decide (0 < k i)) (bad.filter fun i => ¬ p1 i : Finset (Fin (n + 1))) := by
      intro i hi j hj hij
      by_contra hne
      have e1 := (hle i hi j (Ne.symm hne) (v j) (hv j hj)).trans_lt (hlt i hi)
      have e2 := (hle j hj i hne (v i) (hv i hi)).trans_lt (hlt j hj)
      simp only [decide_eq_decide] at hij
      by_cases hp : 0 < k i
      · have hq := hij.mp hp
        exact lt_asymm (lt_of_mul_lt_mul_left e1 hp.le) (lt_of_mul_lt_mul_left e2 hq.le)
      · have hq : ¬ 0 < k j := fun h => hp (hij.mpr h)
        push Not at hp hq
        have f1 : v i < v j := by
          by_contra hge
          exact absurd (mul_le_mul_of_nonpos_left (not_lt.mp hge) hp) (not_le.mpr e1)
        have f2 : v j < v i := by
          by_contra hge
          exact absurd (mul_le_mul_of_nonpos_left (not_lt.mp hge) hq) (not_le.mpr e2)
        exact lt_asymm f1 f2
    calc (bad.filter fun i => ¬ p1 i).card ≤ (Finset.univ : Finset Bool).card :=
          Finset.card_le_card_of_injOn _ (fun i _ => Finset.mem_univ _) hinj
      _ = 2 := rfl
  have := Finset.card_filter_add_card_filter_not (s := bad) p1
  omega

/-- **C148 (leave one out).** For an action with one used monomial (a single numeric function), of any number of trajectories at most
`|W| + 2` have an execution that the action learned from the others, if it is returned, refuses. -/
theorem C148_leave_one_out (hD : WFDomain D) (hT : WFTruth D truth) (haD : a ∈ D.names) (hW : Covers D truth W) (hfns : cfg.fns ≠ []) (hplain : cfg.plain = true)
    (ht : TextOK cfg.txt cfg.fns D.consts (D.act a).sig) (hsc : ∃ f, InScope cfg.fns D.consts (D.act a).sig f)
    {rel : Option (List (List String))} (hrel : relevantOf cfg a = .ok rel) {f : List String} (hone : usedCols rel (prevColumns cfg D a) = [f])
    {n : ℕ} {o : Fin (n + 1) → List (NumComponent K)} {N : Fin (n + 1) → NumLearner K}
    (H : ∀ i, a ∈ (N i).base.dom.names → Learnt cfg D truth a A rel (List.ofFn fun j => o (i.succAbove j)) (N i))
    (hto : ∀ i, ∀ c ∈ o i, c.comp.success = true → c.comp.call.params.Nodup → Explained truth c.comp)
    {bad : Finset (Fin (n + 1))} (hbad : ∀ i ∈ bad, a ∈ (N i).base.dom.names ∧ Refuses cfg D a (N i) (o i)) : bad.card ≤ W.card + 2 :=
  caught_count (cfg := cfg) (D := D) (truth := truth) (a := a) (f := f) fun i hi => caught_of_cases (by
    have := refused_cases hD hT haD hW hfns hplain ht hsc hrel (H i (hbad i hi).1) (hto i) (hbad i hi).2
    rwa [hone] at this)

/-- **C148 (random trajectories).** Trajectories are drawn independently from any distribution (for which being refused is an event). The
probability that the action is returned for `m` of them and refuses an execution in a further one is at most `(|W| + 2) / (m + 1)`. -/
theorem C148_mean_error (hD : WFDomain D) (hT : WFTruth D truth) (haD : a ∈ D.names) (hW : Covers D truth W) (hfns : cfg.fns ≠ []) (hplain : cfg.plain = true)
    (ht : TextOK cfg.txt cfg.fns D.consts (D.act a).sig) (hsc : ∃ f, InScope cfg.fns D.consts (D.act a).sig f)
    {rel : Option (List (List String))} (hrel : relevantOf cfg a = .ok rel) {f : List String} (hone : usedCols rel (prevColumns cfg D a) = [f])
    {Ω : Type*} [MeasurableSpace Ω] {μ : MeasureTheory.Measure Ω} [MeasureTheory.IsProbabilityMeasure μ] {o : Ω → List (NumComponent K)} {m : ℕ}
    {N : (Fin m → Ω) → NumLearner K}
    (H : ∀ g, a ∈ (N g).base.dom.names → Learnt cfg D truth a A rel (List.ofFn fun j => o (g j)) (N g))
    (hto : ∀ ω, ∀ c ∈ o ω, c.comp.success = true → c.comp.call.params.Nodup → Explained truth c.comp)
    (hmeas : MeasurableSet {q : Ω × (Fin m → Ω) | a ∈ (N q.2).base.dom.names ∧ Refuses cfg D a (N q.2) (o q.1)}) :
    (μ.prod (MeasureTheory.Measure.pi fun _ : Fin m => μ)) {q | a ∈ (N q.2).base.dom.names ∧ Refuses cfg D a (N q.2) (o q.1)} ≤ (W.card + 2) / (m + 1) := by
  have := Pac.mean_bound (μ := μ) (bad := fun g ω => a ∈ (N g).base.dom.names ∧ Refuses cfg D a (N g) (o ω)) (B := W.card + 2) hmeas fun z _ hb =>
    C148_leave_one_out hD hT haD hW hfns hplain ht hsc hrel hone (A := A) (o := fun i => o (z i)) (fun i => H fun j => z (i.succAbove j)) (fun i => hto (z i)) hb
  exact_mod_cast this

/-- An increasing map of the numbers into an interval inside `(-2, 2)`. -/
noncomputable def squeeze (v : K) : ℝ := Real.arctan (LinearOrderedField.inducedOrderRingHom K ℝ v)

theorem squeeze_strict : StrictMono (squeeze : K → ℝ) := by
  have h : StrictMono (LinearOrderedField.inducedOrderRingHom K ℝ) :=
    (LinearOrderedField.inducedOrderRingHom K ℝ).monotone'.strictMono_of_injective
      (LinearOrderedField.inducedOrderRingHom K ℝ).toRingHom.injective
  exact fun u v huv => Real.arctan_strictMono (h huv)

theorem squeeze_lt (v : K) : squeeze v < 2 := (Real.arctan_lt_pi_div_two _).trans_le (by linarith [Real.pi_le_four])
theorem lt_squeeze (v : K) : -2 < squeeze v := lt_of_le_of_lt (by linarith [Real.pi_le_four]) (Real.neg_pi_div_two_lt_arctan _)

/-- The largest squeezed value, `-2` if there is none. -/
noncomputable def top (V : Set K) : ℝ := sSup (insert (-2) (squeeze '' V))
/-- The smallest squeezed value, `2` if there is none. -/
noncomputable def bot (V : Set K) : ℝ := sInf (insert 2 (squeeze '' V))

theorem bdd (V : Set K) : BddAbove (insert (-2) (squeeze '' V)) ∧ BddBelow (insert 2 (squeeze '' V)) := by
  constructor
  · refine ⟨2, ?_⟩
    rintro u (rfl | ⟨v, _, rfl⟩)
    · norm_num
    · exact (squeeze_lt v).le
  · refine ⟨-2, ?_⟩
    rintro u (rfl | ⟨v, _, rfl⟩)
    · norm_num
    · exact (lt_squeeze v).le

theorem lt_top {V V' : Set K} {v : K} (hv : v ∈ V) {r : ℝ} (hr : r < squeeze v) (h2 : -2 ≤ r) (h : ∀ w ∈ V', squeeze w ≤ r) : top V' < top V := by
  refine lt_of_le_of_lt (csSup_le ⟨_, Set.mem_insert _ _⟩ ?_) (lt_of_lt_of_le hr (le_csSup (bdd V).1 (Or.inr ⟨v, hv, rfl⟩)))
  rintro u (rfl | ⟨w, hw, rfl⟩)
  · exact h2
  · exact h w hw

theorem bot_lt {V V' : Set K} {v : K} (hv : v ∈ V) {r : ℝ} (hr : squeeze v < r) (h2 : r ≤ 2) (h : ∀ w ∈ V', r ≤ squeeze w) : bot V < bot V' := by
  refine lt_of_lt_of_le (lt_of_le_of_lt (csInf_le (bdd V).2 (Or.inr ⟨v, hv, rfl⟩)) hr) (le_csInf ⟨_, Set.mem_insert _ _⟩ ?_)
  rintro u (rfl | ⟨w, hw, rfl⟩)
  · exact h2
  · exact h w hw

theorem caught_error {f : List String} {Ω : Type*} [MeasurableSpace Ω] {μ : MeasureTheory.Measure Ω} [MeasureTheory.IsProbabilityMeasure μ]
    {o : Ω → List (NumComponent K)} {m : ℕ} (hmeas : ∀ S : Set (List (NumComponent K)), MeasurableSet (o ⁻¹' S)) {bad : (Fin m → Ω) → Ω → Prop}
    (hcaught : ∀ g ω, bad g ω → Caught cfg D truth W a f (List.ofFn fun j => o (g j)) (o ω)) {ε : ℝ} (h0 : 0 < ε) (h1 : ε ≤ 1) :
    (MeasureTheory.Measure.pi fun _ : Fin m => μ).real {g | ε < μ.real {ω | bad g ω}} ≤ (W.card + 2 : ℕ) * (1 - ε / (W.card + 2 : ℕ)) ^ m := by
  classical
  let x : (String × Lit) ⊕ Bool → Ω → ℝ := fun k ω => match k with
    | .inl q => if SamPac.Contradicts truth ((o ω).map NumComponent.comp) q then 0 else 1
    | .inr true => - top (valuesOf cfg D a f (o ω))
    | .inr false => bot (valuesOf cfg D a f (o ω))
  have hfac : ∀ k, ∃ y : List (NumComponent K) → ℝ, x k = y ∘ o := by
    rintro (q | _ | _)
    · exact ⟨fun o => if SamPac.Contradicts truth (o.map NumComponent.comp) q then 0 else 1, rfl⟩
    · exact ⟨fun o => bot (valuesOf cfg D a f o), rfl⟩
    · exact ⟨fun o => - top (valuesOf cfg D a f o), rfl⟩
  have hx : ∀ k, Measurable (x k) := by
    intro k
    obtain ⟨y, hy⟩ := hfac k
    rw [hy]
    exact fun S _ => hmeas (y ⁻¹' S)
  have hcard : (W.disjSum (Finset.univ : Finset Bool)).card = W.card + 2 := by
    rw [Finset.card_disjSum]; rfl
  rw [← hcard]
  refine Pac.slots_bound (x := x) (fun k _ => hx k) (bad := bad) ?_ h0 h1
  intro g ω hb
  rcases hcaught g ω hb with ⟨q, hq, e1, e2⟩ | ⟨c, b, hall', v, hv, hlt⟩
  · refine ⟨.inl q, Finset.inl_mem_disjSum.mpr hq, fun i => ?_⟩
    have := e2 _ (List.mem_ofFn.mpr ⟨i, rfl⟩)
    simp only [x, if_pos e1, if_neg this]; norm_num
  · have hall : ∀ i, ∀ w ∈ valuesOf cfg D a f (o (g i)), c * w ≤ b := fun i => hall' _ (List.mem_ofFn.mpr ⟨i, rfl⟩)
    rcases lt_trichotomy (c) 0 with hk | hk | hk
    · refine ⟨.inr false, by simp, fun i => ?_⟩
      refine bot_lt hv (r := squeeze (b / c)) (squeeze_strict ?_) (squeeze_lt _).le fun w hw => squeeze_strict.monotone ?_
      · rw [lt_div_iff_of_neg hk, mul_comm]; exact hlt
      · rw [div_le_iff_of_neg hk, mul_comm]; exact hall i w hw
    · refine ⟨.inr true, by simp, fun i => neg_lt_neg ?_⟩
      refine lt_top hv (lt_squeeze _) le_rfl fun w hw => ?_
      have := hall i w hw
      rw [hk, zero_mul] at this hlt
      exact absurd this (not_le.mpr hlt)
    · refine ⟨.inr true, by simp, fun i => neg_lt_neg ?_⟩
      refine lt_top hv (r := squeeze (b / c)) (squeeze_strict ?_) (lt_squeeze _).le fun w hw => squeeze_strict.monotone ?_
      · rw [div_lt_iff₀ hk, mul_comm]; exact hlt
      · rw [le_div_iff₀ hk, mul_comm]; exact hall i w hw

/-- **C148 (error).** Trajectories are drawn independently from any distribution. The probability that the action is returned for `m` of
them and then refuses an execution in a further one with probability more than `ε` is at most `B (1 - ε / B) ^ m`, `B = |W| + 2`. -/
theorem C148_error_bound (hD : WFDomain D) (hT : WFTruth D truth) (haD : a ∈ D.names) (hW : Covers D truth W) (hfns : cfg.fns ≠ []) (hplain : cfg.plain = true)
    (ht : TextOK cfg.txt cfg.fns D.consts (D.act a).sig) (hsc : ∃ f, InScope cfg.fns D.consts (D.act a).sig f)
    {rel : Option (List (List String))} (hrel : relevantOf cfg a = .ok rel) {f : List String} (hone : usedCols rel (prevColumns cfg D a) = [f])
    {Ω : Type*} [MeasurableSpace Ω] {μ : MeasureTheory.Measure Ω} [MeasureTheory.IsProbabilityMeasure μ] {o : Ω → List (NumComponent K)} {m : ℕ}
    {N : (Fin m → Ω) → NumLearner K}
    (H : ∀ g, a ∈ (N g).base.dom.names → Learnt cfg D truth a A rel (List.ofFn fun j => o (g j)) (N g))
    (hto : ∀ ω, ∀ c ∈ o ω, c.comp.success = true → c.comp.call.params.Nodup → Explained truth c.comp)
    (hmeas : ∀ S : Set (List (NumComponent K)), MeasurableSet (o ⁻¹' S)) {ε : ℝ} (h0 : 0 < ε) (h1 : ε ≤ 1) :
    (MeasureTheory.Measure.pi fun _ : Fin m => μ).real {g | ε < μ.real {ω | a ∈ (N g).base.dom.names ∧ Refuses cfg D a (N g) (o ω)}} ≤
      (W.card + 2 : ℕ) * (1 - ε / (W.card + 2 : ℕ)) ^ m :=
  caught_error hmeas (fun g ω hb => caught_of_cases (by
    have := refused_cases hD hT haD hW hfns hplain ht hsc hrel (H g hb.1) (hto ω) hb.2
    rwa [hone] at this)) h0 h1

/-- **C148 (PAC).** With `m ≥ (B / ε) log (B / δ)` trajectories, `B = |W| + 2`, the probability that the action is returned and refuses an
execution in a further trajectory with probability more than `ε` is at most `δ`. -/
theorem C148_pac (hD : WFDomain D) (hT : WFTruth D truth) (haD : a ∈ D.names) (hW : Covers D truth W) (hfns : cfg.fns ≠ []) (hplain : cfg.plain = true)
    (ht : TextOK cfg.txt cfg.fns D.consts (D.act a).sig) (hsc : ∃ f, InScope cfg.fns D.consts (D.act a).sig f)
    {rel : Option (List (List String))} (hrel : relevantOf cfg a = .ok rel) {f : List String} (hone : usedCols rel (prevColumns cfg D a) = [f])
    {Ω : Type*} [MeasurableSpace Ω] {μ : MeasureTheory.Measure Ω} [MeasureTheory.IsProbabilityMeasure μ] {o : Ω → List (NumComponent K)} {m : ℕ}
    {N : (Fin m → Ω) → NumLearner K}
    (H : ∀ g, a ∈ (N g).base.dom.names → Learnt cfg D truth a A rel (List.ofFn fun j => o (g j)) (N g))
    (hto : ∀ ω, ∀ c ∈ o ω, c.comp.success = true → c.comp.call.params.Nodup → Explained truth c.comp)
    (hmeas : ∀ S : Set (List (NumComponent K)), MeasurableSet (o ⁻¹' S)) {ε δ : ℝ} (h0 : 0 < ε) (h1 : ε ≤ 1) (hδ : 0 < δ)
    (hm : ((W.card + 2 : ℕ) / ε) * Real.log ((W.card + 2 : ℕ) / δ) ≤ m) :
    (MeasureTheory.Measure.pi fun _ : Fin m => μ).real {g | ε < μ.real {ω | a ∈ (N g).base.dom.names ∧ Refuses cfg D a (N g) (o ω)}} ≤ δ :=
  (C148_error_bound hD hT haD hW hfns hplain ht hsc hrel hone H hto hmeas h0 h1).trans (Pac.exp_bound h0 h1 hδ hm)

end

section
open NumWorld
open World hiding obs

/-- Two trajectories of moves that cost fuel: the hypotheses of `C148_leave_one_out` hold, and the single used column is the fuel. -/
theorem fuel_case : ∃ N : NumLearner ℚ, "move" ∈ N.base.dom.names ∧
    Learnt cfg D truth "move" truthN none (List.ofFn fun j : Fin 1 => (fun _ : Fin 2 => [n1, n3, n2, n4]) ((0 : Fin 2).succAbove j)) N ∧
    WFDomain D ∧ WFTruth D truth ∧ "move" ∈ D.names ∧ cfg.fns ≠ [] ∧ cfg.plain = true ∧ TextOK cfg.txt cfg.fns D.consts (D.act "move").sig ∧
    relevantOf cfg "move" = .ok none ∧ usedCols none (prevColumns cfg D "move") = [["(fuel ?o)"]] ∧
    ∀ c ∈ [n1, n3, n2, n4], c.comp.success = true → c.comp.call.params.Nodup → Explained truth c.comp := by
  have hrun : ∃ N' info, (NumLearner.init D).learn cfg [[n1, n3, n2, n4]] = .ok (N', info) ∧ N'.base.dom.names = ["move"] := by
    have h : (match (NumLearner.init D).learn cfg [[n1, n3, n2, n4]] with
      | .ok (N', _) => decide (N'.base.dom.names = ["move"])
      | .error _ => false) = true := by decide +kernel
    split at h
    · next N' info e => exact ⟨N', info, e, by simpa using h⟩
    · simp at h
  obtain ⟨N, info, h1, h2⟩ := hrun
  have hmem : "move" ∈ N.base.dom.names := by rw [h2]; simp
  refine ⟨N, hmem, ⟨⟨good.explained, good.noConst⟩, ⟨info, h1⟩, hmem, explained, Or.inl setup⟩, wfD, wfT, by decide, by simp [cfg], rfl, textOK, rfl, by decide +kernel, ?_⟩
  intro c hc hs _
  exact good.explained c.comp (by
    simp only [List.mem_cons, List.not_mem_nil, or_false] at hc
    simp only [obs, List.map_cons, List.map_nil, List.flatten_cons, List.flatten_nil, List.cons_append, List.nil_append, List.append_nil, List.mem_cons, List.not_mem_nil, or_false]
    rcases hc with rfl | rfl | rfl | rfl <;> simp) hs

/-- There are finitely many well typed literals. -/
theorem covers_exist {D : Domain} (hD : WFDomain D) (truth : String → Schema) : ∃ W, Covers D truth W := by
  classical
  refine ⟨D.names.toFinset.biUnion fun a => (liftedVocab D (D.act a).sig none).image fun l => (a, l), fun a ha l hl _ => ?_⟩
  exact Finset.mem_biUnion.mpr ⟨a, List.mem_toFinset.mpr ha, Finset.mem_image.mpr ⟨l, ((C17_lifted_vocabulary D _ (hD.sigs a ha) l).1).mpr hl, rfl⟩⟩

/-- The hypotheses of `C148_error_bound` and `C148_pac` are met for one sample of these moves. -/
example (μ : @MeasureTheory.Measure ℕ ⊤) [@MeasureTheory.IsProbabilityMeasure ℕ ⊤ μ] : letI : MeasurableSpace ℕ := ⊤
    ∃ (W : Finset (String × Lit)) (N : (Fin 1 → ℕ) → NumLearner ℚ), Covers D truth W ∧ (∀ g, "move" ∈ (N g).base.dom.names) ∧
      (MeasureTheory.Measure.pi fun _ : Fin 1 => μ).real {g | 1 / 2 < μ.real {ω | "move" ∈ (N g).base.dom.names ∧
        Refuses cfg D "move" (N g) ((fun _ : ℕ => [n1, n3, n2, n4]) ω)}} ≤ (W.card + 2 : ℕ) * (1 - (1 / 2) / (W.card + 2 : ℕ)) ^ 1 := by
  letI : MeasurableSpace ℕ := ⊤
  obtain ⟨W, hW⟩ := covers_exist wfD truth
  obtain ⟨N, h1, h2, h3, h4, h5, h6, h7, h8, h9, h10, h11⟩ := fuel_case
  exact ⟨W, fun _ => N, hW, fun _ => h1, C148_error_bound (a := "move") (o := fun _ : ℕ => [n1, n3, n2, n4]) h3 h4 h5 hW h6 h7 h8 ⟨_, scope_iff.mpr rfl⟩ h9 h10
    (fun _ _ => h2) (fun _ => h11) (fun _ => trivial) (by norm_num) (by norm_num)⟩
end
end NumSamGeneral
end Props

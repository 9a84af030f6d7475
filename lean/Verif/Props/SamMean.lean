import Verif.Props.SamPac
import Verif.Props.NumGeneral
import Verif.Lemmas.PacMean
import Verif.Lemmas.PacLine
import Mathlib.Data.Real.Archimedean
import Mathlib.MeasureTheory.Constructions.BorelSpace.Order
import Mathlib.MeasureTheory.Constructions.BorelSpace.Real

/-! C146: the average error of what is learned from random data. -/
namespace Props
open Model Spec MeasureTheory

namespace SamMean
open SamOptimal

theorem countable_string : Countable String :=
  have : Countable Char := Function.Injective.countable (f := Char.toNat) fun a b h => Char.ext (UInt32.toNat_inj.mp h)
  Function.Injective.countable (f := String.toList) fun a b h => String.toList_injective h

theorem countable_component : Countable Component := by
  have := countable_string
  have : Countable Atom := Function.Injective.countable (f := fun a : Atom => (a.name, a.args)) fun a b h => by
    cases a; cases b; simpa using h
  have : Countable Call := Function.Injective.countable (f := fun a : Call => (a.name, a.params)) fun a b h => by
    cases a; cases b; simpa using h
  exact Function.Injective.countable (f := fun c : Component => (c.prev, c.call, c.next, c.success)) fun a b h => by
    cases a; cases b; simpa using h

section
variable {D : Domain} {truth : String → Schema} {inj : Bool} {W : Finset (String × Lit)} {p : Policy}
  {Ω : Type*} [MeasurableSpace Ω] {μ : Measure Ω} [IsProbabilityMeasure μ] {x : Ω → List Component}

/-- What happens to finitely many random trajectories is an event. -/
theorem measurable_event (hmeas : ∀ A : Set (List Component), MeasurableSet (x ⁻¹' A)) {m : ℕ} (R : List Component → (Fin m → List Component) → Prop) :
    MeasurableSet {q : Ω × (Fin m → Ω) | R (x q.1) fun i => x (q.2 i)} := by
  have := countable_component
  have h : {q : Ω × (Fin m → Ω) | R (x q.1) fun i => x (q.2 i)} =
      ⋃ r ∈ {r : List Component × (Fin m → List Component) | R r.1 r.2}, {q | x q.1 = r.1 ∧ ∀ i, x (q.2 i) = r.2 i} := by
    ext q
    simp only [Set.mem_iUnion, Set.mem_setOf_eq]
    constructor
    · exact fun hq => ⟨(x q.1, fun i => x (q.2 i)), hq, rfl, fun _ => rfl⟩
    · rintro ⟨r, hr, h1, h2⟩
      rw [show (fun i => x (q.2 i)) = r.2 from funext h2, h1]; exact hr
  rw [h]
  refine MeasurableSet.biUnion (Set.to_countable _) fun r _ => ?_
  have h1 : MeasurableSet {q : Ω × (Fin m → Ω) | x q.1 = r.1} := measurable_fst (hmeas {r.1})
  have h2 : ∀ i, MeasurableSet {q : Ω × (Fin m → Ω) | x (q.2 i) = r.2 i} := fun i =>
    (show Measurable fun q : Ω × (Fin m → Ω) => q.2 i from (measurable_pi_apply i).comp measurable_snd) (hmeas {r.2 i})
  have : {q : Ω × (Fin m → Ω) | x q.1 = r.1 ∧ ∀ i, x (q.2 i) = r.2 i} = {q | x q.1 = r.1} ∩ ⋂ i, {q | x (q.2 i) = r.2 i} := by
    ext q; simp
  rw [this]
  exact h1.inter (MeasurableSet.iInter h2)

theorem event_eq {m : ℕ} {L : (Fin m → Ω) → Learner} {rep : (Fin m → Ω) → List (String × Status)}
    (h : ∀ g, (Learner.init D p inj).learn (List.ofFn fun i => x (g i)) = .ok (L g, rep g)) :
    {q : Ω × (Fin m → Ω) | ¬ Handles truth (learned D (L q.2)) (x q.1)} =
      {q | (fun o t => ∀ L' rep', (Learner.init D p inj).learn (List.ofFn t) = .ok (L', rep') → ¬ Handles truth (learned D L') o) (x q.1) fun i => x (q.2 i)} := by
  ext q
  simp only [Set.mem_setOf_eq]
  constructor
  · intro hq L' rep' h'
    have := h'.symm.trans (h q.2)
    simp only [Except.ok.injEq, Prod.mk.injEq] at this
    rw [this.1]; exact hq
  · exact fun hq => hq _ _ (h q.2)

/-- **C146.** Trajectories of the true domain are drawn independently, `m` to learn from and one more. The probability that what is
learned does not handle the last is at most `|W| / (m + 1)`. -/
theorem C146_mean_error (hD : WFDomain D) (hT : WFTruth D truth) (hW : Covers D truth W)
    (hx : ∀ ω, TrueTrajectory D truth (x ω)) (hmeas : ∀ A : Set (List Component), MeasurableSet (x ⁻¹' A)) {m : ℕ}
    {L : (Fin m → Ω) → Learner} {rep : (Fin m → Ω) → List (String × Status)}
    (h : ∀ g, (Learner.init D p inj).learn (List.ofFn fun i => x (g i)) = .ok (L g, rep g)) :
    (μ.prod (Measure.pi fun _ : Fin m => μ)) {q | ¬ Handles truth (learned D (L q.2)) (x q.1)} ≤ W.card / (m + 1) := by
  refine Pac.mean_bound (bad := fun g ω => ¬ Handles truth (learned D (L g)) (x ω)) ?_ fun z s hs => ?_
  · rw [event_eq h]
    exact measurable_event hmeas fun o t => ∀ L' rep', (Learner.init D p inj).learn (List.ofFn t) = .ok (L', rep') → ¬ Handles truth (learned D L') o
  · exact SamPac.C144_leave_one_out hD hT hW (fun i => hx (z i)) (fun i => h fun j => z (i.succAbove j)) hs

/-- **C146 (learning).** The probability that what is learned errs with probability `ε` or more is at most `|W| / ((m + 1) ε)`. -/
theorem C146_markov (hD : WFDomain D) (hT : WFTruth D truth) (hW : Covers D truth W)
    (hx : ∀ ω, TrueTrajectory D truth (x ω)) (hmeas : ∀ A : Set (List Component), MeasurableSet (x ⁻¹' A)) {m : ℕ}
    {L : (Fin m → Ω) → Learner} {rep : (Fin m → Ω) → List (String × Status)}
    (h : ∀ g, (Learner.init D p inj).learn (List.ofFn fun i => x (g i)) = .ok (L g, rep g)) {ε : ℝ} (h0 : 0 < ε) :
    (Measure.pi fun _ : Fin m => μ).real {g | ε ≤ μ.real {ω | ¬ Handles truth (learned D (L g)) (x ω)}} ≤ W.card / ((m + 1) * ε) := by
  refine Pac.markov_bound (bad := fun g ω => ¬ Handles truth (learned D (L g)) (x ω)) ?_ (fun z s hs => ?_) h0
  · rw [event_eq h]
    exact measurable_event hmeas fun o t => ∀ L' rep', (Learner.init D p inj).learn (List.ofFn t) = .ok (L', rep') → ¬ Handles truth (learned D L') o
  · exact SamPac.C144_leave_one_out hD hT hW (fun i => hx (z i)) (fun i => h fun j => z (i.succAbove j)) hs

end

/-! ### Numeric preconditions -/
section
variable {C : Type} [DecidableEq C] {Ω : Type*} [MeasurableSpace Ω] {μ : Measure Ω} [IsProbabilityMeasure μ]

theorem inHull_between {K : Type} [Field K] [LinearOrder K] [IsStrictOrderedRing K] [FloorRing K] {rows : List (C → K)} (hne : rows ≠ []) {f : C} {v : C → K} :
    InHull [f] rows v ↔ (∃ r ∈ rows, r f ≤ v f) ∧ ∃ r ∈ rows, v f ≤ r f := by
  rw [inHull_single hne]
  have hne' : rows.map (· f) ≠ [] := by simpa using hne
  obtain ⟨l1, l2⟩ := listMin_spec hne'
  obtain ⟨m1, m2⟩ := listMax_spec hne'
  simp only [List.mem_map] at l2 m2
  obtain ⟨a, ha, ha'⟩ := l2
  obtain ⟨b, hb, hb'⟩ := m2
  constructor
  · rintro ⟨h1, h2⟩
    exact ⟨⟨a, ha, ha'.trans_le h1⟩, b, hb, h2.trans_eq hb'.symm⟩
  · rintro ⟨⟨r, hr, h1⟩, s, hs, h2⟩
    exact ⟨(l1 _ (List.mem_map_of_mem hr)).trans h1, h2.trans (m1 _ (List.mem_map_of_mem hs))⟩

theorem measurable_refused {L : NumLib ℝ C} {d : Nat} {colExp : C → NExp ℝ} {f : C} {m : ℕ} (hm : 0 < m) {row : Ω → C → ℝ}
    (hmeas : Measurable fun ω => row ω f) {margin : ℝ} {plain : Bool} {cs : (Fin m → Ω) → List (NCond ℝ)}
    (hout : ∀ g, safeInequalities L d margin plain colExp none [f] (List.ofFn fun j => row (g j)) = .conds (cs g))
    {val : Ω → String → ℝ} (hval : ∀ ω c, (colExp c).eval (val ω) = row ω c) :
    MeasurableSet {q : Ω × (Fin m → Ω) | ¬ ∀ c ∈ cs q.2, c.holds (val q.1)} := by
  have hne : ∀ g : Fin m → Ω, (List.ofFn fun j => row (g j)) ≠ [] := by
    intro g h
    have := congrArg List.length h
    simp at this; omega
  have : {q : Ω × (Fin m → Ω) | ¬ ∀ c ∈ cs q.2, c.holds (val q.1)} =
      ((⋃ i, {q : Ω × (Fin m → Ω) | row (q.2 i) f ≤ row q.1 f}) ∩ ⋃ i, {q | row q.1 f ≤ row (q.2 i) f})ᶜ := by
    ext q
    rw [Set.mem_setOf_eq, NumGeneral.single_iff (hne q.2) (hout q.2), inHull_between (hne q.2)]
    simp [hval, List.mem_ofFn]
  rw [this]
  have h1 : Measurable fun q : Ω × (Fin m → Ω) => row q.1 f := hmeas.comp measurable_fst
  have h2 : ∀ i, Measurable fun q : Ω × (Fin m → Ω) => row (q.2 i) f := fun i => hmeas.comp ((measurable_pi_apply i).comp measurable_snd)
  exact ((MeasurableSet.iUnion fun i => measurableSet_le (h2 i) h1).inter (MeasurableSet.iUnion fun i => measurableSet_le h1 (h2 i))).compl

/-- **C146 (one numeric function).** Whatever the distribution of the values of the function in the states where the action is executed,
the condition learned from `m` of them refuses a further one with probability at most `2 / (m + 1)`. -/
theorem C146_numeric_mean {L : NumLib ℝ C} {d : Nat} {colExp : C → NExp ℝ} {f : C} {m : ℕ} (hm : 0 < m) {row : Ω → C → ℝ}
    (hmeas : Measurable fun ω => row ω f) {margin : ℝ} {plain : Bool} {cs : (Fin m → Ω) → List (NCond ℝ)}
    (hout : ∀ g, safeInequalities L d margin plain colExp none [f] (List.ofFn fun j => row (g j)) = .conds (cs g))
    {val : Ω → String → ℝ} (hval : ∀ ω c, (colExp c).eval (val ω) = row ω c) :
    (μ.prod (Measure.pi fun _ : Fin m => μ)) {q | ¬ ∀ c ∈ cs q.2, c.holds (val q.1)} ≤ 2 / (m + 1) :=
  Pac.mean_bound (bad := fun g ω => ¬ ∀ c ∈ cs g, c.holds (val ω)) (B := 2) (measurable_refused hm hmeas hout hval) fun z _ hs =>
    NumGeneral.C145_single_function hm (rows := fun i => row (z i)) (fun i => hout fun j => z (i.succAbove j)) (fun i => hval (z i)) hs

/-- **C146 (one numeric function, error).** The probability that the condition learned from `m` observations refuses a further one with
probability more than `ε` is at most `2 (1 - ε / 2) ^ m`. -/
theorem C146_numeric_error {L : NumLib ℝ C} {d : Nat} {colExp : C → NExp ℝ} {f : C} {m : ℕ} {row : Ω → C → ℝ}
    (hmeas : Measurable fun ω => row ω f) {margin : ℝ} {plain : Bool} {cs : (Fin m → Ω) → List (NCond ℝ)}
    (hout : ∀ g, safeInequalities L d margin plain colExp none [f] (List.ofFn fun j => row (g j)) = .conds (cs g))
    {val : Ω → String → ℝ} (hval : ∀ ω c, (colExp c).eval (val ω) = row ω c) {ε : ℝ} (h0 : 0 < ε) (h1 : ε ≤ 1) :
    (Measure.pi fun _ : Fin m => μ).real {g | ε < μ.real {ω | ¬ ∀ c ∈ cs g, c.holds (val ω)}} ≤ 2 * (1 - ε / 2) ^ m := by
  rcases Nat.eq_zero_or_pos m with rfl | hm
  · rw [pow_zero, mul_one]; exact measureReal_le_one.trans (by norm_num)
  refine le_trans (le_of_eq ?_) (Pac.range_bound (μ := μ) (m := m) hmeas h0 h1)
  congr 1
  ext g
  have hne : (List.ofFn fun j => row (g j)) ≠ [] := by
    intro h
    have := congrArg List.length h
    simp at this; omega
  have : {ω | ¬ ∀ c ∈ cs g, c.holds (val ω)} = {ω | (∀ i, row ω f < row (g i) f) ∨ ∀ i, row (g i) f < row ω f} := by
    ext ω
    rw [Set.mem_setOf_eq, NumGeneral.single_iff hne (hout g), inHull_between hne, not_and_or]
    simp [hval, List.mem_ofFn]
  rw [Set.mem_setOf_eq, Set.mem_setOf_eq, this]

/-- **C146 (one numeric function, PAC).** With `m ≥ (2 / ε) log (2 / δ)` observations, with probability at least `1 - δ` the learned
condition accepts a further one with probability at least `1 - ε`. -/
theorem C146_numeric_pac {L : NumLib ℝ C} {d : Nat} {colExp : C → NExp ℝ} {f : C} {m : ℕ} (hm : 0 < m) {row : Ω → C → ℝ}
    (hmeas : Measurable fun ω => row ω f) {margin : ℝ} {plain : Bool} {cs : (Fin m → Ω) → List (NCond ℝ)}
    (hout : ∀ g, safeInequalities L d margin plain colExp none [f] (List.ofFn fun j => row (g j)) = .conds (cs g))
    {val : Ω → String → ℝ} (hval : ∀ ω c, (colExp c).eval (val ω) = row ω c) {ε δ : ℝ} (h0 : 0 < ε) (h1 : ε ≤ 1) (hδ : 0 < δ)
    (hmd : 2 / ε * Real.log (2 / δ) ≤ m) :
    1 - δ ≤ (Measure.pi fun _ : Fin m => μ).real {g | 1 - ε ≤ μ.real {ω | ∀ c ∈ cs g, c.holds (val ω)}} := by
  have hS := measurable_refused hm hmeas hout hval
  have hb := C146_numeric_error (μ := μ) hmeas hout hval h0 h1
  have hle : (2 : ℝ) * (1 - ε / 2) ^ m ≤ δ := by
    have := Pac.exp_bound (B := 2) (m := m) h0 h1 hδ (by exact_mod_cast hmd)
    exact_mod_cast this
  have hc : ∀ g : Fin m → Ω, μ.real {ω | ¬ ∀ c ∈ cs g, c.holds (val ω)} = 1 - μ.real {ω | ∀ c ∈ cs g, c.holds (val ω)} := by
    intro g
    have h1 : MeasurableSet {ω | ¬ ∀ c ∈ cs g, c.holds (val ω)} := measurable_prodMk_right (y := g) hS
    have h2 : {ω | ∀ c ∈ cs g, c.holds (val ω)} = {ω | ¬ ∀ c ∈ cs g, c.holds (val ω)}ᶜ := by ext ω; simp
    rw [h2, probReal_compl_eq_one_sub h1]; ring
  have hset : MeasurableSet {g : Fin m → Ω | ε < μ.real {ω | ¬ ∀ c ∈ cs g, c.holds (val ω)}} :=
    measurableSet_lt measurable_const (measurable_measure_prodMk_right hS).ennreal_toReal
  have hcomp : {g : Fin m → Ω | 1 - ε ≤ μ.real {ω | ∀ c ∈ cs g, c.holds (val ω)}} = {g | ε < μ.real {ω | ¬ ∀ c ∈ cs g, c.holds (val ω)}}ᶜ := by
    ext g
    simp only [Set.mem_setOf_eq, Set.mem_compl_iff, hc, not_lt]
    constructor <;> intro h <;> linarith
  rw [hcomp, probReal_compl_eq_one_sub hset]
  linarith [hb.trans hle]

end

section
variable {K : Type} [Field K] [LinearOrder K] [IsStrictOrderedRing K] [FloorRing K] {C : Type} [DecidableEq C]

/-- Points of a parabola: none is in the hull of others. -/
theorem C146_parabola {f g : C} (hfg : f ≠ g) {n : ℕ} {rows : Fin (n + 1) → C → K}
    (hf : ∀ i, rows i f = i.val) (hg : ∀ i, rows i g = (i.val : K) ^ 2) (i : Fin (n + 1)) :
    ¬ InHull [f, g] (List.ofFn fun j => rows (i.succAbove j)) (rows i) := by
  have hnd : ([f, g] : List C).Nodup := by simp [hfg]
  rw [inHull_iff_halfspaces hnd]
  intro h
  have := h (fun c => if c = f then 2 * (i.val : K) else -1) ((i.val : K) ^ 2 - 1) fun r hr => by
    obtain ⟨j, rfl⟩ := List.mem_ofFn.mp hr
    have hne : ((i.succAbove j).val : K) ≠ i.val := fun e => Fin.succAbove_ne i j (Fin.ext (Nat.cast_injective e))
    simp only [linForm, List.map_cons, List.map_nil, List.sum_cons, List.sum_nil, add_zero, if_true, if_neg hfg.symm, hf, hg]
    have hsq : (1 : K) ≤ (((i.succAbove j).val : K) - i.val) ^ 2 := by
      have hz : (((i.succAbove j).val : ℤ) - i.val) ≠ 0 := fun e => hne (by
        have : ((i.succAbove j).val : ℤ) = i.val := by omega
        exact_mod_cast congrArg (Int.cast : ℤ → K) this)
      have h1 : (1 : ℤ) ≤ (((i.succAbove j).val : ℤ) - i.val) ^ 2 := by
        have := pow_pos (abs_pos.mpr hz) 2
        rw [sq_abs] at this; omega
      exact_mod_cast (Int.cast_le (R := K)).mpr h1
    linarith [hsq, sq (((i.succAbove j).val : K) - i.val), mul_comm (i.val : K) ((i.succAbove j).val : K),
      show (((i.succAbove j).val : K) - i.val) ^ 2 = ((i.succAbove j).val : K) ^ 2 - 2 * (i.val : K) * (i.succAbove j).val + (i.val : K) ^ 2 by ring]
  simp only [linForm, List.map_cons, List.map_nil, List.sum_cons, List.sum_nil, add_zero, if_true, if_neg hfg.symm, hf, hg] at this
  linarith [show 2 * (i.val : K) * i.val + -1 * (i.val : K) ^ 2 = (i.val : K) ^ 2 by ring]

/-- **C146 (two functions).** With two numeric functions there is no such bound: of the observations `(i, i²)`, however many, the
condition learned from the others refuses every one. -/
theorem C146_two_functions {L : NumLib K C} {d : Nat} {colExp : C → NExp K} {f g : C} (hfg : f ≠ g) {n : ℕ} {rows : Fin (n + 1) → C → K}
    (hf : ∀ i, rows i f = i.val) (hg : ∀ i, rows i g = (i.val : K) ^ 2)
    (hsetup : ∀ i : Fin (n + 1), HullSetup L d colExp [f, g] (List.ofFn fun j => rows (i.succAbove j)) ∨
      ProjSetup L d colExp [f, g] (List.ofFn fun j => rows (i.succAbove j)))
    {margin : K} {cs : Fin (n + 1) → List (NCond K)}
    (hout : ∀ i, safeInequalities L d margin true colExp none [f, g] (List.ofFn fun j => rows (i.succAbove j)) = .conds (cs i))
    {x : Fin (n + 1) → String → K} (hx : ∀ i c, (colExp c).eval (x i) = rows i c) (i : Fin (n + 1)) : ¬ ∀ q ∈ cs i, q.holds (x i) := by
  have hiff : (∀ q ∈ cs i, q.holds (x i)) ↔ InHull (usedCols none [f, g]) (List.ofFn fun j => rows (i.succAbove j)) (fun c => (colExp c).eval (x i)) :=
    (hsetup i).elim (fun s => C55_precondition_is_hull s (hout i) (x i)) fun s => C70_projected_precondition_is_hull s (hout i) (x i)
  rw [hiff, show (fun c => (colExp c).eval (x i)) = rows i from funext (hx i)]
  exact C146_parabola hfg hf hg i

end

/-! ### Cases -/
section
open Props.Limits SamConverge

/-- Any distribution of the two transitions of `SamConverge.demo`: after `m` of them the next is not handled with probability at most
`2 / (m + 1)`. -/
example (μ : @Measure ℕ ⊤) [@IsProbabilityMeasure ℕ ⊤ μ] (m : ℕ) : letI : MeasurableSpace ℕ := ⊤
    (μ.prod (Measure.pi fun _ : Fin m => μ)) {q | ¬ Handles T1 (learned D1 (runLearn (Learner.init D1) (List.ofFn fun i => [demo (q.2 i)]))) [demo q.1]} ≤ 2 / (m + 1) := by
  letI : MeasurableSpace ℕ := ⊤
  obtain ⟨h1, h2, h3, h4, h5, h6⟩ := SamPac.demo_case μ
  choose rep hrep using h6 m
  have hb := C146_mean_error (μ := μ) h1 h2 h3 h4 h5 hrep
  rw [show ({("act", P "?x"), ("act", P "?x" false)} : Finset (String × Lit)).card = 2 by decide +kernel] at hb
  exact_mod_cast hb

/-- Every sample of one function has a learned condition, so the hypotheses of `C146_numeric_mean`, `C146_numeric_error` and `C146_numeric_pac` can be met with
any distribution of real numbers. -/
example (m : ℕ) : let L : NumLib ℝ Unit := ⟨fun _ _ => none, fun _ _ _ => none, fun _ => 1⟩
    Measurable (fun ω : ℝ => (fun (ω : ℝ) (_ : Unit) => ω) ω ()) ∧ (∀ (ω : ℝ) (c : Unit), (NExp.var "(f)").eval (fun _ => ω) = ω) ∧
    ∀ g : Fin m → ℝ, ∃ cs, safeInequalities L 2 0 true (fun _ => .var "(f)") none [()] (List.ofFn fun j => fun _ => g j) = .conds cs := by
  refine ⟨measurable_id, fun _ _ => rfl, fun g => ?_⟩
  rw [safeInequalities_eq, if_pos (Or.inr (by simp [usedCols]))]
  simp only [usedCols, List.mem_singleton, if_true, parseConds, singleColumn]
  split_ifs <;> first | exact ⟨_, rfl⟩ | simp_all [NCond.wellFormed, NExp.wellFormed]

/-- The observations `(0, 0)` and `(1, 1)`. -/
def twoRows (i : Fin 2) : Bool → ℚ := fun _ => i.val

/-- A library whose regression fits a constant to a single row. -/
def oneLib : NumLib ℚ Bool where
  qhull := fun _ _ => none
  fit := fun feats c rows => match rows with
    | [r] => some (feats.map fun _ => 0, r c)
    | _ => none
  norm := fun _ => 1

theorem one_setup (k : ℕ) : HullSetup oneLib 4 triExp [true, false] [fun _ => (k : ℚ)] where
  qhull := ⟨fun h => by simp [oneLib] at h, fun h => by simp [oneLib] at h⟩
  fit := by
    intro feats c rows cs b h
    match rows, h with
    | [r], h =>
      simp only [oneLib, Option.some.injEq, Prod.mk.injEq] at h
      obtain ⟨rfl, rfl⟩ := h
      refine ⟨by simp, fun r' hr' => ?_⟩
      rw [List.mem_singleton.mp hr']
      have : (List.zipWith (fun a f => a * r f) (feats.map fun _ => (0 : ℚ)) feats).sum = 0 := by
        clear hr'
        clear * -
        induction feats with
        | nil => rfl
        | cons x xs ih => simp only [List.map_cons, List.zipWith_cons_cons, zero_mul, List.sum_cons, zero_add]; exact ih
      rw [this, zero_add]
  complete := by intro feats c a b _ _ _; simp [oneLib]
  digits := by decide
  nonempty := by simp
  nodup := by decide
  noDummy := by decide +kernel
  data := by
    intro r hr c _
    rw [List.mem_singleton.mp hr]
    exact_mod_cast printable_int (k : ℤ)
  fitPrint := by
    intro feats c cs b h q hq
    simp only [oneLib, Option.some.injEq, Prod.mk.injEq] at h
    obtain ⟨rfl, rfl⟩ := h
    rcases List.mem_append.mp hq with hq | hq
    · obtain ⟨_, _, rfl⟩ := List.mem_map.mp hq
      exact Or.inl rfl
    · rw [List.mem_singleton.mp hq]
      exact_mod_cast printable_int (k : ℤ)
  facetPrint := by intro left h e; simp [oneLib] at e
  separated := by
    intro left _ r hr s hs
    cases s with
    | nil =>
      right
      rintro q ⟨w, h1, h2, _⟩
      simp at h1; subst h1; simp at h2
    | cons a s =>
      left
      refine tri_inAffine ⟨a, by simp, fun c _ => ?_⟩
      rw [List.mem_singleton.mp (hs a (by simp)), List.mem_singleton.mp hr]

/-- The hypotheses of `C146_two_functions` are met by two observations. -/
example : (∀ i, twoRows i true = i.val) ∧ (∀ i, twoRows i false = ((i.val : ℕ) : ℚ) ^ 2) ∧
    (∀ i : Fin 2, HullSetup oneLib 4 triExp [true, false] (List.ofFn fun j => twoRows (i.succAbove j))) ∧
    (∀ i : Fin 2, ∃ cs, safeInequalities oneLib 4 0 true triExp none [true, false] (List.ofFn fun j => twoRows (i.succAbove j)) = .conds cs) ∧
    ∀ i c, (triExp c).eval (fun _ => ((i : Fin 2).val : ℚ)) = twoRows i c := by
  refine ⟨fun i => rfl, fun i => ?_, fun i => ?_, fun i => ?_, fun i c => ?_⟩
  · fin_cases i <;> simp [twoRows]
  · rw [List.ofFn_succ, List.ofFn_zero]; exact one_setup _
  · fin_cases i
    · exact ⟨[⟨.eq, .var "(f)", .num 1⟩, ⟨.eq, .var "(g)", .num 1⟩], by decide +kernel⟩
    · exact ⟨[⟨.eq, .var "(f)", .num 0⟩, ⟨.eq, .var "(g)", .num 0⟩], by decide +kernel⟩
  · cases c <;> rfl
end
end SamMean
end Props

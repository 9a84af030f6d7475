import Verif.Lemmas.LinRegComplete
import Verif.Props.ConvexHull

/-!
Numeric effects learned by regression: C58 (the effects are exact on the convex hull of the
observations), C59 (an exact effect is always found when there is one), and their limits.
-/
namespace Props
open Spec Model

section
variable {K : Type} [Field K] [LinearOrder K] [IsStrictOrderedRing K] [FloorRing K]
variable {C : Type} [DecidableEq C]

/-- The coefficients the library returned, for each fluent, survive printing. -/
def CoefficientsPrintable (R : RegLib K C) (d : Nat) (pc nc : List C) (obs : List ((C → K) × (C → K))) : Prop :=
  ∀ f ∈ nc, RegPrintable d (regFeats d pc nc obs) f (R.solve (regFeats d pc nc obs) (regLabels pc nc obs f))

/-- **C58.** Let the next value of a fluent be, in all observations, an affine function of the used
columns. If effects are learned (and none is a `scale-down`) then in every state whose columns are a
convex combination of the observed ones, the learned effects give the fluent exactly the value of that
function. -/
theorem C58_effects_exact {R : RegLib K C} (hR : RegContract R) {d : Nat} (hd : d ≤ 10) {colExp : C → NExp K} {fname : C → String}
    {relevant : Option (List C)} {prevCols nextCols : List C} {obs : List ((C → K) × (C → K))}
    (hs : ColumnSetup colExp fname prevCols nextCols)
    (hp : CoefficientsPrintable R d (usedCols relevant prevCols) (usedCols relevant nextCols) obs)
    (hrel : relevant ≠ some []) (hobs : obs ≠ []) {effs : List (NEffect K)}
    (h : constructEffects R d false colExp fname relevant prevCols nextCols obs = .ok effs)
    (hsd : ∀ e ∈ effs, e.op ≠ .scaleDown)
    {f : C} (hf : f ∈ usedCols relevant nextCols)
    (truth : Affine K C) (ht : ∀ c ∈ truth.cols, c ∈ usedCols relevant prevCols) (hobsT : ∀ o ∈ obs, o.2 f = truth.value o.1)
    (x : String → K) (hx : InHull (usedCols relevant prevCols) (obs.map Prod.fst) (colVal colExp x)) :
    applyNumeric effs x (fname f) = truth.value (colVal colExp x) := by
  obtain ⟨G, rfl, hG⟩ := effects_fit hR hd hs hp hrel hobs h hsd
  have hnm : ∀ c ∈ keptCols relevant nextCols, c ∈ nextCols := fun c hc => keptCols_mem hc
  rw [apply_filterMap (keptCols_nodup hs.nextNodup) (fun f hf => (hG f hf).target)
    (fun a ha b hb => hs.nameInj a (hnm a ha) b (hnm b hb)) hf]
  obtain ⟨cs, fs, b, hfs, hdata, hval⟩ := (hG f hf).fits
  rw [hval x, affine_value_eq]
  refine aff_agree ?_ hfs ht hx
  intro r hr
  obtain ⟨o, ho, rfl⟩ := List.mem_map.mp hr
  rw [← affine_value_eq, ← hobsT o ho]
  exact (hdata (o.1, o.2 f) (List.mem_map.mpr ⟨o, ho, rfl⟩)).symm

/-- **C58.** Whatever the truth is, the learned effects give, in every observed state, the observed
next value. -/
theorem C58_reproduces_observations {R : RegLib K C} (hR : RegContract R) {d : Nat} (hd : d ≤ 10) {colExp : C → NExp K} {fname : C → String}
    {relevant : Option (List C)} {prevCols nextCols : List C} {obs : List ((C → K) × (C → K))}
    (hs : ColumnSetup colExp fname prevCols nextCols)
    (hp : CoefficientsPrintable R d (usedCols relevant prevCols) (usedCols relevant nextCols) obs)
    (hrel : relevant ≠ some []) {effs : List (NEffect K)}
    (h : constructEffects R d false colExp fname relevant prevCols nextCols obs = .ok effs)
    (hsd : ∀ e ∈ effs, e.op ≠ .scaleDown)
    {f : C} (hf : f ∈ usedCols relevant nextCols) {o : (C → K) × (C → K)} (ho : o ∈ obs)
    (x : String → K) (hx : ∀ c ∈ usedCols relevant prevCols, colVal colExp x c = o.1 c) :
    applyNumeric effs x (fname f) = o.2 f := by
  have hobs : obs ≠ [] := by rintro rfl; simp at ho
  obtain ⟨G, rfl, hG⟩ := effects_fit hR hd hs hp hrel hobs h hsd
  have hnm : ∀ c ∈ keptCols relevant nextCols, c ∈ nextCols := fun c hc => keptCols_mem hc
  rw [apply_filterMap (keptCols_nodup hs.nextNodup) (fun f hf => (hG f hf).target)
    (fun a ha b hb => hs.nameInj a (hnm a ha) b (hnm b hb)) hf]
  obtain ⟨cs, fs, b, hfs, hdata, hval⟩ := (hG f hf).fits
  have hd' : o.2 f = affList cs fs b o.1 := hdata (o.1, o.2 f) (List.mem_map.mpr ⟨o, ho, rfl⟩)
  rw [hval x, hd']
  exact affList_congr fun g hg => hx g (hfs g hg)

/-- **C58.** Fluents that are not among the used ones are not changed. -/
theorem C58_frame {R : RegLib K C} (hR : RegContract R) {d : Nat} (hd : d ≤ 10) {colExp : C → NExp K} {fname : C → String}
    {relevant : Option (List C)} {prevCols nextCols : List C} {obs : List ((C → K) × (C → K))}
    (hs : ColumnSetup colExp fname prevCols nextCols)
    (hp : CoefficientsPrintable R d (usedCols relevant prevCols) (usedCols relevant nextCols) obs)
    {effs : List (NEffect K)}
    (h : constructEffects R d false colExp fname relevant prevCols nextCols obs = .ok effs)
    (hsd : ∀ e ∈ effs, e.op ≠ .scaleDown) {n : String} (hn : ∀ f ∈ usedCols relevant nextCols, fname f ≠ n) (x : String → K) :
    applyNumeric effs x n = x n := by
  by_cases hrel : relevant = some []
  · unfold constructEffects at h
    rw [if_pos hrel] at h
    simp only [Except.ok.injEq] at h
    subst h
    rfl
  by_cases hobs : obs = []
  · unfold constructEffects at h
    rw [if_neg hrel, if_pos hobs] at h
    simp only [Except.ok.injEq] at h
    subst h
    rfl
  obtain ⟨G, rfl, hG⟩ := effects_fit hR hd hs hp hrel hobs h hsd
  refine apply_filterMap_other (fname := fname) (fun f hf => (hG f hf).target) ?_ x
  intro hm
  obtain ⟨f, hf, he⟩ := List.mem_map.mp hm
  exact hn f hf he

/-- **C59.** If the next value of every used fluent is an affine function of the used columns (and
every fluent has a column before the action), the learner finds effects: it does not give the action
up as unsafe and does not fail, although it drops constant columns and columns that are multiples of
others. -/
theorem C59_effects_found {R : RegLib K C} (hR : RegContract R) {d : Nat} {unsafeOk : Bool} {colExp : C → NExp K} {fname : C → String}
    {relevant : Option (List C)} {prevCols nextCols : List C} {obs : List ((C → K) × (C → K))}
    (hs : ColumnSetup colExp fname prevCols nextCols) (hsub : ∀ f ∈ nextCols, f ∈ prevCols)
    (ht : ∀ f ∈ usedCols relevant nextCols, ∃ a : Affine K C, (∀ c ∈ a.cols, c ∈ usedCols relevant prevCols) ∧ ∀ o ∈ obs, o.2 f = a.value o.1) :
    ∃ effs, constructEffects R d unsafeOk colExp fname relevant prevCols nextCols obs = .ok effs := by
  unfold constructEffects
  by_cases hrel : relevant = some []
  · exact ⟨[], by rw [if_pos hrel]⟩
  by_cases hobs : obs = []
  · exact ⟨[], by rw [if_neg hrel, if_pos hobs]⟩
  rw [if_neg hrel, if_neg hobs]
  dsimp only
  have hpn : (keptCols relevant prevCols).Nodup := keptCols_nodup hs.prevNodup
  have hnm : ∀ c ∈ keptCols relevant nextCols, c ∈ nextCols ∧ c ∈ keptCols relevant prevCols := by
    intro c hc
    refine ⟨keptCols_mem hc, ?_⟩
    cases relevant with
    | none => exact hsub c hc
    | some fs =>
      have := List.mem_filter.mp hc
      exact List.mem_filter.mpr ⟨hsub c this.1, this.2⟩
  change ∀ f ∈ keptCols relevant nextCols, ∃ a : Affine K C, (∀ c ∈ a.cols, c ∈ keptCols relevant prevCols) ∧ _ at ht
  revert hpn hnm ht
  generalize keptCols relevant prevCols = pc
  generalize keptCols relevant nextCols = nc
  intro hpn hnm ht
  by_cases h1 : (regData pc nc obs).length = 1
  · exact ⟨_, by rw [if_pos h1]⟩
  rw [if_neg h1]
  apply collectEffects_isOk
  intro f hf
  rw [if_neg (by simpa using (hnm f hf).2)]
  by_cases c2 : (obs.all fun o => decide (o.1 f = o.2 f)) = true
  · exact ⟨none, by rw [if_pos c2]⟩
  rw [if_neg c2, if_neg (regFeats_ne_nil hpn hobs ht h1)]
  obtain ⟨a, ha, hv⟩ := ht f hf
  obtain ⟨a', h2, h3⟩ := exact_fit_feats (d := d) hpn hobs a ha hf hv
  exact solveLinear_isOk hR (hs.isVar f (hnm f hf).1) (hR.complete _ _ a' h2 h3)

end

/-! ### Concrete cases and limits -/

/-- A library that tries some fixed solutions first and otherwise any exact one. -/
noncomputable def guessLib {C : Type} [DecidableEq C] (guesses : List (List C × List ℚ × ℚ)) : RegLib ℚ C where
  solve feats data :=
    match guesses.find? (fun g => g.1 = feats ∧ g.2.1.length = feats.length ∧
        ∀ p ∈ data, p.2 = (List.zipWith (fun a f => a * p.1 f) g.2.1 feats).sum + g.2.2) with
    | some g => ((g.2.1, g.2.2), true)
    | none =>
      haveI := Classical.propDecidable
      if h : ∃ s : List ℚ × ℚ, s.1.length = feats.length ∧
          ∀ p ∈ data, p.2 = (List.zipWith (fun a f => a * p.1 f) s.1 feats).sum + s.2 then (h.choose, true)
      else ((feats.map fun _ => 0, 0), false)

theorem guess_contract {C : Type} [DecidableEq C] (g : List (List C × List ℚ × ℚ)) : RegContract (guessLib g) := by
  refine ⟨?_, ?_, ?_⟩
  · intro feats data
    unfold guessLib
    dsimp only
    split
    · next h => have := List.find?_some h; simp only [decide_eq_true_eq] at this; exact this.2.1
    · split_ifs with h
      · exact h.choose_spec.1
      · simp
  · intro feats data
    unfold guessLib
    dsimp only
    split
    · next h => have := List.find?_some h; simp only [decide_eq_true_eq] at this; exact fun _ => this.2.2
    · split_ifs with h
      · intro _; exact h.choose_spec.2
      · simp
  · intro feats data a ha hv
    unfold guessLib
    dsimp only
    split
    · rfl
    · rw [dif_pos]
      refine ⟨(feats.map a.coef, a.const), by simp, fun p hp => ?_⟩
      rw [hv p hp, affine_value_eq, ha]
      rfl

/-- Observations of `f' = f + g - 1`, `g' = g`. -/
def sumObs : List ((Bool → ℚ) × (Bool → ℚ)) :=
  [(fun c => if c then 0 else 1, fun c => if c then 0 else 1), (fun c => if c then 1 else 1, fun c => if c then 1 else 1),
   (fun c => if c then 0 else 3, fun c => if c then 2 else 3), (fun c => if c then 0 else 3, fun c => if c then 2 else 3)]

def triName (c : Bool) : String := if c then "(f)" else "(g)"

theorem tri_columns : ColumnSetup triExp triName [true, false] [true, false] where
  prevNodup := by decide
  nextNodup := by decide
  expInj := by decide +kernel
  notDummy := by decide +kernel
  isVar := by decide +kernel
  nameInj := by decide +kernel

theorem sum_feats : regFeats 4 [true, false] [true, false] sumObs = [true, false] := by decide +kernel

theorem sum_printable : CoefficientsPrintable (guessLib [([true, false], [1, 1], -1), ([true, false], [0, 1], 0)]) 4 [true, false] [true, false] sumObs := by
  intro f hf
  rw [sum_feats]
  have hP : ∀ n : Int, Printable 4 (n : ℚ) := printable_int
  have h0 : Printable 4 (0 : ℚ) := by exact_mod_cast hP 0
  have h1 : Printable 4 (1 : ℚ) := by exact_mod_cast hP 1
  have hm : Printable 4 (-1 : ℚ) := by exact_mod_cast hP (-1)
  cases f with
  | true =>
    have e : (guessLib [([true, false], [1, 1], -1), ([true, false], [0, 1], 0)]).solve [true, false] (regLabels [true, false] [true, false] sumObs true)
      = (([1, 1], -1), true) := by decide +kernel
    rw [e]
    refine ⟨?_, ?_⟩
    · intro c hc
      simp only [List.cons_append, List.nil_append, List.mem_cons, List.not_mem_nil, or_false] at hc
      rcases hc with rfl | rfl | rfl <;> assumption
    · intro i hi hi' hf'
      have : i < 2 := by simpa using hi
      interval_cases i <;> simpa using h0
  | false =>
    have e : (guessLib [([true, false], [1, 1], -1), ([true, false], [0, 1], 0)]).solve [true, false] (regLabels [true, false] [true, false] sumObs false)
      = (([0, 1], 0), true) := by decide +kernel
    rw [e]
    refine ⟨?_, ?_⟩
    · intro c hc
      simp only [List.cons_append, List.nil_append, List.mem_cons, List.not_mem_nil, or_false] at hc
      rcases hc with rfl | rfl | rfl <;> assumption
    · intro i hi hi' hf'
      have : i < 2 := by simpa using hi
      interval_cases i
      · simp at hf'
      · simpa using h0

theorem sum_run2 : constructEffects (guessLib [([true, false], [1, 1], -1), ([true, false], [0, 1], 0)]) 4 false triExp triName none
    [true, false] [true, false] sumObs
    = .ok [⟨.increase, "(f)", .add (.var "(g)") (.num (-1))⟩] := by decide +kernel

/-- C58 applies: in every state with `0 ≤ f`, `1 ≤ g`, `f + (g - 1)/2 ≤ 1` the effect gives `f + g - 1`. -/
example (x : String → ℚ) (hx : InHull [true, false] (sumObs.map Prod.fst) (colVal triExp x)) :
    applyNumeric [⟨.increase, "(f)", .add (.var "(g)") (.num (-1))⟩] x "(f)" = 1 * x "(f)" + (1 * x "(g)" + 0) + -1 :=
  C58_effects_exact (guess_contract _) (by norm_num) tri_columns (relevant := none) sum_printable (by simp) (by decide +kernel) sum_run2
    (by decide) (f := true) (by decide) ⟨[true, false], fun _ => 1, -1⟩ (by decide) (by decide +kernel) x hx

/-- Such states exist besides the observed ones. -/
example : InHull [true, false] (sumObs.map Prod.fst) (colVal triExp fun n => if n = "(f)" then 1 / 2 else 1) :=
  ⟨[1 / 2, 1 / 2, 0, 0], by decide, by decide +kernel, by decide +kernel, by decide +kernel⟩

/-- C59 applies. -/
example : ∀ f ∈ usedCols none [true, false], ∃ a : Affine ℚ Bool, (∀ c ∈ a.cols, c ∈ usedCols none [true, false]) ∧
    ∀ o ∈ sumObs, o.2 f = a.value o.1 := by
  intro f _
  cases f with
  | true => exact ⟨⟨[true, false], fun _ => 1, -1⟩, by decide, by decide +kernel⟩
  | false => exact ⟨⟨[false], fun _ => 1, 0⟩, by decide, by decide +kernel⟩

/-- Observations of `f' = f / 2`, with `g` twice `f`. -/
def halfObs : List ((Bool → ℚ) × (Bool → ℚ)) :=
  [(fun c => if c then 2 else 4, fun c => if c then 1 else 4), (fun c => if c then 4 else 8, fun c => if c then 2 else 8),
   (fun c => if c then 6 else 12, fun c => if c then 3 else 12)]

/-- Limit of C58: a fluent that is halved gets the effect `scale-down` by 1/2, which by the semantics of
PDDL doubles it. -/
theorem C58_limit_scale_down :
    constructEffects (guessLib [([true], [1 / 2], 0)]) 4 false triExp triName none [true, false] [true, false] halfObs
      = .ok [⟨.scaleDown, "(f)", .num (1 / 2)⟩] ∧
    applyNumeric [⟨.scaleDown, "(f)", .num (1 / 2)⟩] (fun _ => (2 : ℚ)) "(f)" = 4 ∧
    (∀ o ∈ halfObs, o.2 true = o.1 true / 2) := by
  refine ⟨by decide +kernel, by decide +kernel, by decide +kernel⟩

/-- C59 covers dropped columns: `g` is twice `f`, and only `f` is a feature. -/
theorem half_feats : regFeats 4 [true, false] [true, false] halfObs = [true] := by decide +kernel

/-- Limit of C59: a fluent that has a value only after the action makes the learner fail when there are
two different observations. -/
theorem C59_limit_unassigned :
    constructEffects (guessLib [([true], [1 / 2], 0)]) 4 false triExp triName none [true] [true, false] halfObs = .error .keyError := by decide +kernel

/-- Limit of C59 (the truth is not a function of the used columns): constant features and a changing
label raise the `ValueError` of the library instead of marking the action as unsafe. -/
theorem C59_limit_no_features :
    constructEffects (guessLib []) 4 false triExp triName none [true, false] [true, false]
      [((fun _ => 1), (fun _ => 1)), ((fun _ => 1), (fun _ => (2 : ℚ)))] = .error .valueError := by decide +kernel

/-- Limit of C58 (printing): with `f' = f + g/10000` the term is dropped, and the effect found leaves `f`
unchanged in an observed state in which it changes. -/
theorem C58_limit_small_coefficient :
    constructEffects (guessLib [([true, false], [1, 1 / 10000], 0)]) 4 false triExp triName none [true, false] [true, false]
      [(fun c => if c then 0 else 1, fun c => if c then 1 / 10000 else 1), (fun _ => 1, fun c => if c then 10001 / 10000 else 1),
       (fun c => if c then 0 else 3, fun c => if c then 3 / 10000 else 3)]
      = .ok [] := by decide +kernel

end Props

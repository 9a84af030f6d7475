import Verif.Lemmas.HullMargin
import Verif.Props.ConvexHull

/-! C56, C57: the effect of rounding and of the margin on the numeric precondition. -/
namespace Props
open Model Spec

section
variable {K : Type} [Field K] [LinearOrder K] [IsStrictOrderedRing K] [FloorRing K]

/-- **C56.** For arbitrary numbers: a state that satisfies the written inequalities violates no facet
of the computed hull by more than one unit of the last digit plus one and a half units per unit of
feature value, and a state that is inside every facet by that much satisfies them. -/
theorem C56_rounding_bounded {k d : Nat} {qhull : List (Fin k → K) → Option (HullResult K k)} {margin : K} {plain : Bool}
    {pts : List (Fin k → K)} {ab : List (List K) × List K} (h : executeHull d qhull margin plain pts = some ab)
    {headers : Fin k → NExp K} (hd : ∀ i, headers i ≠ .var "(dummy)") :
    ∃ hr, approxHull qhull margin plain pts = some hr ∧ ∀ x : String → K,
      ((∀ q ∈ pddlScheme d .le ab.1 ab.2 (List.ofFn headers), q.holds x) →
        ∀ f ∈ hr.facets, (f.1 ⬝ᵥ fun i => (headers i).eval x) ≤ f.2 + 1 / 10 ^ d * (1 + 3 / 2 * ∑ i, |(headers i).eval x|)) ∧
      ((∀ f ∈ hr.facets, (f.1 ⬝ᵥ fun i => (headers i).eval x) + 1 / 10 ^ d * (1 + 3 / 2 * ∑ i, |(headers i).eval x|) ≤ f.2) →
        ∀ q ∈ pddlScheme d .le ab.1 ab.2 (List.ofFn headers), q.holds x) := by
  unfold executeHull at h
  cases ha : approxHull qhull margin plain pts with
  | none => rw [ha] at h; simp at h
  | some hr =>
    rw [ha] at h
    simp only [Option.map_some, Option.some.injEq] at h
    subst h
    refine ⟨hr, rfl, fun x => ?_⟩
    have hfv : (fun i => featVal x (headers i)) = fun i => (headers i).eval x := by
      funext i; rw [featVal, if_neg (show ¬ headers i = dummy from hd i)]
    have herr : ∀ f : (Fin k → K) × K, |(linExp (mulTerms d (prettifyCoefs d (List.ofFn f.1)) (List.ofFn headers))).eval x
        - (f.1 ⬝ᵥ fun i => (headers i).eval x)| ≤ 3 / 2 * (1 / 10 ^ d) * ∑ i, |(headers i).eval x| := by
      intro f
      have := facet_print_err (d := d) f.1 headers x
      rw [hfv] at this
      simp only [congrFun hfv] at this
      exact this
    dsimp only
    rw [facetConds_iff]
    constructor
    · intro hx f hf
      have h1 := hx f hf
      have h2 := abs_le.mp (herr f)
      have h3 := abs_le.mp (prettify_err d f.2)
      have h4 : epsOf K d = 1 / 10 ^ d := rfl
      rw [h4] at h1 h3
      have := h2.1; have := h3.2
      linarith
    · intro hx f hf
      have h1 := hx f hf
      have h2 := abs_le.mp (herr f)
      have h3 := abs_le.mp (prettify_err d f.2)
      have h4 : epsOf K d = 1 / 10 ^ d := rfl
      rw [h4] at h3 ⊢
      have := h2.2; have := h3.1
      linarith

/-- **C57.** With a margin the accepted region contains the hull of the observations, and is
contained in the hull blown up by the margin around a point of the hull. -/
theorem C57_margin_region {C : Type} [DecidableEq C] {L : NumLib K C} (hq : QhullContract L) {k d : Nat} {margin : K}
    (hm : 0 ≤ margin) {plain : Bool} {pts : List (Fin k → K)} {ab : List (List K) × List K}
    (h : executeHull d (L.qhull k) margin plain pts = some ab)
    (hp : ∀ hr, approxHull (L.qhull k) margin plain pts = some hr → ∀ f ∈ hr.facets, (∀ i, Printable d (f.1 i)) ∧ Printable d f.2)
    {headers : Fin k → NExp K} (hd : ∀ i, headers i ≠ .var "(dummy)") :
    (∀ x : String → K, InHull (List.finRange k) pts (fun i => (headers i).eval x) →
      ∀ q ∈ pddlScheme d .le ab.1 ab.2 (List.ofFn headers), q.holds x) ∧
    ∃ c, InHull (List.finRange k) pts c ∧ ∀ x : String → K, (∀ q ∈ pddlScheme d .le ab.1 ab.2 (List.ofFn headers), q.holds x) →
      ∃ z, InHull (List.finRange k) pts z ∧ (fun i => (headers i).eval x) = c + (1 + margin) • (z - c) := by
  unfold executeHull at h
  cases ha : approxHull (L.qhull k) margin plain pts with
  | none => rw [ha] at h; simp at h
  | some hr =>
    rw [ha] at h
    simp only [Option.map_some, Option.some.injEq] at h
    subst h
    obtain ⟨h1, c, hc, h2⟩ := approxHull_spec hq hm ha
    have key : ∀ x : String → K, (∀ q ∈ pddlScheme d .le (hr.facets.map fun f => prettifyCoefs d (List.ofFn f.1))
        (prettifyCoefs d (hr.facets.map Prod.snd)) (List.ofFn headers), q.holds x) ↔
        ∀ f ∈ hr.facets, (f.1 ⬝ᵥ fun i => (headers i).eval x) ≤ f.2 := by
      intro x
      rw [facetConds_holds x (hp hr ha)]
      have hfv : (fun i => featVal x (headers i)) = fun i => (headers i).eval x := by
        funext i; rw [featVal, if_neg (show ¬ headers i = dummy from hd i)]
      rw [hfv]
    refine ⟨fun x hx => (key x).mpr (h1 _ hx), c, hc, fun x hx => h2 _ ((key x).mp hx)⟩

/-- **C57, no margin.** With margin zero (even when Qhull options force the second computation) the
accepted region is exactly the hull. -/
theorem C57_zero_margin {C : Type} [DecidableEq C] {L : NumLib K C} (hq : QhullContract L) {k d : Nat} {plain : Bool}
    {pts : List (Fin k → K)} {ab : List (List K) × List K} (h : executeHull d (L.qhull k) 0 plain pts = some ab)
    (hp : ∀ hr, approxHull (L.qhull k) 0 plain pts = some hr → ∀ f ∈ hr.facets, (∀ i, Printable d (f.1 i)) ∧ Printable d f.2)
    {headers : Fin k → NExp K} (hd : ∀ i, headers i ≠ .var "(dummy)") (x : String → K) :
    (∀ q ∈ pddlScheme d .le ab.1 ab.2 (List.ofFn headers), q.holds x) ↔
      InHull (List.finRange k) pts (fun i => (headers i).eval x) := by
  obtain ⟨h1, c, hc, h2⟩ := C57_margin_region hq (le_refl 0) h hp hd
  constructor
  · intro hx
    obtain ⟨z, hz, e⟩ := h2 x hx
    rw [e]
    simpa using hz
  · exact h1 x

end

/-! Concrete cases. -/

/-- The points 0 and 2 on a line, and the same with the points -1 and 3 of a margin of one. -/
def lineLib : NumLib ℚ Bool where
  qhull := fun k => match k with
    | 1 => fun pts => if pts = [![0], ![2]] then some ⟨[(![-1], 0), (![1], 2)], [0, 1], [[0], [1]]⟩
        else if pts = [![0], ![2], ![-1], ![3]] then some ⟨[(![-1], 1), (![1], 3)], [2, 3], [[2], [3]]⟩ else none
    | _ => fun _ => none
  fit := fun _ _ _ => none
  norm := fun _ => 1

theorem line_contract : QhullContract lineLib := by
  have key : ∀ {k : Nat} {pts : List (Fin k → ℚ)} {h : HullResult ℚ k}, lineLib.qhull k pts = some h →
      ∃ hk : k = 1, (hk ▸ pts = [![0], ![2]] ∧ hk ▸ h = (⟨[(![-1], 0), (![1], 2)], [0, 1], [[0], [1]]⟩ : HullResult ℚ 1)) ∨
        (hk ▸ pts = [![0], ![2], ![-1], ![3]] ∧ hk ▸ h = (⟨[(![-1], 1), (![1], 3)], [2, 3], [[2], [3]]⟩ : HullResult ℚ 1)) := by
    intro k pts h e
    by_cases hk : k = 1
    · subst hk
      refine ⟨rfl, ?_⟩
      simp only [lineLib] at e
      split_ifs at e with h1 h2
      · exact Or.inl ⟨h1, by simpa using e.symm⟩
      · exact Or.inr ⟨h2, by simpa using e.symm⟩
    · exfalso
      unfold lineLib at e
      dsimp only at e
      split at e
      · exact hk rfl
      · simp at e
  constructor
  · intro k pts h e y
    obtain ⟨hk, ⟨h1, h2⟩ | ⟨h1, h2⟩⟩ := key e
    · subst hk
      dsimp only at h1 h2
      subst h1 h2
      simp only [List.forall_mem_cons, List.not_mem_nil, IsEmpty.forall_iff, implies_true, and_true]
      simp only [dotProduct, Finset.univ_unique, Fin.default_eq_zero, Finset.sum_singleton, Matrix.cons_val_fin_one]
      constructor
      · rintro ⟨h1, h2⟩
        refine ⟨[1 - y 0 / 2, y 0 / 2], rfl, ?_, by simp, ?_⟩
        · simp only [List.forall_mem_cons, List.not_mem_nil, IsEmpty.forall_iff, implies_true, and_true]
          exact ⟨by linarith, by linarith⟩
        · intro c _; fin_cases c; simp
      · rintro ⟨w, w1, w2, w3, w4⟩
        obtain ⟨a, b, rfl⟩ : ∃ a b, w = [a, b] := by
          match w, w1 with
          | [a, b], _ => exact ⟨a, b, rfl⟩
        have h0 := w4 0 (by simp)
        simp at h0 w3
        have := w2 a (by simp)
        have := w2 b (by simp)
        rw [h0]
        refine ⟨by linarith, by linarith⟩
    · subst hk
      dsimp only at h1 h2
      subst h1 h2
      simp only [List.forall_mem_cons, List.not_mem_nil, IsEmpty.forall_iff, implies_true, and_true]
      simp only [dotProduct, Finset.univ_unique, Fin.default_eq_zero, Finset.sum_singleton, Matrix.cons_val_fin_one]
      constructor
      · rintro ⟨h1, h2⟩
        refine ⟨[0, 0, (3 - y 0) / 4, (y 0 + 1) / 4], rfl, ?_, by simp; ring, ?_⟩
        · simp only [List.forall_mem_cons, List.not_mem_nil, IsEmpty.forall_iff, implies_true, and_true]
          exact ⟨le_refl _, le_refl _, by linarith, by linarith⟩
        · intro c _; fin_cases c; simp; ring
      · rintro ⟨w, w1, w2, w3, w4⟩
        obtain ⟨a, b, c, e, rfl⟩ : ∃ a b c e, w = [a, b, c, e] := by
          match w, w1 with
          | [a, b, c, e], _ => exact ⟨a, b, c, e, rfl⟩
        have h0 := w4 0 (by simp)
        simp at h0 w3
        have := w2 a (by simp)
        have := w2 b (by simp)
        have := w2 c (by simp)
        have := w2 e (by simp)
        rw [h0]
        refine ⟨by linarith, by linarith⟩
  · intro k pts h e
    obtain ⟨hk, ⟨h1, h2⟩ | ⟨h1, h2⟩⟩ := key e
    · subst hk
      dsimp only at h1 h2
      subst h1 h2
      simp
    · subst hk
      dsimp only at h1 h2
      subst h1 h2
      simp

theorem line_margin_run : executeHull 4 (lineLib.qhull 1) 1 false [![0], ![2]] = some ([[-1], [1]], [1, 3]) := by decide +kernel

/-- C57 applies to the line with margin one. -/
example : ∃ c, InHull (List.finRange 1) [![0], ![2]] c ∧ ∀ x : String → ℚ,
    (∀ q ∈ pddlScheme 4 .le [[-1], [1]] [1, 3] (List.ofFn fun _ : Fin 1 => NExp.var "(f)"), q.holds x) →
    ∃ z, InHull (List.finRange 1) [![0], ![2]] z ∧ (fun _ => x "(f)") = c + ((1 : ℚ) + 1) • (z - c) :=
  (C57_margin_region line_contract (by norm_num) line_margin_run (by
    intro hr e
    have : approxHull (lineLib.qhull 1) 1 false [![0], ![2]] = some ⟨[(![-1], 1), (![1], 3)], [2, 3], [[2], [3]]⟩ := by
      have h1 : lineLib.qhull 1 [![0], ![2]] = some ⟨[(![-1], 0), (![1], 2)], [0, 1], [[0], [1]]⟩ := by
        simp [lineLib]
      unfold approxHull
      rw [h1]
      simp only [Option.bind_eq_bind, Option.bind_some, Bool.false_eq_true, if_false]
      have h2 : ([![0], ![2]] ++ ([[0], [1]] : List (List Nat)).flatMap fun s =>
          (s.filterMap fun i => ([![0], ![2]] : List (Fin 1 → ℚ))[i]?).map fun p =>
            ((([0, 1] : List Nat).filterMap fun i => ([![0], ![2]] : List (Fin 1 → ℚ))[i]?).length : ℚ)⁻¹ •
              (([0, 1] : List Nat).filterMap fun i => ([![0], ![2]] : List (Fin 1 → ℚ))[i]?).sum + (1 + 1 : ℚ) •
                (p - ((([0, 1] : List Nat).filterMap fun i => ([![0], ![2]] : List (Fin 1 → ℚ))[i]?).length : ℚ)⁻¹ •
              (([0, 1] : List Nat).filterMap fun i => ([![0], ![2]] : List (Fin 1 → ℚ))[i]?).sum))
          = ([![0], ![2], ![-1], ![3]] : List (Fin 1 → ℚ)) := by decide +kernel
      rw [h2]
      simp only [lineLib]
      rw [if_neg (by decide +kernel), if_pos trivial]
    rw [this] at e
    simp only [Option.some.injEq] at e
    subst e
    have h1 : Printable 4 (1 : ℚ) := by exact_mod_cast printable_int 1
    have h3 : Printable 4 (3 : ℚ) := by exact_mod_cast printable_int 3
    have hm : Printable 4 (-1 : ℚ) := by exact_mod_cast printable_int (-1)
    simp only [List.forall_mem_cons, List.not_mem_nil, IsEmpty.forall_iff, implies_true, and_true]
    refine ⟨⟨?_, h1⟩, ?_, h3⟩ <;> intro i <;> fin_cases i <;> assumption) (by decide +kernel)).2

/-- **C57, limit.** With a positive margin the precondition accepts values outside the hull of the
observations: 3 is accepted after 0 and 2. -/
theorem C57_margin_unsafe : ∃ x : String → ℚ,
    (∀ q ∈ pddlScheme 4 .le [[-1], [1]] [1, 3] (List.ofFn fun _ : Fin 1 => NExp.var "(f)"), q.holds x) ∧
    ¬ InHull (List.finRange 1) [![0], ![2]] (fun _ => x "(f)") := by
  refine ⟨fun _ => 3, by decide +kernel, ?_⟩
  intro h
  have := (line_contract.facets (pts := [![0], ![2]]) (h := ⟨[(![-1], 0), (![1], 2)], [0, 1], [[0], [1]]⟩) (by simp [lineLib])
    (fun _ => 3)).mpr h (![1], 2) (by simp)
  simp [dotProduct] at this
  norm_num at this

/-- C56 applies to the triangle. -/
example : executeHull 4 (triLib.qhull 2) 0 true [![0, 0], ![1, 0], ![0, 1]] = some ([[-1, 0], [0, -1], [1, 1]], [0, 0, 1]) := by
  decide +kernel

/-- Observations of `g = f / 3`; `true` is the column of `g`. -/
def thirdRows : List (Bool → ℚ) := [fun _ => 0, fun c => if c then 1 else 3]

/-- A library that finds the dependency. -/
def thirdLib : NumLib ℚ Bool where
  qhull := fun _ _ => none
  fit := fun feats c rows => if feats = [false] ∧ c = true ∧ rows = thirdRows then some ([1 / 3], 0) else none
  norm := fun _ => 1

def thirdExp (c : Bool) : NExp ℚ := if c then .var "(g)" else .var "(f)"

/-- **C56, limit.** A dependency with a coefficient that does not survive printing: the learned
precondition is false in its own observations. With `g = f / 3` the written equation is
`g = 0.3333 f`, which fails for the observation `f = 3`, `g = 1`. -/
theorem C56_dependency_excludes_observation : FitContract thirdLib ∧
    ∃ cs, safeInequalities thirdLib 4 0 true thirdExp none [true, false] thirdRows = .conds cs ∧
      ∃ r ∈ thirdRows, ∃ x : String → ℚ, x "(g)" = r true ∧ x "(f)" = r false ∧ ∃ q ∈ cs, ¬ q.holds x := by
  constructor
  · intro feats c rows cs b h
    simp only [thirdLib] at h
    split_ifs at h with hc
    obtain ⟨rfl, rfl, rfl⟩ := hc
    simp only [Option.some.injEq, Prod.mk.injEq] at h
    obtain ⟨rfl, rfl⟩ := h
    refine ⟨rfl, ?_⟩
    intro r hr
    simp only [thirdRows, List.mem_cons, List.not_mem_nil, or_false] at hr
    rcases hr with rfl | rfl <;> norm_num
  · have hrun : safeInequalities thirdLib 4 0 true thirdExp none [true, false] thirdRows = .conds
        [⟨.le, .mul (.var "(f)") (.num (-1)), .num 0⟩, ⟨.le, .var "(f)", .num 3⟩,
          ⟨.eq, .var "(g)", .mul (.var "(f)") (.num (3333 / 10000))⟩] := by decide +kernel
    exact ⟨_, hrun, fun c => if c then 1 else 3, by simp [thirdRows], fun f => if f = "(g)" then 1 else 3, by decide +kernel,
      by decide +kernel, ⟨.eq, .var "(g)", .mul (.var "(f)") (.num (3333 / 10000))⟩, by simp, by decide +kernel⟩

end Props

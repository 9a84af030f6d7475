import Verif.Props.NumOptimal
import Mathlib.Data.Fin.SuccPred
import Mathlib.Data.Finset.Max

/-! C145: which observations the numeric preconditions learned from the others refuse. -/
namespace Props
open Model Spec

namespace NumGeneral

section
variable {K : Type} [Field K] [LinearOrder K] [IsStrictOrderedRing K] [FloorRing K] {C : Type} [DecidableEq C]

/-- More rows, larger hull. -/
theorem inHull_subset {cols : List C} (hnd : cols.Nodup) {rows rows' : List (C → K)} (h : ∀ r ∈ rows, r ∈ rows') {v : C → K}
    (hv : InHull cols rows v) : InHull cols rows' v := by
  rw [inHull_iff_halfspaces hnd] at hv ⊢
  exact fun coef b hb => hv coef b fun r hr => hb r (h r hr)

/-- **C145.** If the hull of all observations is that of some of them, `S`, then every observation that the conditions learned from the
others refuse is in `S`. -/
theorem C145_refused_are_vertices {L : NumLib K C} {d : Nat} {colExp : C → NExp K} {cols : List C} {n : ℕ} {rows : Fin (n + 1) → C → K}
    (hsetup : ∀ i : Fin (n + 1), HullSetup L d colExp cols (List.ofFn fun j => rows (i.succAbove j)) ∨
      ProjSetup L d colExp cols (List.ofFn fun j => rows (i.succAbove j)))
    {margin : K} {relevant : Option (List C)} {cs : Fin (n + 1) → List (NCond K)}
    (hout : ∀ i, safeInequalities L d margin true colExp relevant cols (List.ofFn fun j => rows (i.succAbove j)) = .conds (cs i))
    {x : Fin (n + 1) → String → K} (hx : ∀ i c, (colExp c).eval (x i) = rows i c)
    {S : Finset (Fin (n + 1))} {vertices : List (C → K)} (hv : ∀ r ∈ vertices, ∃ i ∈ S, r = rows i)
    (hS : ∀ i, InHull (usedCols relevant cols) vertices (rows i)) {i : Fin (n + 1)} (hi : ¬ ∀ q ∈ cs i, q.holds (x i)) : i ∈ S := by
  by_contra hno
  apply hi
  have hnd : cols.Nodup := (hsetup i).elim (fun s => s.nodup) fun s => s.nodup
  have hiff : (∀ q ∈ cs i, q.holds (x i)) ↔ InHull (usedCols relevant cols) (List.ofFn fun j => rows (i.succAbove j)) (fun c => (colExp c).eval (x i)) :=
    (hsetup i).elim (fun s => C55_precondition_is_hull s (hout i) (x i)) fun s => C70_projected_precondition_is_hull s (hout i) (x i)
  rw [hiff, show (fun c => (colExp c).eval (x i)) = rows i from funext (hx i)]
  refine inHull_subset (NumOptimal.used_nodup hnd relevant) (fun r hr => ?_) (hS i)
  obtain ⟨j, hj, rfl⟩ := hv r hr
  obtain ⟨k, rfl⟩ := Fin.exists_succAbove_eq (x := j) (y := i) (fun e => hno (e ▸ hj))
  exact List.mem_ofFn.mpr ⟨k, rfl⟩

/-- What is learned for a single numeric function, whatever the libraries. -/
theorem single_iff {L : NumLib K C} {d : Nat} {colExp : C → NExp K} {f : C} {rows : List (C → K)} (hne : rows ≠ []) {margin : K} {plain : Bool}
    {cs : List (NCond K)} (hout : safeInequalities L d margin plain colExp none [f] rows = .conds cs) (x : String → K) :
    (∀ q ∈ cs, q.holds x) ↔ InHull [f] rows fun c => (colExp c).eval x := by
  rw [safeInequalities_eq] at hout
  rw [if_pos (Or.inr (by simp [usedCols]))] at hout
  simp only [usedCols, List.mem_singleton, if_true] at hout
  rw [inHull_single hne, ← parseConds_eq hout]
  unfold singleColumn
  dsimp only
  split_ifs with heq
  · simp only [List.forall_mem_singleton]
    show (colExp f).eval x = listMin (rows.map (· f)) ↔ _
    rw [← heq]
    constructor
    · intro h; rw [h]; exact ⟨le_refl _, le_refl _⟩
    · rintro ⟨h1, h2⟩; exact le_antisymm h2 h1
  · simp only [List.forall_mem_cons, List.not_mem_nil, IsEmpty.forall_iff, implies_true, and_true]
    exact Iff.rfl

/-- **C145 (one function).** For an action with a single numeric function, of any number of observations at most two are refused by the
conditions learned from the others. -/
theorem C145_single_function {L : NumLib K C} {d : Nat} {colExp : C → NExp K} {f : C} {n : ℕ} (hn : 0 < n) {rows : Fin (n + 1) → C → K}
    {margin : K} {plain : Bool} {cs : Fin (n + 1) → List (NCond K)}
    (hout : ∀ i, safeInequalities L d margin plain colExp none [f] (List.ofFn fun j => rows (i.succAbove j)) = .conds (cs i))
    {x : Fin (n + 1) → String → K} (hx : ∀ i c, (colExp c).eval (x i) = rows i c)
    {bad : Finset (Fin (n + 1))} (hbad : ∀ i ∈ bad, ¬ ∀ q ∈ cs i, q.holds (x i)) : bad.card ≤ 2 := by
  obtain ⟨lo, _, hlo⟩ := Finset.exists_min_image Finset.univ (fun i => rows i f) ⟨0, Finset.mem_univ _⟩
  obtain ⟨hi, _, hhi⟩ := Finset.exists_max_image Finset.univ (fun i => rows i f) ⟨0, Finset.mem_univ _⟩
  refine le_trans (Finset.card_le_card (t := {lo, hi}) fun i hib => ?_) Finset.card_le_two
  by_contra hno
  rw [Finset.mem_insert, Finset.mem_singleton, not_or] at hno
  apply hbad i hib
  have hne : (List.ofFn fun j => rows (i.succAbove j)) ≠ [] := by
    intro h
    have := congrArg List.length h
    simp at this
    omega
  have hmem : ∀ j, j ≠ i → rows j ∈ List.ofFn fun j => rows (i.succAbove j) := by
    intro j hj
    obtain ⟨k, rfl⟩ := Fin.exists_succAbove_eq hj
    exact List.mem_ofFn.mpr ⟨k, rfl⟩
  rw [single_iff hne (hout i), show (fun c => (colExp c).eval (x i)) = rows i from funext (hx i), inHull_iff_halfspaces (by simp)]
  intro coef b hb
  have h1 := hb _ (hmem lo (fun e => hno.1 e.symm))
  have h2 := hb _ (hmem hi (fun e => hno.2 e.symm))
  simp only [linForm, List.map_cons, List.map_nil, List.sum_cons, List.sum_nil, add_zero] at h1 h2 ⊢
  rcases le_total 0 (coef f) with h | h
  · exact le_trans (mul_le_mul_of_nonneg_left (hhi i (Finset.mem_univ _)) h) h2
  · exact le_trans (mul_le_mul_of_nonpos_left (hlo i (Finset.mem_univ _)) h) h1

end

/-! ### Cases -/

/-- Three observations of one function; the middle one is accepted, the outer two are refused by what is learned from the others: the bound
is attained. -/
example : let rows : Fin 3 → Unit → ℚ := fun i _ => i.val
    let L : NumLib ℚ Unit := ⟨fun _ _ => none, fun _ _ _ => none, fun _ => 1⟩
    let cs : Fin 3 → List (NCond ℚ) := fun i => match safeInequalities L 2 0 true (fun _ => .var "(f)") none [()] (List.ofFn fun j => rows (i.succAbove j)) with
      | .conds cs => cs
      | _ => []
    (∀ i, safeInequalities L 2 0 true (fun _ => .var "(f)") none [()] (List.ofFn fun j => rows (i.succAbove j)) = .conds (cs i)) ∧
    ∀ i, (∀ q ∈ cs i, q.holds fun _ => rows i ()) ↔ i = 1 := by decide +kernel

end NumGeneral
end Props

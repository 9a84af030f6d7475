import Verif.Lemmas.FullRank
import Mathlib.Data.Rat.Floor

/-! C55, C56: the numeric precondition written by the convex hull learner. -/
namespace Props
open Model Spec

section
variable {K : Type} [Field K] [LinearOrder K] [IsStrictOrderedRing K] [FloorRing K]
variable {C : Type} [DecidableEq C]

/-- The columns the precondition is about: all, or the relevant ones. -/
def usedCols (relevant : Option (List C)) (cols : List C) : List C :=
  match relevant with
  | none => cols
  | some fs => cols.filter (· ∈ fs)

/-- The assumptions of the exact results: the contracts of the external libraries, and numbers that
survive printing. -/
structure HullSetup (L : NumLib K C) (d : Nat) (colExp : C → NExp K) (cols : List C) (rows : List (C → K)) : Prop where
  qhull : QhullContract L
  fit : FitContract L
  complete : FitComplete L rows
  digits : 1 ≤ d
  nonempty : rows ≠ []
  nodup : cols.Nodup
  noDummy : ∀ c ∈ cols, colExp c ≠ .var "(dummy)"
  data : ∀ r ∈ rows, ∀ c ∈ cols, Printable d (r c)
  fitPrint : ∀ feats c cs b, L.fit feats c rows = some (cs, b) → ∀ k ∈ cs ++ [b], Printable d k
  facetPrint : ∀ (left : List C) (h : HullResult K left.length),
    L.qhull left.length (rows.map fun r => fun i => r (left.get i)) = some h →
      ∀ f ∈ h.facets, (∀ i, Printable d (f.1 i)) ∧ Printable d f.2
  separated : ∀ left : List C, left.Sublist cols → Separated (1 / 10 ^ d) left rows

theorem filter_singleton_of_nodup {l : List C} (h : l.Nodup) {f : C} (hf : f ∈ l) : l.filter (· ∈ [f]) = [f] := by
  have hnd := h.filter (fun c => decide (c ∈ [f]))
  have hall : ∀ c ∈ l.filter (fun c => decide (c ∈ [f])), c = f := fun c hc => by simpa using (List.mem_filter.mp hc).2
  have hm : f ∈ l.filter (fun c => decide (c ∈ [f])) := by simp [hf]
  revert hnd hall hm
  generalize l.filter (fun c => decide (c ∈ [f])) = m
  intro hnd hall hm
  match m, hnd, hall, hm with
  | [], _, _, hm => simp at hm
  | [a], _, hall, _ => rw [hall a (by simp)]
  | a :: b :: m, hnd, hall, _ =>
    exfalso
    have := hall a (by simp)
    have := hall b (by simp)
    simp_all

theorem safeInequalities_eq (L : NumLib K C) (d : Nat) (margin : K) (plain : Bool) (colExp : C → NExp K)
    (relevant : Option (List C)) (cols : List C) (rows : List (C → K)) :
    safeInequalities L d margin plain colExp relevant cols rows =
    if (relevant.map List.length = some 1) ∨ (usedCols relevant cols).length = 1 then
      match (match relevant with | none => usedCols relevant cols | some fs => fs) with
      | [] => .crash
      | f :: _ => if f ∈ usedCols relevant cols then parseConds (singleColumn colExp f rows) else .crash
    else
      match removeDependencies L d colExp (usedCols relevant cols) rows with
      | (none, conds) => parseConds conds
      | (some left, conds) =>
        if rows = [] then parseConds conds
        else if left.length = 1 then
          parseConds (pddlScheme d .le (singleDim d (rows.map fun r => (left.head?.map r).getD 0)).1
            (singleDim d (rows.map fun r => (left.head?.map r).getD 0)).2 (left.map colExp) ++ conds)
        else match hullInequalities L d margin plain colExp left rows with
          | none => .notSafe
          | some (ab, vars, spanConds) =>
            parseConds (pddlScheme d .le ab.1 ab.2 vars ++ conds ++ spanConds) := by
  cases relevant <;> rfl

/-- **C55.** The learned numeric precondition is true in a state exactly when the values of the
(relevant) fluents in that state are a convex combination of the observed values. -/
theorem C55_precondition_is_hull {L : NumLib K C} {d : Nat} {colExp : C → NExp K} {cols : List C} {rows : List (C → K)}
    (S : HullSetup L d colExp cols rows) {margin : K} {relevant : Option (List C)} {cs : List (NCond K)}
    (hout : safeInequalities L d margin true colExp relevant cols rows = .conds cs) (x : String → K) :
    (∀ q ∈ cs, q.holds x) ↔ InHull (usedCols relevant cols) rows (fun c => (colExp c).eval x) := by
  have hsub : (usedCols relevant cols).Sublist cols := by
    unfold usedCols
    cases relevant with
    | none => exact List.Sublist.refl _
    | some fs => exact List.filter_sublist
  have hnd : (usedCols relevant cols).Nodup := S.nodup.sublist hsub
  have hdum : ∀ c ∈ usedCols relevant cols, colExp c ≠ dummy := fun c hc => S.noDummy c (hsub.subset hc)
  rw [safeInequalities_eq] at hout
  by_cases h1 : (relevant.map List.length = some 1) ∨ (usedCols relevant cols).length = 1
  · -- a single fluent
    rw [if_pos h1] at hout
    obtain ⟨f, hf, he, hcs⟩ : ∃ f, f ∈ usedCols relevant cols ∧ usedCols relevant cols = [f] ∧
        parseConds (singleColumn colExp f rows) = .conds cs := by
      cases relevant with
      | none =>
        simp only [Option.map_none, reduceCtorEq, false_or] at h1
        obtain ⟨f, hf⟩ := List.length_eq_one_iff.mp h1
        refine ⟨f, by rw [hf]; simp, hf, ?_⟩
        rw [hf] at hout
        simpa using hout
      | some fs =>
        cases fs with
        | nil => simp at hout
        | cons f fs =>
          simp only at hout
          split_ifs at hout with hm
          refine ⟨f, hm, ?_, hout⟩
          rcases h1 with h1 | h1
          · simp only [Option.map_some, List.length_cons, Option.some.injEq] at h1
            have : fs = [] := List.eq_nil_of_length_eq_zero (by omega)
            subst this
            exact filter_singleton_of_nodup S.nodup (hsub.subset hm)
          · obtain ⟨g, hg⟩ := List.length_eq_one_iff.mp h1
            rw [hg] at hm ⊢
            rw [List.mem_singleton.mp hm]
    rw [he, inHull_single S.nonempty, ← parseConds_eq hcs]
    unfold singleColumn
    dsimp only
    split_ifs with heq
    · simp only [List.forall_mem_singleton]
      show (colExp f).eval x = listMin (rows.map (· f)) ↔ _
      rw [← heq]
      constructor
      · intro h; rw [h]; exact ⟨le_refl _, le_refl _⟩
      · rintro ⟨h1, h2⟩; exact le_antisymm h2 h1
    · simp only [List.forall_mem_cons, List.not_mem_nil, IsEmpty.forall_iff, implies_true, and_true]
      exact Iff.rfl
  · -- several fluents
    rw [if_neg h1] at hout
    have hdeps := removeDependencies_spec (d := d) (colExp := colExp) S.fit S.nonempty hnd S.fitPrint hdum x
    cases hr : removeDependencies L d colExp (usedCols relevant cols) rows with
    | mk left conds =>
      rw [hr] at hout hdeps
      cases left with
      | none =>
        rw [← parseConds_eq hout]
        simp only [Option.getD_none] at hdeps
        show _ ↔ InHull (usedCols relevant cols) rows (colVal colExp x)
        rw [← hdeps]
        exact (and_iff_left (inHull_nil_cols S.nonempty _)).symm
      | some left =>
        have hlsub := (removeDependencies_sub hr).trans hsub
        simp only [Option.getD_some] at hdeps
        simp only [S.nonempty, if_false] at hout
        show _ ↔ InHull (usedCols relevant cols) rows (colVal colExp x)
        rw [← hdeps]
        split_ifs at hout with hl
        · obtain ⟨f, rfl⟩ := List.length_eq_one_iff.mp hl
          rw [← parseConds_eq hout, List.forall_mem_append, and_comm]
          refine and_congr_right fun _ => ?_
          simp only [List.head?_cons, Option.map_some, Option.getD_some, List.map_cons, List.map_nil]
          rw [singleDim_holds (by simpa using S.nonempty) (by
            intro k hk
            obtain ⟨r, hr', rfl⟩ := List.mem_map.mp hk
            exact S.data r hr' f (hlsub.subset (by simp))) S.digits, inHull_single S.nonempty, featVal,
            if_neg (show ¬ colExp f = dummy from S.noDummy f (hlsub.subset (by simp)))]
          exact Iff.rfl
        · have hfull := fullRank_of_separated S.complete S.nonempty hnd hr hl (S.separated left hlsub)
          cases hh : hullInequalities L d margin true colExp left rows with
          | none => rw [hh] at hout; simp at hout
          | some o =>
            obtain ⟨ab, vars, sp⟩ := o
            rw [hh] at hout
            obtain ⟨rfl, hr', ha, hiff⟩ := hullInequalities_full_holds (margin := margin) (plain := true) hfull
              (fun c hc => S.noDummy c (hlsub.subset hc)) hh (by
                intro hr' ha
                unfold approxHull at ha
                cases hq : L.qhull left.length (rows.map (rowVec left)) with
                | none => rw [hq] at ha; simp at ha
                | some h0 =>
                  rw [hq] at ha
                  simp at ha
                  subst ha
                  exact S.facetPrint left h0 hq) x
            rw [← parseConds_eq hout, List.append_nil, List.forall_mem_append, hiff, and_comm]
            refine and_congr_right fun _ => ?_
            have hq : L.qhull left.length (rows.map (rowVec left)) = some hr' := by
              unfold approxHull at ha
              cases hq : L.qhull left.length (rows.map (rowVec left)) with
              | none => rw [hq] at ha; simp at ha
              | some h0 => rw [hq] at ha; simpa using ha
            rw [S.qhull.facets hq, inHull_rowVec]

/-- **C55, safety.** Whatever the real precondition is, if the values it allows form a convex set
and it held in every observation, it holds wherever the learned precondition holds. -/
theorem C55_safe_for_convex {L : NumLib K C} {d : Nat} {colExp : C → NExp K} {cols : List C} {rows : List (C → K)}
    (S : HullSetup L d colExp cols rows) {margin : K} {cs : List (NCond K)}
    (hout : safeInequalities L d margin true colExp none cols rows = .conds cs)
    (real : (C → K) → Prop) (hreal : ∀ r ∈ rows, real r)
    (hconvex : ∀ (pts : List (C → K)) (v : C → K), (∀ r ∈ pts, real r) → InHull cols pts v → real v)
    {x : String → K} (hx : ∀ q ∈ cs, q.holds x) : real (fun c => (colExp c).eval x) :=
  hconvex rows _ hreal ((C55_precondition_is_hull S hout x).mp hx)

/-- **C55, observations.** The learned precondition is true in every observed state. -/
theorem C55_accepts_observations {L : NumLib K C} {d : Nat} {colExp : C → NExp K} {cols : List C} {rows : List (C → K)}
    (S : HullSetup L d colExp cols rows) {margin : K} {relevant : Option (List C)} {cs : List (NCond K)}
    (hout : safeInequalities L d margin true colExp relevant cols rows = .conds cs) {x : String → K}
    (hx : (fun c => (colExp c).eval x) ∈ rows) : ∀ q ∈ cs, q.holds x :=
  (C55_precondition_is_hull S hout x).mpr (inHull_row hx)

/-- **C55, more observations.** With more observations the learned precondition only gets weaker. -/
theorem C55_monotone {L : NumLib K C} {d : Nat} {colExp : C → NExp K} {cols : List C} {rows more : List (C → K)}
    (S : HullSetup L d colExp cols rows) (S' : HullSetup L d colExp cols (rows ++ more)) {margin : K}
    {relevant : Option (List C)} {cs cs' : List (NCond K)}
    (hout : safeInequalities L d margin true colExp relevant cols rows = .conds cs)
    (hout' : safeInequalities L d margin true colExp relevant cols (rows ++ more) = .conds cs') {x : String → K}
    (hx : ∀ q ∈ cs, q.holds x) : ∀ q ∈ cs', q.holds x := by
  rw [C55_precondition_is_hull S' hout']
  obtain ⟨w, h1, h2, h3, h4⟩ := (C55_precondition_is_hull S hout x).mp hx
  refine ⟨w ++ more.map fun _ => 0, by simp [h1], ?_, by simp [h3], ?_⟩
  · intro k hk
    rcases List.mem_append.mp hk with hk | hk
    · exact h2 k hk
    · obtain ⟨_, _, rfl⟩ := List.mem_map.mp hk; exact le_refl _
  · intro c hc
    rw [h4 c hc, List.zipWith_append h1, List.sum_append]
    have : (List.zipWith (fun k (r : C → K) => k * r c) (more.map fun _ => (0 : K)) more).sum = 0 := by
      clear hout' S'
      induction more with
      | nil => rfl
      | cons a l ih =>
        simp only [List.map_cons, List.zipWith_cons_cons, List.sum_cons, zero_mul, zero_add]; exact ih
    rw [this, add_zero]

end
/-! A concrete case: two fluents, three observations, a library that knows their triangle. -/

/-- The observations `(0,0)`, `(1,0)`, `(0,1)` of the fluents `(f)` (`true`) and `(g)` (`false`). -/
def triRows : List (Bool → ℚ) := [fun _ => 0, fun c => if c then 1 else 0, fun c => if c then 0 else 1]

def triExp (c : Bool) : NExp ℚ := if c then .var "(f)" else .var "(g)"

/-- A library that knows the convex hull of this triangle, and no other. -/
def triLib : NumLib ℚ Bool where
  qhull := fun k => match k with
    | 2 => fun pts => if pts = [![0, 0], ![1, 0], ![0, 1]] then
        some ⟨[(![-1, 0], 0), (![0, -1], 0), (![1, 1], 1)], [0, 1, 2], [[0, 1], [1, 2], [2, 0]]⟩ else none
    | _ => fun _ => none
  fit := fun _ _ _ => none
  norm := fun _ => 1

theorem triLib_qhull {k : Nat} {pts : List (Fin k → ℚ)} {h : HullResult ℚ k} (e : triLib.qhull k pts = some h) :
    ∃ hk : k = 2, hk ▸ pts = [![0, 0], ![1, 0], ![0, 1]] ∧
      hk ▸ h = (⟨[(![-1, 0], 0), (![0, -1], 0), (![1, 1], 1)], [0, 1, 2], [[0, 1], [1, 2], [2, 0]]⟩ : HullResult ℚ 2) := by
  by_cases hk : k = 2
  · subst hk
    refine ⟨rfl, ?_⟩
    simp only [triLib] at e
    split_ifs at e with h1
    exact ⟨h1, by simpa using e.symm⟩
  · exfalso
    unfold triLib at e
    dsimp only at e
    split at e
    · exact hk rfl
    · simp at e

theorem tri_contract : QhullContract triLib := by
  constructor
  · intro k pts h e y
    obtain ⟨hk, h1, h2⟩ := triLib_qhull e
    subst hk
    dsimp only at h1 h2
    subst h1 h2
    simp only [List.forall_mem_cons, List.not_mem_nil, IsEmpty.forall_iff, implies_true, and_true]
    simp only [dotProduct, Fin.sum_univ_two, Matrix.cons_val_zero, Matrix.cons_val_one]
    constructor
    · rintro ⟨h1, h2, h3⟩
      refine ⟨[1 - y 0 - y 1, y 0, y 1], rfl, ?_, by simp, ?_⟩
      · simp only [List.forall_mem_cons, List.not_mem_nil, IsEmpty.forall_iff, implies_true, and_true]
        exact ⟨by linarith, by linarith, by linarith⟩
      · intro c _
        fin_cases c <;> simp
    · rintro ⟨w, w1, w2, w3, w4⟩
      obtain ⟨a, b, c, rfl⟩ : ∃ a b c, w = [a, b, c] := by
        match w, w1 with
        | [a, b, c], _ => exact ⟨a, b, c, rfl⟩
      have h0 := w4 0 (by simp)
      have h1 := w4 1 (by simp)
      simp at h0 h1 w3
      have := w2 a (by simp)
      have := w2 b (by simp)
      have := w2 c (by simp)
      rw [h0, h1]
      refine ⟨by linarith, by linarith, by linarith⟩
  · intro k pts h e
    obtain ⟨hk, h1, h2⟩ := triLib_qhull e
    subst hk
    dsimp only at h1 h2
    subst h1 h2
    simp

theorem tri_affine_const {C : Type} [DecidableEq C] {cols : List C} {s : List (C → ℚ)} {q : C → ℚ} (h : InAffine cols s q) {c : C}
    (hc : c ∈ cols) {b : ℚ} (hb : ∀ r ∈ s, r c = b) : q c = b := by
  obtain ⟨w, h1, h2, h3⟩ := h
  rw [h3 c hc, comb_affine h1 (cs := []) (feats := []) (b := b) (by intro r hr; simpa using hb r hr), h2]
  simp

theorem tri_inAffine {C : Type} [DecidableEq C] {cols : List C} {s : List (C → ℚ)} {r : C → ℚ} (h : ∃ r' ∈ s, ∀ c ∈ cols, r' c = r c) :
    InAffine cols s r := by
  obtain ⟨r', hr', he⟩ := h
  obtain ⟨w, h1, _, h3, h4⟩ := inHull_row (cols := cols) hr'
  exact ⟨w, h1, h3, fun c hc => by rw [← he c hc]; exact h4 c hc⟩

theorem tri_separated (left : List Bool) (hl : left.Sublist [true, false]) : Separated (1 / 10 ^ 4) left triRows := by
  have hm : left ∈ [true, false].sublists := List.mem_sublists.mpr hl
  intro r hr s hs
  by_cases hex : ∃ r' ∈ s, ∀ c ∈ left, r' c = r c
  · exact Or.inl (tri_inAffine hex)
  right
  intro q hq
  push Not at hex
  have hval : ∀ r' ∈ s, (r' = fun _ => 0) ∨ (r' = fun c => if c then 1 else 0) ∨ (r' = fun c => if c then 0 else 1) := by
    intro r' hr'
    simpa [triRows] using hs r' hr'
  have hrv : (r = fun _ => 0) ∨ (r = fun c => if c then 1 else 0) ∨ (r = fun c => if c then 0 else 1) := by
    simpa [triRows] using hr
  simp [List.sublists] at hm
  have hone : ∀ b : ℚ, ∀ c, c ∈ left → r c = 1 - b → (b = 0 ∨ b = 1) → (∀ r' ∈ s, r' c = b) → ∃ c ∈ left, 1 / 10 ^ 4 < |r c - q c| := by
    intro b c hc hrc hb hall
    refine ⟨c, hc, ?_⟩
    rw [tri_affine_const hq hc hall, hrc]
    rcases hb with rfl | rfl <;> norm_num
  have hnil : left = [] → False := by
    rintro rfl
    obtain ⟨w, h1, h2, _⟩ := hq
    cases s with
    | nil => simp at h1; subst h1; simp at h2
    | cons a s => obtain ⟨c, hc, _⟩ := hex a (by simp); simp at hc
  rcases hm with rfl | rfl | rfl | rfl
  · exact absurd rfl hnil
  · -- the column of `f`
    rcases hrv with rfl | rfl | rfl
    · exact hone 1 true (by simp) (by simp) (by simp) (fun r' hr' => by
        obtain ⟨c, hc, hne⟩ := hex r' hr'
        simp only [List.mem_singleton] at hc; subst hc
        rcases hval r' hr' with rfl | rfl | rfl <;> first | exact absurd rfl hne | simp)
    · exact hone 0 true (by simp) (by simp) (by simp) (fun r' hr' => by
        obtain ⟨c, hc, hne⟩ := hex r' hr'
        simp only [List.mem_singleton] at hc; subst hc
        rcases hval r' hr' with rfl | rfl | rfl <;> first | exact absurd rfl hne | simp)
    · exact hone 1 true (by simp) (by simp) (by simp) (fun r' hr' => by
        obtain ⟨c, hc, hne⟩ := hex r' hr'
        simp only [List.mem_singleton] at hc; subst hc
        rcases hval r' hr' with rfl | rfl | rfl <;> first | exact absurd rfl hne | simp)
  · rcases hrv with rfl | rfl | rfl
    · exact hone 1 false (by simp) (by simp) (by simp) (fun r' hr' => by
        obtain ⟨c, hc, hne⟩ := hex r' hr'
        simp only [List.mem_singleton] at hc; subst hc
        rcases hval r' hr' with rfl | rfl | rfl <;> first | exact absurd rfl hne | simp)
    · exact hone 1 false (by simp) (by simp) (by simp) (fun r' hr' => by
        obtain ⟨c, hc, hne⟩ := hex r' hr'
        simp only [List.mem_singleton] at hc; subst hc
        rcases hval r' hr' with rfl | rfl | rfl <;> first | exact absurd rfl hne | simp)
    · exact hone 0 false (by simp) (by simp) (by simp) (fun r' hr' => by
        obtain ⟨c, hc, hne⟩ := hex r' hr'
        simp only [List.mem_singleton] at hc; subst hc
        rcases hval r' hr' with rfl | rfl | rfl <;> first | exact absurd rfl hne | simp)
  · rcases hrv with rfl | rfl | rfl
    · have hsum : q true = - q false + 1 := by
        obtain ⟨w, h1, h2, h3⟩ := hq
        rw [h3 true (by simp), comb_affine h1 (cs := [-1]) (feats := [false]) (b := 1) (by
          intro r' hr'
          obtain ⟨c, hc, hne⟩ := hex r' hr'
          rcases hval r' hr' with rfl | rfl | rfl <;> first | exact absurd rfl hne | simp), h2, h3 false (by simp)]
        simp
      by_cases hq1 : 1 / 10 ^ 4 < |q true|
      · exact ⟨true, by simp, by simpa using hq1⟩
      · refine ⟨false, by simp, ?_⟩
        rw [not_lt, abs_le] at hq1
        have : (1 / 10 ^ 4 : ℚ) < q false := by norm_num at hq1 ⊢; linarith
        rw [zero_sub, abs_neg, abs_of_pos (lt_trans (by norm_num) this)]
        exact this
    · exact hone 0 true (by simp) (by simp) (by simp) (fun r' hr' => by
        obtain ⟨c, hc, hne⟩ := hex r' hr'
        rcases hval r' hr' with rfl | rfl | rfl <;> first | exact absurd rfl hne | simp)
    · exact hone 0 false (by simp) (by simp) (by simp) (fun r' hr' => by
        obtain ⟨c, hc, hne⟩ := hex r' hr'
        rcases hval r' hr' with rfl | rfl | rfl <;> first | exact absurd rfl hne | simp)

theorem printable_int (n : Int) : Printable 4 (n : ℚ) := by
  by_cases h : n = 0
  · left; simp [h]
  · right
    refine ⟨⟨n * 10 ^ 4, by push_cast; ring⟩, ?_⟩
    have : (1 : ℚ) ≤ |(n : ℚ)| := by
      have h1 : (1 : Int) ≤ |n| := Int.one_le_abs h
      rw [← Int.cast_abs]
      exact_mod_cast h1
    exact lt_of_lt_of_le (by norm_num) this

theorem tri_setup : HullSetup triLib 4 triExp [true, false] triRows where
  qhull := tri_contract
  fit := by intro feats c rows cs b h; simp [triLib] at h
  complete := by
    intro feats c a b hne hc h _
    have h0 := h (fun _ => 0) (by simp [triRows])
    have hb : b = 0 := by simpa using h0.symm
    subst hb
    cases c with
    | true =>
      have h1 := h (fun c => if c then 1 else 0) (by simp [triRows])
      have : (feats.map fun f => a f * (if f then 1 else 0)).sum = (0 : ℚ) := by
        rw [List.map_congr_left (g := fun _ => (0 : ℚ))]
        · simp
        · intro f hf
          cases f with
          | true => exact absurd hf hc
          | false => simp
      rw [this] at h1
      simp at h1
    | false =>
      have h1 := h (fun c => if c then 0 else 1) (by simp [triRows])
      have : (feats.map fun f => a f * (if f then 0 else 1)).sum = (0 : ℚ) := by
        rw [List.map_congr_left (g := fun _ => (0 : ℚ))]
        · simp
        · intro f hf
          cases f with
          | false => exact absurd hf hc
          | true => simp
      rw [this] at h1
      simp at h1
  digits := by decide
  nonempty := by simp [triRows]
  nodup := by decide
  noDummy := by decide +kernel
  data := by
    intro r hr c _
    simp only [triRows, List.mem_cons, List.not_mem_nil, or_false] at hr
    rcases hr with rfl | rfl | rfl
    · exact_mod_cast printable_int 0
    · cases c
      · exact_mod_cast printable_int 0
      · exact_mod_cast printable_int 1
    · cases c
      · exact_mod_cast printable_int 1
      · exact_mod_cast printable_int 0
  fitPrint := by intro feats c cs b h; simp [triLib] at h
  facetPrint := by
    intro left h e
    revert e h
    generalize (triRows.map fun r => fun i => r (left.get i)) = pts
    revert pts
    generalize left.length = k
    intro pts h e
    obtain ⟨hk, h1, h2⟩ := triLib_qhull e
    subst hk
    dsimp only at h2
    subst h2
    have h1 : Printable 4 (1 : ℚ) := by exact_mod_cast printable_int 1
    have hm : Printable 4 (-1 : ℚ) := by exact_mod_cast printable_int (-1)
    have h0 : Printable 4 (0 : ℚ) := Or.inl rfl
    simp only [List.forall_mem_cons, List.not_mem_nil, IsEmpty.forall_iff, implies_true, and_true]
    refine ⟨⟨?_, h0⟩, ⟨?_, h0⟩, ?_, h1⟩ <;> intro i <;> fin_cases i <;> assumption
  separated := tri_separated

/-- The learned precondition of the triangle. -/
theorem tri_run : safeInequalities triLib 4 0 true triExp none [true, false] triRows =
    .conds [⟨.le, .mul (.var "(f)") (.num (-1)), .num 0⟩, ⟨.le, .mul (.var "(g)") (.num (-1)), .num 0⟩,
      ⟨.le, .add (.var "(f)") (.var "(g)"), .num 1⟩] := by decide +kernel

/-- C55 applies: the point (1/2, 1/4) satisfies the precondition, so it is in the hull. -/
example : InHull [true, false] triRows (fun c => (triExp c).eval fun f => if f = "(f)" then 1/2 else 1/4) :=
  (C55_precondition_is_hull tri_setup tri_run _).mp (by decide +kernel)

/-- And (1, 1) is not in the hull, so it does not. -/
example : ¬ InHull [true, false] triRows (fun c => (triExp c).eval fun _ => 1) := fun h =>
  absurd ((C55_precondition_is_hull tri_setup tri_run (fun _ => 1)).mpr h) (by decide +kernel)

end Props

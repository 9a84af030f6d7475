import Verif.Lemmas.ProjHull
import Verif.Props.ConvexHull

/-! C70: the numeric precondition when the observations do not span the space. -/
namespace Props
open Model Spec

section
variable {K : Type} [Field K] [LinearOrder K] [IsStrictOrderedRing K] [FloorRing K]
variable {C : Type} [DecidableEq C]

/-- As `HullSetup`, but the regression may miss dependencies: then the points are projected, and the
numbers of the projection have to survive printing too. -/
structure ProjSetup (L : NumLib K C) (d : Nat) (colExp : C → NExp K) (cols : List C) (rows : List (C → K)) : Prop where
  qhull : QhullContract L
  fit : FitContract L
  norm : NormContract L
  digits : 1 ≤ d
  small : (cols.length : K) < 10 ^ d
  nonempty : rows ≠ []
  nodup : cols.Nodup
  noDummy : ∀ c ∈ cols, colExp c ≠ .var "(dummy)"
  data : ∀ r ∈ rows, ∀ c ∈ cols, Printable d (r c)
  fitPrint : ∀ feats c cs b, L.fit feats c rows = some (cs, b) → ∀ k ∈ cs ++ [b], Printable d k
  facetPrint : ∀ (left : List C) (h : HullResult K left.length),
    L.qhull left.length (rows.map fun r => fun i => r (left.get i)) = some h →
      ∀ f ∈ h.facets, (∀ i, Printable d (f.1 i)) ∧ Printable d f.2
  projPrint : ∀ left : List C, left.Sublist cols → left.length ≠ 1 → ¬ fullRank L d left rows → ProjPrint L d left rows
  separated : ∀ left : List C, left.Sublist cols → Separated (1 / 10 ^ d) left rows

/-- **C70.** Even when the observations lie in a smaller space and the regression has not noticed, the
learned numeric precondition is true in a state exactly when the values of the (relevant) fluents in
that state are a convex combination of the observed values. -/
theorem C70_projected_precondition_is_hull {L : NumLib K C} {d : Nat} {colExp : C → NExp K} {cols : List C} {rows : List (C → K)}
    (S : ProjSetup L d colExp cols rows) {margin : K} {relevant : Option (List C)} {cs : List (NCond K)}
    (hout : safeInequalities L d margin true colExp relevant cols rows = .conds cs) (x : String → K) :
    (∀ q ∈ cs, q.holds x) ↔ InHull (usedCols relevant cols) rows (fun c => (colExp c).eval x) := by
  have hsub : (usedCols relevant cols).Sublist cols := by
    unfold usedCols
    cases relevant with
    | none => exact List.Sublist.refl _
    | some fs => exact List.filter_sublist
  have hnd : (usedCols relevant cols).Nodup := S.nodup.sublist hsub
  have hdum : ∀ c ∈ usedCols relevant cols, colExp c ≠ dummy := fun c hc => S.noDummy c (hsub.subset hc)
  rw [safeInequalities_eq] at hout
  by_cases h1 : (relevant.map List.length = some 1) ∨ (usedCols relevant cols).length = 1
  · rw [if_pos h1] at hout
    obtain ⟨f, hf, he, hcs⟩ : ∃ f, f ∈ usedCols relevant cols ∧ usedCols relevant cols = [f] ∧
        parseConds (singleColumn colExp f rows) = .conds cs := by
      cases relevant with
      | none =>
        simp only [Option.map_none, reduceCtorEq, false_or] at h1
        obtain ⟨f, hf⟩ := List.length_eq_one_iff.mp h1
        refine ⟨f, by rw [hf]; simp, hf, ?_⟩
        rw [hf] at hout
        simpa using hout
      | some fs =>
        cases fs with
        | nil => simp at hout
        | cons f fs =>
          simp only at hout
          split_ifs at hout with hm
          refine ⟨f, hm, ?_, hout⟩
          rcases h1 with h1 | h1
          · simp only [Option.map_some, List.length_cons, Option.some.injEq] at h1
            have : fs = [] := List.eq_nil_of_length_eq_zero (by omega)
            subst this
            exact filter_singleton_of_nodup S.nodup (hsub.subset hm)
          · obtain ⟨g, hg⟩ := List.length_eq_one_iff.mp h1
            rw [hg] at hm ⊢
            rw [List.mem_singleton.mp hm]
    rw [he, inHull_single S.nonempty, ← parseConds_eq hcs]
    unfold singleColumn
    dsimp only
    split_ifs with heq
    · simp only [List.forall_mem_singleton]
      show (colExp f).eval x = listMin (rows.map (· f)) ↔ _
      rw [← heq]
      constructor
      · intro h; rw [h]; exact ⟨le_refl _, le_refl _⟩
      · rintro ⟨h1, h2⟩; exact le_antisymm h2 h1
    · simp only [List.forall_mem_cons, List.not_mem_nil, IsEmpty.forall_iff, implies_true, and_true]
      exact Iff.rfl
  · rw [if_neg h1] at hout
    have hdeps := removeDependencies_spec (d := d) (colExp := colExp) S.fit S.nonempty hnd S.fitPrint hdum x
    cases hr : removeDependencies L d colExp (usedCols relevant cols) rows with
    | mk left conds =>
      rw [hr] at hout hdeps
      cases left with
      | none =>
        rw [← parseConds_eq hout]
        simp only [Option.getD_none] at hdeps
        show _ ↔ InHull (usedCols relevant cols) rows (colVal colExp x)
        rw [← hdeps]
        exact (and_iff_left (inHull_nil_cols S.nonempty _)).symm
      | some left =>
        have hlsub := (removeDependencies_sub hr).trans hsub
        simp only [Option.getD_some] at hdeps
        simp only [S.nonempty, if_false] at hout
        show _ ↔ InHull (usedCols relevant cols) rows (colVal colExp x)
        rw [← hdeps]
        split_ifs at hout with hl
        · obtain ⟨f, rfl⟩ := List.length_eq_one_iff.mp hl
          rw [← parseConds_eq hout, List.forall_mem_append, and_comm]
          refine and_congr_right fun _ => ?_
          simp only [List.head?_cons, Option.map_some, Option.getD_some, List.map_cons, List.map_nil]
          rw [singleDim_holds (by simpa using S.nonempty) (by
            intro k hk
            obtain ⟨r, hr', rfl⟩ := List.mem_map.mp hk
            exact S.data r hr' f (hlsub.subset (by simp))) S.digits, inHull_single S.nonempty, featVal,
            if_neg (show ¬ colExp f = dummy from S.noDummy f (hlsub.subset (by simp)))]
          exact Iff.rfl
        · cases hh : hullInequalities L d margin true colExp left rows with
          | none => rw [hh] at hout; simp at hout
          | some o =>
            obtain ⟨ab, vars, sp⟩ := o
            rw [hh] at hout
            by_cases hfull : fullRank L d left rows
            · obtain ⟨rfl, hr', ha, hiff⟩ := hullInequalities_full_holds (margin := margin) (plain := true) hfull
                (fun c hc => S.noDummy c (hlsub.subset hc)) hh (by
                  intro hr' ha
                  unfold approxHull at ha
                  cases hq : L.qhull left.length (rows.map (rowVec left)) with
                  | none => rw [hq] at ha; simp at ha
                  | some h0 =>
                    rw [hq] at ha
                    simp at ha
                    subst ha
                    exact S.facetPrint left h0 hq) x
              rw [← parseConds_eq hout, List.append_nil, List.forall_mem_append, hiff, and_comm]
              refine and_congr_right fun _ => ?_
              have hq : L.qhull left.length (rows.map (rowVec left)) = some hr' := by
                unfold approxHull at ha
                cases hq : L.qhull left.length (rows.map (rowVec left)) with
                | none => rw [hq] at ha; simp at ha
                | some h0 => rw [hq] at ha; simpa using ha
              rw [S.qhull.facets hq, inHull_rowVec]
            · have hlen : (left.length : K) * epsOf K d < 1 := by
                have h2 : (left.length : K) ≤ cols.length := by exact_mod_cast hlsub.length_le
                have h3 := lt_of_le_of_lt h2 S.small
                unfold epsOf
                rw [mul_one_div, div_lt_one (pow10_pos d)]
                exact h3
              have hspan : ∀ p ∈ shiftedPts left rows, p ∈ Submodule.span K {b | b ∈ projBasis L d left rows} := by
                intro p hp
                cases hrows : rows with
                | nil => exact absurd hrows S.nonempty
                | cons p0 rest =>
                  unfold projBasis shiftedPts at *
                  rw [hrows] at hp
                  simp only [List.map_cons, List.head?_cons, Option.getD_some] at hp ⊢
                  rw [← List.map_cons (f := (· - rowVec left p0)), ← List.map_cons (f := rowVec left)] at hp ⊢
                  obtain ⟨_, h4, rfl⟩ := List.mem_map.mp hp
                  obtain ⟨r, h5, rfl⟩ := List.mem_map.mp h4
                  have := S.separated left hlsub
                  rw [hrows] at this
                  exact gs_basis_span (epsOf_pos d).le (fun v hv => S.norm v hv) (S.nodup.sublist hlsub) (by simp) this h5
              rw [← parseConds_eq hout]
              rw [List.append_assoc, List.forall_mem_append, List.forall_mem_append, and_left_comm]
              rw [← List.forall_mem_append, hullInequalities_proj_holds S.qhull S.norm S.digits hlen S.nonempty hfull
                (fun c hc => S.noDummy c (hlsub.subset hc)) hspan (S.projPrint left hlsub hl hfull) hh x]
              exact Iff.rfl

/-- **C70, points too close.** When no column is constant, the regression finds nothing, and all
observations agree up to one unit of the last digit, the action is declared unsafe. -/
theorem C70_close_points_not_safe {L : NumLib K C} {d : Nat} {margin : K} {plain : Bool} {colExp : C → NExp K} {cols : List C}
    {r0 : C → K} {rest : List (C → K)} (hcols : 2 ≤ cols.length) (hfit : ∀ feats c, L.fit feats c (r0 :: rest) = none)
    (hvar : ∀ c ∈ cols, ∃ r ∈ rest, r c ≠ r0 c) (hclose : ∀ r ∈ rest, ∀ c ∈ cols, |r c - r0 c| ≤ 1 / 10 ^ d) :
    safeInequalities L d margin plain colExp none cols (r0 :: rest) = .notSafe := by
  have hloop : ∀ todo, removeLoop L d colExp cols (r0 :: rest) todo [] [] = ([], []) := by
    intro todo
    induction todo with
    | nil => rfl
    | cons c todo ih =>
      rw [removeLoop]
      dsimp only
      split_ifs
      · rfl
      · rw [hfit]; exact ih
  have hconst : cols.filter (isConst (r0 :: rest)) = [] := by
    rw [List.filter_eq_nil_iff]
    intro c hc
    obtain ⟨r, hr, hne⟩ := hvar c hc
    simp only [isConst, List.all_eq_true, decide_eq_true_eq, not_forall]
    exact ⟨r, hr, hne⟩
  have hrem : removeDependencies L d colExp cols (r0 :: rest) = (some cols, []) := by
    unfold removeDependencies
    rw [if_neg (by simp; omega)]
    dsimp only
    rw [hconst, if_neg (by intro h; simp only [List.length_nil] at h; omega), List.map_nil, hloop]
    simp
  rw [safeInequalities_eq]
  simp only [usedCols]
  have hn1 : ¬ (Option.map List.length (none : Option (List C)) = some 1 ∨ cols.length = 1) := by simp; omega
  have hn2 : ¬ cols.length = 1 := by omega
  simp only [if_neg hn1, hrem, reduceCtorEq, if_false, if_neg hn2]
  rw [hullInequalities_none (by intro h; simp [h] at hcols)]
  intro p hp i
  unfold shiftedPts at hp
  simp only [List.map_cons, List.head?_cons, Option.getD_some, List.mem_cons, sub_self] at hp
  rcases hp with rfl | hp
  · simpa using (epsOf_pos d).le
  · simp only [List.map_map, List.mem_map, Function.comp_apply] at hp
    obtain ⟨r, hr, rfl⟩ := hp
    exact hclose r hr _ (List.get_mem _ _)

end

/-! A concrete case: two observations (0,0) and (3,4), so a line in the plane. -/

def segRows : List (Bool → ℚ) := [fun _ => 0, fun c => if c then 3 else 4]

/-- No regression, no Qhull; the Euclidean norm of the vectors that occur. -/
def segLib : NumLib ℚ Bool where
  qhull := fun _ _ => none
  fit := fun _ _ _ => none
  norm := fun v => if v ⬝ᵥ v = 25 then 5 else if v ⬝ᵥ v = 16/25 then 4/5 else if v = 0 then 0 else 1

theorem seg_separated (left : List Bool) (_h : left.Sublist [true, false]) : Separated (1 / 10 ^ 4) left segRows := by
  have toAff : ∀ {s : List (Bool → ℚ)} {r : Bool → ℚ}, InHull left s r → InAffine left s r :=
    fun ⟨w, h1, _, h3, h4⟩ => ⟨w, h1, h3, h4⟩
  intro r hr s hs
  by_cases hrs : r ∈ s
  · exact Or.inl (toAff (inHull_row hrs))
  by_cases hl : left = []
  · subst hl
    cases s with
    | nil =>
      right
      rintro q ⟨w, h1, h2, _⟩
      simp at h1
      subst h1
      simp at h2
    | cons a s =>
      left
      obtain ⟨w, h1, h2, _⟩ := toAff (inHull_row (cols := []) (rows := a :: s) (r := a) (by simp))
      exact ⟨w, h1, h2, by simp⟩
  right
  rintro q ⟨w, h1, h2, h3⟩
  obtain ⟨c, hc⟩ := List.exists_mem_of_ne_nil _ hl
  obtain ⟨o, ho, hdiff⟩ : ∃ o : Bool → ℚ, (∀ r' ∈ s, r' = o) ∧ 1 / 10 ^ 4 < |r c - o c| := by
    simp only [segRows, List.mem_cons, List.not_mem_nil, or_false] at hr
    rcases hr with rfl | rfl
    · refine ⟨fun c => if c then 3 else 4, fun r' hr' => ?_, by cases c <;> norm_num⟩
      have := hs r' hr'
      simp only [segRows, List.mem_cons, List.not_mem_nil, or_false] at this
      rcases this with rfl | rfl
      · exact absurd hr' hrs
      · rfl
    · refine ⟨fun _ => 0, fun r' hr' => ?_, by cases c <;> norm_num⟩
      have := hs r' hr'
      simp only [segRows, List.mem_cons, List.not_mem_nil, or_false] at this
      rcases this with rfl | rfl
      · rfl
      · exact absurd hr' hrs
  refine ⟨c, hc, ?_⟩
  have hsum : (List.zipWith (fun k (r : Bool → ℚ) => k * r c) w s).sum = w.sum * o c := by
    clear h2 h3 hs hrs
    induction s generalizing w with
    | nil => simp at h1; simp [h1]
    | cons a s ih =>
      cases w with
      | nil => simp at h1
      | cons b w =>
        simp only [List.zipWith_cons_cons, List.sum_cons]
        rw [ih w (by simpa using h1) (fun r' hr' => ho r' (by simp [hr'])), ho a (by simp)]; ring
  rw [h3 c hc, hsum, h2, one_mul]
  exact hdiff

theorem printable4 (n : Int) (h : n = 0 ∨ 1 < |n|) : Printable 4 ((n : ℚ) / 10000) := by
  rcases h with rfl | h
  · left; simp
  · right
    refine ⟨⟨n, by ring⟩, ?_⟩
    rw [abs_div, abs_of_pos (show (0 : ℚ) < 10000 by norm_num), ← Int.cast_abs]
    have : (1 : ℚ) < (|n| : Int) := by exact_mod_cast h
    rw [show (1 / 10 ^ 4 : ℚ) = 1 / 10000 by norm_num]
    exact div_lt_div_of_pos_right this (by norm_num)

theorem seg_basis : projBasis segLib 4 [true, false] segRows = [![3/5, 4/5]] := by decide +kernel
theorem seg_span : spanRows segLib 4 [true, false] segRows = some [[1, -3/4]] := by decide +kernel

theorem seg_setup : ProjSetup segLib 4 triExp [true, false] segRows where
  qhull := ⟨fun h => by simp [segLib] at h, fun h => by simp [segLib] at h⟩
  fit := by intro feats c rows cs b h; simp [segLib] at h
  norm := by
    intro n v hv
    simp only [segLib]
    split_ifs <;> norm_num
  digits := by decide
  small := by norm_num
  nonempty := by simp [segRows]
  nodup := by decide
  noDummy := by decide +kernel
  data := by
    intro r hr c _
    simp only [segRows, List.mem_cons, List.not_mem_nil, or_false] at hr
    rcases hr with rfl | rfl
    · exact_mod_cast printable_int 0
    · cases c
      · exact_mod_cast printable_int 4
      · exact_mod_cast printable_int 3
  fitPrint := by intro feats c cs b h; simp [segLib] at h
  facetPrint := by intro left h e; simp [segLib] at e
  projPrint := by
    intro left hl h1 _
    have hcase : left = [] ∨ left = [true, false] := by
      have := List.mem_sublists.mpr hl
      have e : List.sublists [true, false] = [[], [true], [false], [true, false]] := by decide
      rw [e] at this
      simp only [List.mem_cons, List.not_mem_nil, or_false] at this
      rcases this with rfl | rfl | rfl | rfl <;> simp_all
    rcases hcase with rfl | rfl
    · exact ⟨fun i => i.elim0, fun b _ i => i.elim0, by
        intro sp hsp
        have : spanRows segLib 4 [] segRows = some [] := by decide +kernel
        rw [this] at hsp
        cases hsp
        simp, by
        intro h
        have : (projBasis segLib 4 [] segRows).length = 0 := by decide +kernel
        omega, by intro h e; simp [segLib] at e⟩
    · refine ⟨?_, ?_, ?_, ?_, by intro h e; simp [segLib] at e⟩
      · intro i
        have : (((segRows.map (rowVec [true, false])).head?).getD 0) i = 0 := rfl
        rw [this]
        exact ⟨0, by simp⟩
      · intro b hb i
        rw [seg_basis, List.mem_singleton] at hb
        subst hb
        fin_cases i
        · have := printable4 6000 (by norm_num)
          show Printable 4 (3/5 : ℚ)
          rwa [show ((6000 : Int) : ℚ) / 10000 = 3/5 by norm_num] at this
        · have := printable4 8000 (by norm_num)
          show Printable 4 (4/5 : ℚ)
          rwa [show ((8000 : Int) : ℚ) / 10000 = 4/5 by norm_num] at this
      · intro sp hsp e he c hc
        rw [seg_span] at hsp
        cases hsp
        rw [List.mem_singleton] at he
        subst he
        simp only [List.mem_cons, List.not_mem_nil, or_false] at hc
        rcases hc with rfl | rfl
        · exact_mod_cast printable_int 1
        · have := printable4 (-7500) (by norm_num)
          rwa [show ((-7500 : Int) : ℚ) / 10000 = -3/4 by norm_num] at this
      · intro _ p hp b hb
        rw [seg_basis, List.mem_singleton] at hb
        subst hb
        have : shiftedPts [true, false] segRows = [![0, 0], ![3, 4]] := by decide +kernel
        rw [this] at hp
        simp only [List.mem_cons, List.not_mem_nil, or_false] at hp
        rcases hp with rfl | rfl
        · left; norm_num [Matrix.vecHead, Matrix.vecTail]
        · have := printable_int 5
          have e : (![3, 4] : Fin 2 → ℚ) ⬝ᵥ ![3/5, 4/5] = (5 : Int) := by
            simp [dotProduct, Fin.sum_univ_two]; norm_num
          rw [e]; exact this
  separated := seg_separated

/-- The learned precondition of the segment: bounds along it, and the equation of the line. -/
theorem seg_run : safeInequalities segLib 4 0 true triExp none [true, false] segRows =
    .conds [⟨.le, .mul (.add (.mul (.var "(f)") (.num (3/5))) (.mul (.var "(g)") (.num (4/5)))) (.num (-1)), .num 0⟩,
      ⟨.le, .add (.mul (.var "(f)") (.num (3/5))) (.mul (.var "(g)") (.num (4/5))), .num 5⟩,
      ⟨.eq, .add (.var "(f)") (.mul (.var "(g)") (.num (-3/4))), .num 0⟩] := by decide +kernel

/-- C70 applies: the midpoint (3/2, 2) of the segment satisfies the precondition, so it is in the hull. -/
example : InHull [true, false] segRows (fun c => (triExp c).eval fun f => if f = "(f)" then 3/2 else 2) :=
  (C70_projected_precondition_is_hull seg_setup seg_run _).mp (by decide +kernel)

/-- And (3, 0) does not, so it is not. -/
example : ¬ InHull [true, false] segRows (fun c => (triExp c).eval fun f => if f = "(f)" then 3 else 0) := fun h =>
  absurd ((C70_projected_precondition_is_hull seg_setup seg_run _).mpr h) (by decide +kernel)

/-- Two observations that differ by less than one unit of the last digit. -/
example : safeInequalities segLib 4 0 true triExp none [true, false] [fun _ => 0, fun _ => 1/20000] = .notSafe :=
  C70_close_points_not_safe (by decide) (fun _ _ => rfl) (fun c _ => ⟨fun _ => 1/20000, by simp, by norm_num⟩)
    (fun r hr c _ => by
      rw [List.mem_singleton] at hr
      subst hr
      norm_num [abs_le])

end Props

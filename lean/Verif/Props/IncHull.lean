import Verif.Lemmas.IncHullInv
import Verif.Lemmas.ProjHull
import Verif.Lemmas.HullMargin
import Verif.Props.ConvexHull

/-! C76: the incremental convex hull learner of the online learner. -/
namespace Props
open Model Spec

section
variable {K : Type} [Field K] [LinearOrder K] [IsStrictOrderedRing K] [FloorRing K]
variable {C : Type} [DecidableEq C]

/-- The observations without repetitions: the first of each group of equal ones. -/
def distinctRows (cols : List C) : List (C → K) → List (C → K) → List (C → K)
  | seen, [] => seen
  | seen, p :: ps => if ∃ r ∈ seen, ∀ c ∈ cols, r c = p c then distinctRows cols seen ps else distinctRows cols (seen ++ [p]) ps

theorem distinctRows_prefix {cols : List C} (ps : List (C → K)) : ∀ seen, seen <+: distinctRows cols seen ps := by
  induction ps with
  | nil => intro seen; exact List.prefix_refl _
  | cons p ps ih =>
    intro seen
    unfold distinctRows
    split_ifs
    · exact ih seen
    · exact (List.prefix_append _ _).trans (ih _)

theorem distinctRows_sub {cols : List C} (ps : List (C → K)) : ∀ seen, ∀ r ∈ distinctRows cols seen ps, r ∈ seen ∨ r ∈ ps := by
  induction ps with
  | nil => intro seen r hr; exact .inl hr
  | cons p ps ih =>
    intro seen r hr
    unfold distinctRows at hr
    split_ifs at hr
    · rcases ih _ r hr with h | h
      · exact .inl h
      · exact .inr (by simp [h])
    · rcases ih _ r hr with h | h
      · rcases List.mem_append.mp h with h | h
        · exact .inl h
        · exact .inr (by simp at h; simp [h])
      · exact .inr (by simp [h])

theorem distinctRows_cover {cols : List C} (ps : List (C → K)) : ∀ seen, ∀ p ∈ ps, ∃ r ∈ distinctRows cols seen ps, ∀ c ∈ cols, r c = p c := by
  induction ps with
  | nil => intro seen p hp; simp at hp
  | cons a ps ih =>
    intro seen p hp
    unfold distinctRows
    rcases List.mem_cons.mp hp with rfl | hp
    · split_ifs with h
      · obtain ⟨r, hr, e⟩ := h
        exact ⟨r, (distinctRows_prefix ps seen).subset hr, e⟩
      · exact ⟨p, (distinctRows_prefix ps _).subset (by simp), fun _ _ => rfl⟩
    · split_ifs
      · exact ih _ p hp
      · exact ih _ p hp

theorem inHull_agree {cols : List C} {rows : List (C → K)} {v v' : C → K} (h : ∀ c ∈ cols, v c = v' c) (hv : InHull cols rows v) :
    InHull cols rows v' := by
  obtain ⟨w, h1, h2, h3, h4⟩ := hv
  exact ⟨w, h1, h2, h3, fun c hc => by rw [← h c hc]; exact h4 c hc⟩

/-- Repetitions do not change the hull. -/
theorem inHull_distinct {cols : List C} {ps : List (C → K)} {v : C → K} :
    InHull cols (distinctRows cols [] ps) v ↔ InHull cols ps v := by
  constructor
  · refine inHull_trans fun p hp => inHull_row ?_
    simpa using distinctRows_sub ps [] p hp
  · refine inHull_trans fun p hp => ?_
    obtain ⟨r, hr, e⟩ := distinctRows_cover (cols := cols) ps [] p hp
    exact inHull_agree e (inHull_row hr)

/-! What adding a point does to the data, whatever happens to the rest. -/

theorem calc_data (L : NumLib K C) (d : Nat) (margin : K) (plain : Bool) (colExp : C → NExp K) (b : Bool) (st : IncHull K C) :
    (st.calc L d margin plain colExp b).1.cols = st.cols ∧ (st.calc L d margin plain colExp b).1.rows = st.rows ∧
      (st.calc L d margin plain colExp b).1.relevant = st.relevant := by
  have hB : ∀ (s : IncHull K C) left, (s.learnBases L d left).1.cols = s.cols ∧ (s.learnBases L d left).1.rows = s.rows ∧
      (s.learnBases L d left).1.relevant = s.relevant := by
    intro s left
    unfold IncHull.learnBases
    dsimp only
    split
    · exact ⟨rfl, rfl, rfl⟩
    · split_ifs <;> exact ⟨rfl, rfl, rfl⟩
  have hH : ∀ (s : IncHull K C) left, (s.learnHull L margin plain left).1.cols = s.cols ∧ (s.learnHull L margin plain left).1.rows = s.rows ∧
      (s.learnHull L margin plain left).1.relevant = s.relevant := by
    intro s left
    unfold IncHull.learnHull
    dsimp only
    split <;> exact ⟨rfl, rfl, rfl⟩
  unfold IncHull.calc
  dsimp only
  split
  · exact ⟨rfl, rfl, rfl⟩
  · rename_i left _
    split_ifs
    · exact ⟨rfl, rfl, rfl⟩
    · exact hB _ _
    · rw [(hH _ _).1, (hH _ _).2.1, (hH _ _).2.2]; exact hB _ _
    · exact hB _ _
    all_goals first
      | exact ⟨rfl, rfl, rfl⟩
      | exact hB _ _
      | (rw [(hH _ _).1, (hH _ _).2.1, (hH _ _).2.2]; exact hB _ _)
      | exact hH _ _

theorem cols_self (cols : List C) (rows : List (C → K)) :
    (if rows = [] then cols.filter (· ∈ cols) ++ cols.filter (· ∉ cols) else cols.filter (· ∈ cols)) = cols := by
  have e1 : cols.filter (· ∈ cols) = cols := List.filter_eq_self.mpr (by simp)
  have e2 : cols.filter (· ∉ cols) = [] := List.filter_eq_nil_iff.mpr (by simp)
  rw [e1, e2]; simp

theorem add_data {L : NumLib K C} {d : Nat} {margin : K} {plain : Bool} {colExp : C → NExp K} {cols : List C} {st : IncHull K C}
    (hc : st.cols = cols) (hdup : hasDup cols st.rows = false) (x : C → K) :
    (st.add L d margin plain colExp cols x).1.cols = cols ∧ (st.add L d margin plain colExp cols x).1.relevant = st.relevant ∧
      hasDup cols (st.add L d margin plain colExp cols x).1.rows = false ∧
      (st.add L d margin plain colExp cols x).1.rows = if ∃ r ∈ st.rows, ∀ c ∈ cols, r c = x c then st.rows else st.rows ++ [x] := by
  unfold IncHull.add
  dsimp only
  rw [hc, cols_self]
  by_cases h : hasDup cols (st.rows ++ [x]) = true
  · rw [if_pos h]
    have : ∃ r ∈ st.rows, ∀ c ∈ cols, r c = x c := by
      rcases hasDup_append.mp h with h | h
      · rw [hdup] at h; simp at h
      · exact h
    rw [if_pos this]
    exact ⟨hc, rfl, hdup, rfl⟩
  · rw [if_neg h]
    have : ¬ ∃ r ∈ st.rows, ∀ c ∈ cols, r c = x c := fun hh => h (hasDup_append.mpr (.inr hh))
    rw [if_neg this, (calc_data ..).1, (calc_data ..).2.1, (calc_data ..).2.2]
    exact ⟨rfl, rfl, by simpa using h, rfl⟩

/-- Observations that have all the columns. -/
def observe (L : NumLib K C) (d : Nat) (margin : K) (plain : Bool) (colExp : C → NExp K) (cols : List C) (st : IncHull K C)
    (pts : List (C → K)) : IncHull K C × Bool :=
  st.addAll L d margin plain colExp (pts.map fun p => (cols, p))

theorem addAll_flag {L : NumLib K C} {d : Nat} {margin : K} {plain : Bool} {colExp : C → NExp K} (ps : List (List C × (C → K))) :
    ∀ (s : IncHull K C) (b : Bool),
      ps.foldl (fun s p => let r := s.1.add L d margin plain colExp p.1 p.2; (r.1, s.2 || r.2)) (s, b) =
        ((s.addAll L d margin plain colExp ps).1, b || (s.addAll L d margin plain colExp ps).2) := by
  induction ps with
  | nil => intro s b; simp [IncHull.addAll]
  | cons p ps ih =>
    intro s b
    rw [IncHull.addAll, List.foldl_cons, List.foldl_cons]
    dsimp only
    rw [ih, ih, Bool.false_or, Bool.or_assoc]

theorem observe_cons {L : NumLib K C} {d : Nat} {margin : K} {plain : Bool} {colExp : C → NExp K} {cols : List C} {st : IncHull K C}
    {p : C → K} {ps : List (C → K)} :
    observe L d margin plain colExp cols st (p :: ps) =
      ((observe L d margin plain colExp cols (st.add L d margin plain colExp cols p).1 ps).1,
        (st.add L d margin plain colExp cols p).2 || (observe L d margin plain colExp cols (st.add L d margin plain colExp cols p).1 ps).2) := by
  unfold observe
  rw [List.map_cons]
  conv_lhs => rw [IncHull.addAll, List.foldl_cons]
  dsimp only
  rw [addAll_flag, Bool.false_or]

theorem observe_data {L : NumLib K C} {d : Nat} {margin : K} {plain : Bool} {colExp : C → NExp K} {cols : List C} (ps : List (C → K)) :
    ∀ {st : IncHull K C}, st.cols = cols → hasDup cols st.rows = false →
    (observe L d margin plain colExp cols st ps).1.cols = cols ∧
      (observe L d margin plain colExp cols st ps).1.relevant = st.relevant ∧
      (observe L d margin plain colExp cols st ps).1.rows = distinctRows cols st.rows ps := by
  induction ps with
  | nil => intro st hc _; exact ⟨hc, rfl, rfl⟩
  | cons p ps ih =>
    intro st hc hd
    obtain ⟨h1, h2, h3, h4⟩ := add_data (L := L) (d := d) (margin := margin) (plain := plain) (colExp := colExp) hc hd p
    obtain ⟨g1, g2, g3⟩ := ih h1 h3
    rw [observe_cons]
    refine ⟨g1, g2.trans h2, ?_⟩
    rw [g3, h4, distinctRows]
    split_ifs <;> rfl

theorem observe_inv {L : NumLib K C} {d : Nat} {margin : K} {plain : Bool} {colExp : C → NExp K} {cols : List C} (ps : List (C → K)) :
    ∀ {st st' : IncHull K C}, IncInv L d margin plain colExp cols st → IncStep L d colExp cols (distinctRows cols st.rows ps) →
      observe L d margin plain colExp cols st ps = (st', false) → IncInv L d margin plain colExp cols st' := by
  induction ps with
  | nil => intro st st' hi _ h; cases h; exact hi
  | cons p ps ih =>
    intro st st' hi S h
    rw [observe_cons] at h
    have hb := congrArg Prod.snd h
    have ha := congrArg Prod.fst h
    simp only [Bool.or_eq_false_iff] at ha hb
    have hadd : st.add L d margin plain colExp cols p = ((st.add L d margin plain colExp cols p).1, false) := by
      rw [← hb.1]
    obtain ⟨h1, h2, h3, h4⟩ := add_data (L := L) (d := d) (margin := margin) (plain := plain) (colExp := colExp) hi.cols_eq hi.nodup p
    have hi' : IncInv L d margin plain colExp cols (st.add L d margin plain colExp cols p).1 := by
      by_cases hex : ∃ r ∈ st.rows, ∀ c ∈ cols, r c = p c
      · have hsame : st.add L d margin plain colExp cols p = (st, false) := by
          unfold IncHull.add
          dsimp only
          rw [hi.cols_eq, cols_self, if_pos (hasDup_append.mpr (.inr hex))]
        rw [hsame]; exact hi
      · have S' : IncStep L d colExp cols (st.rows ++ [p]) := by
          refine S.mono ?_
          rw [distinctRows, if_neg hex]
          exact distinctRows_prefix _ _
        exact (hi.add S' hadd).1
    refine ih hi' ?_ (Prod.ext ha hb.2)
    rw [h4]
    rw [distinctRows] at S
    split_ifs at S ⊢ <;> exact S

/-- What the exact result needs beyond the assumptions of the batch learner (`HullSetup`): the norm of a vector with one entry, and that
the regression was also complete for the observations so far, at each moment. -/
structure IncSetup (L : NumLib K C) (d : Nat) (colExp : C → NExp K) (cols : List C) (rows : List (C → K)) : Prop where
  hull : HullSetup L d colExp cols rows
  norm : NormContract L
  norm1 : ∀ v : Fin 1 → K, L.norm v = |v 0|
  inj : ∀ c ∈ cols, ∀ c' ∈ cols, colExp c = colExp c' → c = c'
  complete : ∀ pre, pre ≠ [] → pre <+: rows → FitComplete L pre

theorem approxHull_plain {k : Nat} {qhull : List (Fin k → K) → Option (HullResult K k)} {margin : K} {pts : List (Fin k → K)}
    {h : HullResult K k} (ha : approxHull qhull margin true pts = some h) : qhull pts = some h := by
  unfold approxHull at ha
  cases hq : qhull pts with
  | none => rw [hq] at ha; simp at ha
  | some h0 => rw [hq] at ha; simpa using ha

/-- Differences of separated observations survive printing. -/
theorem printable_diff {d : Nat} {c : C} {rows : List (C → K)} (hs : Separated (1 / 10 ^ d) [c] rows)
    (hd : ∀ r ∈ rows, Printable d (r c)) {r r0 : C → K} (hr : r ∈ rows) (hr0 : r0 ∈ rows) {b : K} (hb : b = 1 ∨ b = -1) :
    Printable d ((r c - r0 c) * b) := by
  have hg : ∀ k : K, Printable d k → OnGrid d k := by
    rintro k (rfl | h)
    · exact ⟨0, by simp⟩
    · exact h.1
  rcases hs r hr [r0] (by simpa using hr0) with ha | ha
  · left
    obtain ⟨w, w1, w2, w3⟩ := ha
    obtain ⟨k, rfl⟩ := List.length_eq_one_iff.mp w1
    have hk : k = 1 := by simpa using w2
    have := w3 c (by simp)
    rw [hk] at this
    simp at this
    rw [this]; ring
  · right
    obtain ⟨c', hc', hlt⟩ := ha r0 ⟨[1], rfl, by simp, by simp⟩
    rw [List.mem_singleton.mp hc'] at hlt
    refine ⟨?_, ?_⟩
    · obtain ⟨n, hn⟩ := hg _ (hd r hr)
      obtain ⟨m, hm⟩ := hg _ (hd r0 hr0)
      rcases hb with rfl | rfl
      · exact ⟨n - m, by push_cast; rw [← hn, ← hm]; ring⟩
      · exact ⟨m - n, by push_cast; rw [← hn, ← hm]; ring⟩
    · rw [abs_mul]
      have : |b| = 1 := by rcases hb with rfl | rfl <;> simp
      rw [this, mul_one]
      exact hlt

theorem between_iff {l : List K} (hne : l ≠ []) {v : K} :
    (listMin l ≤ v ∧ v ≤ listMax l) ↔ (∃ a ∈ l, a ≤ v) ∧ ∃ a ∈ l, v ≤ a := by
  obtain ⟨l1, l2⟩ := listMin_spec hne
  obtain ⟨m1, m2⟩ := listMax_spec hne
  constructor
  · rintro ⟨h1, h2⟩; exact ⟨⟨_, l2, h1⟩, _, m2, h2⟩
  · rintro ⟨⟨a, ha, h1⟩, b, hb, h2⟩; exact ⟨(l1 a ha).trans h1, h2.trans (m1 b hb)⟩

/-- The precondition from a state that has the fields of its data. -/
theorem inv_precondition {L : NumLib K C} {d : Nat} {colExp : C → NExp K} {cols : List C} {margin : K} {st : IncHull K C}
    (S : IncSetup L d colExp cols st.rows) (hi : IncInv L d margin true colExp cols st) (h2 : 2 ≤ cols.length) {cs : List (NCond K)}
    (hout : st.safeInequalities d colExp = .conds cs) (x : String → K) :
    (∀ q ∈ cs, q.holds x) ↔ InHull cols st.rows (fun c => (colExp c).eval x) := by
  have hne := S.hull.nonempty
  unfold IncHull.safeInequalities at hout
  rw [if_neg (by push Not; refine ⟨hne, ?_⟩; rw [hi.rel]; rintro rfl; simp at h2),
    if_neg (by rw [hi.rel, hi.cols_eq]; omega)] at hout
  have hd := hi.deps hne
  have hdeps := removeDependencies_spec (d := d) (colExp := colExp) S.hull.fit hne S.hull.nodup S.hull.fitPrint S.hull.noDummy x
  show _ ↔ InHull cols st.rows (colVal colExp x)
  rw [← hdeps, hd]
  cases ha : st.aff with
  | none =>
    rw [ha] at hout
    dsimp only at hout
    rw [← parseConds_eq hout]
    exact (and_iff_left (inHull_nil_cols hne _)).symm
  | some left =>
    rw [ha] at hout hd
    dsimp only at hout
    simp only [Option.getD_some]
    have hlsub := removeDependencies_sub hd
    have hlne : left ≠ [] := left_ne_nil S.hull.nodup (by rintro rfl; simp at h2) hd
    have hlpos : 0 < left.length := List.length_pos_of_ne_nil hlne
    by_cases h2 : 2 ≤ left.length
    · obtain ⟨f1, f2, f3, h, f4, f5⟩ := hi.full left ha h2
      have hin : st.inequalities d colExp left = some (some (hullCoefs d ⟨left.length, h⟩, left.map colExp, [])) := by
        unfold IncHull.inequalities
        rw [f1]
        dsimp only
        rw [if_pos (by rw [List.length_map, eyeVecs_length]; exact ⟨h2, rfl⟩), f4]
        rfl
      rw [hin] at hout
      dsimp only at hout
      rw [← parseConds_eq hout, List.append_nil, List.forall_mem_append, and_comm]
      refine and_congr_right fun _ => ?_
      have hq := approxHull_plain f5
      unfold hullCoefs
      dsimp only
      rw [map_eq_ofFn left colExp, facetConds_holds x (S.hull.facetPrint left h hq), ← inHull_rowVec, ← S.hull.qhull.facets hq]
      have : (fun i => featVal x (colExp (left.get i))) = fun i => colVal colExp x (left.get i) := by
        funext i
        rw [featVal, if_neg (show ¬ colExp (left.get i) = dummy from S.hull.noDummy _ (hlsub.subset (List.get_mem _ _)))]; rfl
      rw [this]
    · obtain ⟨c, rfl⟩ := List.length_eq_one_iff.mp (show left.length = 1 by omega)
      obtain ⟨b, hb, f1, f2⟩ := hi.line [c] ha rfl
      have hh : st.hull = none := hi.small (by rw [ha]; simp)
      obtain ⟨r0, rs, hrows⟩ := List.exists_cons_of_ne_nil hne
      have hfirst : firstRow [c] st.rows = fun _ => r0 c := by
        rw [hrows]
        funext i
        have : i = 0 := Subsingleton.elim (α := Fin 1) i 0
        rw [this]; rfl
      have hb1 : toVec [c].length [b] = fun _ => b := by
        funext i
        have : i = 0 := Subsingleton.elim (α := Fin 1) i 0
        rw [this]; rfl
      have hdot : ∀ u v : Fin [c].length → K, u ⬝ᵥ v = u 0 * v 0 := by
        intro u v
        show u ⬝ᵥ v = _
        exact Fin.sum_univ_one (fun i => u i * v i)
      have hproj : ((st.rows.map (rowVec [c])).map fun p => [[b]].map fun e => (p - firstRow [c] st.rows) ⬝ᵥ toVec [c].length e).flatten
          = st.rows.map fun r => (r c - r0 c) * b := by
        rw [hfirst, List.map_map, ← List.flatMap_def, List.map_eq_flatMap]
        apply congrArg₂ _ _ rfl
        funext r
        simp only [Function.comp_apply, List.map_cons, List.map_nil, hdot, hb1]
        rfl
      have hvars : projectedVars d ([c].map colExp) (List.ofFn (firstRow [c] st.rows)) [[b]]
          = [projVar d (fun _ : Fin 1 => colExp c) (fun _ => r0 c) (fun _ => b)] := by
        rw [hfirst]
        have e := projectedVars_eq (d := d) (n := 1) (f := fun _ => colExp c) (shift := fun _ => r0 c) (bs := [fun _ => b])
        simpa using e
      have hin : st.inequalities d colExp [c] = some (some (singleDim d (st.rows.map fun r => (r c - r0 c) * b),
          [projVar d (fun _ : Fin 1 => colExp c) (fun _ => r0 c) (fun _ => b)], [])) := by
        unfold IncHull.inequalities
        rw [f1]
        dsimp only
        rw [if_neg (by simp), if_neg (by simp), hh, f2]
        dsimp only
        rw [hproj, hvars]
        rfl
      rw [hin] at hout
      dsimp only at hout
      have hr0 : r0 ∈ st.rows := by rw [hrows]; simp
      have hdata : ∀ r ∈ st.rows, Printable d (r c) := fun r hr => S.hull.data r hr c (hlsub.subset (by simp))
      have hone : Printable d (1 : K) := by
        refine Or.inr ⟨⟨10 ^ d, by push_cast; ring⟩, ?_⟩
        rw [abs_one, div_lt_one (by positivity)]
        exact one_lt_pow₀ (by norm_num) (by have := S.hull.digits; omega)
      have hbp : Printable d b := by
        rcases hb with rfl | rfl
        · exact hone
        · rcases hone with h | h
          · exact absurd h one_ne_zero
          · exact .inr ⟨h.1.neg, by rw [abs_neg]; exact h.2⟩
      have hg : OnGrid d (r0 c) := by
        rcases hdata r0 hr0 with h | h
        · rw [h]; exact ⟨0, by simp⟩
        · exact h.1
      rw [← parseConds_eq hout, List.append_nil, List.forall_mem_append, and_comm]
      refine and_congr_right fun _ => ?_
      rw [singleDim_holds (by simpa using hne) (by
        intro k hk
        obtain ⟨r, hr, rfl⟩ := List.mem_map.mp hk
        exact printable_diff (S.hull.separated [c] hlsub) hdata hr hr0 hb) S.hull.digits,
        featVal_projVar (fun _ => S.hull.noDummy c (hlsub.subset (by simp))) (fun _ => hg) (fun _ => hbp), inHull_single hne,
        between_iff (by simpa using hne), between_iff (by simpa using hne)]
      have hval : ((fun _ : Fin 1 => (colExp c).eval x) - fun _ => r0 c) ⬝ᵥ (fun _ => b) = (colVal colExp x c - r0 c) * b :=
        Fin.sum_univ_one _
      rw [hval]
      simp only [List.mem_map, exists_exists_and_eq_and]
      rcases hb with rfl | rfl
      · simp
      · simp only [mul_neg, mul_one, neg_le_neg_iff, sub_le_sub_iff_right]
        exact and_comm

/-- The data kept by the learner are the distinct observations, in the order of their first occurrence. -/
theorem C76_data (L : NumLib K C) (d : Nat) (margin : K) (plain : Bool) (colExp : C → NExp K) (cols : List C) (pts : List (C → K)) :
    (observe L d margin plain colExp cols (IncHull.init cols none) pts).1.cols = cols ∧
      (observe L d margin plain colExp cols (IncHull.init cols none) pts).1.rows = distinctRows cols [] pts :=
  ⟨(observe_data pts rfl rfl).1, (observe_data pts rfl rfl).2.2⟩

/-- **C76.** The numeric precondition that the incremental learner writes after any series of observations is true in a state
exactly when the values of the fluents in that state are a convex combination of the observed values. -/
theorem C76_incremental_is_hull {L : NumLib K C} {d : Nat} {margin : K} {colExp : C → NExp K} {cols : List C} {pts : List (C → K)}
    (S : IncSetup L d colExp cols (distinctRows cols [] pts)) {st : IncHull K C}
    (hrun : observe L d margin true colExp cols (IncHull.init cols none) pts = (st, false)) {cs : List (NCond K)}
    (hout : st.safeInequalities d colExp = .conds cs) (x : String → K) :
    (∀ q ∈ cs, q.holds x) ↔ InHull cols pts (fun c => (colExp c).eval x) := by
  obtain ⟨g1, g2, g3⟩ := observe_data (L := L) (d := d) (margin := margin) (plain := true) (colExp := colExp) pts
    (cols := cols) (st := IncHull.init cols none) rfl rfl
  rw [hrun] at g1 g2 g3
  have g3 : st.rows = distinctRows cols [] pts := g3
  have g2 : st.relevant = cols := g2
  rw [← inHull_distinct, ← g3]
  rw [← g3] at S
  have hne := S.hull.nonempty
  rcases Nat.lt_or_ge cols.length 2 with hl | hl
  · unfold IncHull.safeInequalities at hout
    cases hcols : cols with
    | nil =>
      rw [if_pos (.inr (by rw [g2, hcols]))] at hout
      cases hout
      simp only [List.not_mem_nil, IsEmpty.forall_iff, implies_true, true_iff]
      exact inHull_nil_cols hne _
    | cons c cs' =>
      have hc1 : cols = [c] := by
        rw [hcols] at hl ⊢
        have hl' : cs'.length + 1 < 2 := hl
        have : cs' = [] := List.eq_nil_of_length_eq_zero (by omega)
        rw [this]
      have hc2 : cs' = [] := by rw [hc1] at hcols; simpa using hcols.symm
      subst hc2
      rw [if_neg (by push Not; exact ⟨hne, by rw [g2, hcols]; simp⟩), if_pos (.inl (by rw [g1, hcols]; rfl)), show st.cols = [c] from g1.trans hcols] at hout
      dsimp only at hout
      rw [inHull_single hne, ← parseConds_eq hout]
      unfold singleColumn
      dsimp only
      split_ifs with heq
      · simp only [List.forall_mem_singleton]
        show (colExp c).eval x = listMin (st.rows.map (· c)) ↔ _
        rw [← heq]
        constructor
        · intro h; rw [h]; exact ⟨le_refl _, le_refl _⟩
        · rintro ⟨h1, h2⟩; exact le_antisymm h2 h1
      · simp only [List.forall_mem_cons, List.not_mem_nil, IsEmpty.forall_iff, implies_true, and_true]
        exact Iff.rfl
  · have hstep : IncStep L d colExp cols (distinctRows cols [] pts) := by
      rw [← g3]
      exact { norm := S.norm, norm1 := S.norm1, fit := S.hull.fit, inj := S.inj, two := hl, nodup := S.hull.nodup, complete := S.complete, separated := S.hull.separated }
    have hi : IncInv L d margin true colExp cols st := observe_inv pts IncInv.init hstep hrun
    exact inv_precondition S hi hl hout x

/-- **C76, batch.** The batch learner, given the same observations, accepts exactly the same states. -/
theorem C76_same_as_batch {L : NumLib K C} {d : Nat} {margin margin' : K} {colExp : C → NExp K} {cols : List C} {pts : List (C → K)}
    (S : IncSetup L d colExp cols (distinctRows cols [] pts)) (S' : HullSetup L d colExp cols pts) {st : IncHull K C}
    (hrun : observe L d margin true colExp cols (IncHull.init cols none) pts = (st, false)) {cs cs' : List (NCond K)}
    (hout : st.safeInequalities d colExp = .conds cs)
    (hout' : safeInequalities L d margin' true colExp none cols pts = .conds cs') (x : String → K) :
    (∀ q ∈ cs, q.holds x) ↔ ∀ q ∈ cs', q.holds x := by
  rw [C76_incremental_is_hull S hrun hout, C55_precondition_is_hull S' hout']
  rfl

/-- **C76, order.** Two series with the same observations, in any order and however often repeated, give preconditions that accept
the same states. -/
theorem C76_order {L : NumLib K C} {d : Nat} {margin : K} {colExp : C → NExp K} {cols : List C} {pts pts' : List (C → K)}
    (S : IncSetup L d colExp cols (distinctRows cols [] pts)) (S' : IncSetup L d colExp cols (distinctRows cols [] pts'))
    (hsame : ∀ p, p ∈ pts ↔ p ∈ pts') {st st' : IncHull K C}
    (hrun : observe L d margin true colExp cols (IncHull.init cols none) pts = (st, false))
    (hrun' : observe L d margin true colExp cols (IncHull.init cols none) pts' = (st', false)) {cs cs' : List (NCond K)}
    (hout : st.safeInequalities d colExp = .conds cs) (hout' : st'.safeInequalities d colExp = .conds cs') (x : String → K) :
    (∀ q ∈ cs, q.holds x) ↔ ∀ q ∈ cs', q.holds x := by
  rw [C76_incremental_is_hull S hrun hout, C76_incremental_is_hull S' hrun' hout']
  constructor
  · exact inHull_trans fun p hp => inHull_row ((hsame p).mp hp)
  · exact inHull_trans fun p hp => inHull_row ((hsame p).mpr hp)

/-- **C76, growth.** A further observation never makes the precondition reject a state it accepted. -/
theorem C76_monotone {L : NumLib K C} {d : Nat} {margin : K} {colExp : C → NExp K} {cols : List C} {pts more : List (C → K)}
    (S : IncSetup L d colExp cols (distinctRows cols [] pts)) (S' : IncSetup L d colExp cols (distinctRows cols [] (pts ++ more)))
    {st st' : IncHull K C}
    (hrun : observe L d margin true colExp cols (IncHull.init cols none) pts = (st, false))
    (hrun' : observe L d margin true colExp cols (IncHull.init cols none) (pts ++ more) = (st', false)) {cs cs' : List (NCond K)}
    (hout : st.safeInequalities d colExp = .conds cs) (hout' : st'.safeInequalities d colExp = .conds cs') {x : String → K}
    (hx : ∀ q ∈ cs, q.holds x) : ∀ q ∈ cs', q.holds x := by
  rw [C76_incremental_is_hull S' hrun' hout']
  exact inHull_trans (fun p hp => inHull_row (by simp [hp])) ((C76_incremental_is_hull S hrun hout x).mp hx)

end
end Props

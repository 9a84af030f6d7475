import Verif.Lemmas.IncHull

/-! The invariant of the incremental convex hull learner: its fields are those that the whole data gives. -/
namespace Model
open Spec

section
variable {K : Type} [Field K] [LinearOrder K] [IsStrictOrderedRing K] [FloorRing K]
variable {C : Type} [DecidableEq C]

theorem epsOf_nonneg (d : Nat) : (0 : K) ≤ epsOf K d := by unfold epsOf; positivity

theorem gs_nil {n : Nat} {eps : K} {norm : (Fin n → K) → K} {vs : List (Fin n → K)} (h : gramSchmidt eps norm vs [] = []) :
    ∀ v ∈ vs, ∀ i, |v i| ≤ eps := by
  intro v hv i
  obtain ⟨hl, _⟩ := gsFold_length eps norm vs ([], []) rfl
  unfold gramSchmidt at h
  rw [h] at hl
  obtain ⟨p, hp, q, hq, e⟩ := gsFold_cover (eps := eps) (norm := norm) vs ([], []) hv
  rw [List.eq_nil_of_length_eq_zero hl] at hp hq
  have : q = 0 := by simpa using hq
  rw [e, this, zero_add]
  simpa using hp i

theorem gs_elem {n : Nat} {eps : K} (heps : 0 ≤ eps) {norm : (Fin n → K) → K} {vs : List (Fin n → K)} {b : Fin n → K}
    (h : b ∈ gramSchmidt eps norm vs []) : ∃ p, p ≠ 0 ∧ b = (norm p)⁻¹ • p := by
  have hi := gsFold_inv heps (norm := norm) (eig := []) vs (st := ([], [])) ⟨⟨by simp, by simp⟩, ⟨[], by simp, by simp⟩⟩
  unfold gramSchmidt at h
  obtain ⟨ps, h1, h2⟩ := hi.split
  rw [h2] at h
  obtain ⟨p, hp, rfl⟩ := List.mem_map.mp h
  exact ⟨p, hi.orth.2 p (by rw [h1]; simpa using hp), rfl⟩

theorem spanned_of_span {n : Nat} {eps : K} (heps : 0 ≤ eps) {norm : (Fin n → K) → K} {bs : List (Fin n → K)} {v : Fin n → K}
    (h : projOn bs v = v) : gramSchmidt eps norm [v] bs = [] := by
  unfold gramSchmidt
  rw [List.foldl_cons, List.foldl_nil]
  unfold gsStep
  dsimp only
  rw [if_neg]
  rw [h]
  push Not
  intro i
  simpa using heps

/-- The bases of data that span all directions of two or more columns. -/
theorem learnBases_full {L : NumLib K C} (hnorm : NormContract L) {d : Nat} {st : IncHull K C} {left : List C}
    (hf : fullRank L d left st.rows) (h2 : 2 ≤ left.length) :
    st.learnBases L d left = ({ st with base := some ((eyeVecs left.length).map List.ofFn), comp := [], std := true }, false) := by
  have hgs := gramSchmidt_out (epsOf_nonneg d) (fun v => hnorm v) (eig := []) ⟨by simp, by simp⟩
    ((st.rows.map (rowVec left)).map (· - firstRow left st.rows))
  have ho : OrthList (gramSchmidt (epsOf K d) L.norm ((st.rows.map (rowVec left)).map (· - firstRow left st.rows)) []) := by simpa using hgs.orth
  have hlen : (gramSchmidt (epsOf K d) L.norm ((st.rows.map (rowVec left)).map (· - firstRow left st.rows)) []).length = left.length :=
    le_antisymm (orth_length ho) hf.2
  unfold IncHull.learnBases
  dsimp only
  rw [comp_nil (epsOf_nonneg d) (fun v => hnorm v) ho hlen.ge]
  have e : (divideSpan (([] : List (Fin left.length → K)).map List.ofFn) : Option (List (List K))) = some [] := rfl
  rw [e]
  dsimp only
  rw [if_pos ⟨by omega, hlen⟩]

/-- The bases of data on one column. -/
theorem learnBases_line {L : NumLib K C} (hnorm : NormContract L) (h1 : ∀ v : Fin 1 → K, L.norm v = |v 0|) {d : Nat} {st : IncHull K C} {c : C}
    (hx : ∃ r ∈ st.rows, epsOf K d < |r c - firstRow [c] st.rows 0|) :
    ∃ b : K, (b = 1 ∨ b = -1) ∧ st.learnBases L d [c] = ({ st with base := some [[b]], comp := [] }, false) := by
  have hgs := gramSchmidt_out (epsOf_nonneg d) (fun v => hnorm v) (eig := []) ⟨by simp, by simp⟩
    ((st.rows.map (rowVec [c])).map (· - firstRow [c] st.rows))
  have ho : OrthList (gramSchmidt (epsOf K d) L.norm ((st.rows.map (rowVec [c])).map (· - firstRow [c] st.rows)) []) := by simpa using hgs.orth
  have hle := orth_length ho
  obtain ⟨b, hb⟩ : ∃ b, gramSchmidt (epsOf K d) L.norm ((st.rows.map (rowVec [c])).map (· - firstRow [c] st.rows)) [] = [b] := by
    have hle' : (gramSchmidt (epsOf K d) L.norm ((st.rows.map (rowVec [c])).map (· - firstRow [c] st.rows)) []).length ≤ 1 := hle
    match hm : gramSchmidt (epsOf K d) L.norm ((st.rows.map (rowVec [c])).map (· - firstRow [c] st.rows)) [], hle' with
    | [], _ =>
      exfalso
      obtain ⟨r, hr, hlt⟩ := hx
      have := gs_nil hm (rowVec [c] r - firstRow [c] st.rows) (by
        simp only [List.mem_map]; exact ⟨_, ⟨r, hr, rfl⟩, rfl⟩) 0
      exact absurd hlt (not_lt.mpr this)
    | [b], _ => exact ⟨b, rfl⟩
  obtain ⟨p, hp, he⟩ := gs_elem (epsOf_nonneg d) (by rw [hb]; simp : b ∈ _)
  have hp0 : p 0 ≠ 0 := by
    intro h0
    apply hp
    funext i
    have : i = 0 := Subsingleton.elim (α := Fin 1) i 0
    rw [this]; exact h0
  have hb0 : b 0 = 1 ∨ b 0 = -1 := by
    have e : b 0 = (L.norm p)⁻¹ * p 0 := by rw [he]; rfl
    rw [e, h1 p]
    rcases lt_or_gt_of_ne hp0 with h | h
    · right
      rw [abs_of_neg h]; field_simp
    · left
      rw [abs_of_pos h]; field_simp
  refine ⟨b 0, hb0, ?_⟩
  unfold IncHull.learnBases
  dsimp only
  rw [comp_nil (epsOf_nonneg d) (fun v => hnorm v) ho (by rw [hb]; simp), hb]
  have e : (divideSpan (([] : List (Fin [c].length → K)).map List.ofFn) : Option (List (List K))) = some [] := rfl
  rw [e]
  dsimp only
  rw [if_neg (by simp)]
  have e2 : List.map List.ofFn [b] = [[b 0]] := by
    show [List.ofFn (n := 1) b] = [[b 0]]
    simp
  rw [e2]

theorem hull_cast {L : NumLib K C} {margin : K} {plain : Bool} {n k : Nat} (e : k = n) {pts : List (Fin n → K)} {h0 : HullResult K k}
    (h : approxHull (L.qhull k) margin plain (pts.map fun p => fun i => p (Fin.cast e i)) = some h0) :
    ∃ hr : HullResult K n, approxHull (L.qhull n) margin plain pts = some hr ∧ (⟨k, h0⟩ : Σ k, HullResult K k) = ⟨n, hr⟩ := by
  subst e
  have e3 : (pts.map fun p => fun i => p (Fin.cast rfl i)) = pts := by simp
  rw [e3] at h
  exact ⟨h0, h, rfl⟩

/-- The hull of data that span all directions. -/
theorem learnHull_full {L : NumLib K C} {margin : K} {plain : Bool} {st st' : IncHull K C} {left : List C}
    (hb : st.base = some ((eyeVecs left.length).map List.ofFn)) (hs : st.std = true)
    (h : st.learnHull L margin plain left = (st', false)) :
    ∃ hr, approxHull (L.qhull left.length) margin plain (st.rows.map (rowVec left)) = some hr ∧ st' = { st with hull := some ⟨left.length, hr⟩ } := by
  have key : ∀ (bs : List (Fin left.length → K)) (e : bs.length = left.length)
      (_ : ∀ (v : Fin left.length → K) i, v ⬝ᵥ bs.get i = v (Fin.cast e i)),
      (match approxHull (L.qhull bs.length) margin plain ((st.rows.map (rowVec left)).map fun p => fun i => (p - 0) ⬝ᵥ bs.get i) with
        | none => (st, true)
        | some h => ({ st with hull := some ⟨bs.length, h⟩ }, false)) = (st', false) →
      ∃ hr, approxHull (L.qhull left.length) margin plain (st.rows.map (rowVec left)) = some hr ∧ st' = { st with hull := some ⟨left.length, hr⟩ } := by
    intro bs e hdot heq
    have epts : ((st.rows.map (rowVec left)).map fun p => fun i => (p - 0) ⬝ᵥ bs.get i)
        = (st.rows.map (rowVec left)).map fun p => fun i => p (Fin.cast e i) := by
      apply List.map_congr_left
      intro p _
      funext i
      rw [hdot, sub_zero]
    rw [epts] at heq
    cases ha : approxHull (L.qhull bs.length) margin plain ((st.rows.map (rowVec left)).map fun p => fun i => p (Fin.cast e i)) with
    | none => rw [ha] at heq; simp at heq
    | some h0 =>
      rw [ha] at heq
      obtain ⟨hr, h1, h2⟩ := hull_cast e ha
      refine ⟨hr, h1, ?_⟩
      rw [← h2]
      simpa using heq.symm
  have e : ((st.base.getD []).map (toVec left.length)) = eyeVecs left.length := by
    rw [hb]; exact map_toVec_ofFn _
  unfold IncHull.learnHull at h
  dsimp only at h
  rw [if_pos hs] at h
  refine key ((st.base.getD []).map (toVec left.length)) (by rw [e]; exact eyeVecs_length _) (fun v i => ?_) h
  have e4 : ∀ (bs : List (Fin left.length → K)) (_ : bs = eyeVecs left.length) (hl : bs.length = left.length) (i : Fin bs.length),
      v ⬝ᵥ bs.get i = v (Fin.cast hl i) := by
    intro bs hbs hl i
    subst hbs
    exact dot_eye v i
  exact e4 _ e _ i

theorem hull_cast_ok {L : NumLib K C} {margin : K} {plain : Bool} {n k : Nat} (e : k = n) {pts : List (Fin n → K)} {hr : HullResult K n}
    (h : approxHull (L.qhull n) margin plain pts = some hr) :
    ∃ h0 : HullResult K k, approxHull (L.qhull k) margin plain (pts.map fun p => fun i => p (Fin.cast e i)) = some h0 := by
  subst e
  have e3 : (pts.map fun p => fun i => p (Fin.cast rfl i)) = pts := by simp
  rw [e3]
  exact ⟨hr, h⟩

/-- The hull of data that span all directions is learned when Qhull succeeds. -/
theorem learnHull_full_ok {L : NumLib K C} {margin : K} {plain : Bool} {st : IncHull K C} {left : List C} {hr : HullResult K left.length}
    (hb : st.base = some ((eyeVecs left.length).map List.ofFn)) (hs : st.std = true)
    (h : approxHull (L.qhull left.length) margin plain (st.rows.map (rowVec left)) = some hr) :
    (st.learnHull L margin plain left).2 = false := by
  have e : ((st.base.getD []).map (toVec left.length)) = eyeVecs left.length := by
    rw [hb]; exact map_toVec_ofFn _
  unfold IncHull.learnHull
  dsimp only
  rw [if_pos hs]
  have key : ∀ (bs : List (Fin left.length → K)), bs = eyeVecs left.length →
      (match approxHull (L.qhull bs.length) margin plain ((st.rows.map (rowVec left)).map fun p => fun i => (p - 0) ⬝ᵥ bs.get i) with
        | none => (st, true)
        | some h => ({ st with hull := some ⟨bs.length, h⟩ }, false)).2 = false := by
    intro bs hbs
    subst hbs
    have epts : ((st.rows.map (rowVec left)).map fun p => fun i => (p - 0) ⬝ᵥ (eyeVecs left.length : List (Fin left.length → K)).get i)
        = (st.rows.map (rowVec left)).map fun p => fun i => p (Fin.cast (eyeVecs_length (K := K) left.length) i) := by
      apply List.map_congr_left
      intro p _
      funext i
      rw [dot_eye, sub_zero]
    rw [epts]
    obtain ⟨h0, e0⟩ := hull_cast_ok (eyeVecs_length (K := K) left.length) h
    rw [e0]
  exact key _ e

/-- The fields are those that the whole data gives. -/
structure IncInv (L : NumLib K C) (d : Nat) (margin : K) (plain : Bool) (colExp : C → NExp K) (cols : List C) (st : IncHull K C) : Prop where
  cols_eq : st.cols = cols
  rel : st.relevant = cols
  nodup : hasDup cols st.rows = false
  fresh : st.rows = [] → st = IncHull.init cols none
  deps : st.rows ≠ [] → removeDependencies L d colExp cols st.rows = (st.aff, st.conds)
  flat : st.aff = none → st.base = none
  small : (st.aff.getD []).length ≤ 1 → st.hull = none
  line : ∀ left, st.aff = some left → left.length = 1 → ∃ b : K, (b = 1 ∨ b = -1) ∧ st.base = some [[b]] ∧ st.comp = []
  full : ∀ left, st.aff = some left → 2 ≤ left.length → st.base = some ((eyeVecs left.length).map List.ofFn) ∧ st.std = true ∧ st.comp = [] ∧
    ∃ h, st.hull = some ⟨left.length, h⟩ ∧ approxHull (L.qhull left.length) margin plain (st.rows.map (rowVec left)) = some h

/-- What the step needs of the libraries and of the data. -/
structure IncStep (L : NumLib K C) (d : Nat) (colExp : C → NExp K) (cols : List C) (rows : List (C → K)) : Prop where
  norm : NormContract L
  norm1 : ∀ v : Fin 1 → K, L.norm v = |v 0|
  fit : FitContract L
  inj : ∀ c ∈ cols, ∀ c' ∈ cols, colExp c = colExp c' → c = c'
  two : 2 ≤ cols.length
  nodup : cols.Nodup
  complete : ∀ pre, pre ≠ [] → pre <+: rows → FitComplete L pre
  separated : ∀ left : List C, left.Sublist cols → Separated (epsOf K d) left rows

theorem separated_mono {eps : K} {cols : List C} {rows pre : List (C → K)} (hs : ∀ r ∈ pre, r ∈ rows) (h : Separated eps cols rows) :
    Separated eps cols pre := fun r hr s hs' => h r (hs r hr) s fun r' hr' => hs r' (hs' r' hr')

theorem IncStep.mono {L : NumLib K C} {d : Nat} {colExp : C → NExp K} {cols : List C} {rows pre : List (C → K)}
    (h : IncStep L d colExp cols rows) (hp : pre <+: rows) : IncStep L d colExp cols pre :=
  { h with
    complete := fun p hne hpp => h.complete p hne (hpp.trans hp)
    separated := fun left hl => separated_mono (fun _ hr => hp.subset hr) (h.separated left hl) }

theorem IncInv.init {L : NumLib K C} {d : Nat} {margin : K} {plain : Bool} {colExp : C → NExp K} {cols : List C} :
    IncInv L d margin plain colExp cols (IncHull.init cols none) where
  cols_eq := rfl
  rel := rfl
  nodup := rfl
  fresh := fun _ => rfl
  deps := fun h => absurd rfl h
  flat := fun _ => rfl
  small := fun _ => rfl
  line := fun _ h => by simp [IncHull.init] at h
  full := fun _ h => by simp [IncHull.init] at h

/-- A column left is not constant, and so differs by more than the tolerance somewhere. -/
theorem left_varies {L : NumLib K C} {d : Nat} {colExp : C → NExp K} {cols : List C} {rows : List (C → K)} (S : IncStep L d colExp cols rows)
    (hne : rows ≠ []) {c : C} {conds : List (NCond K)} (h : removeDependencies L d colExp cols rows = (some [c], conds)) :
    ∃ r ∈ rows, epsOf K d < |r c - firstRow [c] rows 0| := by
  have hnc := removeDependencies_nonconst hne (by have := S.two; omega) h c (by simp)
  have hsep := S.separated [c] (removeDependencies_sub h)
  cases rows with
  | nil => exact absurd rfl hne
  | cons r0 rs =>
    have hf : firstRow [c] (r0 :: rs) 0 = r0 c := rfl
    rw [hf]
    simp only [isConst] at hnc
    rw [List.all_eq_false] at hnc
    obtain ⟨r, hr, hrne⟩ := hnc
    refine ⟨r, by simp [hr], ?_⟩
    rcases hsep r (by simp [hr]) [r0] (by simp) with ha | ha
    · exfalso
      obtain ⟨w, w1, w2, w3⟩ := ha
      obtain ⟨k, rfl⟩ := List.length_eq_one_iff.mp w1
      have hk : k = 1 := by simpa using w2
      have := w3 c (by simp)
      apply hrne
      simpa [hk] using this
    · obtain ⟨c', hc', hlt⟩ := ha r0 ⟨[1], rfl, by simp, by simp⟩
      rw [List.mem_singleton.mp hc'] at hlt
      exact hlt

/-- One new point. -/
theorem IncInv.add {L : NumLib K C} {d : Nat} {margin : K} {plain : Bool} {colExp : C → NExp K} {cols : List C} {st st' : IncHull K C}
    (hi : IncInv L d margin plain colExp cols st) {x : C → K} (S : IncStep L d colExp cols (st.rows ++ [x]))
    (h : st.add L d margin plain colExp cols x = (st', false)) :
    IncInv L d margin plain colExp cols st' ∧
      ((st'.rows = st.rows ∧ ∃ r ∈ st.rows, ∀ c ∈ cols, r c = x c) ∨
        (st'.rows = st.rows ++ [x] ∧ ¬ ∃ r ∈ st.rows, ∀ c ∈ cols, r c = x c)) := by
  have hcols : (if st.rows = [] then st.cols.filter (· ∈ cols) ++ cols.filter (· ∉ st.cols) else st.cols.filter (· ∈ cols)) = cols := by
    rw [hi.cols_eq]
    have e1 : cols.filter (· ∈ cols) = cols := List.filter_eq_self.mpr (by simp)
    have e2 : cols.filter (· ∉ cols) = [] := List.filter_eq_nil_iff.mpr (by simp)
    rw [e1, e2]; simp
  unfold IncHull.add at h
  dsimp only at h
  rw [hcols] at h
  by_cases hdup : hasDup cols (st.rows ++ [x]) = true
  · rw [if_pos hdup] at h
    cases h
    refine ⟨hi, .inl ⟨rfl, ?_⟩⟩
    rcases hasDup_append.mp hdup with h | h
    · rw [hi.nodup] at h; simp at h
    · exact h
  · rw [if_neg hdup] at h
    have hnex : ¬ ∃ r ∈ st.rows, ∀ c ∈ cols, r c = x c := fun hh => hdup (hasDup_append.mpr (.inr hh))
    have hne : st.rows ++ [x] ≠ [] := by simp
    have h1 : cols.length ≠ 1 := by have := S.two; omega
    have hcne : cols ≠ [] := by rintro rfl; have := S.two; simp at this
    have hfl : cols.filter (· ∈ st.relevant) = cols := by rw [hi.rel]; exact List.filter_eq_self.mpr (by simp)
    unfold IncHull.calc at h
    dsimp only at h
    rw [hfl] at h
    cases hr : removeDependencies L d colExp cols (st.rows ++ [x]) with
    | mk aff conds =>
      rw [hr] at h
      dsimp only at h
      -- facts about the previous fields
      have hprev : st.rows ≠ [] → removeDependencies L d colExp cols st.rows = (st.aff, st.conds) := hi.deps
      have hsub : ∀ r ∈ st.rows, r ∈ st.rows ++ [x] := fun r hr => by simp [hr]
      have hpre : st.rows <+: st.rows ++ [x] := ⟨[x], rfl⟩
      have hsmall : (aff.getD []).length ≤ 1 → st.hull = none := by
        intro hs
        apply hi.small
        by_contra hlt
        push Not at hlt
        by_cases hz : st.rows = []
        · rw [hi.fresh hz] at hlt; simp [IncHull.init] at hlt
        · have hd := hprev hz
          cases ha : st.aff with
          | none => rw [ha] at hlt; simp at hlt
          | some l =>
            rw [ha] at hd hlt
            have := left_mono S.fit S.nodup hsub hz (S.complete _ hz hpre) hd (by have := hlt; simp at this; omega) hr
            omega
      cases aff with
      | none =>
        dsimp only at h
        cases h
        refine ⟨⟨rfl, hi.rel, by simpa using hdup, fun h => absurd h hne, fun _ => hr, ?_, fun hs => hsmall hs, by simp, by simp⟩, .inr ⟨rfl, hnex⟩⟩
        intro _
        show st.base = none
        by_cases hz : st.rows = []
        · rw [hi.fresh hz]; rfl
        · apply hi.flat
          have := none_mono hsub hz (by rw [hr] : (removeDependencies L d colExp cols (st.rows ++ [x])).1 = none)
          rw [hprev hz] at this
          exact this
      | some left =>
        dsimp only at h
        have hlne : left ≠ [] := left_ne_nil S.nodup hcne hr
        rw [if_neg (by push Not; exact ⟨hlne, hne⟩)] at h
        have hlpos : 0 < left.length := List.length_pos_of_ne_nil hlne
        have hfull : 2 ≤ left.length → fullRank L d left (st.rows ++ [x]) := fun h2 =>
          fullRank_of_separated (S.complete _ hne (List.prefix_refl _)) hne S.nodup hr (by omega) (S.separated left (removeDependencies_sub hr))
        by_cases hbr : st.conds ≠ conds ∨ False ∨ st.base = none
        · -- everything is computed again
          rw [if_pos (by simpa using hbr)] at h
          by_cases h2 : 2 ≤ left.length
          · rw [learnBases_full S.norm (hfull h2) h2] at h
            dsimp only at h
            rw [if_neg (by simp), if_pos (by
              refine ⟨by simp only [Option.getD_some, List.length_map, eyeVecs_length]; exact h2, ?_⟩
              have := (hfull h2).1
              omega)] at h
            obtain ⟨hrr, ha, rfl⟩ := learnHull_full rfl rfl h
            refine ⟨⟨rfl, hi.rel, by simpa using hdup, fun h => absurd h hne, fun _ => hr, by simp, ?_, ?_, ?_⟩, .inr ⟨rfl, hnex⟩⟩
            · intro hs; simp only [Option.getD_some] at hs; omega
            · intro l hl hl1; simp only [Option.some.injEq] at hl; subst hl; omega
            · intro l hl hl1
              simp only [Option.some.injEq] at hl; subst hl
              exact ⟨rfl, rfl, rfl, hrr, rfl, ha⟩
          · obtain ⟨c, rfl⟩ := List.length_eq_one_iff.mp (show left.length = 1 by omega)
            obtain ⟨b, hb, hlb⟩ := learnBases_line S.norm S.norm1 (d := d)
              (st := { st with cols := cols, rows := st.rows ++ [x], aff := some [c], conds := conds }) (left_varies S hne hr)
            rw [hlb] at h
            dsimp only at h
            rw [if_neg (by simp), if_neg (by simp)] at h
            cases h
            refine ⟨⟨rfl, hi.rel, by simpa using hdup, fun h => absurd h hne, fun _ => hr, by simp, fun hs => hsmall hs, ?_, ?_⟩, .inr ⟨rfl, hnex⟩⟩
            · intro l hl hl1; exact ⟨b, hb, rfl, rfl⟩
            · intro l hl hl1; simp only [Option.some.injEq] at hl; subst hl; simp at hl1
        · -- the conditions are the same
          rw [if_neg (by simpa using hbr)] at h
          push Not at hbr
          obtain ⟨hce, _, hbne⟩ := hbr
          have hz : st.rows ≠ [] := fun hz => hbne (by rw [hi.fresh hz]; rfl)
          have hd := hprev hz
          have hleft : st.aff.getD [] = left := by
            rw [left_of_conds S.inj hz h1 hd, hce, ← left_of_conds S.inj hne h1 hr]; rfl
          have hsome : st.aff = some left := by
            cases ha : st.aff with
            | none => exact absurd (hi.flat ha) hbne
            | some l => rw [ha] at hleft; simpa using hleft
          by_cases h2 : 2 ≤ left.length
          · obtain ⟨f1, f2, f3, hh, f4, f5⟩ := hi.full left hsome h2
            have hsp : IncHull.spanned L d ({ st with cols := cols, rows := st.rows ++ [x], aff := some left, conds := conds } : IncHull K C)
                (st.base.getD []) left ((st.rows ++ [x]).getLast?.getD fun _ => 0) = true := by
              have hbd : st.base.getD [] = (eyeVecs left.length).map List.ofFn := by rw [f1]; rfl
              rw [hbd]
              have hnil : (eyeVecs left.length : List (Fin left.length → K)).map List.ofFn ≠ [] := by
                intro e
                have := congrArg List.length e
                simp [eyeVecs_length] at this
                exact hlne this
              obtain ⟨b, bs, e⟩ : ∃ b bs, (eyeVecs left.length : List (Fin left.length → K)).map List.ofFn = b :: bs := List.exists_cons_of_ne_nil hnil
              have hbl : b.length = left.length := by
                have : b ∈ (eyeVecs left.length : List (Fin left.length → K)).map List.ofFn := by rw [e]; simp
                obtain ⟨v, _, rfl⟩ := List.mem_map.mp this
                simp
              rw [e]
              unfold IncHull.spanned
              dsimp only
              rw [if_neg (by rw [hbl]; simp), decide_eq_true_eq, ← e, map_toVec_ofFn]
              exact spanned_of_span (epsOf_nonneg d) (projOn_eye _)
            rw [hsp] at h
            simp only [if_true] at h
            rw [if_neg (by simp), if_neg (by rw [f1]; simp only [Option.getD_some, List.length_map, eyeVecs_length]; omega)] at h
            obtain ⟨hrr, ha, rfl⟩ := learnHull_full (st := { st with cols := cols, rows := st.rows ++ [x], aff := some left, conds := conds }) f1 f2 h
            refine ⟨⟨rfl, hi.rel, by simpa using hdup, fun h => absurd h hne, fun _ => hr, by simp, ?_, ?_, ?_⟩, .inr ⟨rfl, hnex⟩⟩
            · intro hs; simp only [Option.getD_some] at hs; omega
            · intro l hl hl1; simp only [Option.some.injEq] at hl; subst hl; omega
            · intro l hl hl1
              simp only [Option.some.injEq] at hl; subst hl
              exact ⟨f1, f2, f3, hrr, rfl, ha⟩
          · obtain ⟨c, rfl⟩ := List.length_eq_one_iff.mp (show left.length = 1 by omega)
            obtain ⟨b, hb, f1, f2⟩ := hi.line [c] hsome rfl
            have hbne0 : b ≠ 0 := by rcases hb with rfl | rfl <;> simp
            have hsp : IncHull.spanned L d ({ st with cols := cols, rows := st.rows ++ [x], aff := some [c], conds := conds } : IncHull K C)
                (st.base.getD []) [c] ((st.rows ++ [x]).getLast?.getD fun _ => 0) = true := by
              rw [f1, Option.getD_some]
              unfold IncHull.spanned
              dsimp only
              rw [if_neg (by simp), decide_eq_true_eq]
              refine spanned_of_span (epsOf_nonneg d) ?_
              funext i
              have : i = 0 := Subsingleton.elim (α := Fin 1) i 0
              rw [this]
              simp [projOn, dotProduct, toVec]
              field_simp
            rw [hsp] at h
            simp only [if_true] at h
            rw [if_neg (by simp), if_pos (by rw [f1]; simp)] at h
            cases h
            refine ⟨⟨rfl, hi.rel, by simpa using hdup, fun h => absurd h hne, fun _ => hr, by simp, fun hs => hsmall hs, ?_, ?_⟩, .inr ⟨rfl, hnex⟩⟩
            · intro l hl hl1; exact ⟨b, hb, f1, f2⟩
            · intro l hl hl1; simp only [Option.some.injEq] at hl; subst hl; simp at hl1

end
end Model

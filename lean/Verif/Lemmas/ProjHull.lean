import Verif.Lemmas.Projection

namespace Model
open Spec

section
variable {K : Type} [Field K] [LinearOrder K] [IsStrictOrderedRing K] [FloorRing K]
variable {C : Type} [DecidableEq C]

/-- The observed points, moved so that the first one is the origin. -/
def shiftedPts (cols : List C) (rows : List (C → K)) : List (Fin cols.length → K) :=
  (rows.map (rowVec cols)).map (· - ((rows.map (rowVec cols)).head?).getD 0)

/-- The basis computed for them. -/
def projBasis (L : NumLib K C) (d : Nat) (cols : List C) (rows : List (C → K)) : List (Fin cols.length → K) :=
  gramSchmidt (epsOf K d) L.norm (shiftedPts cols rows) []

/-- The equations of their span. -/
def spanRows (L : NumLib K C) (d : Nat) (cols : List C) (rows : List (C → K)) : Option (List (List K)) :=
  divideSpan ((gramSchmidt (epsOf K d) L.norm (eyeVecs cols.length) (projBasis L d cols rows)).map List.ofFn)

/-- The numbers of the projection survive printing. -/
structure ProjPrint (L : NumLib K C) (d : Nat) (cols : List C) (rows : List (C → K)) : Prop where
  shift : ∀ i, OnGrid d ((((rows.map (rowVec cols)).head?).getD 0) i)
  basis : ∀ b ∈ projBasis L d cols rows, ∀ i, Printable d (b i)
  span : ∀ sp, spanRows L d cols rows = some sp → ∀ e ∈ sp, ∀ c ∈ e, Printable d c
  line : (projBasis L d cols rows).length = 1 → ∀ p ∈ shiftedPts cols rows, ∀ b ∈ projBasis L d cols rows, Printable d (p ⬝ᵥ b)
  facets : ∀ h, L.qhull (projBasis L d cols rows).length ((shiftedPts cols rows).map (coords (projBasis L d cols rows))) = some h →
    ∀ f ∈ h.facets, (∀ i, Printable d (f.1 i)) ∧ Printable d f.2

theorem ofFn_singleton {α : Type} (f : Fin 1 → α) : List.ofFn f = [f 0] := by simp

theorem dot_ofFn {n : Nat} (a b : Fin n → K) : ldot (List.ofFn a) (List.ofFn b) = a ⬝ᵥ b := by
  unfold ldot
  rw [zipWith_ofFn, List.sum_ofFn]; rfl

theorem featVal_projVar {d n : Nat} {f : Fin n → NExp K} {shift b : Fin n → K} (hf : ∀ i, f i ≠ dummy)
    (hs : ∀ i, OnGrid d (shift i)) (hb : ∀ i, Printable d (b i)) (x : String → K) :
    featVal x (projVar d f shift b) = ((fun i => (f i).eval x) - shift) ⬝ᵥ b := by
  rw [featVal, if_neg (projVar_ne_dummy hf), projVar_eval hs hb]
  refine Finset.sum_congr rfl fun i _ => ?_
  rw [Pi.sub_apply, mul_comm]

/-- The conditions of the span mean being in the span. -/
theorem spanConds_holds {L : NumLib K C} (hnorm : NormContract L) {d : Nat} (hd : 1 ≤ d) {cols : List C}
    (hn : (cols.length : K) * epsOf K d < 1) {rows : List (C → K)} {f : Fin cols.length → NExp K} (hf : ∀ i, f i ≠ dummy)
    {sp : List (List K)} (hsp : spanRows L d cols rows = some sp) (hp : ∀ e ∈ sp, ∀ c ∈ e, Printable d c)
    {shift : Fin cols.length → K} (hs : ∀ i, OnGrid d (shift i)) (x : String → K) :
    (∀ q ∈ pddlScheme d .eq sp (sp.map fun _ => 0)
        (projectedVars d (List.ofFn f) (List.ofFn shift) ((eyeVecs cols.length).map List.ofFn)), q.holds x) ↔
      ((fun i => (f i).eval x) - shift) ∈ Submodule.span K {b | b ∈ projBasis L d cols rows} := by
  set v : Fin cols.length → K := (fun i => (f i).eval x) - shift with hv
  have hgs0 : GSOut L.norm (epsOf K d) (shiftedPts cols rows) [] (projBasis L d cols rows) :=
    gramSchmidt_out (epsOf_pos d).le (fun v => hnorm v) ⟨List.Pairwise.nil, by simp⟩ _
  have horth : OrthList (projBasis L d cols rows) := by simpa using hgs0.orth
  have hgs : GSOut L.norm (epsOf K d) (eyeVecs cols.length) (projBasis L d cols rows)
      (gramSchmidt (epsOf K d) L.norm (eyeVecs cols.length) (projBasis L d cols rows)) :=
    gramSchmidt_out (epsOf_pos d).le (fun v => hnorm v) horth _
  rw [← mem_span_of_orth_completion hn hgs]
  have hone : Printable d (1 : K) := by
    refine Or.inr ⟨⟨10 ^ d, by push_cast; ring⟩, ?_⟩
    rw [abs_one, div_lt_one (pow10_pos d)]
    exact one_lt_pow₀ (by norm_num) (by omega)
  have hvars : (projectedVars d (List.ofFn f) (List.ofFn shift) ((eyeVecs cols.length).map List.ofFn)).map (featVal x)
      = List.ofFn v := by
    rw [projectedVars_eq, List.map_map, eyeVecs, List.map_map]
    rw [← List.ofFn_id, List.map_ofFn]
    congr 1
    funext i
    rw [Function.comp_apply, Function.comp_apply, Function.comp_apply, featVal_projVar hf hs (by
      intro j
      by_cases h : i = j
      · rw [id, if_pos h]; exact hone
      · rw [id, if_neg h]; exact Or.inl rfl)]
    simp [dotProduct, hv]
  have hdiv := divideSpan_some (eqs := (gramSchmidt (epsOf K d) L.norm (eyeVecs cols.length) (projBasis L d cols rows)).map List.ofFn) (by
    intro e he
    obtain ⟨b, hb, rfl⟩ := List.mem_map.mp he
    have hbne := hgs.orth.2 b (by simp [hb])
    by_contra hall
    push Not at hall
    exact hbne (funext fun i => hall _ (List.mem_ofFn.mpr ⟨i, rfl⟩)))
  obtain ⟨out, h1, h2⟩ := hdiv
  have : out = sp := by
    have h3 : spanRows L d cols rows = some out := h1
    rw [hsp] at h3
    exact (Option.some.inj h3).symm
  subst this
  rw [pddlScheme_holds x (by simp)]
  have key : ∀ e ∈ out, (linExp (mulTerms d e (projectedVars d (List.ofFn f) (List.ofFn shift)
      ((eyeVecs cols.length).map List.ofFn)))).eval x = ldot e (List.ofFn v) := by
    intro e he
    rw [eval_mulTerms_exact (hp e he), ldot, ← hvars, List.zipWith_map_right]
  have hrow : (∀ i (hi : i < out.length), (⟨.eq, linExp (mulTerms d out[i] (projectedVars d (List.ofFn f) (List.ofFn shift)
      ((eyeVecs cols.length).map List.ofFn))), .num ((out.map fun _ => (0 : K))[i]'(by simpa using hi))⟩ : NCond K).holds x) ↔
      ∀ e ∈ out, ldot e (List.ofFn v) = 0 := by
    constructor
    · intro h e he
      obtain ⟨i, hi, rfl⟩ := List.mem_iff_getElem.mp he
      have := h i hi
      rw [← key _ he]
      simpa [NCond.holds, NExp.eval] using this
    · intro h i hi
      have := h _ (List.getElem_mem hi)
      rw [← key _ (List.getElem_mem hi)] at this
      simpa [NCond.holds, NExp.eval] using this
  rw [hrow]
  clear hrow key hp hsp h1 hgs
  rw [show (∀ b ∈ gramSchmidt (epsOf K d) L.norm (eyeVecs cols.length) (projBasis L d cols rows), b ⬝ᵥ v = 0) ↔
    ∀ e ∈ (gramSchmidt (epsOf K d) L.norm (eyeVecs cols.length) (projBasis L d cols rows)).map List.ofFn, ldot e (List.ofFn v) = 0 by
      constructor
      · intro h e he
        obtain ⟨b, hb, rfl⟩ := List.mem_map.mp he
        rw [dot_ofFn]; exact h b hb
      · intro h b hb
        rw [← dot_ofFn]; exact h _ (List.mem_map.mpr ⟨b, hb, rfl⟩)]
  revert h2
  generalize (gramSchmidt (epsOf K d) L.norm (eyeVecs cols.length) (projBasis L d cols rows)).map List.ofFn = eqs
  intro h2
  induction h2 with
  | nil => simp
  | cons h _ ih =>
    obtain ⟨c, hc, rfl⟩ := h
    rw [List.forall_mem_cons, List.forall_mem_cons, ldot_div, div_eq_zero_iff, or_iff_left hc]
    exact and_congr Iff.rfl ih

/-- The region of the conditions of the branch with projection. -/
theorem hullInequalities_proj_holds {L : NumLib K C} (hq : QhullContract L) (hnorm : NormContract L) {d : Nat} (hd : 1 ≤ d)
    {margin : K} {colExp : C → NExp K} {cols : List C} (hn : (cols.length : K) * epsOf K d < 1) {rows : List (C → K)}
    (hne : rows ≠ []) (hfull : ¬ fullRank L d cols rows) (hdm : ∀ c ∈ cols, colExp c ≠ dummy)
    (hspan : ∀ p ∈ shiftedPts cols rows, p ∈ Submodule.span K {b | b ∈ projBasis L d cols rows})
    (hp : ProjPrint L d cols rows)
    {ab : List (List K) × List K} {vars : List (NExp K)} {sp : List (NCond K)}
    (ho : hullInequalities L d margin true colExp cols rows = some (ab, vars, sp)) (x : String → K) :
    (∀ q ∈ pddlScheme d .le ab.1 ab.2 vars ++ sp, q.holds x) ↔ InHull cols rows (fun c => (colExp c).eval x) := by
  set p0 : Fin cols.length → K := ((rows.map (rowVec cols)).head?).getD 0 with hp0
  set bs := projBasis L d cols rows with hbs
  let f : Fin cols.length → NExp K := fun i => colExp (cols.get i)
  have hf : ∀ i, f i ≠ dummy := fun i => hdm _ (List.get_mem _ _)
  set v : Fin cols.length → K := fun i => (f i).eval x with hv
  have hhead : cols.map colExp = List.ofFn f := map_eq_ofFn _ _
  have hsp' : ∀ p ∈ rows.map (rowVec cols), p - p0 ∈ Submodule.span K {b | b ∈ bs} := fun p hp =>
    hspan _ (List.mem_map.mpr ⟨p, hp, rfl⟩)
  have hgoal : InHull cols rows (fun c => (colExp c).eval x) ↔ InHull (List.finRange cols.length) (rows.map (rowVec cols)) v :=
    inHull_rowVec.symm
  have hptsE : (rows.map (rowVec cols)).map (fun p => coords bs (p - p0)) = (shiftedPts cols rows).map (coords bs) := by
    unfold shiftedPts; rw [List.map_map (l := rows.map (rowVec cols))]; rfl
  rw [hgoal, ← hull_coords hsp', hptsE]
  have ho' : (if bs.length = 0 then none else
      match spanRows L d cols rows with
      | none => none
      | some span => (if h : bs.length = 1 then some (singleDim d (((shiftedPts cols rows).map fun p => fun i => p ⬝ᵥ bs.get i).map
            fun p : Fin bs.length → K => p ⟨0, by omega⟩))
          else executeHull d (L.qhull bs.length) margin true ((shiftedPts cols rows).map fun p => fun i => p ⬝ᵥ bs.get i)).map
          fun ab => (ab, projectedVars d (cols.map colExp) (List.ofFn p0) (bs.map List.ofFn),
            pddlScheme d .eq span (span.map fun _ => 0)
              (projectedVars d (cols.map colExp) (List.ofFn p0) ((eyeVecs cols.length).map List.ofFn)))) = some (ab, vars, sp) := by
    rw [← ho]
    unfold hullInequalities
    dsimp only
    rw [if_neg (show ¬ (cols.length < ((rows.map (rowVec cols)).map (· - ((rows.map (rowVec cols)).head?).getD 0)).length ∧ _) by
      unfold fullRank at hfull
      simpa using hfull)]
    rfl
  clear ho
  by_cases hz : bs.length = 0
  · rw [if_pos hz] at ho'; simp at ho'
  rw [if_neg hz] at ho'
  cases hs : spanRows L d cols rows with
  | none => rw [hs] at ho'; simp at ho'
  | some span =>
    rw [hs] at ho'
    dsimp only at ho'
    rw [Option.map_eq_some_iff] at ho'
    obtain ⟨ab', hab, he⟩ := ho'
    simp only [Prod.mk.injEq] at he
    obtain ⟨rfl, rfl, rfl⟩ := he
    rw [List.forall_mem_append, hhead, spanConds_holds hnorm hd hn hf hs (hp.span _ hs) hp.shift x]
    refine and_congr_left fun _ => ?_
    rw [projectedVars_eq]
    have hfv : ∀ b ∈ bs, featVal x (projVar d f p0 b) = (v - p0) ⬝ᵥ b := fun b hb =>
      featVal_projVar hf hp.shift (hp.basis b hb) x
    split_ifs at hab with h1
    · -- one dimension
      cases hab
      have hlist : bs = [bs.get ⟨0, by omega⟩] := by
        apply List.ext_getElem
        · simpa using h1
        · intro i hi1 hi2
          have : i = 0 := by simp at hi2; omega
          subst this
          simp
      have hvals : (((shiftedPts cols rows).map fun p => fun i => p ⬝ᵥ bs.get i).map
            fun p : Fin bs.length → K => p ⟨0, by omega⟩)
          = ((shiftedPts cols rows).map (coords bs)).map (· ⟨0, by omega⟩) := rfl
      rw [show bs.map (projVar d f p0) = [projVar d f p0 (bs.get ⟨0, by omega⟩)] by
        conv_lhs => rw [hlist]
        rfl]
      have hnes : shiftedPts cols rows ≠ [] := by unfold shiftedPts; simpa using hne
      rw [singleDim_holds (by simpa using hnes) (by
        intro k hk
        rw [hvals] at hk
        simp only [List.mem_map] at hk
        obtain ⟨_, ⟨p, hp', rfl⟩, rfl⟩ := hk
        exact hp.line h1 p hp' _ (List.get_mem _ _)) hd, hfv _ (List.get_mem _ _), hvals]
      have hcol : ∀ c, c ∈ List.finRange bs.length ↔ c ∈ [(⟨0, by omega⟩ : Fin bs.length)] := by
        intro c
        simp only [List.mem_finRange, List.mem_singleton, true_iff]
        ext
        have := c.2
        simp only
        omega
      rw [inHull_congr hcol, inHull_single (by simpa using hnes)]
      exact Iff.rfl
    · -- several dimensions
      unfold executeHull approxHull at hab
      change ((L.qhull bs.length ((shiftedPts cols rows).map (coords bs))).bind fun hull => if true then some hull else _).map _ = _ at hab
      cases hqh : L.qhull bs.length ((shiftedPts cols rows).map (coords bs)) with
      | none => rw [hqh] at hab; simp at hab
      | some h0 =>
        rw [hqh] at hab
        simp only [Option.bind_some, if_true, Option.map_some, Option.some.injEq] at hab
        subst hab
        dsimp only
        rw [map_eq_ofFn bs (projVar d f p0), facetConds_holds x (hp.facets h0 hqh), ← hq.facets hqh]
        have : (fun i => featVal x (projVar d f p0 (bs.get i))) = coords bs (v - p0) := by
          funext i
          exact hfv _ (List.get_mem _ _)
        rw [this]

/-- Points that do not differ by more than the tolerance: no basis, no conditions. -/
theorem hullInequalities_none {L : NumLib K C} {d : Nat} {margin : K} {plain : Bool} {colExp : C → NExp K} {cols : List C}
    {rows : List (C → K)} (hcols : cols ≠ [])
    (h : ∀ p ∈ shiftedPts cols rows, ∀ i, |p i| ≤ epsOf K d) :
    hullInequalities L d margin plain colExp cols rows = none := by
  have hb : projBasis L d cols rows = [] := by
    unfold projBasis gramSchmidt
    generalize shiftedPts cols rows = ps at h
    induction ps with
    | nil => rfl
    | cons p ps ih =>
      rw [List.foldl_cons]
      rw [show gsStep (epsOf K d) L.norm ([], []) p = ([], []) by
        unfold gsStep
        dsimp only
        rw [if_neg]
        push Not
        intro i
        have := h p (by simp) i
        simpa [projOn] using this]
      exact ih fun q hq => h q (by simp [hq])
  unfold hullInequalities
  dsimp only
  have hb' : gramSchmidt (epsOf K d) L.norm ((rows.map (rowVec cols)).map (· - ((rows.map (rowVec cols)).head?).getD 0)) [] = [] := hb
  rw [if_neg, if_pos]
  · rw [hb']; rfl
  · rw [hb']
    rintro ⟨_, h2⟩
    simp at h2
    exact hcols h2

end
end Model

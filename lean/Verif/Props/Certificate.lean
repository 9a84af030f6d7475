import Verif.Model.Certificate
import Verif.Props.LinReg
import Mathlib.Tactic.LinearCombination

/-! C135: the certificate of the regression. -/
namespace Props
namespace Certificate
open Spec Model Model.Certificate

section
variable {K : Type} [Field K] [LinearOrder K]
variable {C : Type} [DecidableEq C]

/-- The value of an affine function of the features, as a product with the matrix. -/
theorem mulVec_eq {feats : List C} {rows : List (C → K)} (k : Fin (feats.length + 1) → K) (i : Fin rows.length) :
    (biased feats rows).mulVec k i = (∑ j : Fin feats.length, k j.castSucc * rows[i] feats[j]) + k (Fin.last _) := by
  rw [Matrix.mulVec, dotProduct, Fin.sum_univ_castSucc]
  congr 1
  · refine Finset.sum_congr rfl fun j _ => ?_
    simp [biased, mul_comm]
  · simp [biased]

/-- Full rank: only the zero vector is mapped to zero. -/
theorem rank_iff {m n : Nat} (M : Matrix (Fin m) (Fin n) K) : n ≤ M.rank ↔ ∀ k, M.mulVec k = 0 → k = 0 := by
  have h := LinearMap.finrank_range_add_finrank_ker M.mulVecLin
  have hr : M.rank = Module.finrank K (LinearMap.range M.mulVecLin) := rfl
  rw [← hr, Module.finrank_fin_fun] at h
  have h1 : n ≤ M.rank ↔ LinearMap.ker M.mulVecLin = ⊥ := by
    rw [← Submodule.finrank_eq_zero (R := K)]
    omega
  rw [h1, LinearMap.ker_eq_bot']
  rfl

theorem sum_list (feats : List C) (F : C → K) : (feats.map F).sum = ∑ j : Fin feats.length, F feats[j] := by
  rw [← List.sum_ofFn]
  congr 1
  apply List.ext_getElem <;> simp

/-- An affine function of the columns that is zero on the rows is zero. -/
def Independent (cols : List C) (rows : List (C → K)) : Prop :=
  ∀ a : Affine K C, a.cols = cols → (∀ r ∈ rows, a.value r = 0) → (∀ c ∈ cols, a.coef c = 0) ∧ a.const = 0

theorem independent_iff {feats : List C} (hnd : feats.Nodup) {rows : List (C → K)} :
    feats.length + 1 ≤ independentEquations feats rows ↔ Independent feats rows := by
  unfold independentEquations
  rw [rank_iff]
  constructor
  · intro h a ha hz
    let k : Fin (feats.length + 1) → K := Fin.lastCases a.const fun j : Fin feats.length => a.coef feats[j]
    have hk : (biased feats rows).mulVec k = 0 := by
      funext i
      rw [mulVec_eq]
      simp only [k, Fin.lastCases_castSucc, Fin.lastCases_last]
      have := hz rows[i] (List.getElem_mem _)
      unfold Affine.value at this
      rw [ha, sum_list] at this
      exact this
    have h0 := h k hk
    constructor
    · intro c hc
      obtain ⟨j, hj, rfl⟩ := List.getElem_of_mem hc
      have := congrFun h0 (Fin.castSucc ⟨j, hj⟩)
      simp only [k, Fin.lastCases_castSucc] at this
      exact this
    · have := congrFun h0 (Fin.last _)
      simpa [k] using this
  · intro h k hk
    let a : Affine K C := ⟨feats, fun c => if hc : c ∈ feats then k (Fin.castSucc ⟨feats.idxOf c, List.idxOf_lt_length_of_mem hc⟩) else 0, k (Fin.last _)⟩
    have hcoef : ∀ j : Fin feats.length, a.coef feats[j] = k j.castSucc := by
      intro j
      simp only [a]
      rw [dif_pos (show feats[j] ∈ feats from List.getElem_mem _)]
      congr 2
      apply Fin.ext
      simp [hnd.idxOf_getElem]
    obtain ⟨h1, h2⟩ := h a rfl fun r hr => by
      obtain ⟨i, hi, rfl⟩ := List.getElem_of_mem hr
      have := congrFun hk ⟨i, hi⟩
      rw [mulVec_eq] at this
      unfold Affine.value
      rw [show a.cols = feats from rfl, sum_list]
      simp only [hcoef]
      exact this
    funext j
    refine Fin.lastCases h2 (fun j => ?_) j
    rw [← hcoef]
    exact h1 _ (List.getElem_mem _)

theorem independent_perm {l l' : List C} (h : l.Perm l') {rows : List (C → K)} (hi : Independent l rows) : Independent l' rows := by
  intro a ha hz
  have hv : ∀ r, (Affine.mk l a.coef a.const).value r = a.value r := fun r => by
    unfold Affine.value
    rw [ha]
    exact congrArg (· + a.const) ((h.map fun c => a.coef c * r c).sum_eq)
  obtain ⟨h1, h2⟩ := hi ⟨l, a.coef, a.const⟩ rfl fun r hr => by rw [hv, hz r hr]
  exact ⟨fun c hc => h1 c (h.mem_iff.mpr hc), h2⟩

/-! ### Features -/

/-- The column has different values in the rows. -/
def Varies (rows : List (C → K)) (c : C) : Prop := ∃ r ∈ rows, ∃ r' ∈ rows, r c ≠ r' c

/-- The second column is a multiple of the first, by more than one hundredth. -/
def Multiple (rows : List (C → K)) (c1 c2 : C) : Prop := ∃ k : K, 1 / 100 < |k| ∧ ∀ r ∈ rows, r c2 = k * r c1

/-- A feature: a column that varies and is no multiple of an earlier one that varies. -/
def IsFeature (cols : List C) (rows : List (C → K)) (c : C) : Prop :=
  c ∈ cols ∧ Varies rows c ∧ ∀ c1, [c1, c].Sublist cols → Varies rows c1 → ¬ Multiple rows c1 c

end

section
variable {K : Type} [Field K] [LinearOrder K] [IsStrictOrderedRing K] [FloorRing K]
variable {C : Type} [DecidableEq C]

theorem varies_iff {rows : List (C → K)} {c : C} : (rows ≠ [] ∧ isConst rows c = false) ↔ Varies rows c := by
  constructor
  · rintro ⟨hne, h⟩
    cases rows with
    | nil => exact absurd rfl hne
    | cons r rs =>
      unfold isConst at h
      rw [List.all_eq_false] at h
      obtain ⟨r', hr', h⟩ := h
      exact ⟨r', by simp [hr'], r, by simp, by simpa using h⟩
  · rintro ⟨r, hr, r', hr', h⟩
    refine ⟨fun e => by rw [e] at hr; simp at hr, ?_⟩
    by_contra hc
    have := isConst_spec (Bool.eq_true_of_not_eq_false hc)
    exact h ((this.2 r hr).trans (this.2 r' hr').symm)

theorem varies_ne {rows : List (C → K)} {c : C} (h : Varies rows c) : ∃ r ∈ rows, r c ≠ 0 := by
  obtain ⟨r, hr, r', hr', hne⟩ := h
  by_cases h0 : r c = 0
  · exact ⟨r', hr', fun h => hne (h0.trans h.symm)⟩
  · exact ⟨r, hr, h0⟩

/-- A dependency that is found is a multiple, and the coefficient is the rounded factor. -/
theorem dep_factor {d : Nat} {rows : List (C → K)} {c1 c2 : C} (hprop : proportional rows c1 c2 = true) (hne : linCoeff d rows c2 c1 ≠ 0)
    (hnz : ∃ r ∈ rows, r c1 ≠ 0) : ∃ k : K, 1 / 100 < |k| ∧ (∀ r ∈ rows, r c2 = k * r c1) ∧ linCoeff d rows c2 c1 = rnd d k := by
  have hp : ∀ r ∈ rows, ∀ r' ∈ rows, r c1 * r' c2 = r' c1 * r c2 := fun r hr r' hr' =>
    of_decide_eq_true (List.all_eq_true.mp (List.all_eq_true.mp hprop r hr) r' hr')
  unfold linCoeff at hne ⊢
  rw [prettify_rnd] at hne ⊢
  cases hf : (rows.map fun r => r c2 / (if r c1 = 0 then 1 / 10 ^ 9 else r c1)).find? (fun v => 1 / 100 < |v|) with
  | none =>
    rw [hf, Option.getD_none, rnd_zero] at hne
    exact absurd rfl hne
  | some v =>
    have hv := List.find?_some hf
    obtain ⟨r0, hr0, rfl⟩ := List.mem_map.mp (List.mem_of_find?_eq_some hf)
    rw [decide_eq_true_eq] at hv
    obtain ⟨r1, hr1, h1⟩ := hnz
    have h0 : r0 c1 ≠ 0 := by
      intro h0
      have h2 := hp r0 hr0 r1 hr1
      rw [h0, zero_mul] at h2
      have h3 : r0 c2 = 0 := by
        rcases mul_eq_zero.mp h2.symm with h | h
        · exact absurd h h1
        · exact h
      rw [h3, zero_div, abs_zero] at hv
      have : (0 : K) < 1 / 100 := by positivity
      exact absurd hv (not_lt.mpr this.le)
    rw [if_neg h0] at hv
    refine ⟨r0 c2 / r0 c1, hv, fun r hr => ?_, by rw [Option.getD_some, if_neg h0]⟩
    have := hp r0 hr0 r hr
    field_simp
    rw [mul_comm, this, mul_comm]

/-- A multiple is found. -/
theorem factor_dep {d : Nat} (hd : 2 ≤ d) {rows : List (C → K)} {c1 c2 : C} {k : K} (hk : 1 / 100 < |k|) (h : ∀ r ∈ rows, r c2 = k * r c1)
    (hnz : ∃ r ∈ rows, r c1 ≠ 0) : proportional rows c1 c2 = true ∧ linCoeff d rows c2 c1 ≠ 0 := by
  constructor
  · unfold proportional
    rw [List.all_eq_true]
    intro r hr
    rw [List.all_eq_true]
    intro r' hr'
    rw [decide_eq_true_eq, h r hr, h r' hr']
    ring
  · have hval : ∀ r ∈ rows, r c2 / (if r c1 = 0 then 1 / 10 ^ 9 else r c1) = if r c1 = 0 then 0 else k := by
      intro r hr
      rw [h r hr]
      by_cases h0 : r c1 = 0
      · rw [if_pos h0, if_pos h0, h0, mul_zero, zero_div]
      · rw [if_neg h0, if_neg h0, mul_div_cancel_right₀ _ h0]
    have hfind : (rows.map fun r => r c2 / (if r c1 = 0 then 1 / 10 ^ 9 else r c1)).find? (fun v => 1 / 100 < |v|) = some k := by
      cases hf : (rows.map fun r => r c2 / (if r c1 = 0 then 1 / 10 ^ 9 else r c1)).find? (fun v => 1 / 100 < |v|) with
      | none =>
        obtain ⟨r, hr, h0⟩ := hnz
        have := List.find?_eq_none.mp hf _ (List.mem_map_of_mem hr)
        rw [hval r hr, if_neg h0] at this
        simp only [decide_eq_true_eq] at this
        exact absurd hk this
      | some v =>
        have hv := List.find?_some hf
        obtain ⟨r0, hr0, rfl⟩ := List.mem_map.mp (List.mem_of_find?_eq_some hf)
        rw [hval r0 hr0] at hv ⊢
        by_cases h0 : r0 c1 = 0
        · rw [if_pos h0, abs_zero, decide_eq_true_eq] at hv
          have : (0 : K) < 1 / 100 := by positivity
          exact absurd hv (not_lt.mpr this.le)
        · rw [if_neg h0]
    unfold linCoeff
    rw [prettify_rnd, hfind, Option.getD_some]
    intro h0
    have he := rnd_err d k
    rw [h0, zero_sub, abs_neg] at he
    have hd' : epsOf K d ≤ 1 / 100 := by
      unfold epsOf
      have : (100 : K) ≤ 10 ^ d := by
        calc (100 : K) = 10 ^ 2 := by norm_num
          _ ≤ 10 ^ d := pow_le_pow_right₀ (by norm_num) hd
      exact one_div_le_one_div_of_le (by norm_num) this
    have hpos : (0 : K) < 1 / 100 := by positivity
    linarith

theorem mem_dependent {d : Nat} {rows : List (C → K)} {cols : List C} {c : C} :
    c ∈ dependentCols d rows cols ↔ ∃ c1, [c1, c].Sublist cols ∧ proportional rows c1 c = true ∧ linCoeff d rows c c1 ≠ 0 := by
  unfold dependentCols
  rw [List.mem_filterMap]
  constructor
  · rintro ⟨p, hp, hpc⟩
    obtain ⟨hlen, hsub⟩ := Py.mem_combs.mp hp
    match p, hlen, hsub, hpc with
    | [c1, c2], _, hsub, hpc =>
      dsimp only at hpc
      split_ifs at hpc with hcond
      simp only [Option.some.injEq] at hpc
      subst hpc
      exact ⟨c1, hsub, hcond⟩
  · rintro ⟨c1, hsub, hcond⟩
    exact ⟨[c1, c], Py.mem_combs.mpr ⟨rfl, hsub⟩, by simp [hcond]⟩

theorem sub_nonConstant {rows : List (C → K)} {cols : List C} {c1 c2 : C} :
    [c1, c2].Sublist (nonConstant rows cols) ↔ [c1, c2].Sublist cols ∧ isConst rows c1 = false ∧ isConst rows c2 = false := by
  constructor
  · intro h
    refine ⟨h.trans List.filter_sublist, ?_, ?_⟩
    · simpa using (List.mem_filter.mp (h.subset (by simp : c1 ∈ [c1, c2]))).2
    · simpa using (List.mem_filter.mp (h.subset (by simp : c2 ∈ [c1, c2]))).2
  · rintro ⟨h, h1, h2⟩
    have := h.filter fun c => !isConst rows c
    unfold nonConstant
    simpa [h1, h2] using this

/-- The columns the regression uses are the features. -/
theorem mem_feats {d : Nat} (hd : 2 ≤ d) {rows : List (C → K)} (hne : rows ≠ []) {cols : List C} {c : C} :
    c ∈ regressionCols d rows (nonConstant rows cols) ↔ IsFeature cols rows c := by
  unfold regressionCols
  rw [List.mem_filter, decide_eq_true_eq, mem_dependent]
  have hc : c ∈ nonConstant rows cols ↔ c ∈ cols ∧ Varies rows c := by
    unfold nonConstant
    rw [List.mem_filter, ← varies_iff]
    simp [hne]
  rw [hc]
  constructor
  · rintro ⟨⟨h1, h2⟩, h3⟩
    refine ⟨h1, h2, fun c1 hsub hv hm => h3 ?_⟩
    obtain ⟨k, hk, hk'⟩ := hm
    exact ⟨c1, sub_nonConstant.mpr ⟨hsub, (varies_iff.mpr hv).2, (varies_iff.mpr h2).2⟩, factor_dep hd hk hk' (varies_ne hv)⟩
  · rintro ⟨h1, h2, h3⟩
    refine ⟨⟨h1, h2⟩, ?_⟩
    rintro ⟨c1, hsub, hp, hl⟩
    obtain ⟨hs, hc1, _⟩ := sub_nonConstant.mp hsub
    have hv : Varies rows c1 := varies_iff.mp ⟨hne, hc1⟩
    obtain ⟨k, hk, hk', _⟩ := dep_factor hp hl (varies_ne hv)
    exact h3 c1 hs hv ⟨k, hk, hk'⟩

/-! ### The rows after removing duplicates -/

theorem rows_all {pc nc : List C} {obs : List ((C → K) × (C → K))} {P : (C → K) → Prop} (hP : ∀ r r', (∀ c ∈ pc, r c = r' c) → P r → P r') :
    (∀ r ∈ (regData pc nc obs).map Prod.fst, P r) ↔ ∀ r ∈ obs.map Prod.fst, P r := by
  simp only [List.forall_mem_map]
  constructor
  · intro h o ho
    obtain ⟨o', ho', h1, _⟩ := regData_rep (pc := pc) (nc := nc) ho
    exact hP _ _ h1 (h o' ho')
  · exact fun h o ho => h o (dedupBy_mem ho)

theorem rows_any {pc nc : List C} {obs : List ((C → K) × (C → K))} {P : (C → K) → Prop} (hP : ∀ r r', (∀ c ∈ pc, r c = r' c) → P r → P r') :
    (∃ r ∈ (regData pc nc obs).map Prod.fst, P r) ↔ ∃ r ∈ obs.map Prod.fst, P r := by
  have := rows_all (pc := pc) (nc := nc) (obs := obs) (P := fun r => ¬ P r) fun r r' h hn hp => hn (hP r' r (fun c hc => (h c hc).symm) hp)
  constructor
  · rintro ⟨r, hr, h⟩
    by_contra hc
    push Not at hc
    exact this.mpr hc r hr h
  · rintro ⟨r, hr, h⟩
    by_contra hc
    push Not at hc
    exact this.mp hc r hr h

theorem rows_varies {pc nc : List C} {obs : List ((C → K) × (C → K))} {c : C} (hc : c ∈ pc) :
    Varies ((regData pc nc obs).map Prod.fst) c ↔ Varies (obs.map Prod.fst) c := by
  unfold Varies
  rw [rows_any (P := fun r => ∃ r' ∈ (regData pc nc obs).map Prod.fst, r c ≠ r' c) fun r r' h ⟨s, hs, hne⟩ => ⟨s, hs, by rwa [← h c hc]⟩]
  refine exists_congr fun r => and_congr_right fun _ => ?_
  exact rows_any (P := fun r' => r c ≠ r' c) fun s s' h hne => by rwa [← h c hc]

theorem rows_multiple {pc nc : List C} {obs : List ((C → K) × (C → K))} {c1 c2 : C} (h1 : c1 ∈ pc) (h2 : c2 ∈ pc) :
    Multiple ((regData pc nc obs).map Prod.fst) c1 c2 ↔ Multiple (obs.map Prod.fst) c1 c2 := by
  unfold Multiple
  refine exists_congr fun k => and_congr_right fun _ => ?_
  exact rows_all (P := fun r => r c2 = k * r c1) fun r r' h e => by rw [← h c1 h1, ← h c2 h2, e]

theorem rows_feature {pc nc : List C} {obs : List ((C → K) × (C → K))} {c : C} :
    IsFeature pc ((regData pc nc obs).map Prod.fst) c ↔ IsFeature pc (obs.map Prod.fst) c := by
  unfold IsFeature
  refine and_congr_right fun hc => ?_
  rw [rows_varies hc]
  refine and_congr_right fun _ => forall_congr' fun c1 => ?_
  refine forall_congr' fun hsub => ?_
  have hc1 : c1 ∈ pc := hsub.subset (by simp)
  rw [rows_varies hc1, rows_multiple hc1 hc]

theorem rows_independent {pc nc feats : List C} (hsub : ∀ c ∈ feats, c ∈ pc) {obs : List ((C → K) × (C → K))} :
    Independent feats ((regData pc nc obs).map Prod.fst) ↔ Independent feats (obs.map Prod.fst) := by
  unfold Independent
  refine forall_congr' fun a => forall_congr' fun ha => ?_
  rw [rows_all (P := fun r => a.value r = 0) fun r r' h e => ?_]
  rw [← e]
  unfold Affine.value
  congr 2
  refine List.map_congr_left fun c hc => ?_
  rw [h c (hsub c (ha ▸ hc))]

theorem rows_nonempty {pc nc : List C} {obs : List ((C → K) × (C → K))} (h : obs ≠ []) : (regData pc nc obs).map Prod.fst ≠ [] := by
  obtain ⟨o, obs', rfl⟩ := List.exists_cons_of_ne_nil h
  obtain ⟨o', h1, _⟩ := regData_rep (pc := pc) (nc := nc) (List.mem_cons_self (a := o) (l := obs'))
  intro e
  rw [List.map_eq_nil_iff] at e
  rw [e] at h1
  simp at h1

theorem dedupBy_length {α β : Type} [DecidableEq β] (key : α → β) (l : List α) : (dedupBy key l).length ≤ l.length := by
  induction l with
  | nil => rfl
  | cons a l ih =>
    unfold dedupBy
    simp only [List.length_cons]
    have := List.length_filter_le (fun b => decide (key b ≠ key a)) (dedupBy key l)
    omega

/-! ### The theorems -/

theorem all_cases {R : RegLib K C} {d : Nat} {unsafeOk : Bool} {colExp : C → NExp K} {fname : C → String} {relevant : Option (List C)} {prevCols nextCols : List C}
    {obs : List ((C → K) × (C → K))} {effs : List (NEffect K)} {conds : Option (List (NCond K))} {b : Bool}
    (h : constructAll R d unsafeOk colExp fname relevant prevCols nextCols obs = .ok (effs, conds, b)) :
    constructEffects R d unsafeOk colExp fname relevant prevCols nextCols obs = .ok effs ∧
    (b = true ↔ relevant ≠ some [] ∧ obs ≠ [] ∧ (regData (usedCols relevant prevCols) (usedCols relevant nextCols) obs).length ≠ 1 ∧
      legalEquations (regFeats d (usedCols relevant prevCols) (usedCols relevant nextCols) obs)
        ((regData (usedCols relevant prevCols) (usedCols relevant nextCols) obs).map Prod.fst) = true) ∧
    (b = true → conds.getD [] = extraConds d colExp ((regData (usedCols relevant prevCols) (usedCols relevant nextCols) obs).map Prod.fst) (usedCols relevant prevCols)) ∧
    (b = false → conds = none) := by
  unfold constructAll at h
  dsimp only at h
  cases he : constructEffects R d unsafeOk colExp fname relevant prevCols nextCols obs with
  | error e => rw [he] at h; cases h
  | ok effs' =>
    rw [he] at h
    dsimp only at h
    split_ifs at h with h1 h2 h3
    · cases h
      refine ⟨rfl, iff_of_false (by simp) ?_, by simp, fun _ => rfl⟩
      rintro ⟨g1, g2, g3, _⟩
      rcases h1 with h | h | h <;> contradiction
    · cases h
      push Not at h1
      exact ⟨rfl, iff_of_true rfl ⟨h1.1, h1.2.1, h1.2.2, h2⟩, fun _ => h3.symm, by simp⟩
    · cases h
      push Not at h1
      exact ⟨rfl, iff_of_true rfl ⟨h1.1, h1.2.1, h1.2.2, h2⟩, fun _ => rfl, by simp⟩
    · cases h
      refine ⟨rfl, iff_of_false (by simp) fun g => h2 g.2.2.2, by simp, fun _ => rfl⟩

/-- **C135, flag.** The flag `learned_perfectly` is true exactly if there are features and no affine function of the features, except zero, is zero in all observations. -/
theorem C135_flag {R : RegLib K C} {d : Nat} (hd : 2 ≤ d) {unsafeOk : Bool} {colExp : C → NExp K} {fname : C → String} {relevant : Option (List C)}
    {prevCols nextCols : List C} (hnd : prevCols.Nodup) {obs : List ((C → K) × (C → K))} {effs : List (NEffect K)} {conds : Option (List (NCond K))} {b : Bool}
    (h : constructAll R d unsafeOk colExp fname relevant prevCols nextCols obs = .ok (effs, conds, b)) :
    b = true ↔ ∃ feats : List C, feats ≠ [] ∧ feats.Nodup ∧ (∀ c, c ∈ feats ↔ IsFeature (usedCols relevant prevCols) (obs.map Prod.fst) c) ∧
      Independent feats (obs.map Prod.fst) := by
  rw [(all_cases h).2.1]
  have hpn : (usedCols relevant prevCols).Nodup := keptCols_nodup hnd
  have hempty : relevant = some [] → usedCols relevant prevCols = [] := by rintro rfl; simp [usedCols]
  revert hpn hempty
  generalize usedCols relevant prevCols = pc
  generalize usedCols relevant nextCols = nc
  intro hpn hempty
  have hfe : obs ≠ [] → ∀ c, c ∈ regFeats d pc nc obs ↔ IsFeature pc (obs.map Prod.fst) c := fun hobs c => by
    rw [← rows_feature (nc := nc)]
    exact mem_feats hd (rows_nonempty hobs)
  unfold legalEquations
  rw [decide_eq_true_eq, independent_iff (regFeats_nodup hpn), List.length_map]
  constructor
  · rintro ⟨h1, h2, h3, h4, _, h6⟩
    exact ⟨_, h4, regFeats_nodup hpn, hfe h2, (rows_independent fun c hc => regFeats_mem hc).mp h6⟩
  · rintro ⟨feats, hne, hn, hf, hi⟩
    obtain ⟨c, hc⟩ := List.exists_mem_of_ne_nil _ hne
    obtain ⟨hcp, hv, _⟩ := (hf c).mp hc
    have hobs : obs ≠ [] := by
      rintro rfl
      obtain ⟨r, hr, _⟩ := hv
      simp at hr
    have hlen : (regData pc nc obs).length ≠ 1 := by
      intro h1
      obtain ⟨o, ho⟩ := List.length_eq_one_iff.mp h1
      obtain ⟨r, hr, r', hr', hne⟩ := (rows_varies (nc := nc) hcp).mpr hv
      rw [ho] at hr hr'
      simp only [List.map_cons, List.map_nil, List.mem_singleton] at hr hr'
      rw [hr, hr'] at hne
      exact hne rfl
    have hperm : feats.Perm (regFeats d pc nc obs) := (List.perm_ext_iff_of_nodup hn (regFeats_nodup hpn)).mpr fun c => by rw [hf, hfe hobs]
    refine ⟨fun hr => ?_, hobs, hlen, fun he => ?_, hlen, (rows_independent fun c hc => regFeats_mem hc).mpr (independent_perm hperm hi)⟩
    · rw [hempty hr] at hcp
      simp at hcp
    · rw [he, List.perm_nil] at hperm
      exact hne hperm

/-- **C135, number of observations.** The flag is only true if there are more observations than features. -/
theorem C135_observations {R : RegLib K C} {d : Nat} (hd : 2 ≤ d) {unsafeOk : Bool} {colExp : C → NExp K} {fname : C → String} {relevant : Option (List C)}
    {prevCols nextCols : List C} (hnd : prevCols.Nodup) {obs : List ((C → K) × (C → K))} {effs : List (NEffect K)} {conds : Option (List (NCond K))}
    (h : constructAll R d unsafeOk colExp fname relevant prevCols nextCols obs = .ok (effs, conds, true)) {feats : List C} (hn : feats.Nodup)
    (hf : ∀ c ∈ feats, IsFeature (usedCols relevant prevCols) (obs.map Prod.fst) c) : feats.length < obs.length := by
  obtain ⟨_, hobs, _, hl⟩ := (all_cases h).2.1.mp rfl
  unfold legalEquations at hl
  rw [decide_eq_true_eq] at hl
  have h1 := hl.2.2.trans (Matrix.rank_le_height _)
  rw [List.length_map] at h1
  have h2 := dedupBy_length (fun o : (C → K) × (C → K) => ((usedCols relevant prevCols).map o.1, (usedCols relevant nextCols).map o.2)) obs
  have h3 : feats.length ≤ (regFeats d (usedCols relevant prevCols) (usedCols relevant nextCols) obs).length :=
    (List.subperm_of_subset hn fun c hc => (mem_feats hd (rows_nonempty hobs)).mpr (rows_feature.mpr (hf c hc))).length_le
  unfold regData at h1
  omega

/-- The factors between columns have at most `d` decimal digits. -/
def FactorsOnGrid (d : Nat) (cols : List C) (rows : List (C → K)) : Prop :=
  ∀ c1 ∈ cols, ∀ c2 ∈ cols, Varies rows c1 → ∀ k : K, (∀ r ∈ rows, r c2 = k * r c1) → OnGrid d k

/-- What the conditions say about the columns. -/
theorem conds_cols {d : Nat} {colExp : C → NExp K} {rows : List (C → K)} {cols : List C} (x : String → K) :
    (∀ q ∈ extraConds d colExp rows cols, q.holds x) ↔
      (∀ c ∈ cols, isConst rows c = true → colVal colExp x c = ((rows.head?).map (· c)).getD 0) ∧
      ∀ c1 c2, [c1, c2].Sublist (nonConstant rows cols) → proportional rows c1 c2 = true → linCoeff d rows c2 c1 ≠ 0 →
        colVal colExp x c2 = linCoeff d rows c2 c1 * colVal colExp x c1 := by
  unfold extraConds
  rw [List.forall_mem_append, and_comm]
  refine and_congr ?_ ?_
  · unfold constConds
    rw [List.forall_mem_map]
    constructor
    · intro h c hc hk
      exact h c (List.mem_filter.mpr ⟨hc, hk⟩)
    · intro h c hc
      exact h c (List.mem_filter.mp hc).1 (List.mem_filter.mp hc).2
  · unfold depConds
    constructor
    · intro h c1 c2 hsub hp hl
      refine h ⟨.eq, colExp c2, .mul (.num (linCoeff d rows c2 c1)) (colExp c1)⟩ ?_
      exact List.mem_filterMap.mpr ⟨[c1, c2], Py.mem_combs.mpr ⟨rfl, hsub⟩, by simp [hp, hl]⟩
    · intro h q hq
      obtain ⟨p, hp, hpc⟩ := List.mem_filterMap.mp hq
      obtain ⟨hlen, hsub⟩ := Py.mem_combs.mp hp
      match p, hlen, hsub, hpc with
      | [c1, c2], _, hsub, hpc =>
        dsimp only at hpc
        split_ifs at hpc with hcond
        simp only [Option.some.injEq] at hpc
        subst hpc
        exact h c1 c2 hsub hcond.1 hcond.2

/-- **C135, conditions.** If the factors between columns have at most as many digits as are printed, the returned conditions are true in every observed state. -/
theorem C135_conditions {R : RegLib K C} {d : Nat} {unsafeOk : Bool} {colExp : C → NExp K} {fname : C → String} {relevant : Option (List C)}
    {prevCols nextCols : List C} {obs : List ((C → K) × (C → K))} {effs : List (NEffect K)} {conds : Option (List (NCond K))} {b : Bool}
    (h : constructAll R d unsafeOk colExp fname relevant prevCols nextCols obs = .ok (effs, conds, b))
    (hg : FactorsOnGrid d (usedCols relevant prevCols) (obs.map Prod.fst))
    {o : (C → K) × (C → K)} (ho : o ∈ obs) {x : String → K} (hx : ∀ c ∈ usedCols relevant prevCols, colVal colExp x c = o.1 c) :
    ∀ q ∈ conds.getD [], q.holds x := by
  obtain ⟨_, hb, hc, hc'⟩ := all_cases h
  cases b with
  | false => rw [hc' rfl]; simp
  | true =>
    rw [hc rfl]
    have hobs : obs ≠ [] := (hb.mp rfl).2.1
    revert hg hx
    generalize usedCols relevant prevCols = pc
    generalize usedCols relevant nextCols = nc
    intro hg hx
    obtain ⟨o', ho', he, _⟩ := regData_rep (pc := pc) (nc := nc) ho
    have hr : o'.1 ∈ (regData pc nc obs).map Prod.fst := List.mem_map_of_mem ho'
    rw [conds_cols]
    constructor
    · intro c hcp hk
      rw [hx c hcp, ← he c hcp]
      exact (isConst_spec hk).2 _ hr
    · intro c1 c2 hsub hp hl
      obtain ⟨hs, h1, h2⟩ := sub_nonConstant.mp hsub
      have m1 : c1 ∈ pc := hs.subset (by simp)
      have m2 : c2 ∈ pc := hs.subset (by simp)
      have hv : Varies ((regData pc nc obs).map Prod.fst) c1 := varies_iff.mp ⟨rows_nonempty hobs, h1⟩
      obtain ⟨k, _, hk, hlin⟩ := dep_factor hp hl (varies_ne hv)
      have hgrid := hg c1 m1 c2 m2 ((rows_varies m1).mp hv) k
        ((rows_all (P := fun r => r c2 = k * r c1) fun r r' h e => by rw [← h c1 m1, ← h c2 m2, e]).mp hk)
      rw [hlin, rnd_of_onGrid hgrid, hx c1 m1, hx c2 m2, ← he c1 m1, ← he c2 m2]
      exact hk _ hr

/-- Where the conditions are true, every column is, as in the rows, a constant or a multiple of a feature. -/
theorem cover {d : Nat} {pc nc : List C} (hpn : pc.Nodup) {obs : List ((C → K) × (C → K))} (hobs : obs ≠ []) (hg : FactorsOnGrid d pc (obs.map Prod.fst))
    {colExp : C → NExp K} {x : String → K} (hx : ∀ q ∈ extraConds d colExp ((regData pc nc obs).map Prod.fst) pc, q.holds x) {c : C} (hc : c ∈ pc) :
    ∃ (k : C → K) (b : K), ∀ r ∈ colVal colExp x :: (regData pc nc obs).map Prod.fst, r c = ((regFeats d pc nc obs).map fun g => k g * r g).sum + b := by
  set rows := (regData pc nc obs).map Prod.fst with hrows
  have hne : rows ≠ [] := rows_nonempty hobs
  obtain ⟨hk, hdep⟩ := (conds_cols x).mp hx
  by_cases hconst : isConst rows c = true
  · refine ⟨fun _ => 0, ((rows.head?).map (· c)).getD 0, fun r hr => ?_⟩
    have h0 : ((regFeats d pc nc obs).map fun g => (0 : K) * r g).sum = 0 := by simp
    rw [h0, zero_add]
    rcases List.mem_cons.mp hr with rfl | hr
    · exact hk c hc hconst
    · exact (isConst_spec hconst).2 r hr
  · have hcov : ∀ n c, c ∈ nonConstant rows pc → (nonConstant rows pc).idxOf c = n →
        ∃ g ∈ regFeats d pc nc obs, ∃ k : K, ∀ r ∈ colVal colExp x :: rows, r c = k * r g := by
      intro n
      induction n using Nat.strong_induction_on with
      | _ n ih =>
        intro c hc hn
        by_cases hd : c ∈ dependentCols d rows (nonConstant rows pc)
        · obtain ⟨c1, hsub, hp, hl⟩ := mem_dependent.mp hd
          have hlt := idxOf_lt_of_sublist (hpn.filter _) hsub
          obtain ⟨g, hgm, k, hk⟩ := ih _ (hn ▸ hlt) c1 (hsub.subset (by simp)) rfl
          obtain ⟨hs, h1, h2⟩ := sub_nonConstant.mp hsub
          have m1 : c1 ∈ pc := hs.subset (by simp)
          have m2 : c ∈ pc := hs.subset (by simp)
          have hv : Varies rows c1 := varies_iff.mp ⟨hne, h1⟩
          obtain ⟨m, _, hm, hlin⟩ := dep_factor hp hl (varies_ne hv)
          have hgrid := hg c1 m1 c m2 ((rows_varies m1).mp hv) m
            ((rows_all (P := fun r => r c = m * r c1) fun r r' h e => by rw [← h c1 m1, ← h c m2, e]).mp hm)
          refine ⟨g, hgm, m * k, fun r hr => ?_⟩
          rw [mul_assoc, ← hk r hr]
          rcases List.mem_cons.mp hr with rfl | hr
          · have := hdep c1 c hsub hp hl
            rwa [hlin, rnd_of_onGrid hgrid] at this
          · exact hm r hr
        · exact ⟨c, List.mem_filter.mpr ⟨hc, by simpa using hd⟩, 1, fun r _ => by simp⟩
    obtain ⟨g, hgm, k, hk⟩ := hcov _ c (List.mem_filter.mpr ⟨hc, by simpa using hconst⟩) rfl
    refine ⟨fun g' => if g' = g then k else 0, 0, fun r hr => ?_⟩
    rw [sum_single (regFeats_nodup hpn) hgm, add_zero]
    exact hk r hr

/-- **C135, identification.** If the flag is true, then in every state in which the returned conditions are true (and not only between the observed states) any two affine
functions of the used columns that agree in all observations agree. -/
theorem C135_unique {R : RegLib K C} {d : Nat} {unsafeOk : Bool} {colExp : C → NExp K} {fname : C → String} {relevant : Option (List C)}
    {prevCols nextCols : List C} (hnd : prevCols.Nodup) {obs : List ((C → K) × (C → K))} {effs : List (NEffect K)} {conds : Option (List (NCond K))}
    (h : constructAll R d unsafeOk colExp fname relevant prevCols nextCols obs = .ok (effs, conds, true))
    (hg : FactorsOnGrid d (usedCols relevant prevCols) (obs.map Prod.fst)) {a a' : Affine K C}
    (ha : ∀ c ∈ a.cols, c ∈ usedCols relevant prevCols) (ha' : ∀ c ∈ a'.cols, c ∈ usedCols relevant prevCols)
    (heq : ∀ o ∈ obs, a.value o.1 = a'.value o.1) {x : String → K} (hx : ∀ q ∈ conds.getD [], q.holds x) :
    a.value (colVal colExp x) = a'.value (colVal colExp x) := by
  obtain ⟨_, hb, hc, _⟩ := all_cases h
  obtain ⟨_, hobs, _, hl⟩ := hb.mp rfl
  rw [hc rfl] at hx
  have hpn : (usedCols relevant prevCols).Nodup := keptCols_nodup hnd
  revert hg ha ha' hx hpn hl
  generalize usedCols relevant prevCols = pc
  generalize usedCols relevant nextCols = nc
  intro hg ha ha' hx hl hpn
  unfold legalEquations at hl
  rw [decide_eq_true_eq] at hl
  have hi := (independent_iff (regFeats_nodup hpn)).mp hl.2.2
  obtain ⟨k1, b1, h1⟩ := affine_rebase (regFeats_nodup (d := d) (nc := nc) (obs := obs) hpn) a.cols a.coef (fun c hc => cover hpn hobs hg hx (ha c hc)) a.const
  obtain ⟨k2, b2, h2⟩ := affine_rebase (regFeats_nodup (d := d) (nc := nc) (obs := obs) hpn) a'.cols a'.coef (fun c hc => cover hpn hobs hg hx (ha' c hc)) a'.const
  have hdiff : ∀ r : C → K, ((regFeats d pc nc obs).map fun g => (k1 g - k2 g) * r g).sum =
      ((regFeats d pc nc obs).map fun g => k1 g * r g).sum - ((regFeats d pc nc obs).map fun g => k2 g * r g).sum := by
    intro r
    generalize regFeats d pc nc obs = l
    induction l with
    | nil => simp
    | cons g l ih => simp only [List.map_cons, List.sum_cons, ih]; ring
  obtain ⟨z1, z2⟩ := hi ⟨regFeats d pc nc obs, fun g => k1 g - k2 g, b1 - b2⟩ rfl fun r hr => by
    obtain ⟨o, ho, rfl⟩ := List.mem_map.mp hr
    have e1 := h1 o.1 (by simp [hr])
    have e2 := h2 o.1 (by simp [hr])
    have e := heq o (dedupBy_mem ho)
    unfold Affine.value at e ⊢
    dsimp only
    rw [hdiff]
    rw [e1, e2] at e
    linear_combination e
  have e1 := h1 (colVal colExp x) (by simp)
  have e2 := h2 (colVal colExp x) (by simp)
  unfold Affine.value
  rw [e1, e2]
  have hs : ((regFeats d pc nc obs).map fun g => (k1 g - k2 g) * colVal colExp x g).sum = 0 := by
    apply List.sum_eq_zero
    intro y hy
    obtain ⟨g, hgm, rfl⟩ := List.mem_map.mp hy
    have := z1 g hgm
    dsimp only at this
    rw [this, zero_mul]
  rw [hdiff] at hs
  dsimp only at z2
  linear_combination hs + z2

/-- A list of coefficients for columns is an affine function of the columns. -/
theorem fitted_affine {cs : List K} {fs cols : List C} {b : K} (hnd : cols.Nodup) (h : ∀ g ∈ fs, g ∈ cols) :
    ∃ a : Affine K C, a.cols = cols ∧ ∀ v : C → K, a.value v = affList cs fs b v := by
  induction fs generalizing cs with
  | nil =>
    refine ⟨⟨cols, fun _ => 0, b⟩, rfl, fun v => ?_⟩
    simp [Affine.value, affList]
  | cons g fs ih =>
    cases cs with
    | nil =>
      refine ⟨⟨cols, fun _ => 0, b⟩, rfl, fun v => ?_⟩
      simp [Affine.value, affList]
    | cons k cs =>
      obtain ⟨a, ha, hv⟩ := ih (cs := cs) fun g hg => h g (by simp [hg])
      refine ⟨⟨cols, fun c => (if c = g then k else 0) + a.coef c, a.const⟩, rfl, fun v => ?_⟩
      have h1 := hv v
      have h2 := sum_single hnd (h g (by simp)) k v
      unfold Affine.value at h1 ⊢
      unfold affList at h1 ⊢
      rw [ha] at h1
      have h3 : (cols.map fun c => ((if c = g then k else 0) + a.coef c) * v c).sum =
          (cols.map fun c => (if c = g then k else 0) * v c).sum + (cols.map fun c => a.coef c * v c).sum := by
        rw [← List.sum_map_add]
        congr 1
        exact List.map_congr_left fun c _ => by ring
      dsimp only
      rw [h3, h2, List.zipWith_cons_cons, List.sum_cons, add_assoc, h1, add_assoc]

/-- **C135, exact effects.** If the flag is true, the learned effects are exact in every state in which the returned conditions are true: they give each fluent the value of
any affine function that gives all observed values. -/
theorem C135_exact {R : RegLib K C} (hR : RegContract R) {d : Nat} (hd : d ≤ 10) {colExp : C → NExp K} {fname : C → String}
    {relevant : Option (List C)} {prevCols nextCols : List C} {obs : List ((C → K) × (C → K))} (hs : ColumnSetup colExp fname prevCols nextCols)
    (hp : CoefficientsPrintable R d (usedCols relevant prevCols) (usedCols relevant nextCols) obs)
    {effs : List (NEffect K)} {conds : Option (List (NCond K))}
    (h : constructAll R d false colExp fname relevant prevCols nextCols obs = .ok (effs, conds, true))
    (hg : FactorsOnGrid d (usedCols relevant prevCols) (obs.map Prod.fst))
    (hsd : ∀ e ∈ effs, e.op ≠ .scaleDown) {f : C} (hf : f ∈ usedCols relevant nextCols)
    (truth : Affine K C) (ht : ∀ c ∈ truth.cols, c ∈ usedCols relevant prevCols) (hobsT : ∀ o ∈ obs, o.2 f = truth.value o.1)
    {x : String → K} (hx : ∀ q ∈ conds.getD [], q.holds x) :
    applyNumeric effs x (fname f) = truth.value (colVal colExp x) := by
  obtain ⟨he, hb, _, _⟩ := all_cases h
  obtain ⟨hrel, hobs, _, _⟩ := hb.mp rfl
  obtain ⟨G, hG', hG⟩ := effects_fit hR hd hs hp hrel hobs he hsd
  have hnm : ∀ c ∈ keptCols relevant nextCols, c ∈ nextCols := fun c hc => keptCols_mem hc
  rw [hG', apply_filterMap (keptCols_nodup hs.nextNodup) (fun f hf => (hG f hf).target)
    (fun a ha b hb => hs.nameInj a (hnm a ha) b (hnm b hb)) hf]
  obtain ⟨cs, fs, b, hfs, hdata, hval⟩ := (hG f hf).fits
  rw [hval x]
  have key := fitted_affine (cs := cs) (fs := fs) (b := b) (cols := keptCols relevant prevCols) (keptCols_nodup hs.prevNodup) hfs
  obtain ⟨a, ha, hav⟩ := key
  rw [← hav]
  refine C135_unique hs.prevNodup h hg (by rw [ha]; exact fun c hc => hc) ht (fun o ho => ?_) hx
  rw [hav, ← hobsT o ho]
  exact (hdata (o.1, o.2 f) (List.mem_map.mpr ⟨o, ho, rfl⟩)).symm

/-- The result, from the effects and the rank. -/
theorem all_ok {R : RegLib K C} {d : Nat} {unsafeOk : Bool} {colExp : C → NExp K} {fname : C → String} {relevant : Option (List C)} {prevCols nextCols : List C}
    {obs : List ((C → K) × (C → K))} {effs : List (NEffect K)} (he : constructEffects R d unsafeOk colExp fname relevant prevCols nextCols obs = .ok effs)
    (h1 : relevant ≠ some []) (h2 : obs ≠ []) (h3 : (regData (keptCols relevant prevCols) (keptCols relevant nextCols) obs).length ≠ 1)
    {feats : List C} (hf : regFeats d (keptCols relevant prevCols) (keptCols relevant nextCols) obs = feats) (hne : feats ≠ []) (hnd : feats.Nodup)
    {rows : List (C → K)} (hr : (regData (keptCols relevant prevCols) (keptCols relevant nextCols) obs).map Prod.fst = rows) (hi : Independent feats rows)
    {conds : List (NCond K)} (hc : extraConds d colExp rows (keptCols relevant prevCols) = conds) :
    constructAll R d unsafeOk colExp fname relevant prevCols nextCols obs = .ok (effs, if conds = [] then none else some conds, true) := by
  unfold constructAll
  dsimp only
  rw [he, hr, hf, hc]
  dsimp only
  have hl : legalEquations feats rows = true := by
    unfold legalEquations
    rw [decide_eq_true_eq]
    refine ⟨hne, ?_, (independent_iff hnd).mpr hi⟩
    rw [← hr, List.length_map]
    exact h3
  rw [if_neg (by simp [h1, h2, h3]), if_pos hl]

end

/-! ### Concrete cases and limits -/
namespace Case

/-- Observations of `f' = f + g - 1`, `g' = g`: three independent observations of two features. -/
theorem sum_independent : Independent [true, false] (sumObs.map Prod.fst) := by
  intro a ha hz
  have h1 := hz _ (show (fun c => if c then 0 else 1 : Bool → ℚ) ∈ sumObs.map Prod.fst by simp [sumObs])
  have h2 := hz _ (show (fun c => if c then 1 else 1 : Bool → ℚ) ∈ sumObs.map Prod.fst by simp [sumObs])
  have h3 := hz _ (show (fun c => if c then 0 else 3 : Bool → ℚ) ∈ sumObs.map Prod.fst by simp [sumObs])
  unfold Affine.value at h1 h2 h3
  rw [ha] at h1 h2 h3
  simp at h1 h2 h3
  refine ⟨fun c _ => ?_, by linarith⟩
  cases c <;> linarith

theorem sum_all : constructAll (guessLib [([true, false], [1, 1], -1), ([true, false], [0, 1], 0)]) 4 false triExp triName none
    [true, false] [true, false] sumObs = .ok ([⟨.increase, "(f)", .add (.var "(g)") (.num (-1))⟩], none, true) := by
  have h := all_ok (conds := []) sum_run2 (by simp) (by decide +kernel) (by decide +kernel) sum_feats (by simp) (by decide) rfl
    (by
      intro a ha hz
      refine sum_independent a ha fun r hr => ?_
      refine (rows_all (pc := [true, false]) (nc := [true, false]) (P := fun r => a.value r = 0) fun r r' h e => ?_).mp hz r hr
      rw [← e]
      unfold Affine.value
      rw [ha]
      simp [h true (by simp), h false (by simp)])
    (by decide +kernel)
  exact h

theorem sum_grid : FactorsOnGrid 4 (usedCols none [true, false]) (sumObs.map Prod.fst) := by
  intro c1 _ c2 _ hv k hk
  have h1 := hk _ (show (fun c => if c then 0 else 1 : Bool → ℚ) ∈ sumObs.map Prod.fst by simp [sumObs])
  have h2 := hk _ (show (fun c => if c then 1 else 1 : Bool → ℚ) ∈ sumObs.map Prod.fst by simp [sumObs])
  have h3 := hk _ (show (fun c => if c then 0 else 3 : Bool → ℚ) ∈ sumObs.map Prod.fst by simp [sumObs])
  have e : k = ((1 : Int) : ℚ) := by
    cases c1 <;> cases c2 <;> simp at h1 h2 h3 <;> push_cast <;> linarith
  rw [e]
  exact ⟨1 * 10 ^ 4, by push_cast; ring⟩

/-- All theorems apply: the effect is exact in every state, also outside the hull of the observations, as there are no conditions. -/
example (x : String → ℚ) : applyNumeric [⟨.increase, "(f)", .add (.var "(g)") (.num (-1))⟩] x "(f)" = 1 * x "(f)" + (1 * x "(g)" + 0) + -1 :=
  C135_exact (guess_contract _) (by norm_num) tri_columns (relevant := none) sum_printable sum_all sum_grid
    (by decide) (f := true) (by decide) ⟨[true, false], fun _ => 1, -1⟩ (by decide) (by decide +kernel) (x := x) (by simp)

example : ∃ feats : List Bool, feats ≠ [] ∧ feats.Nodup ∧ (∀ c, c ∈ feats ↔ IsFeature (usedCols none [true, false]) (sumObs.map Prod.fst) c) ∧
    Independent feats (sumObs.map Prod.fst) := (C135_flag (by norm_num) (by decide) sum_all).mp rfl

/-- `f' = f + 1`, and `g` is a third of `f`. -/
def thirdObs : List ((Bool → ℚ) × (Bool → ℚ)) :=
  [(fun c => if c then 3 else 1, fun c => if c then 4 else 1), (fun c => if c then 6 else 2, fun c => if c then 7 else 2),
   (fun c => if c then 9 else 3, fun c => if c then 10 else 3)]

theorem third_all : constructAll (guessLib [([true], [1], 1)]) 4 false triExp triName none [true, false] [true, false] thirdObs
    = .ok ([⟨.increase, "(f)", .num 1⟩], some [⟨.eq, .var "(g)", .mul (.num (3333 / 10000)) (.var "(f)")⟩], true) := by
  have h := all_ok (R := guessLib [([true], [1], 1)]) (d := 4) (unsafeOk := false) (colExp := triExp) (fname := triName) (relevant := none) (prevCols := [true, false])
    (nextCols := [true, false]) (obs := thirdObs) (effs := [⟨.increase, "(f)", .num 1⟩]) (feats := [true])
    (conds := [⟨.eq, .var "(g)", .mul (.num (3333 / 10000)) (.var "(f)")⟩])
    (by decide +kernel) (by simp) (by decide +kernel) (by decide +kernel) (by decide +kernel) (by simp) (by decide) rfl
    (by
      intro a ha hz
      have hz := (rows_all (pc := [true, false]) (nc := [true, false]) (obs := thirdObs) (P := fun r => a.value r = 0) fun r r' h e => by
        rw [← e]
        unfold Affine.value
        rw [ha]
        simp [h true (by simp)]).mp hz
      have h1 := hz _ (show (fun c => if c then 3 else 1 : Bool → ℚ) ∈ thirdObs.map Prod.fst by simp [thirdObs])
      have h2 := hz _ (show (fun c => if c then 6 else 2 : Bool → ℚ) ∈ thirdObs.map Prod.fst by simp [thirdObs])
      unfold Affine.value at h1 h2
      rw [ha] at h1 h2
      simp at h1 h2
      refine ⟨fun c hc => ?_, by linarith⟩
      rw [List.mem_singleton.mp hc]
      linarith)
    (by decide +kernel)
  exact h

/-- **C135, limit.** A factor with more digits than are printed is rounded: with `g` a third of `f` the flag is true and the only returned condition is false in every
observed state. -/
theorem C135_limit_rounding :
    constructAll (guessLib [([true], [1], 1)]) 4 false triExp triName none [true, false] [true, false] thirdObs
      = .ok ([⟨.increase, "(f)", .num 1⟩], some [⟨.eq, .var "(g)", .mul (.num (3333 / 10000)) (.var "(f)")⟩], true) ∧
    ∀ o ∈ thirdObs, ∀ x : String → ℚ, x "(f)" = o.1 true → x "(g)" = o.1 false →
      ¬ (⟨.eq, .var "(g)", .mul (.num (3333 / 10000)) (.var "(f)")⟩ : NCond ℚ).holds x := by
  refine ⟨third_all, fun o ho x hf hg h => ?_⟩
  change x "(g)" = 3333 / 10000 * x "(f)" at h
  rw [hf, hg] at h
  simp only [thirdObs, List.mem_cons, List.not_mem_nil, or_false] at ho
  rcases ho with rfl | rfl | rfl <;> norm_num at h

/-- `f' = 2 f + 1`, and `g` is always `2 f + 1`. -/
def lineObs : List ((Bool → ℚ) × (Bool → ℚ)) :=
  [(fun c => if c then 0 else 1, fun c => if c then 1 else 1), (fun c => if c then 1 else 3, fun c => if c then 3 else 3),
   (fun c => if c then 2 else 5, fun c => if c then 5 else 5)]

theorem line_effects : constructEffects (guessLib [([true, false], [0, 1], 0)]) 4 false triExp triName none [true, false] [true, false] lineObs
    = .ok [⟨.assign, "(f)", .var "(g)"⟩] := by decide +kernel

/-- **C135, limit.** Without the flag the effects need not be exact: with `g = 2 f + 1` in all observations the library may answer `f' = g` where the truth is
`f' = 2 f + 1`. The flag is false, there are no conditions, and the effect is wrong in the state `f = g = 0`. N-SAM uses the effect all the same: it ignores the flag and the
conditions (numeric_sam.py:94-106, 160-161). -/
theorem C135_limit_uncertified :
    constructAll (guessLib [([true, false], [0, 1], 0)]) 4 false triExp triName none [true, false] [true, false] lineObs
      = .ok ([⟨.assign, "(f)", .var "(g)"⟩], none, false) ∧
    (∀ o ∈ lineObs, o.2 true = 2 * o.1 true + 1) ∧
    applyNumeric [⟨.assign, "(f)", .var "(g)"⟩] (fun _ => (0 : ℚ)) "(f)" ≠ 2 * 0 + 1 := by
  refine ⟨?_, by decide +kernel, by decide +kernel⟩
  have hex : ∃ conds b, constructAll (guessLib [([true, false], [0, 1], 0)]) 4 false triExp triName none [true, false] [true, false] lineObs
      = .ok ([⟨.assign, "(f)", .var "(g)"⟩], conds, b) := by
    unfold constructAll
    dsimp only
    rw [line_effects]
    dsimp only
    split_ifs <;> exact ⟨_, _, rfl⟩
  obtain ⟨conds, b, h⟩ := hex
  have hb : b = false := by
    cases b with
    | false => rfl
    | true =>
      obtain ⟨feats, hne, hnd, hf, hi⟩ := (C135_flag (by norm_num) (by decide) h).mp rfl
      have hmem : ∀ c, c ∈ feats := fun c => by
        refine (hf c).mpr ⟨by cases c <;> decide, ?_, ?_⟩
        · refine ⟨_, by simp only [lineObs, List.map_cons]; exact List.mem_cons_self, _,
            by simp only [lineObs, List.map_cons]; exact List.mem_cons_of_mem _ List.mem_cons_self, ?_⟩
          cases c <;> simp
        · rintro c1 hs hv ⟨k, _, hk⟩
          have hc : c1 = true ∧ c = false := by
            have : usedCols none [true, false] = [true, false] := rfl
            rw [this] at hs
            have := hs.eq_of_length (by simp)
            simpa using this
          obtain ⟨rfl, rfl⟩ := hc
          have := hk _ (show (fun c => if c then 0 else 1 : Bool → ℚ) ∈ lineObs.map Prod.fst by simp [lineObs])
          simp at this
      have hperm : feats.Perm [true, false] := (List.perm_ext_iff_of_nodup hnd (by decide)).mpr fun c => by cases c <;> simp [hmem]
      have hi' := independent_perm hperm hi
      have := (hi' ⟨[true, false], fun c => if c then 2 else -1, 1⟩ rfl (by decide +kernel)).2
      norm_num at this
  subst hb
  rw [h, (all_cases h).2.2.2 rfl]

/-- **C135, limit.** If a column is always 0.005 of another one, the flag is never true: the factor is below one hundredth, so both stay features and the rank is never
full, although any two different observations determine all linear effects of the pair. -/
theorem C135_limit_small_factor {R : RegLib ℚ (Fin 2)} {colExp : Fin 2 → NExp ℚ} {fname : Fin 2 → String} {effs : List (NEffect ℚ)} {conds : Option (List (NCond ℚ))}
    {b : Bool} {obs : List ((Fin 2 → ℚ) × (Fin 2 → ℚ))} (hd : ∀ o ∈ obs, o.1 1 = 5 / 1000 * o.1 0) (hv : Varies (obs.map Prod.fst) 0)
    (h : constructAll R 4 false colExp fname none [0, 1] [0, 1] obs = .ok (effs, conds, b)) : b = false := by
  cases b with
  | false => rfl
  | true =>
    obtain ⟨feats, hne, hnd, hf, hi⟩ := (C135_flag (by norm_num) (by decide) h).mp rfl
    have hrow : ∀ r ∈ obs.map Prod.fst, r 1 = 5 / 1000 * r 0 := by
      intro r hr
      obtain ⟨o, ho, rfl⟩ := List.mem_map.mp hr
      exact hd o ho
    obtain ⟨r, hr, r', hr', hne'⟩ := hv
    have hv0 : Varies (obs.map Prod.fst) 0 := ⟨r, hr, r', hr', hne'⟩
    have hv1 : Varies (obs.map Prod.fst) 1 := ⟨r, hr, r', hr', by
      rw [hrow r hr, hrow r' hr']
      intro e
      exact hne' (by linarith)⟩
    have h0 : (0 : Fin 2) ∈ feats := (hf 0).mpr ⟨by decide, hv0, fun c1 hs _ _ => by
      have := (show [c1, (0 : Fin 2)].Sublist [0, 1] from hs).eq_of_length (by simp)
      simp at this⟩
    have h1 : (1 : Fin 2) ∈ feats := (hf 1).mpr ⟨by decide, hv1, fun c1 hs _ hm => by
      have := (show [c1, (1 : Fin 2)].Sublist [0, 1] from hs).eq_of_length (by simp)
      have e : c1 = 0 := by simpa using this
      subst e
      obtain ⟨k, hk, hkk⟩ := hm
      have e1 := hkk r hr
      have e2 := hkk r' hr'
      rw [hrow r hr] at e1
      rw [hrow r' hr'] at e2
      have : (k - 5 / 1000) * (r 0 - r' 0) = 0 := by linarith
      rcases mul_eq_zero.mp this with h | h
      · have : k = 5 / 1000 := by linarith
        rw [this] at hk
        norm_num [abs_of_pos] at hk
      · exact hne' (by linarith)⟩
    have hperm : feats.Perm [0, 1] := (List.perm_ext_iff_of_nodup hnd (by decide)).mpr fun c => by
      fin_cases c
      · simp [h0]
      · simp [h1]
    have hz := (independent_perm hperm hi ⟨[0, 1], fun c => if c = 0 then 5 / 1000 else -1, 0⟩ rfl fun r hr => by
      unfold Affine.value
      simp [hrow r hr]).1 1 (by simp)
    norm_num at hz

end Case
end Certificate
end Props

import Verif.Lemmas.LinReg

namespace Model
open Spec

variable {K : Type} [Field K] [LinearOrder K] [IsStrictOrderedRing K] [FloorRing K]
variable {C : Type} [DecidableEq C]

theorem isConst_false_ne {rows : List (C → K)} {c : C} (hne : rows ≠ []) (h : isConst rows c = false) : ∃ r ∈ rows, r c ≠ 0 := by
  by_contra hcon
  push Not at hcon
  cases rows with
  | nil => exact hne rfl
  | cons r rs =>
    have : isConst (r :: rs) c = true := by
      unfold isConst
      rw [List.all_eq_true]
      intro r' hr'
      simp [hcon r (by simp), hcon r' (by simp [hr'])]
    rw [this] at h
    simp at h

theorem idxOf_lt_of_sublist {cols : List C} (hnd : cols.Nodup) {c1 c2 : C} (hsub : [c1, c2].Sublist cols) :
    cols.idxOf c1 < cols.idxOf c2 := by
  induction cols with
  | nil => simp at hsub
  | cons a l ih =>
    have hnd' := List.nodup_cons.mp hnd
    cases hsub with
    | cons _ h =>
      have hm1 : c1 ∈ l := h.subset (by simp)
      have hm2 : c2 ∈ l := h.subset (by simp)
      rw [List.idxOf_cons_ne _ (by rintro rfl; exact hnd'.1 hm1), List.idxOf_cons_ne _ (by rintro rfl; exact hnd'.1 hm2)]
      have := ih hnd'.2 h
      omega
    | cons_cons _ h =>
      have hm2 : c2 ∈ l := h.subset (by simp)
      rw [List.idxOf_cons_self, List.idxOf_cons_ne _ (by rintro rfl; exact hnd'.1 hm2)]
      omega

/-- Every column is a multiple of a column that is kept. -/
theorem regressionCols_cover {d : Nat} {rows : List (C → K)} {cols : List C} (hnz : ∀ c ∈ cols, ∃ r ∈ rows, r c ≠ 0) (hnd : cols.Nodup) :
    ∀ n c, c ∈ cols → cols.idxOf c = n → ∃ g ∈ regressionCols d rows cols, ∃ k : K, ∀ r ∈ rows, r c = k * r g := by
  intro n
  induction n using Nat.strong_induction_on with
  | _ n ih =>
    intro c hc hn
    by_cases hd : c ∈ dependentCols d rows cols
    · unfold dependentCols at hd
      obtain ⟨p, hp, hpc⟩ := List.mem_filterMap.mp hd
      obtain ⟨hlen, hsub⟩ := Py.mem_combs.mp hp
      match p, hlen, hsub, hpc with
      | [c1, c2], _, hsub, hpc =>
        dsimp only at hpc
        split_ifs at hpc with hcond
        simp only [Option.some.injEq] at hpc
        subst hpc
        have hc1 : c1 ∈ cols := hsub.subset (by simp)
        have hlt : cols.idxOf c1 < cols.idxOf c2 := idxOf_lt_of_sublist hnd hsub
        obtain ⟨g, hg, k, hk⟩ := ih (cols.idxOf c1) (by omega) c1 hc1 rfl
        obtain ⟨r0, hr0, hne⟩ := hnz c1 hc1
        refine ⟨g, hg, r0 c2 / r0 c1 * k, fun r hr => ?_⟩
        have hprop := hcond.1
        unfold proportional at hprop
        have h1 := of_decide_eq_true (List.all_eq_true.mp (List.all_eq_true.mp hprop r0 hr0) r hr)
        rw [mul_assoc, ← hk r hr]
        field_simp
        rw [mul_comm, h1, mul_comm]
    · exact ⟨c, List.mem_filter.mpr ⟨hc, by simpa using hd⟩, 1, fun r _ => by simp⟩

/-- An affine function of the columns is, on the rows, an affine function of any columns of which the
first are affine functions. -/
theorem affine_rebase {rows : List (C → K)} {feats : List C} (hnd : feats.Nodup) (cols : List C) (coef : C → K)
    (h : ∀ c ∈ cols, ∃ (k : C → K) (b : K), ∀ r ∈ rows, r c = (feats.map fun g => k g * r g).sum + b) (b : K) :
    ∃ (k : C → K) (b' : K), ∀ r ∈ rows, (cols.map fun c => coef c * r c).sum + b = (feats.map fun g => k g * r g).sum + b' := by
  induction cols generalizing b with
  | nil =>
    refine ⟨fun _ => 0, b, fun r _ => ?_⟩
    simp
  | cons c cols ih =>
    obtain ⟨k1, b1, h1⟩ := ih (fun c hc => h c (by simp [hc])) b
    obtain ⟨k2, b2, h2⟩ := h c (by simp)
    refine ⟨fun g => coef c * k2 g + k1 g, coef c * b2 + b1, fun r hr => ?_⟩
    have e1 := h1 r hr
    have e2 := h2 r hr
    rw [List.map_cons, List.sum_cons, add_assoc, e1, e2]
    have : (feats.map fun g => (coef c * k2 g + k1 g) * r g).sum =
        coef c * (feats.map fun g => k2 g * r g).sum + (feats.map fun g => k1 g * r g).sum := by
      clear e1 e2 hnd h h1 h2 ih
      induction feats with
      | nil => simp
      | cons g feats ih => simp only [List.map_cons, List.sum_cons, ih]; ring
    rw [this]
    ring

theorem sum_single {feats : List C} (hnd : feats.Nodup) {g : C} (hg : g ∈ feats) (k : K) (v : C → K) :
    (feats.map fun g' => (if g' = g then k else 0) * v g').sum = k * v g := by
  induction feats with
  | nil => simp at hg
  | cons a l ih =>
    have hnd' := List.nodup_cons.mp hnd
    rw [List.map_cons, List.sum_cons]
    by_cases ha : a = g
    · subst ha
      have : (l.map fun g' => (if g' = a then k else 0) * v g').sum = 0 := by
        apply List.sum_eq_zero
        intro y hy
        obtain ⟨g', hg', rfl⟩ := List.mem_map.mp hy
        rw [if_neg (by rintro rfl; exact hnd'.1 hg'), zero_mul]
      rw [this]; simp
    · have hg' : g ∈ l := by
        rcases List.mem_cons.mp hg with rfl | h
        · exact absurd rfl ha
        · exact h
      rw [ih hnd'.2 hg', if_neg ha, zero_mul, zero_add]

/-- The features kept for the regression can express all that the columns can. -/
theorem exact_fit_feats {d : Nat} {pc nc : List C} {obs : List ((C → K) × (C → K))} (hnd : pc.Nodup) (hobs : obs ≠ [])
    (a : Affine K C) (ha : ∀ c ∈ a.cols, c ∈ pc) {f : C} (hf : f ∈ nc) (h : ∀ o ∈ obs, o.2 f = a.value o.1) :
    ∃ a' : Affine K C, a'.cols = regFeats d pc nc obs ∧ ∀ p ∈ regLabels pc nc obs f, p.2 = a'.value p.1 := by
  have hrows : (regData pc nc obs).map Prod.fst ≠ [] := by
    obtain ⟨o0, obs', rfl⟩ := List.exists_cons_of_ne_nil hobs
    obtain ⟨o', h1, -⟩ := regData_rep (pc := pc) (nc := nc) (List.mem_cons_self (a := o0) (l := obs'))
    intro e
    have : o'.1 ∈ (regData pc nc (o0 :: obs')).map Prod.fst := List.mem_map.mpr ⟨o', h1, rfl⟩
    rw [e] at this
    simp at this
  obtain ⟨k, b, hk⟩ := affine_rebase (rows := (regData pc nc obs).map Prod.fst) (regFeats_nodup (d := d) (nc := nc) (obs := obs) hnd)
    a.cols a.coef (by
      intro c hc
      by_cases hconst : isConst ((regData pc nc obs).map Prod.fst) c = true
      · refine ⟨fun _ => 0, ((regData pc nc obs).map Prod.fst).head hrows c, fun r hr => ?_⟩
        rw [show (List.map (fun g => (0 : K) * r g) (regFeats d pc nc obs)).sum = 0 by simp, zero_add]
        rw [(isConst_spec hconst).2 r hr, (isConst_spec hconst).2 _ (List.head_mem hrows)]
      · have hmem : c ∈ nonConstant ((regData pc nc obs).map Prod.fst) pc :=
          List.mem_filter.mpr ⟨ha c hc, by simpa using hconst⟩
        obtain ⟨g, hg, k, hk⟩ := regressionCols_cover (d := d) (rows := (regData pc nc obs).map Prod.fst)
          (cols := nonConstant ((regData pc nc obs).map Prod.fst) pc)
          (fun c' hc' => isConst_false_ne hrows (by simpa using (List.mem_filter.mp hc').2)) (hnd.filter _) _ c hmem rfl
        refine ⟨fun g' => if g' = g then k else 0, 0, fun r hr => ?_⟩
        rw [sum_single (regFeats_nodup hnd) hg, add_zero]
        exact hk r hr) a.const
  refine ⟨⟨regFeats d pc nc obs, k, b⟩, rfl, ?_⟩
  intro p hp
  obtain ⟨o, ho, rfl⟩ := List.mem_map.mp hp
  have h1 := hk o.1 (List.mem_map.mpr ⟨o, ho, rfl⟩)
  simp only
  rw [h o (dedupBy_mem ho)]
  exact h1

/-- With an exact affine function for every fluent there is a feature to learn from. -/
theorem regFeats_ne_nil {d : Nat} {pc nc : List C} {obs : List ((C → K) × (C → K))} (hnd : pc.Nodup) (hobs : obs ≠ [])
    (h : ∀ f ∈ nc, ∃ a : Affine K C, (∀ c ∈ a.cols, c ∈ pc) ∧ ∀ o ∈ obs, o.2 f = a.value o.1)
    (h1 : (regData pc nc obs).length ≠ 1) : regFeats d pc nc obs ≠ [] := by
  intro hnil
  have hconst : ∀ c ∈ pc, isConst ((regData pc nc obs).map Prod.fst) c = true := by
    intro c hc
    by_contra hne
    have hrows : (regData pc nc obs).map Prod.fst ≠ [] := by
      intro e; rw [e] at hne
      obtain ⟨o0, obs', rfl⟩ := List.exists_cons_of_ne_nil hobs
      obtain ⟨o', h1, -⟩ := regData_rep (pc := pc) (nc := nc) (List.mem_cons_self (a := o0) (l := obs'))
      have : o'.1 ∈ (regData pc nc (o0 :: obs')).map Prod.fst := List.mem_map.mpr ⟨o', h1, rfl⟩
      rw [e] at this
      simp at this
    obtain ⟨g, hg, -⟩ := regressionCols_cover (d := d) (rows := (regData pc nc obs).map Prod.fst)
      (cols := nonConstant ((regData pc nc obs).map Prod.fst) pc)
      (fun c' hc' => isConst_false_ne hrows (by simpa using (List.mem_filter.mp hc').2)) (hnd.filter _) _ c
      (List.mem_filter.mpr ⟨hc, by simpa using hne⟩) rfl
    have : g ∈ regFeats d pc nc obs := hg
    rw [hnil] at this
    simp at this
  -- all observations have the same features, hence the same labels
  have hsame : ∀ o ∈ regData pc nc obs, ∀ o' ∈ regData pc nc obs, (∀ c ∈ pc, o.1 c = o'.1 c) ∧ ∀ f ∈ nc, o.2 f = o'.2 f := by
    intro o ho o' ho'
    have hpc : ∀ c ∈ pc, o.1 c = o'.1 c := fun c hc => by
      rw [(isConst_spec (hconst c hc)).2 _ (List.mem_map.mpr ⟨o, ho, rfl⟩), (isConst_spec (hconst c hc)).2 _ (List.mem_map.mpr ⟨o', ho', rfl⟩)]
    refine ⟨hpc, fun f hf => ?_⟩
    obtain ⟨a, ha, hv⟩ := h f hf
    rw [hv o (dedupBy_mem ho), hv o' (dedupBy_mem ho')]
    unfold Affine.value
    congr 2
    exact List.map_congr_left fun c hc => by rw [hpc c (ha c hc)]
  obtain ⟨o0, obs', rfl⟩ := List.exists_cons_of_ne_nil hobs
  apply h1
  unfold regData at hsame ⊢
  rw [dedupBy] at hsame ⊢
  have : ((dedupBy (fun o : (C → K) × (C → K) => (pc.map o.1, nc.map o.2)) obs').filter fun b =>
      (pc.map b.1, nc.map b.2) ≠ (pc.map o0.1, nc.map o0.2)) = [] := by
    rw [List.eq_nil_iff_forall_not_mem]
    intro o ho
    have h2 := hsame o (List.mem_cons_of_mem _ ho) o0 (by simp)
    have h3 := (List.mem_filter.mp ho).2
    simp only [decide_eq_true_eq] at h3
    apply h3
    rw [List.map_congr_left h2.1, List.map_congr_left h2.2]
  rw [this]
  rfl

theorem collectEffects_isOk {g : C → Except LinErr (Option (NEffect K))} {l : List C} (h : ∀ f ∈ l, ∃ e, g f = .ok e) :
    ∃ es, collectEffects g l = .ok es := by
  induction l with
  | nil => exact ⟨[], rfl⟩
  | cons f fs ih =>
    obtain ⟨e, he⟩ := h f (by simp)
    obtain ⟨es, hes⟩ := ih (fun f hf => h f (by simp [hf]))
    exact ⟨e.toList ++ es, by simp [collectEffects, Bind.bind, Except.bind, he, hes, pure, Except.pure]⟩

theorem solveLinear_isOk {R : RegLib K C} (hR : RegContract R) {d : Nat} {unsafeOk : Bool} {colExp : C → NExp K} {fname : C → String} {f : C}
    {feats : List C} {data : List ((C → K) × K)} (hname : colExp f = .var (fname f))
    (h : (R.solve feats data).2 = true) : ∃ e, solveLinear R d unsafeOk colExp fname f feats data = .ok e := by
  have hl := hR.length feats data
  unfold solveLinear
  dsimp only
  rw [if_neg (by simp [h])]
  by_cases h1 : ((prettifyCoefs d ((R.solve feats data).1.1 ++ [(R.solve feats data).1.2])).all fun x => decide (x = 0)) = true ∧
      (data.all fun p => decide (p.2 = (Option.map Prod.snd data.head?).getD 0)) = true
  · rw [if_pos h1]; exact ⟨_, rfl⟩
  · rw [if_neg h1]
    cases scaleFactor feats (prettifyCoefs d ((R.solve feats data).1.1 ++ [(R.solve feats data).1.2])) f with
    | some k =>
      dsimp only
      split_ifs
      · exact ⟨_, rfl⟩
      · exact ⟨_, rfl⟩
      · exact ⟨_, rfl⟩
    | none =>
      dsimp only
      by_cases h2 : f ∈ feats ∧ (prettifyCoefs d ((R.solve feats data).1.1 ++ [(R.solve feats data).1.2])).getD (feats.idxOf f) 0 ≠ 0
      · rw [if_pos h2]
        have := Props.C41_non_circular_defined (d := d) (f := fname f)
          (m := (feats.map colExp ++ [dummy]).zip (prettifyCoefs d ((R.solve feats data).1.1 ++ [(R.solve feats data).1.2])))
          (prev := (nonZeroChange f data).2) (next := (nonZeroChange f data).1) (by
            rw [List.map_fst_zip (by simp [prettifyCoefs, hl])]
            rw [← hname]
            exact List.mem_append_left _ (List.mem_map.mpr ⟨f, h2.1, rfl⟩))
        obtain ⟨e, he⟩ := Option.isSome_iff_exists.mp this
        rw [he]
        exact ⟨_, rfl⟩
      · rw [if_neg h2]
        split_ifs
        · exact ⟨_, rfl⟩
        · exact ⟨_, rfl⟩

end Model

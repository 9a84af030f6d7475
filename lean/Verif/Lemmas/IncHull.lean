import Verif.Model.IncHull
import Verif.Lemmas.FullRank

/-! Lemmas for the incremental convex hull learner. -/
namespace Model
open Spec

section
variable {K : Type} [Field K] [LinearOrder K] [IsStrictOrderedRing K] [FloorRing K]
variable {C : Type} [DecidableEq C]

/-! ### Duplicates -/

theorem agree_iff {cols : List C} {r r' : C → K} : agree cols r r' = true ↔ ∀ c ∈ cols, r c = r' c := by
  simp [agree]

theorem hasDup_append {cols : List C} {rows : List (C → K)} {x : C → K} :
    hasDup cols (rows ++ [x]) = true ↔ hasDup cols rows = true ∨ ∃ r ∈ rows, ∀ c ∈ cols, r c = x c := by
  induction rows with
  | nil => simp [hasDup]
  | cons a l ih =>
    simp only [List.cons_append, hasDup, Bool.or_eq_true, List.any_eq_true, ih, List.mem_append, List.mem_singleton, List.mem_cons, agree_iff]
    constructor
    · rintro (⟨y, hy | rfl | hf, h⟩ | h | ⟨r, hr, h⟩)
      · exact .inl (.inl ⟨y, hy, h⟩)
      · exact .inr ⟨a, .inl rfl, h⟩
      · simp at hf
      · exact .inl (.inr h)
      · exact .inr ⟨r, .inr hr, h⟩
    · rintro ((⟨y, hy, h⟩ | h) | ⟨r, rfl | hr, h⟩)
      · exact .inl ⟨y, .inl hy, h⟩
      · exact .inr (.inl h)
      · exact .inl ⟨x, .inr (.inl rfl), h⟩
      · exact .inr (.inr ⟨r, hr, h⟩)

/-! ### Vectors -/

theorem toVec_ofFn {n : Nat} (v : Fin n → K) : toVec n (List.ofFn v) = v := by
  funext i
  simp [toVec]

theorem map_toVec_ofFn {n : Nat} (l : List (Fin n → K)) : (l.map List.ofFn).map (toVec n) = l := by
  rw [List.map_map]
  conv_rhs => rw [← List.map_id l]
  exact List.map_congr_left fun v _ => toVec_ofFn v

theorem eyeVecs_length (n : Nat) : (eyeVecs n : List (Fin n → K)).length = n := by simp [eyeVecs]

theorem eyeVecs_get {n : Nat} (i : Fin (eyeVecs n : List (Fin n → K)).length) :
    (eyeVecs n : List (Fin n → K)).get i = fun j => if (Fin.cast (eyeVecs_length n) i) = j then 1 else 0 := by
  obtain ⟨i, hi⟩ := i
  funext j
  change (((List.finRange n).map fun i => fun j => if i = j then (1 : K) else 0)[i]'hi) j = _
  have h := List.getElem_map (f := fun i : Fin n => fun j => if i = j then (1 : K) else 0) (l := List.finRange n) (i := i) (h := hi)
  rw [congrFun h j]
  simp

theorem dot_eye {n : Nat} (v : Fin n → K) (i : Fin (eyeVecs n : List (Fin n → K)).length) :
    v ⬝ᵥ (eyeVecs n : List (Fin n → K)).get i = v (Fin.cast (eyeVecs_length n) i) := by
  rw [eyeVecs_get]
  simp [dotProduct]

theorem projOn_eye {n : Nat} (v : Fin n → K) : projOn (eyeVecs n) v = v := by
  unfold projOn eyeVecs
  rw [List.map_map, ← List.ofFn_id, List.map_ofFn, List.sum_ofFn]
  funext j
  rw [Finset.sum_apply]
  simp [dotProduct]

/-- Orthogonal vectors that are not zero are at most as many as the dimension. -/
theorem orth_length {n : Nat} {bs : List (Fin n → K)} (h : OrthList bs) : bs.length ≤ n := by
  have hli : LinearIndependent K bs.get := by
    rw [Fintype.linearIndependent_iff]
    intro g hg i
    have h1 : (∑ j, g j • bs.get j) ⬝ᵥ bs.get i = 0 := by rw [hg]; simp
    rw [sum_dotProduct, Finset.sum_eq_single i] at h1
    · rw [smul_dotProduct, smul_eq_mul, mul_eq_zero] at h1
      exact h1.resolve_right fun h0 => h.2 _ (List.get_mem bs i) (dot_self_eq_zero h0)
    · intro j _ hji
      rw [smul_dotProduct]
      have : bs.get j ⬝ᵥ bs.get i = 0 := by
        rcases lt_or_gt_of_ne hji with hlt | hlt
        · exact List.pairwise_iff_get.mp h.1 j i hlt
        · rw [dotProduct_comm]; exact List.pairwise_iff_get.mp h.1 i j hlt
      rw [this, smul_zero]
    · simp
  have := hli.fintype_card_le_finrank
  simpa using this

/-- The completion of a full basis is empty. -/
theorem comp_nil {n : Nat} {eps : K} (heps : 0 ≤ eps) {norm : (Fin n → K) → K} (hnorm : ∀ v, v ≠ 0 → norm v ≠ 0)
    {bs vs : List (Fin n → K)} (h : OrthList bs) (hl : n ≤ bs.length) : gramSchmidt eps norm vs bs = [] := by
  have ho := (gramSchmidt_out heps hnorm h vs).orth
  have := orth_length ho
  rw [List.length_append] at this
  exact List.eq_nil_of_length_eq_zero (by omega)

theorem eye_orth (n : Nat) : OrthList (eyeVecs n : List (Fin n → K)) := by
  constructor
  · rw [List.pairwise_iff_get]
    intro i j hij
    rw [dot_eye, eyeVecs_get]
    simp only [ite_eq_right_iff, one_ne_zero, imp_false]
    intro e
    have : i = j := by
      ext
      have := congrArg Fin.val e
      simpa using this
    exact absurd hij (by rw [this]; exact lt_irrefl _)
  · intro b hb
    unfold eyeVecs at hb
    obtain ⟨i, _, rfl⟩ := List.mem_map.mp hb
    intro e
    have := congrFun e i
    simp at this

/-! ### The columns that are left -/

/-- A column of the data as a vector. -/
def colVec (rows : List (C → K)) (c : C) : Fin rows.length → K := fun i => rows.get i c

theorem zip_mem_span {rows : List (C → K)} {M : Submodule K (Fin rows.length → K)} {cs : List K} {feats : List C}
    (h : ∀ f ∈ feats, colVec rows f ∈ M) :
    (fun i => (List.zipWith (fun a f => a * (rows.get i) f) cs feats).sum) ∈ M := by
  induction cs generalizing feats with
  | nil => exact M.zero_mem
  | cons a cs ih =>
    cases feats with
    | nil => exact M.zero_mem
    | cons f feats =>
      have := M.add_mem (M.smul_mem a (h f (by simp))) (ih (feats := feats) fun g hg => h g (by simp [hg]))
      exact this

theorem removeLoop_span {L : NumLib K C} (hfit : FitContract L) {d : Nat} {colExp : C → NExp K} {cols : List C}
    {rows : List (C → K)} {M : Submodule K (Fin rows.length → K)} (h1 : (fun _ => 1) ∈ M) (todo removed : List C) (conds : List (NCond K))
    (hr : (∀ c ∈ cols, c ∉ removed → colVec rows c ∈ M) → ∀ c ∈ cols, colVec rows c ∈ M)
    (hm : ∀ c ∈ cols, c ∉ (removeLoop L d colExp cols rows todo removed conds).1 → colVec rows c ∈ M) :
    ∀ c ∈ cols, colVec rows c ∈ M := by
  induction todo generalizing removed conds with
  | nil => exact hr hm
  | cons c todo ih =>
    rw [removeLoop] at hm
    dsimp only at hm
    split_ifs at hm with he
    · exact hr hm
    · cases hf : L.fit (cols.filter (fun f => f ≠ c ∧ f ∉ removed)) c rows with
      | none => rw [hf] at hm; exact ih removed conds hr hm
      | some p =>
        obtain ⟨cs, b⟩ := p
        rw [hf] at hm
        dsimp only at hm
        refine ih _ _ (fun h => hr fun e he' hre => ?_) hm
        obtain ⟨_, hrows⟩ := hfit hf
        by_cases hec : e = c
        · subst hec
          have hz := zip_mem_span (M := M) (cs := cs) (feats := cols.filter (fun f => f ≠ e ∧ f ∉ removed)) (rows := rows) (by
            intro f hf'
            have hf'' := List.mem_filter.mp hf'
            simp only [decide_eq_true_eq] at hf''
            exact h f hf''.1 (by simp [hf''.2]))
          have hb := M.smul_mem b h1
          have := M.add_mem hz hb
          convert this using 1
          funext i
          have := hrows (rows.get i) (List.get_mem _ _)
          simp only [colVec, Pi.add_apply, Pi.smul_apply, smul_eq_mul, mul_one]
          exact this
        · exact h e he' (by simp [hre, hec])

/-- Every column is an affine function of the columns that are left. -/
theorem removeDependencies_span {L : NumLib K C} (hfit : FitContract L) {d : Nat} {colExp : C → NExp K} {cols : List C}
    {rows : List (C → K)} {aff : Option (List C)} {conds : List (NCond K)}
    (h : removeDependencies L d colExp cols rows = (aff, conds)) {M : Submodule K (Fin rows.length → K)} (h1 : (fun _ => 1) ∈ M)
    (hm : ∀ c ∈ aff.getD [], colVec rows c ∈ M) : ∀ c ∈ cols, colVec rows c ∈ M := by
  have hconst : ∀ c ∈ cols, isConst rows c = true → colVec rows c ∈ M := by
    intro c _ hc
    have := (isConst_spec hc).2
    have e : colVec rows c = (((rows.head?).map (· c)).getD 0) • (fun _ => (1 : K)) := by
      funext i
      simp [colVec, this _ (List.getElem_mem _)]
    rw [e]
    exact M.smul_mem _ h1
  unfold removeDependencies at h
  dsimp only at h
  split_ifs at h with h2 h3
  · cases h; exact hm
  · cases h
    intro c hc
    exact hconst c hc (List.length_filter_eq_length_iff.mp h3.symm c hc)
  · cases h
    refine removeLoop_span (d := d) (colExp := colExp) hfit h1 (cols.filter (· ∉ cols.filter (isConst rows))) (cols.filter (isConst rows))
      ((cols.filter (isConst rows)).map fun c => (⟨.eq, colExp c, .num (((rows.head?).map (· c)).getD 0)⟩ : NCond K)) ?_ ?_
    · intro hh c hc
      by_cases hk : isConst rows c = true
      · exact hconst c hc hk
      · exact hh c hc (by simp [hk])
    · intro c hc hn
      exact hm c (by
        exact List.mem_filter.mpr ⟨hc, by simpa only [decide_eq_true_eq] using hn⟩)

theorem removeDependencies_nonconst {L : NumLib K C} {d : Nat} {colExp : C → NExp K} {cols : List C}
    {rows : List (C → K)} (hne : rows ≠ []) (hl : cols.length ≠ 1) {left : List C} {conds : List (NCond K)}
    (h : removeDependencies L d colExp cols rows = (some left, conds)) : ∀ c ∈ left, isConst rows c = false := by
  unfold removeDependencies at h
  dsimp only at h
  rw [if_neg (by push Not; exact ⟨hne, hl⟩)] at h
  split_ifs at h with h3
  · simp at h
  · have h5 := congrArg Prod.fst h
    simp only [Option.some.injEq] at h5
    subst h5
    intro c hc
    have hc' := List.mem_filter.mp hc
    simp only [decide_eq_true_eq] at hc'
    by_contra hk
    exact hc'.2 (removeLoop_removed _ _ _ c (List.mem_filter.mpr ⟨hc'.1, by simpa using hk⟩))

/-- Few columns left: all columns are affine functions of one. -/
theorem affine_of_small {L : NumLib K C} (hfit : FitContract L) {d : Nat} {colExp : C → NExp K} {cols : List C}
    {rows : List (C → K)} {aff : Option (List C)} {conds : List (NCond K)}
    (h : removeDependencies L d colExp cols rows = (aff, conds)) (hs : (aff.getD []).length ≤ 1) (dflt : C) :
    ∃ c, ∀ e ∈ cols, ∃ α β : K, ∀ r ∈ rows, r e = α * r c + β := by
  have key : ∀ c, (∀ x ∈ aff.getD [], x = c) → ∀ e ∈ cols, ∃ α β : K, ∀ r ∈ rows, r e = α * r c + β := by
    intro c hc e he
    have hm := removeDependencies_span hfit h (M := Submodule.span K {(fun _ => (1 : K)), colVec rows c})
      (Submodule.subset_span (by simp)) (by
        intro x hx
        rw [hc x hx]
        exact Submodule.subset_span (by simp)) e he
    obtain ⟨a, b, hab⟩ := Submodule.mem_span_pair.mp hm
    refine ⟨b, a, fun r hr => ?_⟩
    obtain ⟨i, hi, rfl⟩ := List.mem_iff_getElem.mp hr
    have := congrFun hab ⟨i, hi⟩
    simp only [Pi.add_apply, Pi.smul_apply, smul_eq_mul, mul_one, colVec, List.get_eq_getElem] at this
    rw [← this]; ring
  match hl : aff.getD [], hs with
  | [], _ => exact ⟨dflt, key dflt (by rw [hl]; simp)⟩
  | [c], _ => exact ⟨c, key c (by rw [hl]; simp)⟩

theorem isConst_of {rows : List (C → K)} (hne : rows ≠ []) {c : C} {k : K} (h : ∀ r ∈ rows, r c = k) : isConst rows c = true := by
  cases rows with
  | nil => exact absurd rfl hne
  | cons r rs =>
    simp only [isConst, List.all_eq_true, decide_eq_true_eq]
    intro r' hr'
    rw [h r' (by simp [hr']), h r (by simp)]

theorem sum_single_col {l : List C} (hnd : l.Nodup) {a : C} (ha : a ∈ l) (g : C → K) :
    (l.map fun f => if f = a then g f else 0).sum = g a := by
  induction l with
  | nil => simp at ha
  | cons b l ih =>
    have hnd' := List.nodup_cons.mp hnd
    rw [List.map_cons, List.sum_cons]
    by_cases hb : b = a
    · subst hb
      rw [if_pos rfl]
      have : (l.map fun f => if f = b then g f else 0) = l.map fun _ => 0 := by
        apply List.map_congr_left
        intro f hf
        rw [if_neg]
        rintro rfl
        exact hnd'.1 hf
      rw [this]; simp
    · rw [if_neg hb, zero_add]
      exact ih hnd'.2 ((List.mem_cons.mp ha).resolve_left fun e => hb e.symm)

/-- Two columns left stay at least two columns left when rows are added. -/
theorem left_mono {L : NumLib K C} (hfit : FitContract L) {d : Nat} {colExp : C → NExp K} {cols : List C} (hnd : cols.Nodup)
    {pre rows : List (C → K)} (hsub : ∀ r ∈ pre, r ∈ rows) (hne : pre ≠ []) (hcomp : FitComplete L pre)
    {l₁ : List C} {c₁ : List (NCond K)} (h₁ : removeDependencies L d colExp cols pre = (some l₁, c₁)) (hl : 2 ≤ l₁.length)
    {aff : Option (List C)} {c₂ : List (NCond K)} (h₂ : removeDependencies L d colExp cols rows = (aff, c₂)) :
    2 ≤ (aff.getD []).length := by
  by_contra hlt
  have hsubl := removeDependencies_sub h₁
  have hcl : cols.length ≠ 1 := by have := hsubl.length_le; omega
  have hndl := hnd.sublist hsubl
  obtain ⟨a₁, a₂, rest, rfl⟩ : ∃ a₁ a₂ rest, l₁ = a₁ :: a₂ :: rest := by
    match l₁, hl with
    | a :: b :: rest, _ => exact ⟨a, b, rest, rfl⟩
  obtain ⟨c, hc⟩ := affine_of_small hfit h₂ (by omega) a₁
  obtain ⟨α₁, β₁, e₁⟩ := hc a₁ (hsubl.subset (by simp))
  obtain ⟨α₂, β₂, e₂⟩ := hc a₂ (hsubl.subset (by simp))
  have hnc := removeDependencies_nonconst hne hcl h₁ a₁ (by simp)
  have hα : α₁ ≠ 0 := by
    intro h0
    rw [isConst_of hne (k := β₁) (fun r hr => by rw [e₁ r (hsub r hr), h0]; ring)] at hnc
    simp at hnc
  have h12 : a₁ ≠ a₂ := by
    have := (List.nodup_cons.mp hndl).1
    intro e; apply this; simp [e]
  refine removeDependencies_indep hcomp hne hnd h₁ (by simp) (c := a₂) (by simp)
    (fun f => if f = a₁ then α₂ / α₁ else 0) (β₂ - α₂ / α₁ * β₁) ?_
  intro r hr
  have hs := sum_single_col (l := (a₁ :: a₂ :: rest).filter (· ≠ a₂)) (hndl.filter _) (a := a₁) (by simp [h12]) (fun f => α₂ / α₁ * r f)
  have he : ((a₁ :: a₂ :: rest).filter (· ≠ a₂)).map (fun f => (if f = a₁ then α₂ / α₁ else 0) * r f)
      = ((a₁ :: a₂ :: rest).filter (· ≠ a₂)).map (fun f => if f = a₁ then α₂ / α₁ * r f else 0) := by
    apply List.map_congr_left
    intro f _
    split_ifs <;> simp
  rw [he, hs, e₂ r (hsub r hr), e₁ r (hsub r hr)]
  field_simp
  ring

/-- All columns constant: they were constant before. -/
theorem none_mono {L : NumLib K C} {d : Nat} {colExp : C → NExp K} {cols : List C}
    {pre rows : List (C → K)} (hsub : ∀ r ∈ pre, r ∈ rows) (hne : pre ≠ [])
    (h₂ : (removeDependencies L d colExp cols rows).1 = none) : (removeDependencies L d colExp cols pre).1 = none := by
  unfold removeDependencies at h₂ ⊢
  dsimp only at h₂ ⊢
  split_ifs at h₂ with h1 h3
  push Not at h1
  rw [if_neg (by push Not; exact ⟨hne, h1.2⟩), if_pos]
  rw [eq_comm, List.length_filter_eq_length_iff]
  intro c hc
  have := (isConst_spec (List.length_filter_eq_length_iff.mp h3.symm c hc)).2
  exact isConst_of hne (fun r hr => this r (hsub r hr))

/-- The conditions tell which columns were removed. -/
theorem removeLoop_lhs {L : NumLib K C} {d : Nat} {colExp : C → NExp K} {cols : List C} {rows : List (C → K)}
    (todo removed : List C) (conds : List (NCond K)) (h : conds.map NCond.lhs = removed.map colExp) :
    (removeLoop L d colExp cols rows todo removed conds).2.map NCond.lhs =
      (removeLoop L d colExp cols rows todo removed conds).1.map colExp := by
  induction todo generalizing removed conds with
  | nil => exact h
  | cons c todo ih =>
    rw [removeLoop]
    dsimp only
    split_ifs with he
    · exact h
    · cases L.fit (cols.filter (fun f => f ≠ c ∧ f ∉ removed)) c rows with
      | none => exact ih removed conds h
      | some p =>
        obtain ⟨cs, b⟩ := p
        dsimp only
        refine ih _ _ ?_
        rw [List.map_append, List.map_append, h]
        congr 1
        split_ifs <;> rfl

theorem removeLoop_subset {L : NumLib K C} {d : Nat} {colExp : C → NExp K} {cols : List C} {rows : List (C → K)}
    (todo removed : List C) (conds : List (NCond K)) (h1 : ∀ c ∈ todo, c ∈ cols) (h2 : ∀ c ∈ removed, c ∈ cols) :
    ∀ c ∈ (removeLoop L d colExp cols rows todo removed conds).1, c ∈ cols := by
  induction todo generalizing removed conds with
  | nil => exact h2
  | cons c todo ih =>
    rw [removeLoop]
    dsimp only
    split_ifs with he
    · exact h2
    · cases L.fit (cols.filter (fun f => f ≠ c ∧ f ∉ removed)) c rows with
      | none => exact ih removed conds (fun x hx => h1 x (by simp [hx])) h2
      | some p =>
        dsimp only
        refine ih _ _ (fun x hx => h1 x (by simp [hx])) ?_
        intro x hx
        rcases List.mem_append.mp hx with hx | hx
        · exact h2 x hx
        · rw [List.mem_singleton.mp hx]; exact h1 c (by simp)

theorem left_of_conds {L : NumLib K C} {d : Nat} {colExp : C → NExp K} {cols : List C}
    (hinj : ∀ c ∈ cols, ∀ c' ∈ cols, colExp c = colExp c' → c = c')
    {rows : List (C → K)} (hne : rows ≠ []) (hl : cols.length ≠ 1) {aff : Option (List C)} {conds : List (NCond K)}
    (h : removeDependencies L d colExp cols rows = (aff, conds)) :
    aff.getD [] = cols.filter fun c => colExp c ∉ conds.map NCond.lhs := by
  have key : ∀ (removed : List C), (∀ c ∈ removed, c ∈ cols) → conds.map NCond.lhs = removed.map colExp →
      cols.filter (· ∉ removed) = cols.filter fun c => colExp c ∉ conds.map NCond.lhs := by
    intro removed hr he
    apply List.filter_congr
    intro c hc
    rw [he]
    have : c ∈ removed ↔ colExp c ∈ removed.map colExp := by
      constructor
      · exact fun h => List.mem_map.mpr ⟨c, h, rfl⟩
      · intro h
        obtain ⟨c', h1, h2⟩ := List.mem_map.mp h
        rw [← hinj c' (hr c' h1) c hc h2]; exact h1
    simp only [this]
  unfold removeDependencies at h
  dsimp only at h
  rw [if_neg (by push Not; exact ⟨hne, hl⟩)] at h
  split_ifs at h with h3
  · cases h
    rw [← key cols (fun c hc => hc)]
    · rw [Option.getD_none, eq_comm, List.filter_eq_nil_iff]
      intro c hc; simp [hc]
    · rw [List.map_map]
      have : cols.filter (isConst rows) = cols := List.length_filter_eq_length_iff.mp h3.symm |> List.filter_eq_self.mpr
      rw [this]; rfl
  · cases h
    rw [Option.getD_some]
    refine key _ ?_ ?_
    · exact removeLoop_subset _ _ _ (fun c hc => (List.mem_filter.mp hc).1) (fun c hc => (List.mem_filter.mp hc).1)
    · exact removeLoop_lhs _ _ _ (by rw [List.map_map]; rfl)

theorem filter_singleton_ne_nil {l : List C} {c : C} (h : l.filter (fun f => decide (f ≠ c)) = []) : ∀ f ∈ l, f = c := by
  intro f hf
  have := List.filter_eq_nil_iff.mp h f hf
  simpa using this

/-- Some column is left, when some is not constant. -/
theorem removeLoop_left {L : NumLib K C} {d : Nat} {colExp : C → NExp K} {cols : List C} {rows : List (C → K)}
    (todo removed : List C) (conds : List (NCond K)) (ht : ∀ c ∈ todo, c ∈ cols ∧ c ∉ removed) (hnd : todo.Nodup) (h : ∃ c ∈ cols, c ∉ removed) :
    ∃ c ∈ cols, c ∉ (removeLoop L d colExp cols rows todo removed conds).1 := by
  induction todo generalizing removed conds with
  | nil => exact h
  | cons c todo ih =>
    rw [removeLoop]
    dsimp only
    split_ifs with he
    · exact h
    · cases L.fit (cols.filter (fun f => f ≠ c ∧ f ∉ removed)) c rows with
      | none => exact ih removed conds (fun x hx => ht x (by simp [hx])) (List.nodup_cons.mp hnd).2 h
      | some p =>
        dsimp only
        refine ih _ _ ?_ (List.nodup_cons.mp hnd).2 ?_
        · intro x hx
          refine ⟨(ht x (by simp [hx])).1, ?_⟩
          simp only [List.mem_append, List.mem_singleton, not_or]
          exact ⟨(ht x (by simp [hx])).2, by rintro rfl; exact (List.nodup_cons.mp hnd).1 hx⟩
        · obtain ⟨f, hf⟩ := List.exists_mem_of_ne_nil _ he
          have hf' := List.mem_filter.mp hf
          simp only [decide_eq_true_eq] at hf'
          exact ⟨f, hf'.1, by simp [hf'.2]⟩

theorem left_ne_nil {L : NumLib K C} {d : Nat} {colExp : C → NExp K} {cols : List C} (hnd : cols.Nodup)
    {rows : List (C → K)} (hcols : cols ≠ []) {left : List C} {conds : List (NCond K)}
    (h : removeDependencies L d colExp cols rows = (some left, conds)) : left ≠ [] := by
  unfold removeDependencies at h
  dsimp only at h
  split_ifs at h with h1 h3
  · cases h; exact hcols
  · simp at h
  · have h5 := congrArg Prod.fst h
    simp only [Option.some.injEq] at h5
    subst h5
    obtain ⟨c, hc1, hc2⟩ := removeLoop_left (L := L) (d := d) (colExp := colExp) (rows := rows) (cols.filter (· ∉ cols.filter (isConst rows))) (cols.filter (isConst rows))
      ((cols.filter (isConst rows)).map fun c => (⟨.eq, colExp c, .num (((rows.head?).map (· c)).getD 0)⟩ : NCond K))
      (fun c hc => ⟨(List.mem_filter.mp hc).1, of_decide_eq_true (List.mem_filter.mp hc).2⟩) (hnd.filter _) (by
        by_contra hall
        push Not at hall
        apply h3
        rw [eq_comm, List.length_filter_eq_length_iff]
        intro c hc
        have := hall c hc
        exact (List.mem_filter.mp this).2)
    intro e
    have : c ∈ cols.filter (· ∉ (removeLoop L d colExp cols rows (cols.filter (· ∉ cols.filter (isConst rows))) (cols.filter (isConst rows))
      ((cols.filter (isConst rows)).map fun c => (⟨.eq, colExp c, .num (((rows.head?).map (· c)).getD 0)⟩ : NCond K))).1) := by
      exact List.mem_filter.mpr ⟨hc1, by simpa only [decide_eq_true_eq] using hc2⟩
    rw [e] at this
    simp at this

end
end Model

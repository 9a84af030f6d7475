import Verif.Lemmas.Hull

namespace Model
open Spec

variable {K : Type} [Field K] [LinearOrder K] [IsStrictOrderedRing K] [FloorRing K]
variable {C : Type} [DecidableEq C]

/-- The values of the columns in a state. -/
def colVal (colExp : C → NExp K) (x : String → K) (c : C) : K := (colExp c).eval x

theorem zipWith_featVal_col {colExp : C → NExp K} {x : String → K} {cs : List K} {feats : List C}
    (hd : ∀ c ∈ feats, colExp c ≠ dummy) :
    (List.zipWith (fun c f => c * featVal x f) cs (feats.map colExp)) =
      List.zipWith (fun a f => a * colVal colExp x f) cs feats := by
  induction feats generalizing cs with
  | nil => simp
  | cons f fs ih =>
    cases cs with
    | nil => rfl
    | cons a cs =>
      simp only [List.map_cons, List.zipWith_cons_cons, ih (fun c hc => hd c (by simp [hc]))]
      rw [featVal, if_neg (hd f (by simp))]
      rfl

/-- The condition written for a dependent column means the fitted equation. -/
theorem fitCond_holds {d : Nat} {colExp : C → NExp K} {x : String → K} {cs : List K} {b : K} {feats : List C} {c : C}
    (hl : cs.length = feats.length) (hp : ∀ k ∈ cs ++ [b], Printable d k) (hd : ∀ f ∈ feats, colExp f ≠ dummy) :
    (NCond.holds x (if (prettifyCoefs d (cs ++ [b])).all (· = 0) then ⟨.eq, colExp c, .num 0⟩
          else ⟨.eq, colExp c, linExp (mulTerms d (prettifyCoefs d (cs ++ [b])) (feats.map colExp ++ [dummy]))⟩))
      ↔ colVal colExp x c = (List.zipWith (fun a f => a * colVal colExp x f) cs feats).sum + b := by
  rw [prettifyCoefs_of_printable hp]
  have hsum : (List.zipWith (fun c f => c * featVal x f) (cs ++ [b]) (feats.map colExp ++ [dummy])).sum
      = (List.zipWith (fun a f => a * colVal colExp x f) cs feats).sum + b := by
    rw [List.zipWith_append (by simpa using hl), List.sum_append, zipWith_featVal_col hd]
    simp [featVal]
  split_ifs with hz
  · rw [← hsum]
    have : (List.zipWith (fun c f => c * featVal x f) (cs ++ [b]) (feats.map colExp ++ [dummy])).sum = 0 := by
      have h0 : ∀ k ∈ cs ++ [b], k = 0 := by
        intro k hk; simpa using List.all_eq_true.mp hz k hk
      revert h0
      generalize cs ++ [b] = l
      generalize feats.map colExp ++ [dummy] = m
      clear hsum hz hp hl
      intro h0
      induction l generalizing m with
      | nil => simp
      | cons a l ih =>
        cases m with
        | nil => simp
        | cons y m =>
          simp only [List.zipWith_cons_cons, List.sum_cons, h0 a (by simp), zero_mul, zero_add]
          exact ih m (fun k hk => h0 k (by simp [hk]))
    rw [this]
    rfl
  · rw [← hsum, ← eval_mulTerms_exact hp]
    rfl

/-- The loop keeps: conditions written so far, and the hull on the columns not removed. -/
theorem removeLoop_spec {L : NumLib K C} (hfit : FitContract L) {d : Nat} {colExp : C → NExp K} {cols : List C}
    {rows : List (C → K)} (hp : ∀ feats c cs b, L.fit feats c rows = some (cs, b) → ∀ k ∈ cs ++ [b], Printable d k)
    (hd : ∀ c ∈ cols, colExp c ≠ dummy) (x : String → K) (todo removed : List C) (conds : List (NCond K))
    (ht : ∀ c ∈ todo, c ∈ cols ∧ c ∉ removed) (hnd : todo.Nodup) :
    ((∀ q ∈ (removeLoop L d colExp cols rows todo removed conds).2, q.holds x) ∧
        InHull (cols.filter (· ∉ (removeLoop L d colExp cols rows todo removed conds).1)) rows (colVal colExp x)) ↔
      ((∀ q ∈ conds, q.holds x) ∧ InHull (cols.filter (· ∉ removed)) rows (colVal colExp x)) := by
  induction todo generalizing removed conds with
  | nil => exact Iff.rfl
  | cons c todo ih =>
    have hnd' := List.nodup_cons.mp hnd
    rw [removeLoop]
    dsimp only
    split_ifs with he
    · exact Iff.rfl
    · cases hf : L.fit (cols.filter (fun f => f ≠ c ∧ f ∉ removed)) c rows with
      | none =>
        exact ih removed conds (fun c' hc' => ht c' (by simp [hc'])) hnd'.2
      | some p =>
        obtain ⟨cs, b⟩ := p
        dsimp only
        rw [ih _ _ (by
          intro c' hc'
          refine ⟨(ht c' (by simp [hc'])).1, ?_⟩
          simp only [List.mem_append, List.mem_singleton, not_or]
          exact ⟨(ht c' (by simp [hc'])).2, by rintro rfl; exact hnd'.1 hc'⟩) hnd'.2]
        obtain ⟨hl, hrows⟩ := hfit hf
        have hmemf : ∀ f ∈ cols.filter (fun f => f ≠ c ∧ f ∉ removed), f ∈ cols := fun f hf => (List.mem_filter.mp hf).1
        have hdep := inHull_dependent (v := colVal colExp x) hrows (fun f hf => hf)
        have hcond := fitCond_holds (c := c) (x := x) hl (hp _ _ _ _ hf) (fun f hf => hd f (hmemf f hf))
        rw [List.forall_mem_append]
        simp only [List.forall_mem_singleton]
        have e1 : InHull (cols.filter (· ∉ removed)) rows (colVal colExp x) ↔
            InHull (c :: cols.filter (fun f => f ≠ c ∧ f ∉ removed)) rows (colVal colExp x) := by
          apply inHull_congr
          intro c'
          simp only [List.mem_filter, List.mem_cons, decide_eq_true_eq]
          constructor
          · rintro ⟨h1, h2⟩
            by_cases h : c' = c
            · exact Or.inl h
            · exact Or.inr ⟨h1, h, h2⟩
          · rintro (rfl | ⟨h1, _, h2⟩)
            · exact ht c' (by simp)
            · exact ⟨h1, h2⟩
        have e2 : InHull (cols.filter (· ∉ removed ++ [c])) rows (colVal colExp x) ↔
            InHull (cols.filter (fun f => f ≠ c ∧ f ∉ removed)) rows (colVal colExp x) := by
          apply inHull_congr
          intro c'
          simp only [List.mem_filter, decide_eq_true_eq, List.mem_append, List.mem_singleton, not_or]
          tauto
        rw [e1, e2, hdep]
        rw [hcond]
        tauto

theorem isConst_spec {rows : List (C → K)} {c : C} (h : isConst rows c = true) :
    rows ≠ [] ∧ ∀ r ∈ rows, r c = ((rows.head?).map (· c)).getD 0 := by
  cases rows with
  | nil => simp [isConst] at h
  | cons r rs =>
    refine ⟨by simp, ?_⟩
    intro r' hr'
    simp only [List.head?_cons, Option.map_some, Option.getD_some]
    simp only [isConst, List.all_eq_true, decide_eq_true_eq] at h
    rcases List.mem_cons.mp hr' with rfl | hr'
    · rfl
    · exact h r' hr'

/-- The constant columns, as equations. -/
theorem consts_spec {rows : List (C → K)} {colExp : C → NExp K} (x : String → K) (consts rest : List C)
    (hc : ∀ c ∈ consts, isConst rows c = true) :
    ((∀ q ∈ (consts.map fun c => (⟨.eq, colExp c, .num (((rows.head?).map (· c)).getD 0)⟩ : NCond K)), q.holds x) ∧
      InHull rest rows (colVal colExp x)) ↔ InHull (consts ++ rest) rows (colVal colExp x) := by
  induction consts with
  | nil => simp
  | cons c consts ih =>
    rw [List.cons_append, inHull_dependent (cs := []) (feats := []) (b := ((rows.head?).map (· c)).getD 0)
      (by intro r hr; simpa using (isConst_spec (hc c (by simp))).2 r hr) (by simp),
      ← ih (fun c' hc' => hc c' (by simp [hc']))]
    simp only [List.map_cons, List.forall_mem_cons, List.zipWith_nil_left, List.sum_nil, zero_add, and_assoc]
    rfl

theorem removeDependencies_spec {L : NumLib K C} (hfit : FitContract L) {d : Nat} {colExp : C → NExp K} {cols : List C}
    {rows : List (C → K)} (hne : rows ≠ []) (hnd : cols.Nodup)
    (hp : ∀ feats c cs b, L.fit feats c rows = some (cs, b) → ∀ k ∈ cs ++ [b], Printable d k)
    (hd : ∀ c ∈ cols, colExp c ≠ dummy) (x : String → K) :
    ((∀ q ∈ (removeDependencies L d colExp cols rows).2, q.holds x) ∧
        InHull ((removeDependencies L d colExp cols rows).1.getD []) rows (colVal colExp x)) ↔
      InHull cols rows (colVal colExp x) := by
  unfold removeDependencies
  split_ifs with h1
  · simp
  · dsimp only
    have hcm : ∀ c, c ∈ cols.filter (isConst rows) ++ cols.filter (· ∉ cols.filter (isConst rows)) ↔ c ∈ cols := by
      intro c
      simp only [List.mem_append, List.mem_filter, decide_eq_true_eq]
      tauto
    split_ifs with h2
    · simp only [Option.getD_none]
      rw [consts_spec x _ [] (fun c hc => (List.mem_filter.mp hc).2), List.append_nil]
      apply inHull_congr
      have : cols.filter (isConst rows) = cols := List.length_filter_eq_length_iff.mp h2.symm |> List.filter_eq_self.mpr
      rw [this]; simp
    · simp only [Option.getD_some]
      rw [removeLoop_spec hfit hp hd x _ _ _ (by
        intro c hc
        exact ⟨(List.mem_filter.mp hc).1, of_decide_eq_true (List.mem_filter.mp hc).2⟩) (hnd.filter _),
        consts_spec x _ _ (fun c hc => (List.mem_filter.mp hc).2)]
      exact inHull_congr hcm

theorem removeLoop_removed {L : NumLib K C} {d : Nat} {colExp : C → NExp K} {cols : List C} {rows : List (C → K)}
    (todo removed : List C) (conds : List (NCond K)) :
    ∀ c ∈ removed, c ∈ (removeLoop L d colExp cols rows todo removed conds).1 := by
  induction todo generalizing removed conds with
  | nil => exact fun c hc => hc
  | cons c todo ih =>
    rw [removeLoop]
    dsimp only
    split_ifs with he
    · exact fun c hc => hc
    · cases L.fit (cols.filter (fun f => f ≠ c ∧ f ∉ removed)) c rows with
      | none => exact ih removed conds
      | some p =>
        dsimp only
        intro c' hc'
        exact ih _ _ c' (by simp [hc'])

theorem removeDependencies_sub {L : NumLib K C} {d : Nat} {colExp : C → NExp K} {cols : List C}
    {rows : List (C → K)} {left : List C} {conds : List (NCond K)}
    (h : removeDependencies L d colExp cols rows = (some left, conds)) : left.Sublist cols := by
  unfold removeDependencies at h
  dsimp only at h
  split_ifs at h with h1 h2
  · cases h; exact List.Sublist.refl _
  · simp at h
  · have := congrArg Prod.fst h
    simp only [Option.some.injEq] at this
    rw [← this]
    exact List.filter_sublist

/-- The written inequalities mean the inequalities. -/
theorem pddlScheme_holds {d : Nat} {op : Cmp} {A : List (List K)} {b : List K} {headers : List (NExp K)} (x : String → K)
    (hl : A.length = b.length) :
    (∀ q ∈ pddlScheme d op A b headers, q.holds x) ↔
      ∀ i (hi : i < A.length), (⟨op, linExp (mulTerms d A[i] headers), .num (b[i]'(by omega))⟩ : NCond K).holds x := by
  unfold pddlScheme
  constructor
  · intro h i hi
    apply h
    rw [List.mem_iff_getElem]
    exact ⟨i, by simp; omega, by simp⟩
  · intro h q hq
    obtain ⟨i, hi, rfl⟩ := List.mem_iff_getElem.mp hq
    simp only [List.getElem_zipWith]
    exact h i (by simp at hi; omega)

theorem sum_zipWith_ofFn {n : Nat} (a : Fin n → K) (g : Fin n → NExp K) (x : String → K) :
    (List.zipWith (fun c f => c * featVal x f) (List.ofFn a) (List.ofFn g)).sum = ∑ i, a i * featVal x (g i) := by
  induction n with
  | zero => simp
  | succ n ih =>
    rw [List.ofFn_succ, List.ofFn_succ, List.zipWith_cons_cons, List.sum_cons, ih, Fin.sum_univ_succ]

theorem map_eq_ofFn {α β : Type} (l : List α) (g : α → β) : l.map g = List.ofFn fun i => g (l.get i) := by
  conv_lhs => rw [← List.ofFn_get l]
  rw [List.map_ofFn]; rfl

/-- All facets as conditions. -/
theorem facetConds_holds {d : Nat} {k : Nat} {facets : List ((Fin k → K) × K)} {headers : Fin k → NExp K} (x : String → K)
    (hp : ∀ f ∈ facets, (∀ i, Printable d (f.1 i)) ∧ Printable d f.2) :
    (∀ q ∈ pddlScheme d .le (facets.map fun f => prettifyCoefs d (List.ofFn f.1)) (prettifyCoefs d (facets.map Prod.snd))
        (List.ofFn headers), q.holds x) ↔
      ∀ f ∈ facets, (f.1 ⬝ᵥ fun i => featVal x (headers i)) ≤ f.2 := by
  have e1 : (facets.map fun f => prettifyCoefs d (List.ofFn f.1)) = facets.map fun f => List.ofFn f.1 := by
    apply List.map_congr_left
    intro f hf
    apply prettifyCoefs_of_printable
    intro c hc
    obtain ⟨i, rfl⟩ := List.mem_ofFn.mp hc
    exact (hp f hf).1 i
  have e2 : prettifyCoefs d (facets.map Prod.snd) = facets.map Prod.snd := by
    apply prettifyCoefs_of_printable
    intro c hc
    obtain ⟨f, hf, rfl⟩ := List.mem_map.mp hc
    exact (hp f hf).2
  rw [e1, e2, pddlScheme_holds x (by simp)]
  have key : ∀ f ∈ facets, (⟨.le, linExp (mulTerms d (List.ofFn f.1) (List.ofFn headers)), .num f.2⟩ : NCond K).holds x ↔
      (f.1 ⬝ᵥ fun i => featVal x (headers i)) ≤ f.2 := by
    intro f hf
    show (linExp (mulTerms d (List.ofFn f.1) (List.ofFn headers))).eval x ≤ f.2 ↔ _
    rw [eval_mulTerms_exact (by
      intro c hc
      obtain ⟨i, rfl⟩ := List.mem_ofFn.mp hc
      exact (hp f hf).1 i), sum_zipWith_ofFn]
    rfl
  constructor
  · intro h f hf
    obtain ⟨i, hi, rfl⟩ := List.mem_iff_getElem.mp hf
    rw [← key _ hf]
    have := h i (by simpa using hi)
    simpa using this
  · intro h i hi
    have hi' : i < facets.length := by simpa using hi
    have := (key _ (List.getElem_mem hi')).mpr (h _ (List.getElem_mem hi'))
    simpa using this

theorem parseConds_eq {cs cs' : List (NCond K)} (h : parseConds cs = .conds cs') : cs = cs' := by
  unfold parseConds at h
  split_ifs at h
  simpa using h

theorem listMin_map_le {l : List K} (h : l ≠ []) {v : K} : listMin l ≤ v ↔ -v ≤ -listMin l := by
  constructor <;> intro h <;> linarith

/-- The two inequalities of a single dimension. -/
theorem singleDim_holds {d : Nat} {vals : List K} (hne : vals ≠ []) (hp : ∀ k ∈ vals, Printable d k) (hd1 : 1 ≤ d)
    {header : NExp K} (x : String → K) :
    (∀ q ∈ pddlScheme d .le (singleDim d vals).1 (singleDim d vals).2 [header], q.holds x) ↔
      listMin vals ≤ featVal x header ∧ featVal x header ≤ listMax vals := by
  have hneg : ∀ c : K, Printable d c → Printable d (-c) := by
    rintro c (rfl | ⟨h1, h2⟩)
    · exact Or.inl neg_zero
    · exact Or.inr ⟨h1.neg, by rwa [abs_neg]⟩
  have hone : Printable d (1 : K) := by
    refine Or.inr ⟨⟨10 ^ d, by push_cast; ring⟩, ?_⟩
    rw [abs_one, div_lt_one (pow10_pos d)]
    exact one_lt_pow₀ (by norm_num) (by omega)
  have e : (singleDim d vals).2 = [-listMin vals, listMax vals] := by
    apply prettifyCoefs_of_printable
    intro c hc
    simp only [List.mem_cons, List.not_mem_nil, or_false] at hc
    rcases hc with rfl | rfl
    · exact hneg _ (hp _ (listMin_spec hne).2)
    · exact hp _ (listMax_spec hne).2
  rw [e, singleDim]
  simp only [pddlScheme, List.zipWith_cons_cons, List.zipWith_nil_left, List.forall_mem_cons, List.not_mem_nil,
    IsEmpty.forall_iff, implies_true, and_true]
  have e1 : (linExp (mulTerms d [(-1 : K)] [header])).eval x = - featVal x header := by
    rw [eval_mulTerms_exact (by intro c hc; rw [List.mem_singleton.mp hc]; exact hneg _ hone)]
    simp
  have e2 : (linExp (mulTerms d [(1 : K)] [header])).eval x = featVal x header := by
    rw [eval_mulTerms_exact (by intro c hc; rw [List.mem_singleton.mp hc]; exact hone)]
    simp
  show (linExp (mulTerms d [(-1 : K)] [header])).eval x ≤ -listMin vals ∧
      (linExp (mulTerms d [(1 : K)] [header])).eval x ≤ listMax vals ↔ _
  rw [e1, e2, neg_le_neg_iff]

/-- The branch without projection is taken. -/
def fullRank (L : NumLib K C) (d : Nat) (cols : List C) (rows : List (C → K)) : Prop :=
  cols.length < rows.length ∧
    cols.length ≤ (gramSchmidt (epsOf K d) L.norm ((rows.map (rowVec cols)).map
      (· - ((rows.map (rowVec cols)).head?).getD 0)) []).length

theorem hullInequalities_full {L : NumLib K C} {d : Nat} {margin : K} {plain : Bool} {colExp : C → NExp K}
    {cols : List C} {rows : List (C → K)} (h : fullRank L d cols rows) :
    hullInequalities L d margin plain colExp cols rows =
      (executeHull d (L.qhull cols.length) margin plain (rows.map (rowVec cols))).map fun ab => (ab, cols.map colExp, []) := by
  unfold hullInequalities
  dsimp only
  rw [if_pos]
  unfold fullRank at h
  simpa using h

/-- The region of the conditions of the branch without projection. -/
theorem hullInequalities_full_holds {L : NumLib K C} {d : Nat} {margin : K} {plain : Bool} {colExp : C → NExp K}
    {cols : List C} {rows : List (C → K)} (h : fullRank L d cols rows) (hd : ∀ c ∈ cols, colExp c ≠ dummy)
    {ab : List (List K) × List K} {vars : List (NExp K)} {sp : List (NCond K)}
    (ho : hullInequalities L d margin plain colExp cols rows = some (ab, vars, sp))
    (hp : ∀ hr, approxHull (L.qhull cols.length) margin plain (rows.map (rowVec cols)) = some hr →
      ∀ f ∈ hr.facets, (∀ i, Printable d (f.1 i)) ∧ Printable d f.2) (x : String → K) :
    sp = [] ∧ ∃ hr, approxHull (L.qhull cols.length) margin plain (rows.map (rowVec cols)) = some hr ∧
      ((∀ q ∈ pddlScheme d .le ab.1 ab.2 vars, q.holds x) ↔
        ∀ f ∈ hr.facets, (f.1 ⬝ᵥ fun i => colVal colExp x (cols.get i)) ≤ f.2) := by
  rw [hullInequalities_full h] at ho
  unfold executeHull at ho
  cases ha : approxHull (L.qhull cols.length) margin plain (rows.map (rowVec cols)) with
  | none => rw [ha] at ho; simp at ho
  | some hr =>
    rw [ha] at ho
    simp only [Option.map_some, Option.some.injEq, Prod.mk.injEq] at ho
    obtain ⟨rfl, rfl, rfl⟩ := ho
    refine ⟨rfl, hr, rfl, ?_⟩
    rw [map_eq_ofFn cols colExp, facetConds_holds x (hp hr ha)]
    have : (fun i => featVal x (colExp (cols.get i))) = fun i => colVal colExp x (cols.get i) := by
      funext i
      rw [featVal, if_neg (hd _ (List.get_mem _ _))]; rfl
    rw [this]

end Model

import Verif.Lemmas.HullLearner
import Mathlib.Algebra.BigOperators.Field
import Mathlib.LinearAlgebra.Dual.Lemmas
import Mathlib.LinearAlgebra.FiniteDimensional.Lemmas
import Mathlib.LinearAlgebra.Dimension.Constructions
import Mathlib.LinearAlgebra.Dimension.StrongRankCondition

namespace Model
open Spec

variable {K : Type} [Field K] [LinearOrder K] [IsStrictOrderedRing K]

theorem span_to_weights {n : Nat} (p0 : Fin n → K) (S : List (Fin n → K)) {q : Fin n → K}
    (hq : q ∈ Submodule.span K {b | b ∈ S.map (· - p0)}) :
    ∃ w : List K, w.length = (p0 :: S).length ∧ w.sum = 1 ∧ q + p0 = (List.zipWith (fun k (r : Fin n → K) => k • r) w (p0 :: S)).sum := by
  induction S generalizing q with
  | nil =>
    simp at hq
    exact ⟨[1], by simp, by simp, by simp [hq]⟩
  | cons s S ih =>
    have : {b | b ∈ (s :: S).map (· - p0)} = insert (s - p0) {b | b ∈ S.map (· - p0)} := by
      ext b; simp [eq_comm]
    rw [this, Submodule.mem_span_insert] at hq
    obtain ⟨a, z, hz, rfl⟩ := hq
    obtain ⟨w, h1, h2, h3⟩ := ih hz
    cases w with
    | nil => simp at h1
    | cons w0 w =>
      refine ⟨(w0 - a) :: a :: w, by simpa using h1, by simp only [List.sum_cons] at h2 ⊢; rw [← h2]; ring, ?_⟩
      simp only [List.zipWith_cons_cons, List.sum_cons] at h3 ⊢
      rw [show a • (s - p0) + z + p0 = a • (s - p0) + (z + p0) by abel, h3, smul_sub, sub_smul]
      abel

theorem weights_to_span {n : Nat} (p0 : Fin n → K) (S : List (Fin n → K)) {w : List K} (hl : w.length = S.length) :
    (List.zipWith (fun k (r : Fin n → K) => k • r) w S).sum - w.sum • p0 ∈ Submodule.span K {b | b ∈ S.map (· - p0)} := by
  induction S generalizing w with
  | nil => cases w <;> simp_all
  | cons s S ih =>
    cases w with
    | nil => simp at hl
    | cons a w =>
      simp only [List.zipWith_cons_cons, List.sum_cons, add_smul]
      have h := ih (w := w) (by simpa using hl)
      rw [show a • s + (List.zipWith (fun k (r : Fin n → K) => k • r) w S).sum - (a • p0 + w.sum • p0)
        = a • (s - p0) + ((List.zipWith (fun k (r : Fin n → K) => k • r) w S).sum - w.sum • p0) by rw [smul_sub]; abel]
      refine Submodule.add_mem _ (Submodule.smul_mem _ _ (Submodule.subset_span (by simp))) ?_
      exact Submodule.span_mono (fun b hb => by simp only [Set.mem_setOf_eq, List.map_cons, List.mem_cons] at hb ⊢; exact Or.inr hb) h

variable {C : Type} [DecidableEq C]

theorem rowVec_sum (cols : List C) (w : List K) (S : List (C → K)) (i : Fin cols.length) :
    (List.zipWith (fun k (r : Fin cols.length → K) => k • r) w (S.map (rowVec cols))).sum i =
      (List.zipWith (fun k (r : C → K) => k * r (cols.get i)) w S).sum := by
  induction S generalizing w with
  | nil => simp
  | cons s S ih =>
    cases w with
    | nil => simp
    | cons a w => simp only [List.map_cons, List.zipWith_cons_cons, List.sum_cons, Pi.add_apply, ih]; rfl

/-- Affine combinations as vectors. -/
theorem inAffine_iff {cols : List C} {S : List (C → K)} {v : C → K} :
    InAffine cols S v ↔ ∃ w : List K, w.length = S.length ∧ w.sum = 1 ∧
      rowVec cols v = (List.zipWith (fun k (r : Fin cols.length → K) => k • r) w (S.map (rowVec cols))).sum := by
  unfold InAffine
  refine exists_congr fun w => and_congr_right fun _ => and_congr_right fun _ => ?_
  constructor
  · intro h
    funext i
    rw [rowVec_sum]
    exact h _ (List.get_mem _ _)
  · intro h c hc
    obtain ⟨i, hi, rfl⟩ := List.mem_iff_getElem.mp hc
    have := congrFun h ⟨i, hi⟩
    rw [rowVec_sum] at this
    exact this

/-- With well separated data, Gram-Schmidt loses no direction. -/
theorem gs_span_separated {eps : K} (heps : 0 ≤ eps) {norm : {n : Nat} → (Fin n → K) → K} {cols : List C}
    (p0 : C → K) (rows done : List (C → K)) (all : List (C → K)) (hp0 : p0 ∈ all)
    (hr : ∀ r ∈ rows, r ∈ all) (hdone : ∀ r ∈ done, r ∈ all) (hsep : Separated eps cols all)
    (st : List (Fin cols.length → K) × List (Fin cols.length → K))
    (hst : Submodule.span K {b | b ∈ st.1} = Submodule.span K {b | b ∈ (done.map (rowVec cols)).map (· - rowVec cols p0)})
    (hmem : ∀ i j : Fin cols.length, cols.get i = cols.get j → i = j) :
    Submodule.span K {b | b ∈ (((rows.map (rowVec cols)).map (· - rowVec cols p0)).foldl (gsStep eps norm) st).1}
      = Submodule.span K {b | b ∈ ((done ++ rows).map (rowVec cols)).map (· - rowVec cols p0)} := by
  induction rows generalizing done st with
  | nil => simpa using hst
  | cons r rows ih =>
    simp only [List.map_cons, List.foldl_cons]
    rw [ih (done ++ [r]) (fun r' hr' => hr r' (by simp [hr'])) (by
      intro r' hr'
      rcases List.mem_append.mp hr' with h | h
      · exact hdone r' h
      · rw [List.mem_singleton.mp h]; exact hr r (by simp)) (gsStep eps norm st (rowVec cols r - rowVec cols p0)) ?_]
    · simp
    · have hins : {b | b ∈ ((done ++ [r]).map (rowVec cols)).map (· - rowVec cols p0)}
          = insert (rowVec cols r - rowVec cols p0) {b | b ∈ (done.map (rowVec cols)).map (· - rowVec cols p0)} := by
        ext b
        simp only [List.map_append, List.map_cons, List.map_nil, List.mem_append, List.mem_singleton, Set.mem_setOf_eq, Set.mem_insert_iff]
        tauto
      rw [hins, Submodule.span_insert, ← hst]
      have hproj := projOn_mem_span st.1 (rowVec cols r - rowVec cols p0)
      unfold gsStep
      dsimp only
      split_ifs with hc
      · have e : {b | b ∈ st.1 ++ [rowVec cols r - rowVec cols p0 - projOn st.1 (rowVec cols r - rowVec cols p0)]}
            = insert (rowVec cols r - rowVec cols p0 - projOn st.1 (rowVec cols r - rowVec cols p0)) {b | b ∈ st.1} := by
          ext b; simp only [List.mem_append, List.mem_singleton, Set.mem_setOf_eq, Set.mem_insert_iff]; tauto
        simp only
        rw [e, Submodule.span_insert]
        apply le_antisymm
        · refine sup_le ?_ le_sup_right
          rw [Submodule.span_singleton_le_iff_mem]
          refine Submodule.sub_mem _ ?_ (Submodule.mem_sup_right hproj)
          exact Submodule.mem_sup_left (Submodule.mem_span_singleton_self _)
        · refine sup_le ?_ le_sup_right
          rw [Submodule.span_singleton_le_iff_mem]
          have : rowVec cols r - rowVec cols p0 = (rowVec cols r - rowVec cols p0 - projOn st.1 (rowVec cols r - rowVec cols p0))
              + projOn st.1 (rowVec cols r - rowVec cols p0) := by abel
          rw [this]
          refine Submodule.add_mem _ ?_ (Submodule.mem_sup_right hproj)
          rw [← this]
          exact Submodule.mem_sup_left (Submodule.mem_span_singleton_self _)
      · push Not at hc
        refine (sup_eq_right.mpr ?_).symm
        rw [Submodule.span_singleton_le_iff_mem]
        rw [hst] at hproj
        obtain ⟨w, w1, w2, w3⟩ := span_to_weights (rowVec cols p0) (done.map (rowVec cols)) hproj
        -- a row with these values
        obtain ⟨q, hq⟩ : ∃ q : C → K, rowVec cols q = projOn st.1 (rowVec cols r - rowVec cols p0) + rowVec cols p0 := by
          classical
          refine ⟨fun c => if h : c ∈ cols then (projOn st.1 (rowVec cols r - rowVec cols p0) + rowVec cols p0)
            ⟨cols.idxOf c, List.idxOf_lt_length_iff.mpr h⟩ else 0, ?_⟩
          funext i
          show dite (cols.get i ∈ cols) _ _ = _
          rw [dif_pos (List.get_mem _ _)]
          exact congrArg _ (hmem _ _ (by simp))
        have hqa : InAffine cols (p0 :: done) q := by
          rw [inAffine_iff]
          exact ⟨w, by simpa using w1, w2, by rw [hq]; exact w3⟩
        rcases hsep r (hr r (by simp)) (p0 :: done) (by
          intro r' hr'
          rcases List.mem_cons.mp hr' with rfl | h
          · exact hp0
          · exact hdone r' h) with ha | ha
        · rw [inAffine_iff] at ha
          obtain ⟨u, u1, u2, u3⟩ := ha
          rw [hst, u3]
          have := weights_to_span (rowVec cols p0) ((p0 :: done).map (rowVec cols)) (w := u) (by simpa using u1)
          rw [u2, one_smul] at this
          refine (Submodule.span_le.mpr ?_) this
          intro b hb
          simp only [List.map_cons, sub_self, Set.mem_setOf_eq, List.mem_cons] at hb
          rcases hb with rfl | hb
          · exact Submodule.zero_mem _
          · exact Submodule.subset_span hb
        · obtain ⟨c, hc', hlt⟩ := ha q hqa
          obtain ⟨i, hi, rfl⟩ := List.mem_iff_getElem.mp hc'
          have h1 := hc ⟨i, hi⟩
          have h2 := congrFun hq ⟨i, hi⟩
          simp only [rowVec, Pi.add_apply, Pi.sub_apply, List.get_eq_getElem] at h1 h2
          rw [h2] at hlt
          refine absurd hlt (not_lt.mpr ?_)
          refine le_trans (le_of_eq ?_) h1
          congr 1
          ring

theorem gsFold_length {n : Nat} (eps : K) (norm : (Fin n → K) → K) (vs : List (Fin n → K)) (st : List (Fin n → K) × List (Fin n → K))
    (h : st.1.length = st.2.length) :
    (vs.foldl (gsStep eps norm) st).1.length = (vs.foldl (gsStep eps norm) st).2.length ∧
      (vs.foldl (gsStep eps norm) st).2.length ≤ st.2.length + vs.length := by
  induction vs generalizing st with
  | nil => simpa using h
  | cons v vs ih =>
    simp only [List.foldl_cons, List.length_cons]
    have hs : (gsStep eps norm st v).1.length = (gsStep eps norm st v).2.length ∧
        (gsStep eps norm st v).2.length ≤ st.2.length + 1 := by
      unfold gsStep
      dsimp only
      split_ifs
      · simp [h]
      · simp [h]
    obtain ⟨h1, h2⟩ := ih _ hs.1
    exact ⟨h1, by omega⟩

/-- Fewer directions than columns: some column is an affine function of the others. -/
theorem dependent_of_span_lt {cols : List C} {rows : List (C → K)} {p0 : C → K}
    {bs : List (Fin cols.length → K)} (hlt : bs.length < cols.length)
    (hspan : Submodule.span K {b | b ∈ bs} = Submodule.span K {b | b ∈ (rows.map (rowVec cols)).map (· - rowVec cols p0)}) :
    ∃ f : Fin cols.length → K, (∃ i, f i ≠ 0) ∧ ∀ r ∈ rows, ∑ i, f i * (r (cols.get i) - p0 (cols.get i)) = 0 := by
  have htop : Submodule.span K {b | b ∈ bs} < ⊤ := by
    rw [lt_top_iff_ne_top]
    intro e
    have h1 : Module.finrank K (Submodule.span K {b | b ∈ bs}) ≤ bs.length := by
      have := finrank_span_le_card (R := K) (M := Fin cols.length → K) {b | b ∈ bs.toFinset}
      have e2 : ({b | b ∈ bs.toFinset} : Set (Fin cols.length → K)) = {b | b ∈ bs} := by ext; simp
      classical
      have h3 := finrank_span_finset_le_card (R := K) (M := Fin cols.length → K) bs.toFinset
      have e3 : ((bs.toFinset : Finset (Fin cols.length → K)) : Set (Fin cols.length → K)) = {b | b ∈ bs} := by ext; simp
      unfold Set.finrank at h3
      rw [e3] at h3
      exact h3.trans (List.toFinset_card_le bs)
    rw [e, finrank_top, Module.finrank_fintype_fun_eq_card, Fintype.card_fin] at h1
    omega
  obtain ⟨f, hf, hle⟩ := Submodule.exists_le_ker_of_lt_top _ htop
  refine ⟨fun i => f (Pi.single i 1), ?_, ?_⟩
  · by_contra hall
    push Not at hall
    apply hf
    apply LinearMap.pi_ext'
    intro i
    ext
    simpa using hall i
  · intro r hr
    have hm : rowVec cols r - rowVec cols p0 ∈ Submodule.span K {b | b ∈ bs} := by
      rw [hspan]
      exact Submodule.subset_span (by simp only [Set.mem_setOf_eq, List.mem_map]; exact ⟨_, ⟨r, hr, rfl⟩, rfl⟩)
    have h0 : f (rowVec cols r - rowVec cols p0) = 0 := hle hm
    rw [← h0]
    have hs : rowVec cols r - rowVec cols p0 = ∑ i, ((rowVec cols r - rowVec cols p0) i) • Pi.single (M := fun _ => K) i 1 := by
      funext j
      rw [Finset.sum_apply, Finset.sum_eq_single j]
      · simp
      · intro i _ hij; simp [Ne.symm hij]
      · simp
    conv_rhs => rw [hs, map_sum]
    refine Finset.sum_congr rfl fun i _ => ?_
    rw [map_smul, smul_eq_mul, mul_comm]
    rfl

theorem sum_filter_eq {α : Type} (p : α → Bool) (g : α → K) (l : List α) :
    ((l.filter p).map g).sum = (l.map fun a => if p a then g a else 0).sum := by
  induction l with
  | nil => rfl
  | cons a l ih =>
    rw [List.filter_cons]
    split_ifs with h
    · simp [h, ih]
    · simp [h, ih]

variable [FloorRing K]

/-- No column that is left is an affine function of the other columns that are left. -/
theorem removeLoop_indep {L : NumLib K C} {d : Nat} {colExp : C → NExp K} {cols : List C}
    {rows : List (C → K)} (hfit : FitComplete L rows) (todo removed : List C) (conds : List (NCond K))
    (ht : ∀ c ∈ todo, c ∈ cols ∧ c ∉ removed) (hnd : todo.Nodup) {c : C} (hc : c ∈ todo)
    (hleft : c ∉ (removeLoop L d colExp cols rows todo removed conds).1) (a : C → K) (b : K)
    (hne : cols.filter (fun f => f ≠ c ∧ f ∉ (removeLoop L d colExp cols rows todo removed conds).1) ≠ [])
    (hdep : ∀ r ∈ rows, r c = ((cols.filter (fun f => f ≠ c ∧ f ∉ (removeLoop L d colExp cols rows todo removed conds).1)).map
      fun f => a f * r f).sum + b) : False := by
  induction todo generalizing removed conds with
  | nil => simp at hc
  | cons c0 todo ih =>
    revert hleft hne hdep
    rw [removeLoop]
    dsimp only
    split_ifs with he
    · intro hleft hne hdep
      have hcc : c = c0 := by
        by_contra h
        have : c ∈ cols.filter (fun f => f ≠ c0 ∧ f ∉ removed) := by
          simp only [List.mem_filter, decide_eq_true_eq]
          exact ⟨(ht c hc).1, h, (ht c hc).2⟩
        rw [he] at this
        simp at this
      subst hcc
      exact hne he
    · cases hf : L.fit (cols.filter (fun f => f ≠ c0 ∧ f ∉ removed)) c0 rows with
      | none =>
        dsimp only
        intro hleft hne hdep
        by_cases hcc : c = c0
        · subst hcc
          have hsub := removeLoop_removed (L := L) (d := d) (colExp := colExp) (cols := cols) (rows := rows) todo removed conds
          refine hfit (feats := cols.filter (fun f => f ≠ c ∧ f ∉ removed)) (c := c)
            (fun f => if f ∉ (removeLoop L d colExp cols rows todo removed conds).1 then a f else 0) b he (by simp) ?_ hf
          intro r hr
          rw [hdep r hr]
          congr 1
          rw [show cols.filter (fun f => f ≠ c ∧ f ∉ (removeLoop L d colExp cols rows todo removed conds).1)
              = (cols.filter (fun f => f ≠ c ∧ f ∉ removed)).filter
                (fun f => f ∉ (removeLoop L d colExp cols rows todo removed conds).1) by
            rw [List.filter_filter]
            apply List.filter_congr
            intro f _
            rw [← Bool.decide_and]
            apply decide_eq_decide.mpr
            constructor
            · rintro ⟨h1, h2⟩; exact ⟨h2, h1, fun h => h2 (hsub f h)⟩
            · rintro ⟨h1, h2, _⟩; exact ⟨h2, h1⟩]
          rw [sum_filter_eq]
          congr 1
          apply List.map_congr_left
          intro f _
          simp only [decide_eq_true_eq]
          split_ifs <;> simp
        · have hc' : c ∈ todo := (List.mem_cons.mp hc).resolve_left hcc
          exact ih removed conds (fun c' hc' => ht c' (by simp [hc'])) (List.nodup_cons.mp hnd).2 hc' hleft hne hdep
      | some p =>
        obtain ⟨cs, b'⟩ := p
        dsimp only
        intro hleft hne hdep
        have hcc : c ≠ c0 := by
          rintro rfl
          exact hleft (removeLoop_removed todo _ _ c (by simp))
        have hc' : c ∈ todo := (List.mem_cons.mp hc).resolve_left hcc
        exact ih _ _ (by
            intro c' hc''
            refine ⟨(ht c' (by simp [hc''])).1, ?_⟩
            simp only [List.mem_append, List.mem_singleton, not_or]
            exact ⟨(ht c' (by simp [hc''])).2, by rintro rfl; exact (List.nodup_cons.mp hnd).1 hc''⟩)
            (List.nodup_cons.mp hnd).2 hc' hleft hne hdep

theorem removeDependencies_indep {L : NumLib K C} {d : Nat} {colExp : C → NExp K} {cols : List C}
    {rows : List (C → K)} (hfit : FitComplete L rows) (hne : rows ≠ []) (hnd : cols.Nodup) {left : List C} {conds : List (NCond K)}
    (h : removeDependencies L d colExp cols rows = (some left, conds)) (hl : left.length ≠ 1) {c : C} (hc : c ∈ left)
    (a : C → K) (b : K) (hdep : ∀ r ∈ rows, r c = ((left.filter (· ≠ c)).map fun f => a f * r f).sum + b) : False := by
  unfold removeDependencies at h
  dsimp only at h
  split_ifs at h with h1 h2
  · cases h
    rcases h1 with h1 | h1
    · exact hne h1
    · exact hl h1
  · simp at h
  · have h3 := congrArg Prod.fst h
    simp only [Option.some.injEq] at h3
    subst h3
    set res := removeLoop L d colExp cols rows (cols.filter (· ∉ cols.filter (isConst rows))) (cols.filter (isConst rows))
      ((cols.filter (isConst rows)).map fun c => (⟨.eq, colExp c, .num (((rows.head?).map (· c)).getD 0)⟩ : NCond K)) with hres
    have e : (cols.filter (· ∉ res.1)).filter (· ≠ c) = cols.filter (fun f => f ≠ c ∧ f ∉ res.1) := by
      rw [List.filter_filter]
      apply List.filter_congr
      intro f _
      rw [← Bool.decide_and]
    have hcm := List.mem_filter.mp hc
    simp only [decide_eq_true_eq] at hcm
    refine removeLoop_indep hfit (d := d) (colExp := colExp) (cols := cols) (rows := rows)
      (cols.filter (· ∉ cols.filter (isConst rows))) (cols.filter (isConst rows))
      ((cols.filter (isConst rows)).map fun c => (⟨.eq, colExp c, .num (((rows.head?).map (· c)).getD 0)⟩ : NCond K))
      (fun c hc => ⟨(List.mem_filter.mp hc).1, of_decide_eq_true (List.mem_filter.mp hc).2⟩) (hnd.filter _) (c := c) ?_ hcm.2 a b ?_ ?_
    · simp only [List.mem_filter, decide_eq_true_eq]
      refine ⟨hcm.1, fun hm => hcm.2 ?_⟩
      rw [hres]
      refine removeLoop_removed _ _ _ c (List.mem_filter.mpr hm)
    · rw [← hres, ← e]
      intro he
      rw [List.filter_eq_nil_iff] at he
      apply hl
      have hall : ∀ f ∈ cols.filter (· ∉ res.1), f = c := fun f hf => by simpa using he f hf
      have hnd' : (cols.filter (· ∉ res.1)).Nodup := hnd.filter _
      revert hall hnd' hc
      generalize cols.filter (· ∉ res.1) = l
      intro hc hall hnd'
      match l, hc, hall, hnd' with
      | [], hc, _, _ => simp at hc
      | [_], _, _, _ => simp
      | x :: y :: l, _, hall, hnd' =>
        exfalso
        have := hall x (by simp)
        have := hall y (by simp)
        simp_all
    · rw [← hres, ← e]
      exact hdep

/-- With well separated data and a complete regression, the columns left span all directions. -/
theorem fullRank_of_separated {L : NumLib K C} {d : Nat} {colExp : C → NExp K} {cols : List C}
    {rows : List (C → K)} (hfit : FitComplete L rows) (hne : rows ≠ []) (hnd : cols.Nodup) {left : List C} {conds : List (NCond K)}
    (h : removeDependencies L d colExp cols rows = (some left, conds)) (hl : left.length ≠ 1)
    (hsep : Separated (epsOf K d) left rows) : fullRank L d left rows := by
  obtain ⟨p0, rest, hrows⟩ : ∃ p0 rest, rows = p0 :: rest := by
    cases rows with
    | nil => exact absurd rfl hne
    | cons p0 rest => exact ⟨p0, rest, rfl⟩
  have hndl : left.Nodup := hnd.sublist (removeDependencies_sub h)
  have hinj : ∀ i j : Fin left.length, left.get i = left.get j → i = j := fun i j e => (List.nodup_iff_injective_get.mp hndl) e
  have hhead : (((rows.map (rowVec left)).head?).getD 0) = rowVec left p0 := by rw [hrows]; rfl
  have hspan := gs_span_separated (epsOf_pos (K := K) d).le (norm := L.norm) (cols := left) p0 rows [] rows
    (by rw [hrows]; simp) (fun _ h => h) (by simp) hsep ([], []) (by simp) hinj
  obtain ⟨hlen, _⟩ := gsFold_length (epsOf K d) (L.norm (n := left.length)) ((rows.map (rowVec left)).map (· - rowVec left p0)) ([], []) rfl
  have hfull : left.length ≤ (gramSchmidt (epsOf K d) L.norm ((rows.map (rowVec left)).map (· - rowVec left p0)) []).length := by
    unfold gramSchmidt
    rw [← hlen]
    by_contra hlt
    push Not at hlt
    rw [List.nil_append] at hspan
    obtain ⟨f, ⟨i, hi⟩, hz⟩ := dependent_of_span_lt hlt hspan
    refine removeDependencies_indep hfit hne hnd h hl (List.get_mem left i)
      (fun c => if hm : c ∈ left then - f ⟨left.idxOf c, List.idxOf_lt_length_iff.mpr hm⟩ / f i else 0)
      ((∑ j, f j * p0 (left.get j)) / f i) ?_
    intro r hr
    rw [sum_filter_eq, map_eq_ofFn, List.sum_ofFn]
    have hterm : ∀ j : Fin left.length, (if (decide (left.get j ≠ left.get i)) = true then
        (if hm : left.get j ∈ left then - f ⟨left.idxOf (left.get j), List.idxOf_lt_length_iff.mpr hm⟩ / f i else 0) * r (left.get j)
        else 0) = (if j = i then 0 else - f j * r (left.get j) / f i) := by
      intro j
      by_cases hji : j = i
      · subst hji; simp
      · have hne' : left.get j ≠ left.get i := fun e => hji (hinj _ _ e)
        rw [if_pos (by simpa using hne'), dif_pos (List.get_mem _ _), if_neg hji]
        have : (⟨left.idxOf (left.get j), List.idxOf_lt_length_iff.mpr (List.get_mem _ _)⟩ : Fin left.length) = j :=
          hinj _ _ (by simp)
        rw [this]; ring
    rw [Finset.sum_congr rfl fun j _ => hterm j]
    have h1 : ∑ j, (if j = i then 0 else - f j * r (left.get j) / f i) = r (left.get i) - (∑ j, f j * r (left.get j)) / f i := by
      rw [Finset.sum_div]
      have h2 : ∀ j, (if j = i then 0 else - f j * r (left.get j) / f i)
          = (if j = i then r (left.get i) else 0) - f j * r (left.get j) / f i := by
        intro j
        split_ifs with hji
        · subst hji; rw [mul_div_assoc, mul_comm, div_mul_cancel₀ _ hi]; ring
        · ring
      rw [Finset.sum_congr rfl fun j _ => h2 j, Finset.sum_sub_distrib]
      simp
    rw [h1]
    have h3 : (∑ j, f j * r (left.get j)) = ∑ j, f j * p0 (left.get j) := by
      have := hz r hr
      simp only [mul_sub, Finset.sum_sub_distrib] at this
      linarith
    rw [h3]; ring
  refine ⟨?_, by rw [hhead]; exact hfull⟩
  have hlt : (gramSchmidt (epsOf K d) L.norm ((rows.map (rowVec left)).map (· - rowVec left p0)) []).length < rows.length := by
    rw [hrows]
    simp only [List.map_cons, sub_self, gramSchmidt, List.foldl_cons]
    have h0 : gsStep (epsOf K d) L.norm (([] : List (Fin left.length → K)), []) 0 = ([], []) := by
      unfold gsStep
      dsimp only
      rw [if_neg]
      push Not
      intro i
      simp [projOn, (epsOf_pos (K := K) d).le]
    rw [h0]
    obtain ⟨_, h5⟩ := gsFold_length (epsOf K d) (L.norm (n := left.length)) ((rest.map (rowVec left)).map (· - rowVec left p0)) ([], []) rfl
    simp only [List.length_nil, List.length_map, List.length_cons] at h5 ⊢
    omega
  omega

end Model

import Verif.Lemmas.FullRank
import Verif.Lemmas.GramSchmidt
import Verif.Lemmas.Reduce

/-! The branch of the convex hull learner that projects the points on a basis of their span. -/
namespace Model
open Spec

section
variable {K : Type} [Field K] [LinearOrder K] [IsStrictOrderedRing K] [FloorRing K]

theorem onGrid_of_printable {d : Nat} {c : K} (h : Printable d c) : OnGrid d c := by
  rcases h with rfl | h
  · exact ⟨0, by simp⟩
  · exact h.1

/-- One shifted feature. -/
def shiftedVar (d : Nat) (f : NExp K) (s : K) : NExp K := if s = 0 then f else NExp.sub f (.num (prettify d (rnd d s)))

theorem shiftedVar_eval {d : Nat} {f : NExp K} {s : K} (h : OnGrid d s) (x : String → K) :
    (shiftedVar d f s).eval x = f.eval x - s := by
  unfold shiftedVar
  split_ifs with h0
  · simp [h0]
  · rw [NExp.eval, NExp.eval, prettify_rnd, rnd_of_onGrid h]

/-- One projected term. -/
def projTerm (d : Nat) (p : NExp K × K) : Option (NExp K) :=
  if |rnd d p.2| ≤ epsOf K d then none
  else if p.2 = 1 then some p.1
  else some (.mul p.1 (.num (prettify d (rnd d p.2))))

theorem projTerm_val {d : Nat} (x : String → K) {p : NExp K × K} (h : Printable d p.2) :
    ((projTerm d p).map (NExp.eval x)).getD 0 = p.2 * p.1.eval x := by
  unfold projTerm
  have hg := rnd_of_onGrid (onGrid_of_printable h)
  rw [hg]
  by_cases h1 : |p.2| ≤ epsOf K d
  · rcases h with h | h
    · simp [h, (epsOf_pos d).le]
    · exact absurd h.2 (not_lt.mpr h1)
  · by_cases h3 : p.2 = 1
    · rw [if_neg h1, if_pos h3, h3]; simp
    · rw [if_neg h1, if_neg h3, prettify_of_onGrid (onGrid_of_printable h)]
      simp only [Option.map_some, Option.getD_some, NExp.eval]; ring

/-- The text of one projected variable. -/
def projVar (d : Nat) {n : Nat} (f : Fin n → NExp K) (shift b : Fin n → K) : NExp K :=
  linExp (((List.ofFn fun i => shiftedVar d (f i) (shift i)).zip (List.ofFn b)).filterMap (projTerm d))

theorem zipWith_ofFn {α β γ : Type} {n : Nat} (g : α → β → γ) (a : Fin n → α) (b : Fin n → β) :
    List.zipWith g (List.ofFn a) (List.ofFn b) = List.ofFn fun i => g (a i) (b i) := by
  induction n with
  | zero => simp
  | succ n ih => rw [List.ofFn_succ, List.ofFn_succ, List.ofFn_succ, List.zipWith_cons_cons, ih]

theorem projectedVars_eq {d n : Nat} (f : Fin n → NExp K) (shift : Fin n → K) (bs : List (Fin n → K)) :
    projectedVars d (List.ofFn f) (List.ofFn shift) (bs.map List.ofFn) = bs.map (projVar d f shift) := by
  unfold projectedVars
  dsimp only
  rw [zipWith_ofFn, List.map_map]
  rfl

/-- The value of a projected variable: the scalar product of the shifted values with the basis vector. -/
theorem projVar_eval {d n : Nat} {f : Fin n → NExp K} {shift b : Fin n → K} (hs : ∀ i, OnGrid d (shift i))
    (hb : ∀ i, Printable d (b i)) (x : String → K) :
    (projVar d f shift b).eval x = ∑ i, b i * ((f i).eval x - shift i) := by
  unfold projVar
  rw [eval_linExp, sum_filterMap_getD, List.zip, zipWith_ofFn, List.map_ofFn, List.sum_ofFn]
  refine Finset.sum_congr rfl fun i _ => ?_
  rw [Function.comp_apply, projTerm_val x (hb i), shiftedVar_eval (hs i)]

theorem projVar_ne_dummy {d n : Nat} {f : Fin n → NExp K} {shift b : Fin n → K} (hf : ∀ i, f i ≠ dummy) :
    projVar d f shift b ≠ dummy := by
  unfold projVar
  have h : ∀ t ∈ ((List.ofFn fun i => shiftedVar d (f i) (shift i)).zip (List.ofFn b)).filterMap (projTerm d), t ≠ dummy := by
    intro t ht
    obtain ⟨p, hp, e⟩ := List.mem_filterMap.mp ht
    have hp1 : p.1 ∈ List.ofFn fun i => shiftedVar d (f i) (shift i) := (List.of_mem_zip hp).1
    obtain ⟨i, hi⟩ := List.mem_ofFn.mp hp1
    have hne : p.1 ≠ dummy := by
      rw [← hi]
      unfold shiftedVar
      split_ifs
      · exact hf i
      · simp [dummy]
    unfold projTerm at e
    split_ifs at e
    · cases e; exact hne
    · cases e; simp [dummy]
  revert h
  generalize ((List.ofFn fun i => shiftedVar d (f i) (shift i)).zip (List.ofFn b)).filterMap (projTerm d) = ts
  intro h
  match ts, h with
  | [], _ => simp [linExp, dummy]
  | [t], h => exact h t (by simp)
  | t :: u :: ts, _ => simp [linExp, dummy]

end

section
variable {K : Type} [Field K] [LinearOrder K] [IsStrictOrderedRing K]

/-- Convex combinations as vectors. -/
theorem inHull_fin_iff {k : Nat} {pts : List (Fin k → K)} {y : Fin k → K} :
    InHull (List.finRange k) pts y ↔ ∃ w : List K, w.length = pts.length ∧ (∀ a ∈ w, 0 ≤ a) ∧ w.sum = 1 ∧
      y = (List.zipWith (fun a (r : Fin k → K) => a • r) w pts).sum := by
  unfold InHull
  have e : ∀ (w : List K) (i : Fin k), (List.zipWith (fun a (r : Fin k → K) => a • r) w pts).sum i =
      (List.zipWith (fun a (r : Fin k → K) => a * r i) w pts).sum := by
    intro w i
    induction pts generalizing w with
    | nil => simp
    | cons p pts ih =>
      cases w with
      | nil => simp
      | cons a w => simp only [List.zipWith_cons_cons, List.sum_cons, Pi.add_apply, ih]; rfl
  refine exists_congr fun w => and_congr_right fun _ => and_congr_right fun _ => and_congr_right fun _ => ?_
  constructor
  · intro h; funext i; rw [e]; exact h i (List.mem_finRange _)
  · intro h i _; rw [h, e]

theorem map_comb {n k : Nat} (P : (Fin n → K) →ₗ[K] (Fin k → K)) (w : List K) (pts : List (Fin n → K)) :
    (List.zipWith (fun a (r : Fin k → K) => a • r) w (pts.map P)).sum
      = P (List.zipWith (fun a (r : Fin n → K) => a • r) w pts).sum := by
  induction pts generalizing w with
  | nil => simp
  | cons p pts ih =>
    cases w with
    | nil => simp
    | cons a w => simp only [List.map_cons, List.zipWith_cons_cons, List.sum_cons, ih, map_add, map_smul]

theorem comb_mem {n : Nat} {S : Submodule K (Fin n → K)} (w : List K) {pts : List (Fin n → K)} (h : ∀ p ∈ pts, p ∈ S) :
    (List.zipWith (fun a (r : Fin n → K) => a • r) w pts).sum ∈ S := by
  induction pts generalizing w with
  | nil => simp
  | cons p pts ih =>
    cases w with
    | nil => simp
    | cons a w =>
      simp only [List.zipWith_cons_cons, List.sum_cons]
      exact S.add_mem (S.smul_mem _ (h p (by simp))) (ih w fun q hq => h q (by simp [hq]))

theorem comb_shift {n : Nat} (p0 : Fin n → K) {w : List K} {pts : List (Fin n → K)} (hl : w.length = pts.length) :
    (List.zipWith (fun a (r : Fin n → K) => a • r) w (pts.map (· - p0))).sum
      = (List.zipWith (fun a (r : Fin n → K) => a • r) w pts).sum - w.sum • p0 := by
  induction pts generalizing w with
  | nil => cases w <;> simp_all
  | cons p pts ih =>
    cases w with
    | nil => simp at hl
    | cons a w =>
      simp only [List.map_cons, List.zipWith_cons_cons, List.sum_cons, ih (by simpa using hl), add_smul, smul_sub]
      abel

/-- The coordinates of a vector along a list of vectors. -/
def coords {n : Nat} (bs : List (Fin n → K)) : (Fin n → K) →ₗ[K] (Fin bs.length → K) where
  toFun p := fun i => p ⬝ᵥ bs.get i
  map_add' a b := by funext i; simp [add_dotProduct]
  map_smul' a b := by funext i; simp [smul_dotProduct]

theorem coords_eq_zero {n : Nat} {bs : List (Fin n → K)} {v : Fin n → K}
    (hv : v ∈ Submodule.span K {b | b ∈ bs}) (h0 : coords bs v = 0) : v = 0 := by
  apply dot_self_eq_zero
  apply dot_span_eq_zero (bs := bs) _ hv
  intro b hb
  obtain ⟨i, hi, rfl⟩ := List.mem_iff_getElem.mp hb
  have := congrFun h0 ⟨i, hi⟩
  rw [dotProduct_comm]
  exact this

/-- A vector of the span is in the hull of the (shifted) points exactly when its coordinates are in the
hull of theirs. -/
theorem hull_coords {n : Nat} {bs : List (Fin n → K)} {p0 : Fin n → K} {pts : List (Fin n → K)}
    (hspan : ∀ p ∈ pts, p - p0 ∈ Submodule.span K {b | b ∈ bs}) {v : Fin n → K} :
    (InHull (List.finRange bs.length) (pts.map fun p => coords bs (p - p0)) (coords bs (v - p0)) ∧
      v - p0 ∈ Submodule.span K {b | b ∈ bs}) ↔ InHull (List.finRange n) pts v := by
  rw [inHull_fin_iff, inHull_fin_iff]
  have em : (pts.map fun p => coords bs (p - p0)) = (pts.map (· - p0)).map (coords bs) := by rw [List.map_map]; rfl
  have hin : ∀ p ∈ pts.map (· - p0), p ∈ Submodule.span K {b | b ∈ bs} := by
    intro p hp
    obtain ⟨q, hq, rfl⟩ := List.mem_map.mp hp
    exact hspan q hq
  constructor
  · rintro ⟨⟨w, h1, h2, h3, h4⟩, hv⟩
    refine ⟨w, by simpa using h1, h2, h3, ?_⟩
    rw [em, map_comb] at h4
    have h5 : v - p0 - (List.zipWith (fun a (r : Fin n → K) => a • r) w (pts.map (· - p0))).sum = 0 := by
      apply coords_eq_zero (bs := bs) (Submodule.sub_mem _ hv (comb_mem w hin))
      rw [map_sub, h4, sub_self]
    rw [comb_shift p0 (by simpa using h1), h3, one_smul] at h5
    have := sub_eq_zero.mp h5
    exact sub_left_inj.mp this
  · rintro ⟨w, h1, h2, h3, h4⟩
    have hv : v - p0 = (List.zipWith (fun a (r : Fin n → K) => a • r) w (pts.map (· - p0))).sum := by
      rw [comb_shift p0 h1, h3, one_smul, h4]
    refine ⟨⟨w, by simpa using h1, h2, h3, ?_⟩, ?_⟩
    · rw [em, map_comb, hv]
    · rw [hv]; exact comb_mem w hin

/-- With well separated data the basis spans the shifted points. -/
theorem gs_basis_span {C : Type} [DecidableEq C] {eps : K} (heps : 0 ≤ eps) {norm : {n : Nat} → (Fin n → K) → K}
    (hnorm : ∀ {n : Nat} (v : Fin n → K), v ≠ 0 → norm v ≠ 0) {cols : List C} (hnd : cols.Nodup) {p0 : C → K}
    {rows : List (C → K)} (hp0 : p0 ∈ rows) (hsep : Separated eps cols rows) {r : C → K} (hr : r ∈ rows) :
    rowVec cols r - rowVec cols p0 ∈
      Submodule.span K {b | b ∈ gramSchmidt eps norm ((rows.map (rowVec cols)).map (· - rowVec cols p0)) []} := by
  have hsp := gs_span_separated heps (norm := norm) p0 rows [] rows hp0 (fun _ h => h) (by simp) hsep ([], []) (by simp)
    (fun i j e => (List.nodup_iff_injective_get.mp hnd) e)
  have hm : rowVec cols r - rowVec cols p0 ∈ Submodule.span K
      {b | b ∈ (((rows.map (rowVec cols)).map (· - rowVec cols p0)).foldl (gsStep eps norm) ([], [])).1} := by
    rw [hsp]
    exact Submodule.subset_span (by simp only [Set.mem_setOf_eq, List.nil_append, List.mem_map]; exact ⟨_, ⟨r, hr, rfl⟩, rfl⟩)
  refine (Submodule.span_le.mpr ?_) hm
  unfold gramSchmidt
  have hi := gsFold_inv heps (norm := norm) (eig := []) ((rows.map (rowVec cols)).map (· - rowVec cols p0)) (st := ([], []))
    ⟨⟨List.Pairwise.nil, by simp⟩, ⟨[], by simp, by simp⟩⟩
  revert hi
  generalize ((rows.map (rowVec cols)).map (· - rowVec cols p0)).foldl (gsStep eps norm) ([], []) = st
  intro hi b hb
  obtain ⟨ps, h1, h2⟩ := hi.split
  simp only [List.nil_append] at h1
  have hbne : norm b ≠ 0 := hnorm b (hi.orth.2 b hb)
  have h3 : (norm b)⁻¹ • b ∈ Submodule.span K {b | b ∈ st.2} := by
    apply Submodule.subset_span
    simp only [Set.mem_setOf_eq, h2, List.mem_map]
    exact ⟨b, by rw [← h1]; exact hb, rfl⟩
  have h4 := Submodule.smul_mem _ (norm b) h3
  rwa [smul_smul, mul_inv_cancel₀ hbne, one_smul] at h4

end
end Model

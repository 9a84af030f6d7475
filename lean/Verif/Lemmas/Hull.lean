import Verif.Lemmas.GramSchmidt
import Mathlib.Tactic.Ring
import Mathlib.Tactic.Linarith

namespace Model
open Spec

section
variable {K : Type} [Field K] [LinearOrder K]
variable {C : Type}

theorem inHull_congr {cols cols' : List C} (h : ∀ c, c ∈ cols ↔ c ∈ cols') {rows : List (C → K)} {v : C → K} :
    InHull cols rows v ↔ InHull cols' rows v := by
  unfold InHull
  simp only [h]

theorem inHull_mono {cols cols' : List C} (h : ∀ c ∈ cols', c ∈ cols) {rows : List (C → K)} {v : C → K}
    (hh : InHull cols rows v) : InHull cols' rows v := by
  obtain ⟨w, h1, h2, h3, h4⟩ := hh
  exact ⟨w, h1, h2, h3, fun c hc => h4 c (h c hc)⟩

/-- A convex combination keeps affine relations. -/
theorem comb_affine {w : List K} {rows : List (C → K)} (hl : w.length = rows.length) {c : C} {cs : List K}
    {feats : List C} {b : K} (h : ∀ r ∈ rows, r c = (List.zipWith (fun a f => a * r f) cs feats).sum + b) :
    (List.zipWith (fun k r => k * r c) w rows).sum =
      (List.zipWith (fun a f => a * (List.zipWith (fun k (r : C → K) => k * r f) w rows).sum) cs feats).sum + b * w.sum := by
  induction rows generalizing w with
  | nil =>
    cases w with
    | nil =>
      have : ∀ (cs : List K) (fs : List C), (List.zipWith (fun a (_ : C) => a * (0 : K)) cs fs).sum = 0 := by
        intro cs
        induction cs with
        | nil => simp
        | cons a cs ih => intro fs; cases fs <;> simp_all
      simp only [List.zipWith_nil_left, List.sum_nil, this]; ring
    | cons _ _ => simp at hl
  | cons r rows ih =>
    cases w with
    | nil => simp at hl
    | cons k w =>
      have ih' := ih (w := w) (by simpa using hl) (fun r' hr' => h r' (by simp [hr']))
      simp only [List.zipWith_cons_cons, List.sum_cons, ih', h r (by simp)]
      have : ∀ (cs : List K) (fs : List C) (g g' : C → K) (k : K),
          (List.zipWith (fun a f => a * (k * g f + g' f)) cs fs).sum
            = k * (List.zipWith (fun a f => a * g f) cs fs).sum + (List.zipWith (fun a f => a * g' f) cs fs).sum := by
        intro cs
        induction cs with
        | nil => intros; simp
        | cons a cs ih =>
          intro fs g g' k
          cases fs with
          | nil => simp
          | cons f fs => simp only [List.zipWith_cons_cons, List.sum_cons, ih]; ring
      rw [this]; ring

theorem zipWith_congr_mem {cs : List K} {feats : List C} {g g' : C → K} (h : ∀ f ∈ feats, g f = g' f) :
    List.zipWith (fun a f => a * g f) cs feats = List.zipWith (fun a f => a * g' f) cs feats := by
  induction feats generalizing cs with
  | nil => simp
  | cons f fs ih =>
    cases cs with
    | nil => rfl
    | cons a cs =>
      simp only [List.zipWith_cons_cons, h f (by simp), ih (fun f' hf' => h f' (by simp [hf']))]

/-- A column that is an affine function of others in every row can be replaced by the equation. -/
theorem inHull_dependent {rows : List (C → K)} {c : C} {cs : List K} {feats : List C} {b : K}
    (h : ∀ r ∈ rows, r c = (List.zipWith (fun a f => a * r f) cs feats).sum + b) {cols : List C}
    (hf : ∀ f ∈ feats, f ∈ cols) {v : C → K} :
    InHull (c :: cols) rows v ↔ v c = (List.zipWith (fun a f => a * v f) cs feats).sum + b ∧ InHull cols rows v := by
  constructor
  · rintro ⟨w, h1, h2, h3, h4⟩
    refine ⟨?_, ⟨w, h1, h2, h3, fun c' hc' => h4 c' (by simp [hc'])⟩⟩
    rw [h4 c (by simp), comb_affine h1 h, h3, mul_one]
    rw [zipWith_congr_mem (g := v) (fun f hf' => h4 f (by simp [hf f hf']))]
  · rintro ⟨h0, w, h1, h2, h3, h4⟩
    refine ⟨w, h1, h2, h3, fun c' hc' => ?_⟩
    rcases List.mem_cons.mp hc' with rfl | hc'
    · rw [comb_affine h1 h, h3, mul_one, h0, zipWith_congr_mem (g := v) (fun f hf' => h4 f (hf f hf'))]
    · exact h4 c' hc'

/-- The affine image of a point of the hull, and rows in the hull. -/
theorem inHull_row [IsStrictOrderedRing K] {cols : List C} {rows : List (C → K)} {r : C → K} (hr : r ∈ rows) :
    InHull cols rows r := by
  induction rows with
  | nil => simp at hr
  | cons a rows ih =>
    by_cases h : r = a
    · subst h
      refine ⟨1 :: rows.map (fun _ => 0), by simp, ?_, by simp, ?_⟩
      · intro k hk
        simp only [List.mem_cons, List.mem_map] at hk
        rcases hk with rfl | ⟨_, _, rfl⟩
        · exact zero_le_one
        · exact le_refl _
      · intro c _
        have : (List.zipWith (fun k (r : C → K) => k * r c) (rows.map fun _ => (0 : K)) rows).sum = 0 := by
          clear ih hr
          induction rows with
          | nil => rfl
          | cons a rows ih =>
            simp only [List.map_cons, List.zipWith_cons_cons, List.sum_cons, zero_mul, zero_add]; exact ih
        simp only [List.zipWith_cons_cons, List.sum_cons, this]; ring
    · obtain ⟨w, h1, h2, h3, h4⟩ := ih ((List.mem_cons.mp hr).resolve_left h)
      refine ⟨0 :: w, by simp [h1], ?_, by simp [h3], ?_⟩
      · intro k hk
        rcases List.mem_cons.mp hk with rfl | hk
        · exact le_refl _
        · exact h2 k hk
      · intro c hc
        simp only [List.zipWith_cons_cons, List.sum_cons, zero_mul, zero_add]
        exact h4 c hc

theorem inHull_nil_cols [IsStrictOrderedRing K] {rows : List (C → K)} (hne : rows ≠ []) (v : C → K) :
    InHull [] rows v := by
  obtain ⟨r, hr⟩ := List.exists_mem_of_ne_nil rows hne
  obtain ⟨w, h1, h2, h3, _⟩ := inHull_row (cols := ([] : List C)) hr
  exact ⟨w, h1, h2, h3, by simp⟩

theorem inHull_rowVec [DecidableEq C] {cols : List C} {rows : List (C → K)} {v : C → K} :
    InHull (List.finRange cols.length) (rows.map (rowVec cols)) (fun i => v (cols.get i)) ↔ InHull cols rows v := by
  unfold InHull
  simp only [List.length_map]
  refine exists_congr fun w => and_congr_right fun _ => and_congr_right fun _ => and_congr_right fun _ => ?_
  have e : ∀ i : Fin cols.length, (List.zipWith (fun k r => k * r i) w (rows.map (rowVec cols)))
      = List.zipWith (fun k (r : C → K) => k * r (cols.get i)) w rows := by
    intro i
    rw [List.zipWith_map_right]
    rfl
  constructor
  · intro h c hc
    obtain ⟨i, hi, rfl⟩ := List.mem_iff_getElem.mp hc
    have := h ⟨i, hi⟩ (List.mem_finRange _)
    rw [e] at this
    exact this
  · intro h i _
    rw [e]
    exact h _ (List.get_mem _ _)
end

section
variable {K : Type} [Field K] [LinearOrder K] [IsStrictOrderedRing K] [FloorRing K]
variable {C : Type} [DecidableEq C]

theorem foldl_min_spec (l : List K) (a : K) : (∀ x ∈ a :: l, l.foldl min a ≤ x) ∧ l.foldl min a ∈ a :: l := by
  induction l generalizing a with
  | nil => simp
  | cons b l ih =>
    obtain ⟨h1, h2⟩ := ih (min a b)
    simp only [List.foldl_cons]
    constructor
    · intro x hx
      have h3 := h1 (min a b) (by simp)
      simp only [List.mem_cons] at hx
      rcases hx with rfl | rfl | hx
      · exact h3.trans (min_le_left _ _)
      · exact h3.trans (min_le_right _ _)
      · exact h1 x (by simp [hx])
    · rcases List.mem_cons.mp h2 with h | h
      · rw [h]; rcases min_choice a b with e | e <;> rw [e] <;> simp
      · simp [h]

theorem foldl_max_spec (l : List K) (a : K) : (∀ x ∈ a :: l, x ≤ l.foldl max a) ∧ l.foldl max a ∈ a :: l := by
  induction l generalizing a with
  | nil => simp
  | cons b l ih =>
    obtain ⟨h1, h2⟩ := ih (max a b)
    simp only [List.foldl_cons]
    constructor
    · intro x hx
      have h3 := h1 (max a b) (by simp)
      simp only [List.mem_cons] at hx
      rcases hx with rfl | rfl | hx
      · exact (le_max_left _ _).trans h3
      · exact (le_max_right _ _).trans h3
      · exact h1 x (by simp [hx])
    · rcases List.mem_cons.mp h2 with h | h
      · rw [h]; rcases max_choice a b with e | e <;> rw [e] <;> simp
      · simp [h]

theorem listMin_spec {l : List K} (h : l ≠ []) : (∀ x ∈ l, listMin l ≤ x) ∧ listMin l ∈ l := by
  cases l with
  | nil => exact absurd rfl h
  | cons a l => exact foldl_min_spec l a

theorem listMax_spec {l : List K} (h : l ≠ []) : (∀ x ∈ l, x ≤ listMax l) ∧ listMax l ∈ l := by
  cases l with
  | nil => exact absurd rfl h
  | cons a l => exact foldl_max_spec l a

/-- Weighted averages lie between bounds. -/
theorem comb_bounds {w : List K} {rows : List (C → K)} (hl : w.length = rows.length) (hw : ∀ k ∈ w, 0 ≤ k) {c : C} {lo hi : K}
    (h : ∀ r ∈ rows, lo ≤ r c ∧ r c ≤ hi) :
    lo * w.sum ≤ (List.zipWith (fun k r => k * r c) w rows).sum ∧ (List.zipWith (fun k r => k * r c) w rows).sum ≤ hi * w.sum := by
  induction rows generalizing w with
  | nil => cases w <;> simp_all
  | cons r rows ih =>
    cases w with
    | nil => simp at hl
    | cons k w =>
      obtain ⟨h1, h2⟩ := ih (w := w) (by simpa using hl) (fun k hk => hw k (by simp [hk])) (fun r hr => h r (by simp [hr]))
      have hk := hw k (by simp)
      obtain ⟨h3, h4⟩ := h r (by simp)
      simp only [List.zipWith_cons_cons, List.sum_cons]
      constructor
      · nlinarith [mul_le_mul_of_nonneg_left h3 hk]
      · nlinarith [mul_le_mul_of_nonneg_left h4 hk]

/-- Two points of the hull, mixed. -/
theorem inHull_mix {cols : List C} {rows : List (C → K)} {a b : C → K} (ha : InHull cols rows a) (hb : InHull cols rows b)
    {t : K} (h0 : 0 ≤ t) (h1 : t ≤ 1) : InHull cols rows (fun c => (1 - t) * a c + t * b c) := by
  obtain ⟨w, w1, w2, w3, w4⟩ := ha
  obtain ⟨u, u1, u2, u3, u4⟩ := hb
  refine ⟨List.zipWith (fun x y => (1 - t) * x + t * y) w u, by simp [w1, u1], ?_, ?_, ?_⟩
  · intro k hk
    obtain ⟨i, hi, rfl⟩ := List.mem_iff_getElem.mp hk
    simp only [List.getElem_zipWith]
    have := w2 _ (List.getElem_mem (l := w) (by simp at hi; omega : i < w.length))
    have := u2 _ (List.getElem_mem (l := u) (by simp at hi; omega : i < u.length))
    have : 0 ≤ 1 - t := by linarith
    positivity
  · have : ∀ (w u : List K), w.length = u.length →
        (List.zipWith (fun x y => (1 - t) * x + t * y) w u).sum = (1 - t) * w.sum + t * u.sum := by
      intro w
      induction w with
      | nil => intro u hu; cases u <;> simp_all
      | cons x w ih =>
        intro u hu
        cases u with
        | nil => simp at hu
        | cons y u => simp only [List.zipWith_cons_cons, List.sum_cons, ih u (by simpa using hu)]; ring
    rw [this w u (by omega), w3, u3]; ring
  · intro c hc
    simp only [w4 c hc, u4 c hc]
    clear w4 u4 w3 u3
    induction rows generalizing w u with
    | nil => simp
    | cons r rows ih =>
      cases w with
      | nil => simp at w1
      | cons x w =>
        cases u with
        | nil => simp at u1
        | cons y u =>
          simp only [List.zipWith_cons_cons, List.sum_cons]
          rw [← ih w (by simpa using w1) (fun k hk => w2 k (by simp [hk])) u (by simpa using u1) (fun k hk => u2 k (by simp [hk]))]
          ring

/-- One column: the hull is the interval between the smallest and the largest value. -/
theorem inHull_single {rows : List (C → K)} (hne : rows ≠ []) {c : C} {v : C → K} :
    InHull [c] rows v ↔ listMin (rows.map (· c)) ≤ v c ∧ v c ≤ listMax (rows.map (· c)) := by
  have hne' : rows.map (· c) ≠ [] := by simpa using hne
  obtain ⟨l1, l2⟩ := listMin_spec hne'
  obtain ⟨m1, m2⟩ := listMax_spec hne'
  constructor
  · rintro ⟨w, h1, h2, h3, h4⟩
    have := comb_bounds h1 h2 (c := c) (lo := listMin (rows.map (· c))) (hi := listMax (rows.map (· c)))
      (fun r hr => ⟨l1 _ (List.mem_map.mpr ⟨r, hr, rfl⟩), m1 _ (List.mem_map.mpr ⟨r, hr, rfl⟩)⟩)
    rw [h3, mul_one, mul_one, ← h4 c (by simp)] at this
    exact this
  · rintro ⟨h1, h2⟩
    obtain ⟨a, ha, ea⟩ := List.mem_map.mp l2
    obtain ⟨b, hb, eb⟩ := List.mem_map.mp m2
    rw [← ea] at h1
    rw [← eb] at h2
    by_cases hab : a c = b c
    · have e : v c = a c := le_antisymm (by rw [hab]; exact h2) h1
      obtain ⟨w, x1, x2, x3, x4⟩ := inHull_row (cols := [c]) ha
      refine ⟨w, x1, x2, x3, fun c' hc' => ?_⟩
      rw [List.mem_singleton.mp hc', e]
      exact x4 c (by simp)
    · have hlt : 0 < b c - a c := by
        have : a c ≤ b c := h1.trans h2
        have := lt_of_le_of_ne this hab
        linarith
      obtain ⟨w, x1, x2, x3, x4⟩ := inHull_mix (inHull_row (cols := [c]) ha) (inHull_row (cols := [c]) hb)
        (t := (v c - a c) / (b c - a c)) (div_nonneg (by linarith) hlt.le) ((div_le_one hlt).mpr (by linarith))
      refine ⟨w, x1, x2, x3, fun c' hc' => ?_⟩
      rw [List.mem_singleton.mp hc', ← x4 c (by simp)]
      field_simp
      ring
end

end Model

import Verif.Spec.LinearForms
import Mathlib.LinearAlgebra.Dual.Lemmas
import Mathlib.Algebra.BigOperators.Fin
import Mathlib.Tactic.Linarith
import Mathlib.Tactic.Module

/-! A vector is a non-negative combination of given vectors, or a linear form separates it from them (Farkas), over any ordered
field; and the convex hull of finitely many points as an intersection of half spaces. -/
namespace Spec

variable {K : Type} [Field K] [LinearOrder K] [IsStrictOrderedRing K]

theorem zipWith_smul_sub {V : Type} [AddCommGroup V] [Module K V] (φ : V →ₗ[K] K) (m : V) : ∀ (w : List K) (as : List V),
    (List.zipWith (fun k v => k • v) w (as.map fun a => a + φ a • m)).sum =
      (List.zipWith (fun k v => k • v) w as).sum + (List.zipWith (fun k v => k * φ v) w as).sum • m
  | [], _ => by simp
  | _ :: _, [] => by simp
  | k :: w, a :: as => by
    have := zipWith_smul_sub φ m w as
    simp only [List.map_cons, List.zipWith_cons_cons, List.sum_cons, this]
    module

theorem zipWith_mul_nonneg {V : Type} (φ : V → K) : ∀ (w : List K) (as : List V), (∀ k ∈ w, 0 ≤ k) → (∀ a ∈ as, 0 ≤ φ a) →
    0 ≤ (List.zipWith (fun k v => k * φ v) w as).sum
  | [], _, _, _ => by simp
  | _ :: _, [], _, _ => by simp
  | k :: w, a :: as, hw, ha => by
    have := zipWith_mul_nonneg φ w as (fun k hk => hw k (by simp [hk])) (fun a h => ha a (by simp [h]))
    have h1 := mul_nonneg (hw k (by simp)) (ha a (by simp))
    simp only [List.zipWith_cons_cons, List.sum_cons]
    linarith

theorem farkas_aux {V : Type} [AddCommGroup V] [Module K V] : ∀ (n : Nat) (as : List V), as.length = n → ∀ b : V,
    (∀ φ : V →ₗ[K] K, (∀ a ∈ as, 0 ≤ φ a) → 0 ≤ φ b) →
    ∃ w : List K, w.length = as.length ∧ (∀ k ∈ w, 0 ≤ k) ∧ b = (List.zipWith (fun k v => k • v) w as).sum
  | 0, as, hn, b, h => by
    obtain rfl := List.length_eq_zero_iff.mp hn
    refine ⟨[], rfl, by simp, ?_⟩
    simp only [List.zipWith_nil_left, List.sum_nil]
    rw [← Module.forall_dual_apply_eq_zero_iff K b]
    intro φ
    have h1 := h φ (by simp)
    have h2 := h (-φ) (by simp)
    simp only [LinearMap.neg_apply] at h2
    linarith
  | n + 1, [], hn, _, _ => by simp at hn
  | n + 1, m :: as, hn, b, h => by
    have hn' : as.length = n := by simpa using hn
    by_cases hall : ∀ φ : V →ₗ[K] K, (∀ a ∈ as, 0 ≤ φ a) → 0 ≤ φ b
    · obtain ⟨w, h1, h2, h3⟩ := farkas_aux n as hn' b hall
      refine ⟨0 :: w, by simp [h1], ?_, ?_⟩
      · intro k hk
        rcases List.mem_cons.mp hk with rfl | hk
        · exact le_refl _
        · exact h2 k hk
      · rw [List.zipWith_cons_cons, List.sum_cons, ← h3]; simp
    · push Not at hall
      obtain ⟨φ₀, hpos, hneg⟩ := hall
      have hm : φ₀ m < 0 := by
        by_contra hm
        push Not at hm
        have := h φ₀ (by
          intro a ha
          rcases List.mem_cons.mp ha with rfl | ha
          · exact hm
          · exact hpos a ha)
        linarith
      have hm0 : φ₀ m ≠ 0 := ne_of_lt hm
      obtain ⟨φ₁, hφm, hφpos, hφneg⟩ : ∃ φ₁ : V →ₗ[K] K, φ₁ m = -1 ∧ (∀ a ∈ as, 0 ≤ φ₁ a) ∧ φ₁ b < 0 := by
        have hc : 0 < -(φ₀ m)⁻¹ := neg_pos.mpr (inv_lt_zero.mpr hm)
        refine ⟨(-(φ₀ m)⁻¹) • φ₀, ?_, ?_, ?_⟩
        · simp [hm0]
        · intro a ha
          rw [LinearMap.smul_apply, smul_eq_mul]
          exact mul_nonneg hc.le (hpos a ha)
        · rw [LinearMap.smul_apply, smul_eq_mul]
          exact mul_neg_of_pos_of_neg hc hneg
      obtain ⟨w, h1, h2, h3⟩ := farkas_aux n (as.map fun a => a + φ₁ a • m) (by simp [hn']) (b + φ₁ b • m) (by
        intro φ hφ
        have := h (φ + φ m • φ₁) (by
          intro a ha
          rcases List.mem_cons.mp ha with rfl | ha
          · simp [hφm]
          · have := hφ (a + φ₁ a • m) (List.mem_map.mpr ⟨a, ha, rfl⟩)
            simp only [map_add, map_smul, smul_eq_mul] at this
            simp only [LinearMap.add_apply, LinearMap.smul_apply, smul_eq_mul]
            linarith)
        simp only [LinearMap.add_apply, LinearMap.smul_apply, smul_eq_mul] at this
        simp only [map_add, map_smul, smul_eq_mul]
        linarith)
      rw [zipWith_smul_sub] at h3
      have hnn := zipWith_mul_nonneg φ₁ w as h2 hφpos
      refine ⟨((List.zipWith (fun k v => k * φ₁ v) w as).sum - φ₁ b) :: w, by simpa using h1, ?_, ?_⟩
      · intro k hk
        rcases List.mem_cons.mp hk with rfl | hk
        · linarith
        · exact h2 k hk
      · rw [List.zipWith_cons_cons, List.sum_cons]
        generalize (List.zipWith (fun k v => k * φ₁ v) w as).sum = t at h3
        generalize (List.zipWith (fun k v => k • v) w as).sum = u at h3
        have : b = (b + φ₁ b • m) - φ₁ b • m := by module
        rw [h3] at this
        rw [sub_smul]
        nth_rewrite 1 [this]
        abel

/-- Farkas: if every linear form that is not negative on the vectors is not negative on `b`, then `b` is a combination of the
vectors with non-negative coefficients. -/
theorem farkas {V : Type} [AddCommGroup V] [Module K V] (as : List V) (b : V)
    (h : ∀ φ : V →ₗ[K] K, (∀ a ∈ as, 0 ≤ φ a) → 0 ≤ φ b) :
    ∃ w : List K, w.length = as.length ∧ (∀ k ∈ w, 0 ≤ k) ∧ b = (List.zipWith (fun k v => k • v) w as).sum :=
  farkas_aux _ as rfl b h

theorem linForm_sum {C : Type} (coef : C → K) (cols : List C) : ∀ (w : List K) (rows : List (C → K)),
    (cols.map fun c => coef c * (List.zipWith (fun k r => k * r c) w rows).sum).sum =
      (List.zipWith (fun k r => k * linForm coef cols r) w rows).sum
  | [], _ => by simp
  | _ :: _, [] => by simp
  | k :: w, r :: rows => by
    have := linForm_sum coef cols w rows
    simp only [List.zipWith_cons_cons, List.sum_cons, ← this]
    unfold linForm
    rw [← List.sum_map_mul_left, ← List.sum_map_add]
    congr 1
    apply List.map_congr_left
    intro c _
    ring

/-- The convex hull of finitely many points is the intersection of the half spaces that contain them. -/
theorem inHull_iff_halfspaces {C : Type} [DecidableEq C] {cols : List C} (hnd : cols.Nodup) (rows : List (C → K)) (x : C → K) :
    InHull cols rows x ↔ ∀ (coef : C → K) (b : K), (∀ r ∈ rows, linForm coef cols r ≤ b) → linForm coef cols x ≤ b := by
  constructor
  · rintro ⟨w, h1, h2, h3, h4⟩ coef b hb
    have : linForm coef cols x = (List.zipWith (fun k r => k * linForm coef cols r) w rows).sum := by
      rw [← linForm_sum]
      unfold linForm
      congr 1
      apply List.map_congr_left
      intro c hc
      rw [h4 c hc]
    rw [this]
    have key : ∀ (w : List K) (rows : List (C → K)), w.length = rows.length → (∀ k ∈ w, 0 ≤ k) → (∀ r ∈ rows, linForm coef cols r ≤ b) →
        (List.zipWith (fun k r => k * linForm coef cols r) w rows).sum ≤ w.sum * b := by
      intro w
      induction w with
      | nil => intro rows _ _ _; simp
      | cons k w ih =>
        intro rows hl hw hr
        cases rows with
        | nil => simp at hl
        | cons r rows =>
          have := ih rows (by simpa using hl) (fun k hk => hw k (by simp [hk])) (fun r h => hr r (by simp [h]))
          have h1 := mul_le_mul_of_nonneg_left (hr r (by simp)) (hw k (by simp))
          simp only [List.zipWith_cons_cons, List.sum_cons, add_mul]
          linarith
    have := key w rows h1 h2 hb
    rwa [h3, one_mul] at this
  · intro h
    let emb : (C → K) → (Fin cols.length → K) × K := fun v => (fun i => v (cols.get i), 1)
    have hform : ∀ (φ : (Fin cols.length → K) × K →ₗ[K] K) (v : C → K),
        φ (emb v) = φ (0, 1) - linForm (fun c => - (if hc : c ∈ cols then φ (Pi.single ⟨cols.idxOf c, List.idxOf_lt_length_of_mem hc⟩ 1, 0) else 0)) cols v := by
      intro φ v
      have e1 : emb v = LinearMap.inl K (Fin cols.length → K) K (fun i => v (cols.get i)) + (0, 1) := by
        simp [emb]
      rw [e1, map_add]
      have e2 : φ (LinearMap.inl K (Fin cols.length → K) K (fun i => v (cols.get i))) =
          (φ ∘ₗ LinearMap.inl K (Fin cols.length → K) K) (fun i => v (cols.get i)) := rfl
      rw [e2, LinearMap.pi_apply_eq_sum_univ]
      have e3 : linForm (fun c => - (if hc : c ∈ cols then φ (Pi.single ⟨cols.idxOf c, List.idxOf_lt_length_of_mem hc⟩ 1, 0) else 0)) cols v
          = - ∑ i : Fin cols.length, v (cols.get i) * φ (Pi.single i 1, 0) := by
        unfold linForm
        rw [← Fin.sum_univ_fun_getElem, ← Finset.sum_neg_distrib]
        apply Finset.sum_congr rfl
        intro i _
        have hi : cols[i.1] ∈ cols := List.getElem_mem _
        have hidx : (⟨cols.idxOf cols[i.1], List.idxOf_lt_length_of_mem hi⟩ : Fin cols.length) = i := by
          apply Fin.ext
          exact hnd.idxOf_getElem i.1 i.2
        simp only [Fin.getElem_fin, hi, dite_true]
        rw [hidx]
        simp only [List.get_eq_getElem]
        ring
      rw [e3]
      have e4 : ∀ i, (φ ∘ₗ LinearMap.inl K (Fin cols.length → K) K) (fun j => if i = j then 1 else 0) = φ (Pi.single i 1, 0) := by
        intro i
        have : (fun j => if i = j then (1 : K) else 0) = Pi.single i 1 := by
          funext j
          by_cases hj : i = j
          · subst hj; simp
          · simp [hj, Pi.single_apply, Ne.symm hj]
        rw [this]; rfl
      simp only [e4, smul_eq_mul]
      ring
    obtain ⟨w, h1, h2, h3⟩ := farkas (rows.map emb) (emb x) (by
      intro φ hφ
      rw [hform]
      have := h _ (φ (0, 1)) (fun r hr => by
        have := hφ (emb r) (List.mem_map.mpr ⟨r, hr, rfl⟩)
        rw [hform] at this
        exact sub_nonneg.mp this)
      exact sub_nonneg.mpr this)
    rw [List.length_map] at h1
    have hz : ∀ (w : List K) (rows : List (C → K)), w.length = rows.length →
        (List.zipWith (fun k v => k • v) w (rows.map emb)).sum = (fun i => (List.zipWith (fun k r => k * r (cols.get i)) w rows).sum, w.sum) := by
      intro w
      induction w with
      | nil => intro rows _; simp; rfl
      | cons k w ih =>
        intro rows hl
        cases rows with
        | nil => simp at hl
        | cons r rows =>
          simp only [List.map_cons, List.zipWith_cons_cons, List.sum_cons, ih rows (by simpa using hl)]
          ext
          · simp [emb]
          · simp [emb]
    rw [hz w rows h1] at h3
    refine ⟨w, h1, h2, (congrArg Prod.snd h3).symm, ?_⟩
    intro c hc
    obtain ⟨i, hi, rfl⟩ := List.mem_iff_getElem.mp hc
    exact congrFun (congrArg Prod.fst h3) ⟨i, hi⟩

end Spec

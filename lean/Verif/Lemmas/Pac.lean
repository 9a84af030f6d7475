import Mathlib.MeasureTheory.Constructions.Pi
import Mathlib.MeasureTheory.Measure.Real
import Mathlib.Analysis.SpecialFunctions.Log.Basic

/-! Learning by elimination from independent samples: a hypothesis space of finitely many conditions, each sample removes the
conditions it contradicts, and an error on a new sample means that the sample contradicts a condition that is still there. -/
namespace Pac
open MeasureTheory

variable {Ω Q : Type*} [MeasurableSpace Ω] {μ : Measure Ω} [IsProbabilityMeasure μ] {W : Finset Q} {contra : Ω → Q → Prop}
  {m : ℕ} {bad : (Fin m → Ω) → Ω → Prop}

/-- At most `|W|` samples are errors for the others. -/
theorem leave_one_out {n : ℕ} {W : Finset Q} {contra : Fin n → Q → Prop} {bad : Finset (Fin n)}
    (hbad : ∀ i ∈ bad, ∃ q ∈ W, contra i q ∧ ∀ j, j ≠ i → ¬ contra j q) : bad.card ≤ W.card := by
  rcases bad.eq_empty_or_nonempty with rfl | ⟨i₀, hi₀⟩
  · simp
  obtain ⟨q₀, _⟩ := hbad i₀ hi₀
  have : Nonempty Q := ⟨q₀⟩
  choose! f hf using hbad
  refine Finset.card_le_card_of_injOn f (fun i hi => (hf i hi).1) ?_
  intro i hi j hj hij
  by_contra hne
  exact (hf j hj).2.2 i hne (hij ▸ (hf i hi).2.1)

theorem all_miss (A : Set Ω) (m : ℕ) : (Measure.pi fun _ : Fin m => μ).real {g | ∀ i, g i ∈ A} = μ.real A ^ m := by
  have : {g : Fin m → Ω | ∀ i, g i ∈ A} = Set.univ.pi fun _ => A := by ext g; simp
  rw [this, Measure.real, Measure.pi_pi]
  simp [Measure.real]

/-- The probability that the error of what was learned from `m` samples exceeds `ε`. -/
theorem error_bound (hW : ∀ q ∈ W, MeasurableSet {ω | contra ω q})
    (hbad : ∀ g ω, bad g ω → ∃ q ∈ W, contra ω q ∧ ∀ i, ¬ contra (g i) q) {ε : ℝ} (h0 : 0 ≤ ε) (h1 : ε ≤ 1) :
    (Measure.pi fun _ : Fin m => μ).real {g | ε < μ.real {ω | bad g ω}} ≤ W.card * (1 - ε / W.card) ^ m := by
  classical
  set P : Q → ℝ := fun q => μ.real {ω | contra ω q} with hP
  set H := W.filter fun q => ε / W.card < P q with hH
  have hsub : {g : Fin m → Ω | ε < μ.real {ω | bad g ω}} ⊆ ⋃ q ∈ H, {g | ∀ i, g i ∈ {ω | ¬ contra ω q}} := by
    intro g hg
    by_contra hno
    simp only [Set.mem_iUnion, Set.mem_setOf_eq, not_exists] at hno hg
    refine absurd hg (not_lt.mpr ?_)
    have hb : {ω | bad g ω} ⊆ ⋃ q ∈ W.filter (fun q => ∀ i, ¬ contra (g i) q), {ω | contra ω q} := by
      intro ω hω
      obtain ⟨q, hq, hc, hg⟩ := hbad g ω hω
      simp only [Set.mem_iUnion]
      exact ⟨q, Finset.mem_filter.mpr ⟨hq, hg⟩, hc⟩
    calc μ.real {ω | bad g ω} ≤ μ.real (⋃ q ∈ W.filter (fun q => ∀ i, ¬ contra (g i) q), {ω | contra ω q}) := measureReal_mono hb (measure_ne_top _ _)
      _ ≤ ∑ q ∈ W.filter (fun q => ∀ i, ¬ contra (g i) q), P q := measureReal_biUnion_finset_le _ _
      _ ≤ ∑ q ∈ W.filter (fun q => ∀ i, ¬ contra (g i) q), ε / W.card := by
          apply Finset.sum_le_sum
          intro q hq
          obtain ⟨hq, hg⟩ := Finset.mem_filter.mp hq
          by_contra hlt
          exact hno q (Finset.mem_filter.mpr ⟨hq, not_le.mp hlt⟩) hg
      _ = (W.filter (fun q => ∀ i, ¬ contra (g i) q)).card * (ε / W.card) := by rw [Finset.sum_const, nsmul_eq_mul]
      _ ≤ W.card * (ε / W.card) := by
          apply mul_le_mul_of_nonneg_right _ (by positivity)
          exact_mod_cast Finset.card_le_card (Finset.filter_subset _ _)
      _ ≤ ε := by
          rcases Nat.eq_zero_or_pos W.card with h | h
          · simp [h, h0]
          · rw [mul_div_cancel₀]; exact_mod_cast h.ne'
  have hq1 : (0 : ℝ) ≤ 1 - ε / W.card := by
    rw [sub_nonneg]
    rcases Nat.eq_zero_or_pos W.card with h | h
    · simp [h]
    · rw [div_le_one (by exact_mod_cast h)]
      exact h1.trans (by exact_mod_cast h)
  calc (Measure.pi fun _ : Fin m => μ).real {g | ε < μ.real {ω | bad g ω}}
      ≤ (Measure.pi fun _ : Fin m => μ).real (⋃ q ∈ H, {g | ∀ i, g i ∈ {ω | ¬ contra ω q}}) := measureReal_mono hsub (measure_ne_top _ _)
    _ ≤ ∑ q ∈ H, (Measure.pi fun _ : Fin m => μ).real {g | ∀ i, g i ∈ {ω | ¬ contra ω q}} := measureReal_biUnion_finset_le _ _
    _ ≤ ∑ q ∈ H, (1 - ε / W.card) ^ m := by
        apply Finset.sum_le_sum
        intro q hq
        obtain ⟨hq, hlt⟩ := Finset.mem_filter.mp hq
        rw [all_miss]
        apply pow_le_pow_left₀ measureReal_nonneg
        have : {ω | ¬ contra ω q} = {ω | contra ω q}ᶜ := rfl
        rw [this, probReal_compl_eq_one_sub (hW q hq)]
        linarith
    _ = H.card * (1 - ε / W.card) ^ m := by rw [Finset.sum_const, nsmul_eq_mul]
    _ ≤ W.card * (1 - ε / W.card) ^ m := by
        apply mul_le_mul_of_nonneg_right _ (pow_nonneg hq1 m)
        exact_mod_cast Finset.card_le_card (Finset.filter_subset _ _)

theorem exp_bound {B m : ℕ} {ε δ : ℝ} (h0 : 0 < ε) (h1 : ε ≤ 1) (hδ : 0 < δ) (hm : (B / ε) * Real.log (B / δ) ≤ m) :
    (B : ℝ) * (1 - ε / B) ^ m ≤ δ := by
  rcases Nat.eq_zero_or_pos B with h | h
  · simp [h, hδ.le]
  · have hB : (0 : ℝ) < B := by exact_mod_cast h
    have hq : (0 : ℝ) ≤ 1 - ε / B := by
      rw [sub_nonneg, div_le_one hB]
      exact h1.trans (by exact_mod_cast h)
    have hle : (1 - ε / B) ^ m ≤ Real.exp (-(ε / B)) ^ m := by
      apply pow_le_pow_left₀ hq
      have := Real.add_one_le_exp (-(ε / B))
      linarith
    rw [← Real.exp_nat_mul] at hle
    have hexp : Real.exp (m * -(ε / B)) ≤ δ / B := by
      rw [← Real.exp_log (show (0 : ℝ) < δ / B by positivity), Real.exp_le_exp]
      have hlog : Real.log (δ / B) = -Real.log (B / δ) := by rw [← Real.log_inv, inv_div]
      rw [hlog]
      have h2 := mul_le_mul_of_nonneg_left hm (show (0 : ℝ) ≤ ε / B by positivity)
      have h3 : ε / B * (B / ε * Real.log (B / δ)) = Real.log (B / δ) := by field_simp
      rw [h3] at h2
      linarith
    calc (B : ℝ) * (1 - ε / B) ^ m ≤ B * (δ / B) := mul_le_mul_of_nonneg_left (hle.trans hexp) hB.le
      _ = δ := by field_simp
end Pac

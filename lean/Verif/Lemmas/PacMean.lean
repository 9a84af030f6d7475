import Verif.Lemmas.Pac
import Mathlib.MeasureTheory.Integral.Lebesgue.Markov

/-! From a bound on how many of any `m + 1` samples are errors for the other `m` to the probability that a new sample is one. -/
namespace Pac
open MeasureTheory

variable {Ω : Type*} [MeasurableSpace Ω] {μ : Measure Ω} [IsProbabilityMeasure μ] {m B : ℕ} {bad : (Fin m → Ω) → Ω → Prop}

/-- Samples are exchangeable: the chance that the last of `m + 1` is an error for the others is at most `B / (m + 1)`. -/
theorem mean_bound (hmeas : MeasurableSet {p : Ω × (Fin m → Ω) | bad p.2 p.1})
    (hloo : ∀ (z : Fin (m + 1) → Ω) (s : Finset (Fin (m + 1))), (∀ i ∈ s, bad (fun j => z (i.succAbove j)) (z i)) → s.card ≤ B) :
    (μ.prod (Measure.pi fun _ : Fin m => μ)) {p | bad p.2 p.1} ≤ B / (m + 1) := by
  classical
  set S : Set (Ω × (Fin m → Ω)) := {p | bad p.2 p.1} with hS
  let T : Fin (m + 1) → Set (Fin (m + 1) → Ω) := fun i => (MeasurableEquiv.piFinSuccAbove (fun _ => Ω) i) ⁻¹' S
  have hT : ∀ i, MeasurableSet (T i) := fun i => (MeasurableEquiv.piFinSuccAbove (fun _ => Ω) i).measurable hmeas
  have hp : ∀ i, (Measure.pi fun _ : Fin (m + 1) => μ) (T i) = (μ.prod (Measure.pi fun _ : Fin m => μ)) S := fun i =>
    (measurePreserving_piFinSuccAbove (fun _ : Fin (m + 1) => μ) i).measure_preimage_equiv S
  have hsum : ∑ i, (Measure.pi fun _ : Fin (m + 1) => μ) (T i) ≤ B := by
    calc ∑ i, (Measure.pi fun _ : Fin (m + 1) => μ) (T i)
        = ∑ i, ∫⁻ z, (T i).indicator 1 z ∂(Measure.pi fun _ : Fin (m + 1) => μ) := by
          refine Finset.sum_congr rfl fun i _ => ?_
          rw [lintegral_indicator_one (hT i)]
      _ = ∫⁻ z, ∑ i, (T i).indicator 1 z ∂(Measure.pi fun _ : Fin (m + 1) => μ) :=
          (lintegral_finsetSum _ fun i _ => measurable_one.indicator (hT i)).symm
      _ ≤ ∫⁻ _, (B : ENNReal) ∂(Measure.pi fun _ : Fin (m + 1) => μ) := by
          refine lintegral_mono fun z => ?_
          have h := hloo z (Finset.univ.filter fun i => z ∈ T i) fun i hi => (Finset.mem_filter.mp hi).2
          simp only [Set.indicator_apply, Pi.one_apply, Finset.sum_ite, Finset.sum_const_zero, add_zero, Finset.sum_const, nsmul_eq_mul, mul_one]
          exact_mod_cast h
      _ = B := by rw [lintegral_const]; simp
  simp only [hp, Finset.sum_const, Finset.card_univ, Fintype.card_fin, nsmul_eq_mul] at hsum
  rw [ENNReal.le_div_iff_mul_le (Or.inl (by positivity)) (Or.inl (by finiteness)), mul_comm]
  exact_mod_cast hsum

/-- The same as a bound on the learning: the chance of an error of more than `ε` is at most `B / ((m + 1) ε)`. -/
theorem markov_bound (hmeas : MeasurableSet {p : Ω × (Fin m → Ω) | bad p.2 p.1})
    (hloo : ∀ (z : Fin (m + 1) → Ω) (s : Finset (Fin (m + 1))), (∀ i ∈ s, bad (fun j => z (i.succAbove j)) (z i)) → s.card ≤ B) {ε : ℝ} (h0 : 0 < ε) :
    (Measure.pi fun _ : Fin m => μ).real {g | ε ≤ μ.real {ω | bad g ω}} ≤ B / ((m + 1) * ε) := by
  have hm := mean_bound (μ := μ) hmeas hloo
  rw [Measure.prod_apply_symm hmeas] at hm
  have hfm := measurable_measure_prodMk_right (μ := μ) hmeas
  have hk := meas_ge_le_lintegral_div (μ := Measure.pi fun _ : Fin m => μ) hfm.aemeasurable (ε := ENNReal.ofReal ε) (by simpa using h0) (by simp)
  have hset : {g : Fin m → Ω | ε ≤ μ.real {ω | bad g ω}} = {g | ENNReal.ofReal ε ≤ μ ((fun x => (x, g)) ⁻¹' {p : Ω × (Fin m → Ω) | bad p.2 p.1})} := by
    ext g
    exact (ENNReal.ofReal_le_iff_le_toReal (measure_ne_top μ _)).symm
  rw [hset]
  have hfin := hk.trans (ENNReal.div_le_div_right hm (ENNReal.ofReal ε))
  have := ENNReal.toReal_mono (by
    apply ENNReal.div_ne_top (ENNReal.div_ne_top (by simp) (by positivity)) (by simpa using h0)) hfin
  rw [ENNReal.toReal_div, ENNReal.toReal_div, ENNReal.toReal_ofReal h0.le] at this
  refine this.trans_eq ?_
  rw [div_div]
  congr 2
end Pac

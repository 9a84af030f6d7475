import Verif.Lemmas.Pac
import Mathlib.MeasureTheory.Constructions.BorelSpace.Order
import Mathlib.MeasureTheory.Constructions.BorelSpace.Real

/-! Samples of a real random variable: the probability that a further value is outside the range of the sample. -/
namespace Pac
open MeasureTheory Set

/-- The values with at most `ε` of the mass below them have at least `ε` of the mass. -/
theorem low_tail_line (ν : Measure ℝ) [IsProbabilityMeasure ν] {ε : ℝ} (h0 : 0 < ε) (h1 : ε ≤ 1) : ε ≤ ν.real {v | ν.real (Iio v) ≤ ε} := by
  set A : Set ℝ := {v | ε < ν.real (Iio v)} with hA
  have hup : ∀ {u v}, u ∈ A → u ≤ v → v ∈ A := fun {u v} hu huv =>
    lt_of_lt_of_le hu (measureReal_mono (Iio_subset_Iio huv))
  have hcompl : {v | ν.real (Iio v) ≤ ε} = Aᶜ := by ext v; simp [hA]
  rw [hcompl]
  rcases A.eq_empty_or_nonempty with he | hne
  · rw [he, compl_empty, probReal_univ]; exact h1
  have hlim : ∀ (u : ℕ → ℝ), Antitone u → (∀ n, u n ∈ A) → ε ≤ ν.real (⋂ n, Iio (u n)) := by
    intro u hu hm
    have ht := tendsto_measure_iInter_atTop (μ := ν) (s := fun n => Iio (u n)) (fun n => measurableSet_Iio.nullMeasurableSet)
      (fun a b h => Iio_subset_Iio (hu h)) ⟨0, measure_ne_top _ _⟩
    have ht' := (ENNReal.tendsto_toReal (measure_ne_top ν _)).comp ht
    exact ge_of_tendsto' ht' fun n => (hm n).le
  by_cases hb : BddBelow A
  · by_cases ht : sInf A ∈ A
    · refine le_trans (le_of_lt ht) (measureReal_mono fun v hv hvA => ?_)
      exact absurd (csInf_le hb hvA) (not_le.mpr hv)
    · obtain ⟨u, hu1, _, hu3, hu4⟩ := (isGLB_csInf hne hb).exists_seq_antitone_tendsto hne
      refine (hlim u hu1 hu4).trans (measureReal_mono fun v hv hvA => ?_)
      have hle : v ≤ sInf A := ge_of_tendsto' hu3 fun n => le_of_lt (mem_iInter.mp hv n)
      exact ht (hup hvA hle)
  · have hall : ∀ v, v ∈ A := by
      intro v
      rw [not_bddBelow_iff] at hb
      obtain ⟨u, hu, huv⟩ := hb v
      exact hup hu huv.le
    have := hlim (fun n => -(n : ℝ)) (fun a b h => by simpa using h) fun n => hall _
    have he : (⋂ n : ℕ, Iio (-(n : ℝ))) = ∅ := by
      ext v
      simp only [mem_iInter, mem_Iio, mem_empty_iff_false, iff_false, not_forall, not_lt]
      obtain ⟨n, hn⟩ := exists_nat_ge (-v)
      exact ⟨n, by linarith⟩
    rw [he, measureReal_empty] at this
    exact absurd this (not_le.mpr h0)

variable {Ω : Type*} [MeasurableSpace Ω] {μ : Measure Ω} [IsProbabilityMeasure μ] {m : ℕ}

/-- The probability that more than `ε` of the mass is below all samples. -/
theorem below_bound {x : Ω → ℝ} (hx : Measurable x) {ε : ℝ} (h0 : 0 < ε) (h1 : ε ≤ 1) :
    (Measure.pi fun _ : Fin m => μ).real {g | ε < μ.real {ω | ∀ i, x ω < x (g i)}} ≤ (1 - ε) ^ m := by
  have : IsProbabilityMeasure (μ.map x) := Measure.isProbabilityMeasure_map hx.aemeasurable
  have hmap : ∀ S : Set ℝ, MeasurableSet S → (μ.map x).real S = μ.real (x ⁻¹' S) := fun S hS => by
    rw [Measure.real, Measure.map_apply hx hS, Measure.real]
  have hmono : Monotone fun v => (μ.map x).real (Iio v) := fun a b h => measureReal_mono (Iio_subset_Iio h)
  have hS : MeasurableSet {v | (μ.map x).real (Iio v) ≤ ε} := measurableSet_le hmono.measurable measurable_const
  have htail := low_tail_line (μ.map x) h0 h1
  rw [hmap _ hS] at htail
  set B : Set Ω := x ⁻¹' {v | (μ.map x).real (Iio v) ≤ ε} with hB
  have hsub : {g : Fin m → Ω | ε < μ.real {ω | ∀ i, x ω < x (g i)}} ⊆ {g | ∀ i, g i ∈ Bᶜ} := by
    intro g hg i hgi
    refine absurd (lt_of_lt_of_le hg (measureReal_mono (s₂ := x ⁻¹' Iio (x (g i))) fun ω hω => hω i)) (not_lt.mpr ?_)
    rw [← hmap _ measurableSet_Iio]; exact hgi
  refine (measureReal_mono hsub).trans ?_
  rw [all_miss, probReal_compl_eq_one_sub (hx hS)]
  exact pow_le_pow_left₀ (by linarith [measureReal_le_one (μ := μ) (s := B)]) (by linarith) m

/-- The probability that more than `ε` of the mass is outside the range of the samples. -/
theorem range_bound {x : Ω → ℝ} (hx : Measurable x) {ε : ℝ} (h0 : 0 < ε) (h1 : ε ≤ 1) :
    (Measure.pi fun _ : Fin m => μ).real {g | ε < μ.real {ω | (∀ i, x ω < x (g i)) ∨ ∀ i, x (g i) < x ω}} ≤ 2 * (1 - ε / 2) ^ m := by
  have hl := below_bound (μ := μ) (m := m) hx (ε := ε / 2) (by linarith) (by linarith)
  have hr := below_bound (μ := μ) (m := m) hx.neg (ε := ε / 2) (by linarith) (by linarith)
  simp only [Pi.neg_apply, neg_lt_neg_iff] at hr
  have hsub : {g : Fin m → Ω | ε < μ.real {ω | (∀ i, x ω < x (g i)) ∨ ∀ i, x (g i) < x ω}} ⊆
      {g | ε / 2 < μ.real {ω | ∀ i, x ω < x (g i)}} ∪ {g | ε / 2 < μ.real {ω | ∀ i, x (g i) < x ω}} := by
    intro g hg
    by_contra hno
    simp only [mem_union, mem_setOf_eq, not_or, not_lt] at hno
    have : μ.real {ω | (∀ i, x ω < x (g i)) ∨ ∀ i, x (g i) < x ω} ≤ _ := measureReal_union_le {ω | ∀ i, x ω < x (g i)} {ω | ∀ i, x (g i) < x ω}
    have hg' : ε < μ.real {ω | (∀ i, x ω < x (g i)) ∨ ∀ i, x (g i) < x ω} := hg
    linarith [hno.1, hno.2]
  calc _ ≤ _ := measureReal_mono hsub
    _ ≤ _ := measureReal_union_le _ _
    _ ≤ 2 * (1 - ε / 2) ^ m := by linarith

/-- Finitely many real attributes. If an error is always a sample with some attribute below that of all training samples, errors of more
than `ε` have a small probability. -/
theorem slots_bound {ι : Type*} {s : Finset ι} {x : ι → Ω → ℝ} (hx : ∀ k ∈ s, Measurable (x k)) {bad : (Fin m → Ω) → Ω → Prop}
    (hbad : ∀ g ω, bad g ω → ∃ k ∈ s, ∀ i, x k ω < x k (g i)) {ε : ℝ} (h0 : 0 < ε) (h1 : ε ≤ 1) :
    (Measure.pi fun _ : Fin m => μ).real {g | ε < μ.real {ω | bad g ω}} ≤ s.card * (1 - ε / s.card) ^ m := by
  rcases Nat.eq_zero_or_pos s.card with h | h
  · have he : {g : Fin m → Ω | ε < μ.real {ω | bad g ω}} = ∅ := by
      ext g
      have : {ω | bad g ω} = ∅ := by
        ext ω
        simp only [mem_setOf_eq, mem_empty_iff_false, iff_false]
        intro hb
        obtain ⟨k, hk, _⟩ := hbad g ω hb
        rw [Finset.card_eq_zero.mp h] at hk; simp at hk
      simp only [mem_setOf_eq, this, measureReal_empty, mem_empty_iff_false, iff_false]; linarith
    rw [he, h]; simp
  have hB : (1 : ℝ) ≤ s.card := by exact_mod_cast h
  have hsub : {g : Fin m → Ω | ε < μ.real {ω | bad g ω}} ⊆ ⋃ k ∈ s, {g | ε / s.card < μ.real {ω | ∀ i, x k ω < x k (g i)}} := by
    intro g hg
    by_contra hno
    simp only [mem_iUnion, mem_setOf_eq, not_exists, not_lt] at hno
    have e1 : μ.real {ω | bad g ω} ≤ μ.real (⋃ k ∈ s, {ω | ∀ i, x k ω < x k (g i)}) := measureReal_mono (fun ω hω => by
      obtain ⟨k, hk, hlt⟩ := hbad g ω hω
      exact mem_biUnion hk hlt) (measure_ne_top _ _)
    have e2 := measureReal_biUnion_finset_le (μ := μ) s fun k => {ω | ∀ i, x k ω < x k (g i)}
    have e3 : ∑ k ∈ s, μ.real {ω | ∀ i, x k ω < x k (g i)} ≤ s.card • (ε / s.card) := Finset.sum_le_card_nsmul _ _ _ fun k hk => hno k hk
    rw [nsmul_eq_mul, mul_div_cancel₀ _ (by linarith)] at e3
    exact absurd (lt_of_lt_of_le hg (e1.trans (e2.trans e3))) (lt_irrefl _)
  refine (measureReal_mono hsub (measure_ne_top _ _)).trans ((measureReal_biUnion_finset_le s _).trans ?_)
  refine (Finset.sum_le_card_nsmul _ _ ((1 - ε / s.card) ^ m) fun k hk => ?_).trans_eq (nsmul_eq_mul _ _)
  exact below_bound (hx k hk) (by positivity) ((div_le_one (by linarith)).mpr (h1.trans hB))
end Pac

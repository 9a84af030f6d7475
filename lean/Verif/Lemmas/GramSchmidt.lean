import Verif.Model.ConvexHull
import Verif.Lemmas.NumericUtils
import Mathlib.LinearAlgebra.Span.Basic
import Mathlib.Algebra.BigOperators.Fin
import Mathlib.Algebra.Order.BigOperators.Group.Finset
import Mathlib.Algebra.Order.BigOperators.Ring.Finset

namespace Model
open Spec
variable {K : Type} [Field K] [LinearOrder K] [IsStrictOrderedRing K] {n : Nat}

theorem dot_self_eq_zero {v : Fin n → K} (h : v ⬝ᵥ v = 0) : v = 0 := by
  funext i
  have := (Finset.sum_eq_zero_iff_of_nonneg (fun i _ => mul_self_nonneg (v i))).mp h i (Finset.mem_univ i)
  simpa using this

/-- Pairwise orthogonal, none zero. -/
def OrthList (bs : List (Fin n → K)) : Prop := bs.Pairwise (fun a b => a ⬝ᵥ b = 0) ∧ ∀ b ∈ bs, b ≠ 0

theorem OrthList.tail {a : Fin n → K} {bs : List (Fin n → K)} (h : OrthList (a :: bs)) : OrthList bs :=
  ⟨(List.pairwise_cons.mp h.1).2, fun b hb => h.2 b (by simp [hb])⟩

theorem projOn_cons (a : Fin n → K) (bs : List (Fin n → K)) (v : Fin n → K) :
    projOn (a :: bs) v = ((v ⬝ᵥ a) / (a ⬝ᵥ a)) • a + projOn bs v := by
  simp [projOn]

theorem projOn_dot_orth {bs : List (Fin n → K)} {u : Fin n → K} (h : ∀ b ∈ bs, b ⬝ᵥ u = 0) (v : Fin n → K) :
    projOn bs v ⬝ᵥ u = 0 := by
  induction bs with
  | nil => simp [projOn]
  | cons a bs ih =>
    rw [projOn_cons, add_dotProduct, smul_dotProduct, h a (by simp), ih (fun b hb => h b (by simp [hb]))]
    simp

theorem projOn_dot {bs : List (Fin n → K)} (h : OrthList bs) {b : Fin n → K} (hb : b ∈ bs) (v : Fin n → K) :
    projOn bs v ⬝ᵥ b = v ⬝ᵥ b := by
  induction bs with
  | nil => simp at hb
  | cons a bs ih =>
    have hp := List.pairwise_cons.mp h.1
    rw [projOn_cons, add_dotProduct, smul_dotProduct]
    rcases List.mem_cons.mp hb with rfl | hb
    · have hne : b ⬝ᵥ b ≠ 0 := fun e => h.2 b (by simp) (dot_self_eq_zero e)
      rw [projOn_dot_orth (fun c hc => by rw [dotProduct_comm]; exact hp.1 c hc), smul_eq_mul, div_mul_cancel₀ _ hne, add_zero]
    · rw [ih h.tail hb, hp.1 b hb]; simp

theorem projOn_mem_span (bs : List (Fin n → K)) (v : Fin n → K) :
    projOn bs v ∈ Submodule.span K {b | b ∈ bs} := by
  induction bs with
  | nil => simp [projOn]
  | cons a bs ih =>
    rw [projOn_cons]
    refine Submodule.add_mem _ (Submodule.smul_mem _ _ (Submodule.subset_span (by simp))) ?_
    exact Submodule.span_mono (fun b hb => by simp at hb ⊢; exact Or.inr hb) ih

/-- Orthogonal to a list, hence to its span. -/
theorem dot_span_eq_zero {bs : List (Fin n → K)} {u : Fin n → K} (h : ∀ b ∈ bs, b ⬝ᵥ u = 0) {w : Fin n → K}
    (hw : w ∈ Submodule.span K {b | b ∈ bs}) : w ⬝ᵥ u = 0 := by
  induction hw using Submodule.span_induction with
  | mem b hb => exact h b hb
  | zero => simp
  | add a b _ _ ha hb => rw [add_dotProduct, ha, hb, add_zero]
  | smul c a _ ha => rw [smul_dotProduct, ha, smul_zero]

/-- The invariant of the loop. -/
structure GSInv (norm : (Fin n → K) → K) (eig : List (Fin n → K)) (st : List (Fin n → K) × List (Fin n → K)) : Prop where
  orth : OrthList st.1
  split : ∃ ps, st.1 = eig ++ ps ∧ st.2 = ps.map fun p => (norm p)⁻¹ • p

theorem gsStep_inv {eps : K} (heps : 0 ≤ eps) {norm : (Fin n → K) → K} {eig : List (Fin n → K)}
    {st : List (Fin n → K) × List (Fin n → K)} (h : GSInv norm eig st) (v : Fin n → K) :
    GSInv norm eig (gsStep eps norm st v) := by
  unfold gsStep
  dsimp only
  split_ifs with hc
  · obtain ⟨ps, h1, h2⟩ := h.split
    refine ⟨⟨?_, ?_⟩, ⟨ps ++ [v - projOn st.1 v], by simp [h1], by simp [h2]⟩⟩
    · rw [List.pairwise_append]
      refine ⟨h.orth.1, by simp, ?_⟩
      intro a ha b hb
      rw [List.mem_singleton.mp hb, dotProduct_comm, sub_dotProduct, projOn_dot h.orth ha, sub_self]
    · intro b hb
      rcases List.mem_append.mp hb with hb | hb
      · exact h.orth.2 b hb
      · rw [List.mem_singleton.mp hb]
        obtain ⟨i, hi⟩ := hc
        intro e
        rw [e] at hi
        simp at hi
        exact absurd heps (not_le.mpr hi)
  · exact h

theorem gsStep_sub (eps : K) (norm : (Fin n → K) → K) (st : List (Fin n → K) × List (Fin n → K)) (v : Fin n → K) :
    ∃ ps, (gsStep eps norm st v).1 = st.1 ++ ps := by
  unfold gsStep
  dsimp only
  split_ifs
  · exact ⟨_, rfl⟩
  · exact ⟨[], by simp⟩

theorem gsFold_sub (eps : K) (norm : (Fin n → K) → K) (vs : List (Fin n → K)) (st : List (Fin n → K) × List (Fin n → K)) :
    ∃ ps, (vs.foldl (gsStep eps norm) st).1 = st.1 ++ ps := by
  induction vs generalizing st with
  | nil => exact ⟨[], by simp⟩
  | cons v vs ih =>
    obtain ⟨a, ha⟩ := gsStep_sub eps norm st v
    obtain ⟨b, hb⟩ := ih (gsStep eps norm st v)
    exact ⟨a ++ b, by rw [List.foldl_cons, hb, ha, List.append_assoc]⟩

theorem gsFold_inv {eps : K} (heps : 0 ≤ eps) {norm : (Fin n → K) → K} {eig : List (Fin n → K)} (vs : List (Fin n → K))
    {st : List (Fin n → K) × List (Fin n → K)} (h : GSInv norm eig st) :
    GSInv norm eig (vs.foldl (gsStep eps norm) st) := by
  induction vs generalizing st with
  | nil => exact h
  | cons v vs ih => exact ih (gsStep_inv heps h v)

/-- Every input vector is, up to the tolerance in each coordinate, in the span of the collected
vectors; the remainder is orthogonal to some part of them. -/
theorem gsFold_cover {eps : K} {norm : (Fin n → K) → K} (vs : List (Fin n → K))
    (st : List (Fin n → K) × List (Fin n → K)) {v : Fin n → K} (hv : v ∈ vs) :
    ∃ p : Fin n → K, (∀ i, |p i| ≤ eps ∨ p ∈ (vs.foldl (gsStep eps norm) st).1) ∧
      ∃ q ∈ Submodule.span K {b | b ∈ (vs.foldl (gsStep eps norm) st).1}, v = q + p := by
  induction vs generalizing st with
  | nil => simp at hv
  | cons a vs ih =>
    rw [List.foldl_cons]
    rcases List.mem_cons.mp hv with rfl | hv
    · obtain ⟨ps, hps⟩ := gsFold_sub eps norm vs (gsStep eps norm st v)
      obtain ⟨ps', hps'⟩ := gsStep_sub eps norm st v
      refine ⟨v - projOn st.1 v, ?_, projOn st.1 v, ?_, by simp⟩
      · by_cases hc : ∃ i, eps < |(v - projOn st.1 v) i|
        · intro i
          right
          rw [hps]
          apply List.mem_append_left
          unfold gsStep
          dsimp only
          rw [if_pos hc]
          simp
        · push Not at hc
          exact fun i => Or.inl (hc i)
      · refine Submodule.span_mono ?_ (projOn_mem_span st.1 v)
        intro b hb
        simp only [Set.mem_setOf_eq] at hb ⊢
        rw [hps, hps']
        exact List.mem_append_left _ (List.mem_append_left _ hb)
    · exact ih _ hv

/-- The basis returned by Gram-Schmidt from an orthogonal start. -/
structure GSOut (norm : (Fin n → K) → K) (eps : K) (vs eig out : List (Fin n → K)) : Prop where
  orth : OrthList (eig ++ out)
  cover : ∀ v ∈ vs, ∃ p : Fin n → K, ∃ q ∈ Submodule.span K {b | b ∈ eig ++ out}, v = q + p ∧
    ((∀ i, |p i| ≤ eps) ∨ p ∈ Submodule.span K {b | b ∈ eig ++ out})

theorem gramSchmidt_out {eps : K} (heps : 0 ≤ eps) {norm : (Fin n → K) → K} (hnorm : ∀ v, v ≠ 0 → norm v ≠ 0)
    {eig : List (Fin n → K)} (heig : OrthList eig) (vs : List (Fin n → K)) :
    GSOut norm eps vs eig (gramSchmidt eps norm vs eig) := by
  unfold gramSchmidt
  have hi := gsFold_inv heps (norm := norm) (eig := eig) vs (st := (eig, [])) ⟨heig, ⟨[], by simp, by simp⟩⟩
  have hcov := fun v (hv : v ∈ vs) => gsFold_cover (eps := eps) (norm := norm) vs (eig, []) hv
  revert hi hcov
  generalize vs.foldl (gsStep eps norm) (eig, []) = st
  intro hi hcov
  obtain ⟨ps, h1, h2⟩ := hi.split
  have hpne : ∀ p ∈ ps, norm p ≠ 0 := fun p hp => hnorm p (hi.orth.2 p (by rw [h1]; simp [hp]))
  have hspan : Submodule.span K {b | b ∈ st.1} ≤ Submodule.span K {b | b ∈ eig ++ st.2} := by
    rw [Submodule.span_le]
    intro b hb
    simp only [Set.mem_setOf_eq, h1, List.mem_append] at hb
    rcases hb with hb | hb
    · exact Submodule.subset_span (by simp [hb])
    · have : (norm b)⁻¹ • b ∈ Submodule.span K {b | b ∈ eig ++ st.2} :=
        Submodule.subset_span (by simp only [Set.mem_setOf_eq, h2, List.mem_append, List.mem_map]; exact Or.inr ⟨b, hb, rfl⟩)
      have h3 := Submodule.smul_mem _ (norm b) this
      rwa [smul_smul, mul_inv_cancel₀ (hpne b hb), one_smul] at h3
  constructor
  · have ho := hi.orth
    rw [h1] at ho
    constructor
    · rw [h2, List.pairwise_append]
      obtain ⟨a1, a2, a3⟩ := List.pairwise_append.mp ho.1
      refine ⟨a1, ?_, ?_⟩
      · rw [List.pairwise_map]
        exact a2.imp (fun {a b} h => by rw [smul_dotProduct, dotProduct_smul, h]; simp)
      · intro a ha b hb
        obtain ⟨p, hp, rfl⟩ := List.mem_map.mp hb
        rw [dotProduct_smul, a3 a ha p hp, smul_zero]
    · intro b hb
      rcases List.mem_append.mp hb with hb | hb
      · exact ho.2 b (by simp [hb])
      · rw [h2] at hb
        obtain ⟨p, hp, rfl⟩ := List.mem_map.mp hb
        exact smul_ne_zero (inv_ne_zero (hpne p hp)) (ho.2 p (by simp [hp]))
  · intro v hv
    obtain ⟨p, hp, q, hq, rfl⟩ := hcov v hv
    refine ⟨p, q, hspan hq, rfl, ?_⟩
    by_cases hm : p ∈ st.1
    · exact Or.inr (hspan (Submodule.subset_span hm))
    · exact Or.inl (fun i => (hp i).resolve_right hm)

/-- The standard basis, completed: only the zero vector is orthogonal to everything, as long as the
tolerance is below one over the dimension. -/
theorem eye_complete {eps : K} (hn : (n : K) * eps < 1) {norm : (Fin n → K) → K} {eig out : List (Fin n → K)}
    (h : GSOut norm eps (eyeVecs n) eig out) {u : Fin n → K} (hu : ∀ b ∈ eig ++ out, b ⬝ᵥ u = 0) : u = 0 := by
  have hpt : ∀ i, |u i| ≤ eps * ∑ j, |u j| ∨ u i = 0 := by
    intro i
    obtain ⟨p, q, hq, e, hp⟩ := h.cover (fun j => if i = j then 1 else 0) (by unfold eyeVecs; simp)
    have hui : u i = p ⬝ᵥ u := by
      have h1 : (fun j => if i = j then (1 : K) else 0) ⬝ᵥ u = u i := by simp [dotProduct]
      rw [← h1, e, add_dotProduct, dot_span_eq_zero hu hq, zero_add]
    rcases hp with hp | hp
    · left
      rw [hui, dotProduct, Finset.mul_sum]
      refine (Finset.abs_sum_le_sum_abs _ _).trans (Finset.sum_le_sum fun j _ => ?_)
      rw [abs_mul]
      exact mul_le_mul_of_nonneg_right (hp j) (abs_nonneg _)
    · right
      rw [hui]; exact dot_span_eq_zero hu hp
  set S := ∑ j, |u j| with hS
  have hS0 : 0 ≤ S := Finset.sum_nonneg fun j _ => abs_nonneg _
  by_contra hne
  have hSpos : 0 < S := by
    rcases hS0.lt_or_eq with h | h
    · exact h
    · exfalso
      apply hne
      funext i
      have := (Finset.sum_eq_zero_iff_of_nonneg (fun i _ => abs_nonneg (u i))).mp h.symm i (Finset.mem_univ i)
      simpa using this
  by_cases heps : 0 ≤ eps
  · have hle : S ≤ ∑ _j : Fin n, eps * S := by
      rw [hS]
      refine Finset.sum_le_sum fun i _ => ?_
      rcases hpt i with h | h
      · exact h
      · rw [h, abs_zero]; exact mul_nonneg heps hS0
    rw [Finset.sum_const, Finset.card_univ, Fintype.card_fin, nsmul_eq_mul, ← mul_assoc] at hle
    have : (n : K) * eps * S < 1 * S := mul_lt_mul_of_pos_right hn hSpos
    linarith
  · push Not at heps
    apply hne
    funext i
    rcases hpt i with h | h
    · have : eps * S < 0 := mul_neg_of_neg_of_pos heps hSpos
      have := abs_nonneg (u i)
      linarith
    · exact h

/-- The vectors orthogonal to the completion are those in the span of the basis. -/
theorem mem_span_of_orth_completion {eps : K} (hn : (n : K) * eps < 1) {norm : (Fin n → K) → K} {eig out : List (Fin n → K)}
    (h : GSOut norm eps (eyeVecs n) eig out) {x : Fin n → K} :
    (∀ b ∈ out, b ⬝ᵥ x = 0) ↔ x ∈ Submodule.span K {b | b ∈ eig} := by
  have ho := List.pairwise_append.mp h.orth.1
  constructor
  · intro hx
    have heig : OrthList eig := ⟨ho.1, fun b hb => h.orth.2 b (by simp [hb])⟩
    have : x - projOn eig x = 0 := by
      apply eye_complete hn h
      intro b hb
      rcases List.mem_append.mp hb with hb | hb
      · rw [dotProduct_comm, sub_dotProduct, projOn_dot heig hb, sub_self]
      · rw [dotProduct_comm, sub_dotProduct, projOn_dot_orth (fun a ha => ho.2.2 a ha b hb),
          dotProduct_comm x b, hx b hb, sub_zero]
    rw [sub_eq_zero.mp this]
    exact projOn_mem_span eig x
  · intro hx b hb
    rw [dotProduct_comm]
    exact dot_span_eq_zero (fun a ha => ho.2.2 a ha b hb) hx

end Model

import Verif.Model.CondSam
import Verif.Spec.CondLearning
import Verif.Lemmas.DepOps
import Verif.Lemmas.SamSafe

namespace Model
open Spec

theorem mem_fired {effs : List CondEff} {ρ : String → String} {s : State} {l : Lit} :
    l ∈ fired effs ρ s ↔ ∃ e ∈ effs, applicable e.ante ρ s ∧ l ∈ e.res := by
  induction effs with
  | nil => simp [fired]
  | cons e es ih =>
    have : fired (e :: es) ρ s = if applicable e.ante ρ s then e.res ∪ fired es ρ s else fired es ρ s := rfl
    rw [this]
    split
    · rename_i h; simp [ih, h]
    · rename_i h; simp [ih, h]

/-- The compressed effects have the same meaning. -/
theorem fired_compress (es : List CondEff) (ρ : String → String) (s : State) :
    fired (compress es) ρ s = fired es ρ s := by
  induction h : es.length using Nat.strong_induction_on generalizing es with
  | _ n ih =>
    cases es with
    | nil => simp [compress]
    | cons e es =>
      ext l
      unfold compress
      have hlt : (es.filter fun o => ¬ o.ante = e.ante).length < n := by
        rw [← h, List.length_cons]; exact Nat.lt_succ_of_le (List.length_filter_le _ _)
      have := ih _ hlt (es.filter fun o => ¬ o.ante = e.ante) rfl
      have hm : l ∈ fired (compress (es.filter fun o => ¬ o.ante = e.ante)) ρ s ↔
          l ∈ fired (es.filter fun o => ¬ o.ante = e.ante) ρ s := by rw [this]
      rw [mem_fired] at hm
      rw [mem_fired, mem_fired]
      rw [mem_fired] at hm
      simp only [List.mem_cons, exists_eq_or_imp, hm]
      simp only [Finset.mem_union, mem_unionAll, List.mem_map, List.mem_filter, decide_eq_true_eq, decide_not,
        Bool.not_eq_true', decide_eq_false_iff_not]
      constructor
      · rintro (⟨ha, hl | ⟨_, ⟨o, ⟨ho, hoe⟩, rfl⟩, hl⟩⟩ | ⟨o, ⟨ho, _⟩, hr⟩)
        · exact Or.inl ⟨ha, hl⟩
        · exact Or.inr ⟨o, ho, by rw [hoe]; exact ha, hl⟩
        · exact Or.inr ⟨o, ho, hr⟩
      · rintro (⟨ha, hl⟩ | ⟨o, ho, hr, hl⟩)
        · exact Or.inl ⟨ha, Or.inl hl⟩
        · by_cases hoe : o.ante = e.ante
          · exact Or.inl ⟨by rw [← hoe]; exact hr, Or.inr ⟨_, ⟨o, ⟨ho, hoe⟩, rfl⟩, hl⟩⟩
          · exact Or.inr ⟨o, ⟨ho, hoe⟩, hr, hl⟩

/-- If every learned fired effect holds in the true next state, and every true fired effect that is not
yet true is fired, the next states coincide. -/
theorem successor_eq_of {T E : Finset Lit} {ρ : String → String} {s : State}
    (h1 : ∀ l ∈ E, holds (successor T ρ s) (ground ρ l))
    (h2 : ∀ l ∈ T, ¬ holds s (ground ρ l) → l ∈ E) : successor E ρ s = successor T ρ s := by
  ext x
  constructor
  · intro hx
    rw [mem_successor] at hx
    rcases hx with ⟨hs, hd⟩ | ⟨l, hl, hp, rfl⟩
    · by_contra hn
      rw [mem_successor, not_or] at hn
      have : ∃ l ∈ T, l.pos = false ∧ (ground ρ l).atom = x := by
        by_contra hc; exact hn.1 ⟨hs, hc⟩
      obtain ⟨l, hl, hp, rfl⟩ := this
      exact hd ⟨l, h2 l hl (by unfold holds; simp only [ground_pos, hp]; simpa using hs), hp, rfl⟩
    · have := h1 l hl
      unfold holds at this
      exact this.mp (by simpa using hp)
  · intro hx
    have hx' := hx
    rw [mem_successor] at hx
    rw [mem_successor]
    rcases hx with ⟨hs, hd⟩ | ⟨l, hl, hp, rfl⟩
    · refine Or.inl ⟨hs, ?_⟩
      rintro ⟨l, hl, hp, rfl⟩
      have := (h1 l hl).mpr hx'
      simp [hp] at this
    · by_cases hs : (ground ρ l).atom ∈ s
      · refine Or.inl ⟨hs, ?_⟩
        rintro ⟨m, hm, hmp, e⟩
        have := (h1 m hm).mpr (by rw [e]; exact hx')
        simp [hmp] at this
      · exact Or.inr ⟨l, h2 l hl (by unfold holds; simp only [ground_pos, hp]; simpa using hs), hp, rfl⟩

end Model

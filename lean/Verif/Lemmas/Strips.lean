import Verif.Spec.Strips
import Verif.Lemmas.Bind

namespace Spec

theorem mem_successor {eff : Finset Lit} {ρ : String → String} {s : State} {at' : Atom} :
    at' ∈ successor eff ρ s ↔ (at' ∈ s ∧ ¬ ∃ l ∈ eff, l.pos = false ∧ (ground ρ l).atom = at') ∨
      ∃ l ∈ eff, l.pos = true ∧ (ground ρ l).atom = at' := by
  unfold successor
  simp only [Finset.mem_union, Finset.mem_sdiff, Finset.mem_image, Finset.mem_filter, and_assoc]

theorem atom_inj {ρ : String → String} {S : String → Prop} (hinj : ∀ x y, S x → S y → ρ x = ρ y → x = y)
    {l m : Lit} (hl : ∀ x ∈ l.args, S x) (hm : ∀ x ∈ m.args, S x)
    (h : (ground ρ l).atom = (ground ρ m).atom) : l.name = m.name ∧ l.args = m.args := by
  simp only [Lit.atom, ground, Atom.mk.injEq] at h
  exact ⟨h.1, map_inj_on hinj hl hm h.2⟩

theorem eq_or_neg {l m : Lit} (h : l.name = m.name ∧ l.args = m.args) : l = m ∨ l = m.neg := by
  cases l with | mk n a p => cases m with | mk n' a' p' =>
  obtain ⟨h1, h2⟩ := h
  simp only at h1 h2
  subst h1; subst h2
  cases p <;> cases p' <;> simp [Lit.neg]

section
variable {ρ : String → String} {S : String → Prop} {T : Finset Lit} {s : State}
variable (hinj : ∀ x y, S x → S y → ρ x = ρ y → x = y) (hT : ∀ l ∈ T, ∀ x ∈ l.args, S x)
include hinj hT

/-- A true effect holds afterwards. -/
theorem holds_successor (hc : ∀ l ∈ T, l.neg ∉ T) {l : Lit} (hl : l ∈ T) : holds (successor T ρ s) (ground ρ l) := by
  unfold holds
  rw [mem_successor]
  constructor
  · intro hp; exact Or.inr ⟨l, hl, hp, rfl⟩
  · rintro (⟨_, h⟩ | ⟨m, hm, hp, e⟩)
    · by_contra hp
      exact h ⟨l, hl, by simpa using hp, rfl⟩
    · rcases eq_or_neg (atom_inj hinj (hT m hm) (hT l hl) e) with rfl | rfl
      · exact hp
      · exact absurd hm (hc l hl)

omit hT in
/-- A change of value of a lifted literal is due to that very literal being an effect. -/
theorem eff_of_change (hT : ∀ l ∈ T, ∀ x ∈ l.args, S x) {l : Lit} (hl : ∀ x ∈ l.args, S x)
    (h1 : holds (successor T ρ s) (ground ρ l)) (h2 : ¬ holds s (ground ρ l)) : l ∈ T := by
  unfold holds at h1 h2
  rw [mem_successor] at h1
  simp only [ground_pos] at h1 h2
  cases hp : l.pos with
  | true =>
    simp only [hp, true_iff] at h1 h2
    rcases h1 with h | ⟨m, hm, hmp, e⟩
    · exact absurd h.1 h2
    · rcases eq_or_neg (atom_inj hinj (hT m hm) hl e) with rfl | rfl
      · exact hm
      · simp [hp] at hmp
  | false =>
    simp only [hp, Bool.false_eq_true, false_iff, not_not, not_or, not_and] at h1 h2
    have := h1.1 h2
    obtain ⟨m, hm, hmp, e⟩ := this
    rcases eq_or_neg (atom_inj hinj (hT m hm) hl e) with rfl | rfl
    · exact hm
    · simp [hp] at hmp

/-- If the learned effects are true effects and every missed true effect already holds, the learned
and the true successor coincide. -/
theorem successor_eq (hc : ∀ l ∈ T, l.neg ∉ T) {E : Finset Lit} (hE : E ⊆ T)
    (hm : ∀ e ∈ T, e ∉ E → holds s (ground ρ e)) : successor E ρ s = successor T ρ s := by
  ext at'
  by_cases ht : ∃ t ∈ T, (ground ρ t).atom = at'
  · obtain ⟨t, ht, rfl⟩ := ht
    have h1 := holds_successor (s := s) hinj hT hc ht
    have h2 : holds (successor E ρ s) (ground ρ t) := by
      by_cases he : t ∈ E
      · exact holds_successor hinj (fun l hl => hT l (hE hl)) (fun l hl hn => hc l (hE hl) (hE hn)) he
      · have := hm t ht he
        have hno : ∀ l ∈ E, (ground ρ l).atom ≠ (ground ρ t).atom := by
          intro l hl e
          rcases eq_or_neg (atom_inj hinj (hT l (hE hl)) (hT t ht) e) with rfl | rfl
          · exact he hl
          · exact hc t ht (hE hl)
        unfold holds at this ⊢
        rw [this, mem_successor]
        constructor
        · intro h; exact Or.inl ⟨h, fun ⟨l, hl, _, e⟩ => hno l hl e⟩
        · rintro (h | ⟨l, hl, _, e⟩)
          · exact h.1
          · exact absurd e (hno l hl)
    unfold holds at h1 h2
    exact h2.symm.trans h1
  · rw [mem_successor, mem_successor]
    have a1 : ¬ ∃ l ∈ T, l.pos = false ∧ (ground ρ l).atom = at' := fun ⟨l, hl, _, e⟩ => ht ⟨l, hl, e⟩
    have a2 : ¬ ∃ l ∈ T, l.pos = true ∧ (ground ρ l).atom = at' := fun ⟨l, hl, _, e⟩ => ht ⟨l, hl, e⟩
    have b1 : ¬ ∃ l ∈ E, l.pos = false ∧ (ground ρ l).atom = at' := fun ⟨l, hl, _, e⟩ => ht ⟨l, hE hl, e⟩
    have b2 : ¬ ∃ l ∈ E, l.pos = true ∧ (ground ρ l).atom = at' := fun ⟨l, hl, _, e⟩ => ht ⟨l, hE hl, e⟩
    simp only [a1, a2, b1, b2]

end
end Spec

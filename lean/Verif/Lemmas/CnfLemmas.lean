import Verif.Model.MaSam
import Mathlib.Data.List.Nodup

namespace Model

theorem mem_addNotEffect {F : Cnf} {a : String} {l : Lit} {c : List (String × Lit)} :
    c ∈ (F.addNotEffect a l).clauses ↔
      ∃ d ∈ F.clauses, ((a, l) ∉ d ∧ c = d) ∨ ((a, l) ∈ d ∧ c = d.erase (a, l) ∧ c ≠ []) := by
  unfold Cnf.addNotEffect
  simp only [List.mem_filterMap]
  constructor
  · rintro ⟨d, hd, h⟩
    refine ⟨d, hd, ?_⟩
    split at h
    · rename_i hm
      split at h
      · simp at h
      · rename_i hne
        simp only [Option.some.injEq] at h
        refine Or.inr ⟨hm, h.symm, ?_⟩
        rintro rfl; exact hne (by rw [h]; rfl)
    · rename_i hm
      simp only [Option.some.injEq] at h
      exact Or.inl ⟨hm, h.symm⟩
  · rintro ⟨d, hd, (⟨h1, rfl⟩ | ⟨h1, rfl, h3⟩)⟩
    · exact ⟨_, hd, by simp [h1]⟩
    · refine ⟨d, hd, ?_⟩
      rw [if_pos h1, if_neg]
      rw [List.length_eq_zero_iff]; exact h3

theorem mem_addPossible {F : Cnf} {j c : List (String × Lit)} :
    c ∈ (F.addPossible j).clauses ↔ c ∈ F.clauses ∨ c = j.filter fun p => p.2 ∉ F.notEff p.1 := by
  unfold Cnf.addPossible
  simp only
  split
  · rename_i h
    constructor
    · exact Or.inl
    · rintro (h' | rfl)
      · exact h'
      · exact h
  · simp

theorem addPossible_notEff {F : Cnf} {j : List (String × Lit)} : (F.addPossible j).notEff = F.notEff := by
  unfold Cnf.addPossible; simp only; split <;> rfl

theorem mem_addNotEffect_notEff {F : Cnf} {a b : String} {l m : Lit} :
    m ∈ (F.addNotEffect a l).notEff b ↔ (b = a ∧ m = l) ∨ m ∈ F.notEff b := by
  unfold Cnf.addNotEffect
  simp only [Function.update_apply]
  split
  · rename_i e; subst e; simp
  · rename_i e; simp [e]

theorem mem_units {F : Cnf} {a : String} {p : String × Lit} : p ∈ F.units a ↔ [p] ∈ F.clauses ∧ p.1 = a := by
  unfold Cnf.units
  rw [List.mem_filterMap]
  constructor
  · rintro ⟨c, hc, h⟩
    split at h
    · rename_i ha
      split at h
      · simp only [Option.some.injEq] at h; subst h
        simp at ha; exact ⟨hc, ha.symm⟩
      · simp at h
    · simp at h
  · rintro ⟨h1, rfl⟩; exact ⟨_, h1, by simp⟩

theorem mem_extractEffects' {F : Cnf} {a : String} {pre : Finset Lit} {l : Lit} :
    l ∈ F.extractEffects a pre ↔ [(a, l)] ∈ F.clauses ∧ l ∉ pre := by
  unfold Cnf.extractEffects
  rw [List.mem_filterMap]
  constructor
  · rintro ⟨c, hc, h⟩
    split at h
    · rename_i p
      split at h
      · rename_i ha
        split at h
        · rename_i hp
          simp only [Option.some.injEq] at h; subst h
          simp at ha; subst ha
          exact ⟨hc, hp⟩
        · simp at h
      · simp at h
    · simp at h
  · rintro ⟨h1, h2⟩
    exact ⟨_, h1, by simp [h2]⟩

theorem isActionSafe_iff {F : Cnf} {a : String} {pre : Finset Lit} :
    F.isActionSafe a pre = true ↔ ∀ c ∈ F.clauses, a ∈ c.map Prod.fst → c.length ≠ 1 →
      (∃ l, [(a, l)] ∈ F.clauses ∧ (a, l) ∈ c) ∨ ∀ l, (a, l) ∈ c → l ∈ pre := by
  have key : F.isActionSafe a pre = true ↔ ∀ c ∈ F.nonUnits a,
      (∃ u ∈ F.units a, u ∈ c) ∨ ∀ p ∈ c, p.1 = a → p.2 ∈ pre := by
    unfold Cnf.isActionSafe
    split
    · rename_i h
      rw [List.length_eq_zero_iff] at h; simp [h]
    · simp only [List.all_eq_true, Bool.or_eq_true, List.any_eq_true, decide_eq_true_eq, Bool.not_eq_true',
        Bool.and_eq_false_iff, beq_eq_false_iff_ne, decide_eq_false_iff_not, not_not]
      apply forall₂_congr; intro c _
      apply or_congr Iff.rfl
      apply forall₂_congr; intro p _
      tauto
  rw [key]
  unfold Cnf.nonUnits
  simp only [List.mem_filter, Bool.and_eq_true, decide_eq_true_eq, Bool.not_eq_true', beq_eq_false_iff_ne, and_imp]
  constructor
  · intro h c hc h1 h2
    rcases h c hc h1 h2 with ⟨u, hu, huc⟩ | h
    · obtain ⟨k1, k2⟩ := mem_units.mp hu
      obtain ⟨b, l⟩ := u; simp only at k2; subst k2
      exact Or.inl ⟨l, k1, huc⟩
    · exact Or.inr fun l hl => h _ hl rfl
  · intro h c hc h1 h2
    rcases h c hc h1 h2 with ⟨l, k1, k2⟩ | h
    · exact Or.inl ⟨_, mem_units.mpr ⟨k1, rfl⟩, k2⟩
    · refine Or.inr fun p hp e => ?_
      obtain ⟨b, l⟩ := p; simp only at e; subst e
      exact h l hp

theorem isActing_of_mem {F : Cnf} {a : String} {c : List (String × Lit)} {l : Lit} (hc : c ∈ F.clauses) (h : (a, l) ∈ c) :
    F.isActing a = true := by
  unfold Cnf.isActing
  rw [Bool.or_eq_true, List.any_eq_true]
  refine Or.inl ⟨c, hc, ?_⟩
  rw [decide_eq_true_eq, List.mem_map]
  exact ⟨_, h, rfl⟩

/-- A CNF consistent with the truth `T`: non-empty clauses contain a true pair, recorded non-effects are
not true, and a clause has at most one literal per action. -/
structure CnfOk (T : String → Lit → Prop) (F : Cnf) : Prop where
  sound : ∀ c ∈ F.clauses, c ≠ [] → ∃ p ∈ c, T p.1 p.2
  notEff : ∀ a, ∀ l ∈ F.notEff a, ¬ T a l
  single : ∀ c ∈ F.clauses, ∀ a l m, (a, l) ∈ c → (a, m) ∈ c → l = m

theorem CnfOk.empty (T) : CnfOk T .empty := ⟨by simp [Cnf.empty], by simp [Cnf.empty], by simp [Cnf.empty]⟩

theorem mem_erase_of_true {T : String → Lit → Prop} {a : String} {l : Lit} (hT : ¬ T a l) {p : String × Lit} {c : List (String × Lit)}
    (hp : p ∈ c) (ht : T p.1 p.2) : p ∈ c.erase (a, l) := by
  rw [List.mem_erase_of_ne]
  · exact hp
  · rintro rfl; exact hT ht

theorem CnfOk.addNotEffect {T F} (h : CnfOk T F) {a : String} {l : Lit} (hT : ¬ T a l) : CnfOk T (F.addNotEffect a l) := by
  refine ⟨?_, ?_, ?_⟩
  · intro c hc hne
    obtain ⟨d, hd, (⟨_, rfl⟩ | ⟨k1, rfl, k3⟩)⟩ := mem_addNotEffect.mp hc
    · exact h.sound _ hd hne
    · obtain ⟨p, hp, ht⟩ := h.sound d hd (by rintro rfl; simp at k1)
      exact ⟨p, mem_erase_of_true hT hp ht, ht⟩
  · intro b m hm
    rcases mem_addNotEffect_notEff.mp hm with ⟨rfl, rfl⟩ | hm
    · exact hT
    · exact h.notEff b m hm
  · intro c hc b m n hm hn
    obtain ⟨d, hd, (⟨_, rfl⟩ | ⟨k1, rfl, k3⟩)⟩ := mem_addNotEffect.mp hc
    · exact h.single _ hd b m n hm hn
    · exact h.single d hd b m n (List.mem_of_mem_erase hm) (List.mem_of_mem_erase hn)

theorem CnfOk.addPossible {T F} (h : CnfOk T F) {j : List (String × Lit)} (hT : j ≠ [] → ∃ p ∈ j, T p.1 p.2)
    (hs : ∀ a l m, (a, l) ∈ j → (a, m) ∈ j → l = m) : CnfOk T (F.addPossible j) := by
  refine ⟨?_, ?_, ?_⟩
  · intro c hc hne
    rcases mem_addPossible.mp hc with hc | rfl
    · exact h.sound c hc hne
    · obtain ⟨p, hp, ht⟩ := hT (by rintro rfl; simp at hne)
      exact ⟨p, List.mem_filter.mpr ⟨hp, decide_eq_true (fun k => h.notEff _ _ k ht)⟩, ht⟩
  · rw [addPossible_notEff]; exact h.notEff
  · intro c hc a l m hl hm
    rcases mem_addPossible.mp hc with hc | rfl
    · exact h.single c hc a l m hl hm
    · exact hs a l m (List.mem_filter.mp hl).1 (List.mem_filter.mp hm).1

/-- A true pair stays in the CNF. -/
theorem addNotEffect_keeps {T : String → Lit → Prop} {F : Cnf} {a : String} {l : Lit} (hT : ¬ T a l) {p : String × Lit} (ht : T p.1 p.2)
    (h : ∃ c ∈ F.clauses, p ∈ c) : ∃ c ∈ (F.addNotEffect a l).clauses, p ∈ c := by
  obtain ⟨d, hd, hp⟩ := h
  by_cases hm : (a, l) ∈ d
  · have hp' := mem_erase_of_true hT hp ht
    exact ⟨_, mem_addNotEffect.mpr ⟨d, hd, Or.inr ⟨hm, rfl, List.ne_nil_of_mem hp'⟩⟩, hp'⟩
  · exact ⟨d, mem_addNotEffect.mpr ⟨d, hd, Or.inl ⟨hm, rfl⟩⟩, hp⟩

theorem addPossible_keeps {F : Cnf} {j : List (String × Lit)} {p : String × Lit} (h : ∃ c ∈ F.clauses, p ∈ c) :
    ∃ c ∈ (F.addPossible j).clauses, p ∈ c := by
  obtain ⟨d, hd, hp⟩ := h
  exact ⟨d, mem_addPossible.mpr (Or.inl hd), hp⟩

theorem addPossible_adds {T F} (h : CnfOk T F) {j : List (String × Lit)} {p : String × Lit} (hp : p ∈ j) (ht : T p.1 p.2) :
    ∃ c ∈ (F.addPossible j).clauses, p ∈ c :=
  ⟨_, mem_addPossible.mpr (Or.inr rfl), List.mem_filter.mpr ⟨hp, decide_eq_true (fun k => h.notEff _ _ k ht)⟩⟩

end Model

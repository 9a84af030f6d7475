import Verif.Model.Esam
import Verif.Spec.ParamGroups

/-! The disjoint-set structure of `minimize_parameters_equality_dict`. -/
namespace Model
open Spec

/-- Invariant of the structure after the merges of a relation: roots are fixed points, roots of
parameters are parameters, and two elements have one root iff the merges connect them. -/
structure RootsInv (sig : List String) (R : Roots) (rel : String → String → Prop) : Prop where
  idem : ∀ z, R (R z) = R z
  mem : ∀ z ∈ sig, R z ∈ sig
  conn : ∀ x y, R x = R y ↔ Relation.EqvGen rel x y

theorem RootsInv.id (sig : List String) : RootsInv sig id (fun _ _ => False) := by
  refine ⟨fun _ => rfl, fun _ h => h, fun x y => ⟨?_, ?_⟩⟩
  · rintro rfl; exact Relation.EqvGen.refl _
  · intro h
    induction h with
    | rel _ _ h => cases h
    | refl _ => rfl
    | symm _ _ _ ih => exact ih.symm
    | trans _ _ _ _ _ h1 h2 => exact h1.trans h2

theorem EqvGen_mono {r s : String → String → Prop} (h : ∀ x y, r x y → Relation.EqvGen s x y) {x y : String}
    (k : Relation.EqvGen r x y) : Relation.EqvGen s x y := by
  induction k with
  | rel _ _ k => exact h _ _ k
  | refl _ => exact Relation.EqvGen.refl _
  | symm _ _ _ ih => exact ih.symm _ _
  | trans _ _ _ _ _ h1 h2 => exact h1.trans _ _ _ h2

/-- The merged roots: one of the two replaces the other. -/
theorem merge_cases (sig : List String) (R : Roots) (x y : String) :
    ∃ w l, ((w = R x ∧ l = R y) ∨ (w = R y ∧ l = R x)) ∧ R.merge sig x y = fun z => if R z = l then w else R z := by
  unfold Roots.merge
  by_cases h : R x = R y
  · refine ⟨R x, R y, Or.inl ⟨rfl, rfl⟩, ?_⟩
    rw [if_pos h]
    funext z
    split
    · rename_i hz; rw [hz, h]
    · rfl
  · rw [if_neg h]
    simp only
    split
    · exact ⟨R y, R x, Or.inr ⟨rfl, rfl⟩, rfl⟩
    · exact ⟨R x, R y, Or.inl ⟨rfl, rfl⟩, rfl⟩

theorem RootsInv.merge {sig : List String} {R : Roots} {rel : String → String → Prop} (h : RootsInv sig R rel)
    {x y : String} (hx : x ∈ sig) (hy : y ∈ sig) :
    RootsInv sig (R.merge sig x y) (fun a b => rel a b ∨ (a = x ∧ b = y)) := by
  obtain ⟨w, l, hwl, e⟩ := merge_cases sig R x y
  have hw : R w = w := by rcases hwl with ⟨rfl, _⟩ | ⟨rfl, _⟩ <;> exact h.idem _
  have hl : R l = l := by rcases hwl with ⟨_, rfl⟩ | ⟨_, rfl⟩ <;> exact h.idem _
  have hwm : w ∈ sig := by
    rcases hwl with ⟨rfl, _⟩ | ⟨rfl, _⟩
    · exact h.mem _ hx
    · exact h.mem _ hy
  set rel' : String → String → Prop := fun a b => rel a b ∨ (a = x ∧ b = y) with hrel'
  have up : ∀ {a b}, Relation.EqvGen rel a b → Relation.EqvGen rel' a b :=
    EqvGen_mono (fun a b k => Relation.EqvGen.rel _ _ (Or.inl k))
  have hxy : Relation.EqvGen rel' x y := Relation.EqvGen.rel _ _ (Or.inr ⟨rfl, rfl⟩)
  have hlw : Relation.EqvGen rel' l w := by
    have h1 : Relation.EqvGen rel' (R x) x := up ((h.conn _ _).mp (h.idem x))
    have h2 : Relation.EqvGen rel' (R y) y := up ((h.conn _ _).mp (h.idem y))
    have h3 : Relation.EqvGen rel' (R x) (R y) := h1.trans _ _ _ (hxy.trans _ _ _ (h2.symm _ _))
    rcases hwl with ⟨rfl, rfl⟩ | ⟨rfl, rfl⟩
    · exact h3.symm _ _
    · exact h3
  have hz : ∀ z, Relation.EqvGen rel' z (R.merge sig x y z) := by
    intro z
    have h1 : Relation.EqvGen rel' z (R z) := up ((h.conn _ _).mp (h.idem z).symm)
    rw [e]
    show Relation.EqvGen rel' z (if R z = l then w else R z)
    split
    · rename_i k; rw [k] at h1; exact h1.trans _ _ _ hlw
    · exact h1
  refine ⟨?_, ?_, ?_⟩
  · intro z
    rw [e]
    show (if R (if R z = l then w else R z) = l then w else R (if R z = l then w else R z)) = if R z = l then w else R z
    by_cases k : R z = l
    · rw [if_pos k, hw]; split <;> rfl
    · rw [if_neg k, h.idem, if_neg k]
  · intro z hz
    rw [e]
    show (if R z = l then w else R z) ∈ sig
    split
    · exact hwm
    · exact h.mem z hz
  · intro a b
    constructor
    · intro k
      have h2 := hz b
      rw [← k] at h2
      exact (hz a).trans _ _ _ (h2.symm _ _)
    · intro k
      induction k with
      | rel a b k =>
        rcases k with k | ⟨rfl, rfl⟩
        · have := (h.conn a b).mpr (Relation.EqvGen.rel _ _ k)
          rw [e]; simp only [this]
        · rw [e]
          rcases hwl with ⟨rfl, rfl⟩ | ⟨rfl, rfl⟩
          · simp
          · simp
      | refl _ => rfl
      | symm _ _ _ ih => exact ih.symm
      | trans _ _ _ _ _ h1 h2 => exact h1.trans h2

/-- The pairs merged for a set. -/
theorem RootsInv.foldSet {sig : List String} (s t : List String) (ht : ∀ p ∈ t, p ∈ sig) (hs : ∀ p ∈ s, p ∈ sig)
    (hts : ∀ p ∈ t, p ∈ s) {R : Roots} {rel : String → String → Prop} (h : RootsInv sig R rel) :
    RootsInv sig (t.foldl (fun R p => R.merge sig (s.headD p) p) R)
      (fun a b => rel a b ∨ ∃ p ∈ t, a = s.headD p ∧ b = p) := by
  induction t generalizing R rel with
  | nil => simpa using h
  | cons p t ih =>
    have hp : s.headD p ∈ sig := by
      cases s with
      | nil => exact ht p (by simp)
      | cons a s => exact hs _ (by simp)
    have := ih (fun q hq => ht q (by simp [hq])) (fun q hq => hts q (by simp [hq])) (h.merge hp (ht p (by simp)))
    rw [List.foldl_cons]
    convert this using 3
    rename_i a b
    simp only [List.mem_cons, exists_eq_or_imp]
    constructor
    · rintro (k | ⟨k1, k2⟩ | k)
      · exact Or.inl (Or.inl k)
      · exact Or.inl (Or.inr ⟨k1, k2⟩)
      · exact Or.inr k
    · rintro ((k | k) | k)
      · exact Or.inl k
      · exact Or.inr (Or.inl k)
      · exact Or.inr (Or.inr k)

theorem RootsInv.all {sig : List String} (sets : List (List String)) (hs : ∀ s ∈ sets, ∀ p ∈ s, p ∈ sig)
    {R : Roots} {rel : String → String → Prop} (h : RootsInv sig R rel) :
    RootsInv sig (mergeAll sig sets R) (fun a b => rel a b ∨ ∃ s ∈ sets, ∃ p ∈ s, a = s.headD p ∧ b = p) := by
  induction sets generalizing R rel with
  | nil => simpa [mergeAll] using h
  | cons s ss ih =>
    have h1 := h.foldSet s s (hs s (by simp)) (hs s (by simp)) (fun _ h => h)
    have := ih (fun t ht => hs t (by simp [ht])) h1
    unfold mergeAll at this ⊢
    rw [List.foldl_cons]
    convert this using 3
    rename_i a b
    simp only [List.mem_cons, exists_eq_or_imp, or_assoc]

/-- The classes after all merges: connected through a common set. -/
theorem mergeAll_conn {sig : List String} (sets : List (List String)) (hs : ∀ s ∈ sets, ∀ p ∈ s, p ∈ sig) (x y : String) :
    mergeAll sig sets id x = mergeAll sig sets id y ↔ Relation.EqvGen (fun a b => ∃ s ∈ sets, a ∈ s ∧ b ∈ s) x y := by
  rw [((RootsInv.id sig).all sets hs).conn]
  constructor
  · apply EqvGen_mono
    rintro a b (k | ⟨s, hss, p, hp, rfl, rfl⟩)
    · cases k
    · refine Relation.EqvGen.rel _ _ ⟨s, hss, ?_, hp⟩
      cases s with
      | nil => simp at hp
      | cons c s => simp
  · apply EqvGen_mono
    rintro a b ⟨s, hss, ha, hb⟩
    have key : ∀ p ∈ s, Relation.EqvGen (fun a b => False ∨ ∃ s ∈ sets, ∃ p ∈ s, a = s.headD p ∧ b = p) (s.headD "") p := by
      intro p hp
      refine Relation.EqvGen.rel _ _ (Or.inr ⟨s, hss, p, hp, ?_, rfl⟩)
      cases s with
      | nil => simp at hp
      | cons c s => simp
    exact ((key a ha).symm _ _).trans _ _ _ (key b hb)

theorem mem_notMinimized {model : List (Lit × Bool)} {p : String} : p ∈ notMinimized model ↔ InUnselected model p := by
  unfold notMinimized InUnselected
  simp only [List.mem_flatMap, List.mem_filter, Bool.not_eq_true', and_assoc]

theorem occSets_sub {sig : List String} {model : List (Lit × Bool)} : ∀ s ∈ occSets sig model, ∀ p ∈ s, p ∈ sig := by
  intro s hs p hp
  unfold occSets at hs
  simp only [List.mem_flatMap, List.mem_map, List.mem_range] at hs
  obtain ⟨na, _, i, _, rfl⟩ := hs
  exact (List.mem_filter.mp hp).1

theorem occSets_rel {sig : List String} {model : List (Lit × Bool)} (ha : OneArity model) (p q : String) :
    (∃ s ∈ occSets sig model, p ∈ s ∧ q ∈ s) ↔ SameSlot sig model p q := by
  unfold occSets SameSlot
  simp only [List.mem_flatMap, List.mem_map, List.mem_range, List.mem_dedup]
  constructor
  · rintro ⟨s, ⟨na, ⟨l0, hl0, rfl⟩, i, hi, rfl⟩, hp, hq⟩
    simp only [List.mem_filter, Bool.and_eq_true, decide_eq_true_eq, List.any_eq_true] at hp hq
    obtain ⟨hp1, hp2, l, hl, hln, hli⟩ := hp
    obtain ⟨hq1, hq2, l', hl', hln', hli'⟩ := hq
    rw [mem_notMinimized] at hp2 hq2
    exact ⟨hp1, hq1, hp2, hq2, l, hl, l', hl', hln.trans hln'.symm, i, hli, hli'⟩
  · rintro ⟨hp1, hq1, hp2, hq2, l, hl, l', hl', hn, i, hli, hli'⟩
    refine ⟨_, ⟨(l.1.name, l.1.args.length), ⟨l, hl, rfl⟩, i, (List.getElem?_eq_some_iff.mp hli).1, rfl⟩, ?_, ?_⟩
    · simp only [List.mem_filter, Bool.and_eq_true, decide_eq_true_eq, List.any_eq_true]
      exact ⟨hp1, by rw [mem_notMinimized]; exact hp2, l, hl, rfl, hli⟩
    · simp only [List.mem_filter, Bool.and_eq_true, decide_eq_true_eq, List.any_eq_true]
      exact ⟨hq1, by rw [mem_notMinimized]; exact hq2, l', hl', hn.symm, hli'⟩

end Model

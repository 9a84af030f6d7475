import Mathlib.Data.List.Perm.Subperm

/-!
Python `itertools` primitives used by the code, with exact characterisations.
They are part of the model (Python standard library), order of the output included.
-/
namespace Py

variable {α : Type}

/-- Every way to take one element of a list by position, with the list of the others. -/
def picks : List α → List (α × List α)
  | [] => []
  | x :: xs => (x, xs) :: (picks xs).map (fun p => (p.1, x :: p.2))

/-- `itertools.permutations(xs, r)` (position based, lexicographic in positions). -/
def perms : Nat → List α → List (List α)
  | 0, _ => [[]]
  | r + 1, xs => (picks xs).flatMap fun p => (perms r p.2).map (p.1 :: ·)

/-- `itertools.combinations(xs, r)` (lexicographic in positions). -/
def combs : Nat → List α → List (List α)
  | 0, _ => [[]]
  | _ + 1, [] => []
  | r + 1, x :: xs => (combs r xs).map (x :: ·) ++ combs (r + 1) xs

/-- `itertools.combinations_with_replacement(xs, r)` (lexicographic in positions). -/
def combsRep : List α → Nat → List (List α)
  | [] => fun r => match r with
    | 0 => [[]]
    | _ + 1 => []
  | x :: xs => fun r => Nat.rec (motive := fun _ => List (List α)) [[]]
      (fun r ih => ih.map (x :: ·) ++ combsRep xs (r + 1)) r

theorem combsRep_zero (xs : List α) : combsRep xs 0 = [[]] := by cases xs <;> rfl
theorem combsRep_nil (r : Nat) : combsRep ([] : List α) (r + 1) = [] := rfl
theorem combsRep_cons (x : α) (xs : List α) (r : Nat) :
    combsRep (x :: xs) (r + 1) = (combsRep (x :: xs) r).map (x :: ·) ++ combsRep xs (r + 1) := rfl

/-- `itertools.product(*xss)`. -/
def prod : List (List α) → List (List α)
  | [] => [[]]
  | xs :: xss => xs.flatMap fun x => (prod xss).map (x :: ·)

theorem picks_perm {xs : List α} {p : α × List α} (h : p ∈ picks xs) : xs.Perm (p.1 :: p.2) := by
  induction xs generalizing p with
  | nil => simp [picks] at h
  | cons x xs ih =>
    simp only [picks, List.mem_cons, List.mem_map] at h
    rcases h with rfl | ⟨q, hq, rfl⟩
    · exact List.Perm.refl _
    · exact ((ih hq).cons x).trans (List.Perm.swap _ _ _)

theorem exists_pick {xs : List α} {x : α} (h : x ∈ xs) : ∃ rest, (x, rest) ∈ picks xs := by
  induction xs with
  | nil => simp at h
  | cons y ys ih =>
    rcases List.mem_cons.mp h with rfl | h
    · exact ⟨ys, by simp [picks]⟩
    · obtain ⟨r, hr⟩ := ih h
      exact ⟨y :: r, by simp only [picks, List.mem_cons, List.mem_map]; exact Or.inr ⟨_, hr, rfl⟩⟩

/-- Exact content of `itertools.permutations`. -/
theorem mem_perms {r : Nat} {xs l : List α} : l ∈ perms r xs ↔ l.length = r ∧ l.Subperm xs := by
  induction r generalizing xs l with
  | zero =>
    simp only [perms, List.mem_singleton]
    constructor
    · rintro rfl; exact ⟨rfl, List.nil_subperm⟩
    · rintro ⟨h, _⟩; exact List.length_eq_zero_iff.mp h
  | succ r ih =>
    simp only [perms, List.mem_flatMap, List.mem_map]
    constructor
    · rintro ⟨p, hp, l', hl', rfl⟩
      obtain ⟨h1, h2⟩ := ih.mp hl'
      refine ⟨by simp [h1], ?_⟩
      exact ((List.subperm_cons p.1).mpr h2).trans (picks_perm hp).symm.subperm
    · rintro ⟨h1, h2⟩
      cases l with
      | nil => simp at h1
      | cons x l =>
        have hx : x ∈ xs := h2.subset (List.mem_cons_self)
        obtain ⟨rest, hr⟩ := exists_pick hx
        refine ⟨(x, rest), hr, l, ih.mpr ⟨by simpa using h1, ?_⟩, rfl⟩
        have := h2.trans (picks_perm hr).subperm
        exact (List.subperm_cons x).mp this

theorem mem_perms_nodup {r : Nat} {xs l : List α} (hx : xs.Nodup) :
    l ∈ perms r xs ↔ l.length = r ∧ l.Nodup ∧ ∀ x ∈ l, x ∈ xs := by
  rw [mem_perms]
  constructor
  · rintro ⟨h1, h2⟩
    obtain ⟨l', hp, hs⟩ := h2
    exact ⟨h1, (hp.nodup_iff).mp (hs.nodup hx), fun x hxl => hs.subset (hp.mem_iff.mpr hxl)⟩
  · rintro ⟨h1, h2, h3⟩
    exact ⟨h1, List.subperm_of_subset h2 h3⟩

/-- Exact content of `itertools.combinations`. -/
theorem mem_combs {r : Nat} {xs l : List α} : l ∈ combs r xs ↔ l.length = r ∧ l.Sublist xs := by
  induction xs generalizing r l with
  | nil =>
    cases r with
    | zero => simp only [combs, List.mem_singleton, List.sublist_nil]; constructor
              · rintro rfl; simp
              · exact fun h => h.2
    | succ r => simp only [combs, List.not_mem_nil, List.sublist_nil, false_iff]; rintro ⟨h, rfl⟩; simp at h
  | cons x xs ih =>
    cases r with
    | zero =>
      simp only [combs, List.mem_singleton]
      constructor
      · rintro rfl; simp
      · rintro ⟨h, _⟩; exact List.length_eq_zero_iff.mp h
    | succ r =>
      simp only [combs, List.mem_append, List.mem_map, ih]
      constructor
      · rintro (⟨l', ⟨h1, h2⟩, rfl⟩ | ⟨h1, h2⟩)
        · exact ⟨by simp [h1], h2.cons_cons x⟩
        · exact ⟨h1, h2.cons x⟩
      · rintro ⟨h1, h2⟩
        cases h2 with
        | cons _ h => exact Or.inr ⟨h1, h⟩
        | cons_cons _ h => exact Or.inl ⟨_, ⟨by simpa using h1, h⟩, rfl⟩

/-- Exact content of `itertools.product`. -/
theorem mem_prod {xss : List (List α)} {l : List α} :
    l ∈ prod xss ↔ List.Forall₂ (fun x xs => x ∈ xs) l xss := by
  induction xss generalizing l with
  | nil => simp [prod]
  | cons xs xss ih =>
    simp only [prod, List.mem_flatMap, List.mem_map]
    constructor
    · rintro ⟨x, hx, l', hl', rfl⟩
      exact List.Forall₂.cons hx (ih.mp hl')
    · intro h
      cases h with
      | cons hx ht => exact ⟨_, hx, _, ih.mpr ht, rfl⟩

end Py

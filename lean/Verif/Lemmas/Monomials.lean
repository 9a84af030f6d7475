import Verif.Lemmas.NumericUtils
import Mathlib.Data.String.Basic

namespace Py
variable {α : Type}

theorem combsRep_length {xs : List α} {r : Nat} {l : List α} (h : l ∈ combsRep xs r) : l.length = r := by
  induction xs generalizing r l with
  | nil => cases r <;> simp_all [combsRep]
  | cons x xs ih =>
    induction r generalizing l with
    | zero => rw [combsRep_zero] at h; simp_all
    | succ r ihr =>
      rw [combsRep_cons, List.mem_append, List.mem_map] at h
      rcases h with ⟨l', hl', rfl⟩ | h
      · simp [ihr hl']
      · exact ih h

theorem combsRep_sub {xs : List α} {r : Nat} {l : List α} (h : l ∈ combsRep xs r) : ∀ a ∈ l, a ∈ xs := by
  induction xs generalizing r l with
  | nil =>
    cases r with
    | zero => rw [combsRep_zero, List.mem_singleton] at h; simp [h]
    | succ r => rw [combsRep_nil] at h; simp at h
  | cons x xs ih =>
    induction r generalizing l with
    | zero => rw [combsRep_zero, List.mem_singleton] at h; simp [h]
    | succ r ihr =>
      rw [combsRep_cons, List.mem_append, List.mem_map] at h
      rcases h with ⟨l', hl', rfl⟩ | h
      · intro a ha
        rcases List.mem_cons.mp ha with rfl | ha
        · simp
        · exact ihr hl' a ha
      · exact fun a ha => List.mem_cons_of_mem _ (ih h a ha)

theorem combsRep_complete [DecidableEq α] {xs l : List α} (h : ∀ a ∈ l, a ∈ xs) :
    ∃ l' ∈ combsRep xs l.length, l'.Perm l := by
  induction xs generalizing l with
  | nil =>
    cases l with
    | nil => exact ⟨[], by simp [combsRep_zero], List.Perm.refl _⟩
    | cons a l => exact absurd (h a (by simp)) (by simp)
  | cons x xs ih =>
    generalize hn : l.length = n
    induction n generalizing l with
    | zero => exact ⟨[], by simp [combsRep_zero], by rw [List.length_eq_zero_iff.mp hn]⟩
    | succ n ihn =>
      rw [combsRep_cons]
      by_cases hx : x ∈ l
      · have hp := List.perm_cons_erase hx
        obtain ⟨l', h1, h2⟩ := ihn (l := l.erase x) (fun a ha => h a (List.mem_of_mem_erase ha))
          (by rw [List.length_erase_of_mem hx, hn]; rfl)
        exact ⟨x :: l', List.mem_append_left _ (List.mem_map_of_mem h1), (h2.cons x).trans hp.symm⟩
      · obtain ⟨l', h1, h2⟩ := ih (l := l) (fun a ha => by
          rcases List.mem_cons.mp (h a ha) with rfl | h'
          · exact absurd ha hx
          · exact h')
        rw [hn] at h1
        exact ⟨l', List.mem_append_right _ h1, h2⟩

theorem combsRep_perm_eq {xs : List α} (hnd : xs.Nodup) {r : Nat} {l l' : List α} (h : l ∈ combsRep xs r)
    (h' : l' ∈ combsRep xs r) (hp : l.Perm l') : l = l' := by
  induction xs generalizing r l l' with
  | nil => cases r <;> simp_all [combsRep]
  | cons x xs ih =>
    rw [List.nodup_cons] at hnd
    induction r generalizing l l' with
    | zero => rw [combsRep_zero] at h h'; simp_all
    | succ r ihr =>
      rw [combsRep_cons, List.mem_append, List.mem_map] at h h'
      have hno : ∀ k ∈ combsRep xs (r + 1), x ∉ k := fun k hk hx => hnd.1 (combsRep_sub hk x hx)
      rcases h with ⟨k, hk, rfl⟩ | h <;> rcases h' with ⟨k', hk', rfl⟩ | h'
      · rw [ihr hk hk' (List.Perm.cons_inv hp)]
      · exact absurd (hp.subset (List.mem_cons_self ..)) (hno _ h')
      · exact absurd (hp.symm.subset (List.mem_cons_self ..)) (hno _ h)
      · exact ih hnd.2 h h' hp

theorem combsRep_nodup {xs : List α} (hnd : xs.Nodup) (r : Nat) : (combsRep xs r).Nodup := by
  induction xs generalizing r with
  | nil => cases r <;> simp [combsRep]
  | cons x xs ih =>
    rw [List.nodup_cons] at hnd
    induction r with
    | zero => rw [combsRep_zero]; simp
    | succ r ihr =>
      rw [combsRep_cons, List.nodup_append]
      refine ⟨ihr.map (by intro a b h; simpa using h), ih hnd.2 _, ?_⟩
      rintro a ha b hb rfl
      obtain ⟨k, _, rfl⟩ := List.mem_map.mp ha
      exact hnd.1 (combsRep_sub hb x (by simp))

end Py

namespace Model
open Spec

theorem pySorted_perm (l : List String) : (pySorted l).Perm l := List.perm_insertionSort _ l

theorem pySorted_sorted (l : List String) : (pySorted l).Pairwise (· ≤ ·) :=
  List.pairwise_insertionSort (· ≤ ·) l

theorem pySorted_eq_of_perm {l l' : List String} (h : l.Perm l') (hs : l'.Pairwise (· ≤ ·)) : pySorted l = l' :=
  List.Perm.eq_of_pairwise (fun a b _ _ h1 h2 => le_antisymm h1 h2) (pySorted_sorted l) hs
    ((pySorted_perm l).trans h)

theorem mem_combsRep_sorted {fs : List String} {r : Nat} {m : List String} :
    m ∈ (Py.combsRep fs r).map pySorted ↔ m.length = r ∧ (∀ f ∈ m, f ∈ fs) ∧ m.Pairwise (· ≤ ·) := by
  rw [List.mem_map]
  constructor
  · rintro ⟨l, hl, rfl⟩
    refine ⟨?_, ?_, pySorted_sorted l⟩
    · rw [(pySorted_perm l).length_eq]; exact Py.combsRep_length hl
    · intro f hf
      exact Py.combsRep_sub hl f ((pySorted_perm l).subset hf)
  · rintro ⟨rfl, h2, h3⟩
    obtain ⟨l, hl, hp⟩ := Py.combsRep_complete h2
    exact ⟨l, hl, pySorted_eq_of_perm hp h3⟩

theorem mem_combs_sorted {fs : List String} (hnd : fs.Nodup) {r : Nat} {m : List String} :
    m ∈ (Py.combs r fs).map pySorted ↔ m.length = r ∧ m.Nodup ∧ (∀ f ∈ m, f ∈ fs) ∧ m.Pairwise (· ≤ ·) := by
  rw [List.mem_map]
  constructor
  · rintro ⟨l, hl, rfl⟩
    obtain ⟨h1, h2⟩ := Py.mem_combs.mp hl
    refine ⟨?_, ?_, ?_, pySorted_sorted l⟩
    · rw [(pySorted_perm l).length_eq, h1]
    · exact (pySorted_perm l).nodup_iff.mpr (h2.nodup hnd)
    · intro f hf
      exact h2.subset ((pySorted_perm l).subset hf)
  · rintro ⟨rfl, h1, h2, h3⟩
    obtain ⟨l, hp, hs⟩ := h1.subperm h2
    exact ⟨l, Py.mem_combs.mpr ⟨hp.length_eq, hs⟩, pySorted_eq_of_perm hp h3⟩

theorem combs_nodup {α : Type} {xs : List α} (hnd : xs.Nodup) (r : Nat) : (Py.combs r xs).Nodup := by
  induction xs generalizing r with
  | nil => cases r <;> simp [Py.combs]
  | cons x xs ih =>
    rw [List.nodup_cons] at hnd
    cases r with
    | zero => simp [Py.combs]
    | succ r =>
      rw [Py.combs, List.nodup_append]
      refine ⟨(ih hnd.2 r).map (by intro a b h; simpa using h), ih hnd.2 _, ?_⟩
      rintro a ha b hb rfl
      obtain ⟨k, _, rfl⟩ := List.mem_map.mp ha
      exact hnd.1 ((Py.mem_combs.mp hb).2.subset (by simp))

theorem combs_perm_eq {α : Type} {xs : List α} (hnd : xs.Nodup) {r : Nat} {l l' : List α} (h : l ∈ Py.combs r xs)
    (h' : l' ∈ Py.combs r xs) (hp : l.Perm l') : l = l' := by
  induction xs generalizing r l l' with
  | nil => cases r <;> simp_all [Py.combs]
  | cons x xs ih =>
    rw [List.nodup_cons] at hnd
    cases r with
    | zero => simp_all [Py.combs]
    | succ r =>
      rw [Py.combs, List.mem_append, List.mem_map] at h h'
      have hno : ∀ k ∈ Py.combs (r + 1) xs, x ∉ k := fun k hk hx => hnd.1 ((Py.mem_combs.mp hk).2.subset hx)
      rcases h with ⟨k, hk, rfl⟩ | h <;> rcases h' with ⟨k', hk', rfl⟩ | h'
      · rw [ih hnd.2 hk hk' (List.Perm.cons_inv hp)]
      · exact absurd (hp.subset (List.mem_cons_self ..)) (hno _ h')
      · exact absurd (hp.symm.subset (List.mem_cons_self ..)) (hno _ h)
      · exact ih hnd.2 h h' hp

/-- The monomials asked for: sorted, over the fluents, of the right size. -/
theorem mem_createMonomials {fs : List String} (hnd : fs.Nodup) {deg : Nat} {m : List String} :
    m ∈ createMonomials fs deg ↔ m ≠ [] ∧ m.Pairwise (· ≤ ·) ∧ (∀ f ∈ m, f ∈ fs) ∧
      m.length ≤ (if deg = 0 then 1 else if deg = 1 then 2 else deg) ∧ (deg = 1 → m.Nodup) := by
  have hs : m ∈ fs.map ([·]) ↔ m.length = 1 ∧ ∀ f ∈ m, f ∈ fs := by
    rw [List.mem_map]
    constructor
    · rintro ⟨f, hf, rfl⟩; simpa using hf
    · rintro ⟨h1, h2⟩
      obtain ⟨f, rfl⟩ := List.length_eq_one_iff.mp h1
      exact ⟨f, h2 f (by simp), rfl⟩
  have h1 : m.length = 1 → m ≠ [] ∧ m.Pairwise (· ≤ ·) ∧ m.Nodup := by
    intro h
    obtain ⟨f, rfl⟩ := List.length_eq_one_iff.mp h
    simp
  have h0 : m ≠ [] ↔ 0 < m.length := List.length_pos_iff.symm
  unfold createMonomials
  dsimp only
  split_ifs with hd0 hd1
  · rw [hs]
    constructor
    · rintro ⟨a, b⟩
      exact ⟨(h1 a).1, (h1 a).2.1, b, a.le, fun e => absurd e (by omega)⟩
    · rintro ⟨a, _, b, c, _⟩
      exact ⟨by rw [h0] at a; omega, b⟩
  · rw [List.mem_append, hs, mem_combs_sorted hnd]
    constructor
    · rintro (⟨a, b⟩ | ⟨a, b, c, e⟩)
      · exact ⟨(h1 a).1, (h1 a).2.1, b, by omega, fun _ => (h1 a).2.2⟩
      · exact ⟨by rw [h0]; omega, e, c, a.le, fun _ => b⟩
    · rintro ⟨a, b, c, e, g⟩
      rw [h0] at a
      by_cases hl : m.length = 1
      · exact Or.inl ⟨hl, c⟩
      · exact Or.inr ⟨by omega, g hd1, c, b⟩
  · rw [List.mem_append, hs, List.mem_flatMap]
    simp only [mem_combsRep_sorted, List.mem_range'_1]
    constructor
    · rintro (⟨a, b⟩ | ⟨r, hr, a, b, c⟩)
      · exact ⟨(h1 a).1, (h1 a).2.1, b, by omega, fun e => absurd e hd1⟩
      · exact ⟨by rw [h0]; omega, c, b, by omega, fun e => absurd e hd1⟩
    · rintro ⟨a, b, c, e, _⟩
      rw [h0] at a
      by_cases hl : m.length = 1
      · exact Or.inl ⟨hl, c⟩
      · exact Or.inr ⟨m.length, by omega, rfl, c, b⟩

theorem createMonomials_nodup {fs : List String} (hnd : fs.Nodup) (deg : Nat) : (createMonomials fs deg).Nodup := by
  have hs : (fs.map ([·])).Nodup := hnd.map (by intro a b h; simpa using h)
  have hlen : ∀ m ∈ fs.map ([·]), m.length = 1 := by
    intro m hm
    obtain ⟨f, _, rfl⟩ := List.mem_map.mp hm
    rfl
  unfold createMonomials
  dsimp only
  split_ifs with hd0 hd1
  · exact hs
  · rw [List.nodup_append]
    refine ⟨hs, ?_, ?_⟩
    · apply List.Nodup.map_on _ (combs_nodup hnd 2)
      intro a ha b hb hab
      have hp : a.Perm b := (pySorted_perm a).symm.trans (hab ▸ pySorted_perm b)
      exact combs_perm_eq hnd ha hb hp
    · rintro a ha b hb rfl
      have h1 := hlen a ha
      obtain ⟨l, hl, rfl⟩ := List.mem_map.mp hb
      rw [(pySorted_perm l).length_eq, (Py.mem_combs.mp hl).1] at h1
      omega
  · rw [List.nodup_append]
    refine ⟨hs, ?_, ?_⟩
    · rw [List.nodup_flatMap]
      constructor
      · intro r _
        apply List.Nodup.map_on _ (Py.combsRep_nodup hnd r)
        intro a ha b hb hab
        exact Py.combsRep_perm_eq hnd ha hb ((pySorted_perm a).symm.trans (hab ▸ pySorted_perm b))
      · apply List.Pairwise.imp _ (List.pairwise_lt_range' (s := 2) (n := deg - 1) (step := 1))
        intro r r' hlt m hm hm'
        have h1 := (mem_combsRep_sorted.mp hm).1
        have h2 := (mem_combsRep_sorted.mp hm').1
        omega
    · rintro a ha b hb rfl
      have h1 := hlen a ha
      obtain ⟨r, hr, hm⟩ := List.mem_flatMap.mp hb
      have h2 := (mem_combsRep_sorted.mp hm).1
      rw [List.mem_range'_1] at hr
      omega

section
variable {K : Type}

theorem polyExp_injective {m m' : List String} (h : (polyExp m : NExp K) = polyExp m') : m = m' := by
  induction m generalizing m' with
  | nil =>
    match m' with
    | [] => rfl
    | [f] => simp [polyExp] at h
    | f :: g :: fs => simp [polyExp] at h
  | cons a m ih =>
    match m, m', h with
    | [], [], h => simp [polyExp] at h
    | [], [f], h => simpa [polyExp] using h
    | [], f :: g :: fs, h => simp [polyExp] at h
    | b :: m, [], h => simp [polyExp] at h
    | b :: m, [f], h => simp [polyExp] at h
    | b :: m, f :: g :: fs, h =>
      simp only [polyExp, NExp.mul.injEq, NExp.var.injEq] at h
      rw [h.1, ih h.2]

variable [Field K]

theorem eval_polyExp (x : String → K) {m : List String} (h : m ≠ []) : (polyExp m).eval x = (m.map x).prod := by
  induction m with
  | nil => exact absurd rfl h
  | cons a m ih =>
    cases m with
    | nil => simp [polyExp, NExp.eval]
    | cons b m =>
      show NExp.eval x (.mul (.var a) (polyExp (b :: m))) = _
      rw [NExp.eval, ih (by simp)]; rfl

theorem wf_polyExp {m : List String} (h : m ≠ []) : (polyExp m : NExp K).wellFormed = true := by
  induction m with
  | nil => exact absurd rfl h
  | cons a m ih =>
    cases m with
    | nil => rfl
    | cons b m =>
      show (NExp.mul (.var a) (polyExp (b :: m)) : NExp K).wellFormed = true
      rw [NExp.wellFormed, ih (by simp)]; rfl

theorem lookup_groundMonomials [DecidableEq K] (ms : List (List String)) (state : List (String × K)) (m : List String) :
    (groundMonomials ms state).lookup m =
      if m ∈ ms ∧ ∀ f ∈ m, f ∈ state.map Prod.fst then some (m.map fun f => (state.lookup f).getD 0).prod else none := by
  unfold groundMonomials
  have key : ∀ (acc : List (List String × K)),
      (ms.foldl (fun acc m =>
        if m.any (fun c => !(state.map Prod.fst).contains c) then acc
        else Py.dictSet acc m (m.map fun c => (state.lookup c).getD 0).prod) acc).lookup m =
      if m ∈ ms ∧ ∀ f ∈ m, f ∈ state.map Prod.fst then some (m.map fun f => (state.lookup f).getD 0).prod
      else acc.lookup m := by
    induction ms with
    | nil => intro acc; simp
    | cons a ms ih =>
      intro acc
      rw [List.foldl_cons, ih]
      by_cases hm : m ∈ ms ∧ ∀ f ∈ m, f ∈ state.map Prod.fst
      · rw [if_pos hm, if_pos ⟨List.mem_cons_of_mem _ hm.1, hm.2⟩]
      rw [if_neg hm]
      by_cases ha : a.any (fun c => !(state.map Prod.fst).contains c) = true
      · rw [if_pos ha]
        rw [if_neg]
        rintro ⟨h1, h2⟩
        rcases List.mem_cons.mp h1 with rfl | h1
        · simp only [List.any_eq_true] at ha
          obtain ⟨c, hc, hn⟩ := ha
          have := h2 c hc
          simp only [Bool.not_eq_true', List.contains_eq_mem, decide_eq_false_iff_not] at hn
          exact hn this
        · exact hm ⟨h1, h2⟩
      · rw [if_neg ha, Py.lookup_dictSet]
        by_cases hma : m = a
        · subst hma
          have hall : ∀ f ∈ m, f ∈ state.map Prod.fst := by
            intro f hf
            by_contra hc
            apply ha
            simp only [List.any_eq_true]
            exact ⟨f, hf, by simpa [List.contains_eq_mem] using hc⟩
          rw [if_pos rfl, if_pos ⟨List.mem_cons_self .., hall⟩]
        · have : ¬ (m ∈ a :: ms ∧ ∀ f ∈ m, f ∈ state.map Prod.fst) := by
            rintro ⟨h1, h2⟩
            exact hm ⟨(List.mem_cons.mp h1).resolve_left hma, h2⟩
          rw [if_neg this]
          rw [if_neg hma]
  simpa using key []

end
end Model

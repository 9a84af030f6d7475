import Verif.Model.Bfs
import Mathlib.Data.List.Nodup
import Mathlib.Data.List.Flatten
import Mathlib.Data.Finset.Powerset

namespace Model

theorem insertLen_perm (x : List String) (l : List (List String)) : (insertLen x l).Perm (x :: l) := by
  induction l with
  | nil => exact List.Perm.refl _
  | cons y ys ih =>
    unfold insertLen; split
    · exact List.Perm.refl _
    · exact (ih.cons y).trans (List.Perm.swap _ _ _)

theorem sortLen_perm (l : List (List String)) : (sortLen l).Perm l := by
  induction l with
  | nil => exact List.Perm.refl _
  | cons x l ih => exact (insertLen_perm x _).trans (ih.cons x)

theorem insertLen_sorted (x : List String) (l : List (List String)) (h : l.Pairwise fun a b => a.length ≤ b.length) :
    (insertLen x l).Pairwise fun a b => a.length ≤ b.length := by
  induction l with
  | nil => simp [insertLen]
  | cons y ys ih =>
    unfold insertLen
    rw [List.pairwise_cons] at h
    split
    · rename_i hxy
      rw [List.pairwise_cons]
      refine ⟨?_, List.pairwise_cons.mpr h⟩
      intro z hz
      rcases List.mem_cons.mp hz with rfl | hz
      · exact hxy
      · exact hxy.trans (h.1 z hz)
    · rename_i hxy
      rw [List.pairwise_cons]
      refine ⟨fun z hz => ?_, ih h.2⟩
      rcases List.mem_cons.mp ((insertLen_perm x ys).mem_iff.mp hz) with rfl | hz
      · omega
      · exact h.1 z hz

theorem sortLen_sorted (l : List (List String)) : (sortLen l).Pairwise fun a b => a.length ≤ b.length := by
  induction l with
  | nil => exact List.Pairwise.nil
  | cons x l ih => exact insertLen_sorted x _ ih

theorem combs_entries_nodup {r : Nat} {xs : List String} (h : xs.Nodup) : (Py.combs r xs).Nodup := by
  induction xs generalizing r with
  | nil => cases r <;> simp [Py.combs]
  | cons x xs ih =>
    rw [List.nodup_cons] at h
    cases r with
    | zero => simp [Py.combs]
    | succ r =>
      simp only [Py.combs]
      refine List.nodup_append.mpr ⟨(ih h.2).map (List.cons_injective), ih h.2, ?_⟩
      rintro a ha b hb rfl
      obtain ⟨a', _, rfl⟩ := List.mem_map.mp ha
      exact h.1 ((Py.mem_combs.mp hb).2.subset List.mem_cons_self)

theorem mem_initOpen {V : Type} (ms l : List String) : l ∈ ((Bfs.init ms : Bfs V).initOpen).openList ↔ l.Sublist ms := by
  unfold Bfs.initOpen Bfs.init
  rw [(sortLen_perm _).mem_iff, List.mem_flatMap]
  constructor
  · rintro ⟨r, _, h⟩; exact (Py.mem_combs.mp h).2
  · exact fun h => ⟨l.length, List.mem_range.mpr (by have := h.length_le; dsimp; omega), Py.mem_combs.mpr ⟨rfl, h⟩⟩

theorem initOpen_nodup {V : Type} {ms : List String} (h : ms.Nodup) : ((Bfs.init ms : Bfs V).initOpen).openList.Nodup := by
  unfold Bfs.initOpen Bfs.init
  rw [(sortLen_perm _).nodup_iff, List.nodup_flatMap]
  refine ⟨fun r _ => combs_entries_nodup h, ?_⟩
  refine List.nodup_range.imp ?_
  intro a b hab x hx hy
  exact hab ((Py.mem_combs.mp hx).1.symm.trans (Py.mem_combs.mp hy).1)

theorem sublist_eq_filter {ms : List String} (h : ms.Nodup) {c : List String} (hc : c.Sublist ms) : c = ms.filter (· ∈ c.toFinset) := by
  induction hc with
  | slnil => rfl
  | cons x hc ih =>
    rw [List.nodup_cons] at h
    rename_i l1 l2
    rw [List.filter_cons, if_neg]
    · exact ih h.2
    · simp only [List.mem_toFinset, decide_eq_true_eq]; exact fun hx => h.1 (hc.subset hx)
  | cons_cons x hc ih =>
    rename_i l1 l2
    rw [List.nodup_cons] at h
    rw [List.filter_cons, if_pos (by simp)]
    congr 1
    refine (ih h.2).trans (List.filter_congr fun y hy => ?_)
    have hxy : y ≠ x := by rintro rfl; exact h.1 hy
    simp [hxy]

theorem sublist_eq_of_set {ms : List String} (h : ms.Nodup) {a b : List String} (ha : a.Sublist ms) (hb : b.Sublist ms)
    (hab : a.toFinset = b.toFinset) : a = b := by
  rw [sublist_eq_filter h ha, sublist_eq_filter h hb, hab]

variable {V : Type} (eq : List (BfsRow V) → BfsRow V → Except Err Bool)

theorem run_append (b : Bfs V) (h : List (BfsRow V)) (r : BfsRow V) :
    (b.run eq (h ++ [r])).2 = ((b.run eq h).2.add eq r).2 ∧ (b.run eq (h ++ [r])).1 = (b.run eq h).1 ++ [((b.run eq h).2.add eq r).1] := by
  induction h generalizing b with
  | nil => exact ⟨rfl, rfl⟩
  | cons x h ih => simp only [List.cons_append, Bfs.run]; exact ⟨(ih _).1, by rw [(ih _).2]⟩

/-- One call moves the open list by at most one, and a normal answer is the head of the new open list. -/
theorem add_step (b : Bfs V) (r : BfsRow V) : ((b.add eq r).2.openList = b.openList ∨ (b.add eq r).2.openList = b.openList.tail ∧ r.ok = false) ∧
    (∀ x, (b.add eq r).1 = .ok x → (b.add eq r).2.openList.head? = some x) ∧ (b.add eq r).2.observations ≠ [] := by
  have hsel : ∀ (c : Bfs V) x, c.selected = .ok x → c.openList.head? = some x := by
    intro c x hx
    unfold Bfs.selected at hx
    cases hc : c.openList with
    | nil => rw [hc] at hx; simp at hx
    | cons y l => rw [hc] at hx; simp only [Except.ok.injEq] at hx; rw [hx]; rfl
  unfold Bfs.add
  cases hob : b.observations with
  | nil => exact ⟨Or.inl rfl, fun x hx => hsel _ x hx, by simp⟩
  | cons r0 rs =>
    dsimp only
    split
    · exact ⟨Or.inl rfl, by simp, by simp [hob]⟩
    · exact ⟨Or.inl rfl, fun x hx => hsel _ x hx, by simp [hob]⟩
    · split
      · rename_i hr
        cases hol : b.openList with
        | nil => exact ⟨Or.inl (by simp), by simp, by simp⟩
        | cons y l => exact ⟨Or.inr ⟨rfl, by cases hok : r.ok <;> simp [hok] at hr ⊢⟩, fun x hx => hsel _ x hx, by simp⟩
      · exact ⟨Or.inl rfl, fun x hx => hsel _ x hx, by simp⟩

end Model

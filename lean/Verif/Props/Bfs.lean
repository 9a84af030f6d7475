import Verif.Lemmas.Bfs
import Verif.Spec.Features

/-! C37: breadth-first feature selection. -/
namespace Props
open Model Spec

/-- A selector whose open list has been initialised. -/
def newSelector (V : Type) (ms : List String) : Bfs V := (Bfs.init ms : Bfs V).initOpen

/-- **C37.** The open list contains every set of monomials exactly once, smaller sets first; it starts with the empty one. -/
theorem C37_enumeration (V : Type) {ms : List String} (h : ms.Nodup) :
    (∀ S : Finset String, S ⊆ ms.toFinset → ∃! l, l ∈ (newSelector V ms).openList ∧ l.toFinset = S) ∧
    (∀ l ∈ (newSelector V ms).openList, l.Nodup ∧ l.toFinset ⊆ ms.toFinset) ∧
    (newSelector V ms).openList.Nodup ∧
    (newSelector V ms).openList.Pairwise (fun a b => a.length ≤ b.length) ∧
    (newSelector V ms).openList.length = 2 ^ ms.length := by
  have hmem := mem_initOpen (V := V) ms
  have hnd : (newSelector V ms).openList.Nodup := initOpen_nodup (V := V) h
  have h1 : ∀ S : Finset String, S ⊆ ms.toFinset → ∃! l, l ∈ (newSelector V ms).openList ∧ l.toFinset = S := by
    intro S hS
    refine ⟨ms.filter (· ∈ S), ⟨(hmem _).mpr List.filter_sublist, ?_⟩, ?_⟩
    · ext x
      simp only [List.mem_toFinset, List.mem_filter, decide_eq_true_eq]
      exact ⟨fun hx => hx.2, fun hx => ⟨List.mem_toFinset.mp (hS hx), hx⟩⟩
    · rintro l ⟨hl, hls⟩
      rw [sublist_eq_filter h ((hmem l).mp hl), hls]
  have h2 : ∀ l ∈ (newSelector V ms).openList, l.Nodup ∧ l.toFinset ⊆ ms.toFinset := by
    intro l hl
    have hs := (hmem l).mp hl
    exact ⟨hs.nodup h, fun x hx => List.mem_toFinset.mpr (hs.subset (List.mem_toFinset.mp hx))⟩
  refine ⟨h1, h2, hnd, sortLen_sorted _, ?_⟩
  have hcard : (newSelector V ms).openList.toFinset.card = ms.toFinset.powerset.card := by
    refine Finset.card_bij (fun l _ => l.toFinset) ?_ ?_ ?_
    · intro l hl; exact Finset.mem_powerset.mpr (h2 l (List.mem_toFinset.mp hl)).2
    · intro a ha b hb hab
      exact sublist_eq_of_set h ((hmem a).mp (List.mem_toFinset.mp ha)) ((hmem b).mp (List.mem_toFinset.mp hb)) hab
    · intro S hS
      obtain ⟨l, ⟨hl, hls⟩, _⟩ := h1 S (Finset.mem_powerset.mp hS)
      exact ⟨l, List.mem_toFinset.mpr hl, hls⟩
  rw [Finset.card_powerset, List.toFinset_card_of_nodup hnd, List.toFinset_card_of_nodup h] at hcard
  exact hcard

/-- C37: whatever the comparison of rows does, the selection only moves forward through the open list, by at most one set per failed
observation; every set returned is the one then at the head. -/
theorem C37_forward {V : Type} (eq : List (BfsRow V) → BfsRow V → Except Err Bool) (b : Bfs V) (h : List (BfsRow V)) (r : BfsRow V) :
    (∃ k, k ≤ (if r.ok then 0 else 1) ∧ (b.run eq (h ++ [r])).2.openList = (b.run eq h).2.openList.drop k) ∧
    (∃ k, k ≤ h.countP (fun r => !r.ok) ∧ (b.run eq h).2.openList = b.openList.drop k) ∧
    ∀ x, (b.run eq (h ++ [r])).1.getLast? = some (.ok x) → (b.run eq (h ++ [r])).2.openList.head? = some x := by
  have hstep : ∀ (b : Bfs V) r, ∃ k, k ≤ (if r.ok then 0 else 1) ∧ (b.add eq r).2.openList = b.openList.drop k := by
    intro b r
    rcases (add_step eq b r).1 with h | ⟨h, hr⟩
    · exact ⟨0, by omega, by rw [h]; rfl⟩
    · exact ⟨1, by simp [hr], by rw [h, List.drop_one]⟩
  refine ⟨by rw [(run_append eq b h r).1]; exact hstep _ r, ?_, ?_⟩
  · induction h generalizing b with
    | nil => exact ⟨0, by omega, rfl⟩
    | cons r h ih =>
      obtain ⟨k, hk, e⟩ := ih (b.add eq r).2
      obtain ⟨j, hj, e'⟩ := hstep b r
      refine ⟨j + k, ?_, ?_⟩
      · rw [List.countP_cons]
        cases hr : r.ok <;> simp [hr] at hj ⊢ <;> omega
      · simp only [Bfs.run]; rw [e, e', List.drop_drop]
  · intro x hx
    rw [(run_append eq b h r).2, List.getLast?_concat, Option.some.injEq] at hx
    rw [(run_append eq b h r).1]
    exact (add_step eq _ r).2.1 x hx

/-- A row as an observation of the specification. -/
def asLabelled {V : Type} (r : BfsRow V) : Labelled V := ⟨r.truePreds, r.values, r.ok⟩

theorem asLabelled_inj {V : Type} : Function.Injective (asLabelled (V := V)) := by
  rintro ⟨a, b, c⟩ ⟨a', b', c'⟩ h
  simpa [asLabelled] using h

/-- The element at a position, or the exception of Python. -/
def atPos (L : List (List String)) (k : Nat) : Except Err (List String) :=
  match L[k]? with
  | some x => .ok x
  | none => .error .indexError

theorem selected_drop {V : Type} (b : Bfs V) (L : List (List String)) (k : Nat) (h : b.openList = L.drop k) : b.selected = atPos L k := by
  unfold Bfs.selected atPos
  rw [h]
  cases hl : L.drop k with
  | nil => rw [List.getElem?_eq_none (List.drop_eq_nil_iff.mp hl)]
  | cons x l =>
    have : L[k]? = some x := by rw [← List.head?_drop, hl]; rfl
    rw [this]

theorem contradicts_iff {V : Type} [DecidableEq V] {rows h : List (BfsRow V)} (hm : ∀ r, r ∈ rows ↔ r ∈ h) {r : BfsRow V} (hr : r ∉ rows) :
    (!r.ok && hasMatch rows r) = true ↔ Contradicts (h.map asLabelled) (asLabelled r) := by
  unfold Contradicts hasMatch
  simp only [Bool.and_eq_true, Bool.not_eq_true', List.any_eq_true, decide_eq_true_eq, List.mem_map]
  constructor
  · rintro ⟨h1, s, hs, h2, h3⟩
    refine ⟨?_, h1, _, ⟨s, (hm s).mp hs, rfl⟩, h3, h2⟩
    rintro ⟨r', hr', e⟩
    rw [asLabelled_inj e] at hr'
    exact hr ((hm r).mpr hr')
  · rintro ⟨-, h1, _, ⟨s, hs, rfl⟩, h3, h2⟩
    exact ⟨h1, s, (hm s).mpr hs, h2, h3⟩

/-- C37: if the comparison of line 87 did what its comment says, the set returned would be the one whose position is the number of
contradictions observed so far (an `IndexError` beyond the last one). -/
theorem C37_intended {V : Type} [DecidableEq V] (L : List (List String)) (h : List (BfsRow V)) (b : Bfs V) (hist : List (BfsRow V)) (k : Nat)
    (hb : b.openList = L.drop k) (hm : ∀ r, r ∈ b.observations ↔ r ∈ hist) :
    (b.run intendedEq h).1 = (List.range h.length).map fun i =>
      atPos L (k + contradictions (hist.map asLabelled) ((h.take (i + 1)).map asLabelled)) := by
  induction h generalizing b hist k with
  | nil => rfl
  | cons r h ih =>
    have hone : (b.add intendedEq r).1 = atPos L (k + if Contradicts (hist.map asLabelled) (asLabelled r) then 1 else 0) ∧
        (b.add intendedEq r).2.openList = L.drop (k + if Contradicts (hist.map asLabelled) (asLabelled r) then 1 else 0) ∧
        ∀ x, x ∈ (b.add intendedEq r).2.observations ↔ x ∈ hist ++ [r] := by
      unfold Bfs.add
      cases hob : b.observations with
      | nil =>
        have hh : hist = [] := List.eq_nil_iff_forall_not_mem.mpr fun x hx => by rw [← hm, hob] at hx; simp at hx
        have hc : ¬ Contradicts (hist.map asLabelled) (asLabelled r) := by rw [hh]; rintro ⟨_, _, s, hs, _⟩; simp at hs
        rw [if_neg hc, hh]
        exact ⟨selected_drop _ L k hb, hb, by simp⟩
      | cons r0 rs =>
        dsimp only
        rw [← hob]
        unfold intendedEq
        by_cases hin : r ∈ b.observations
        · simp only [hin, decide_true]
          have hc : ¬ Contradicts (hist.map asLabelled) (asLabelled r) := fun hc => hc.1 (List.mem_map_of_mem ((hm r).mp hin))
          rw [if_neg hc]
          refine ⟨selected_drop _ L k hb, hb, fun x => ?_⟩
          rw [List.mem_append, List.mem_singleton, hm]
          exact ⟨Or.inl, fun h => h.elim id fun h => h ▸ (hm r).mp hin⟩
        · simp only [hin, decide_false]
          have hobs : ∀ x, x ∈ b.observations ++ [r] ↔ x ∈ hist ++ [r] := fun x => by simp [hm]
          by_cases hc : Contradicts (hist.map asLabelled) (asLabelled r)
          · rw [if_pos hc, if_pos ((contradicts_iff hm hin).mpr hc)]
            cases hol : b.openList with
            | nil =>
              rw [hol] at hb
              have hlen : L.length ≤ k := List.drop_eq_nil_iff.mp hb.symm
              refine ⟨?_, ?_, hobs⟩
              · unfold atPos; rw [List.getElem?_eq_none (by omega)]
              · exact (List.drop_eq_nil_iff.mpr (by omega : L.length ≤ k + 1)).symm
            | cons y l =>
              have hd : l = L.drop (k + 1) := by rw [← List.drop_drop, ← hb, hol]; rfl
              exact ⟨selected_drop _ L (k + 1) hd, hd, hobs⟩
          · rw [if_neg hc, if_neg (by rw [contradicts_iff hm hin]; exact hc)]
            exact ⟨selected_drop _ L k hb, hb, hobs⟩
    obtain ⟨h1, h2, h3⟩ := hone
    simp only [Bfs.run, List.length_cons, List.range_succ_eq_map, List.map_cons, List.map_map, List.cons.injEq]
    refine ⟨by simp [h1, contradictions], ?_⟩
    rw [ih _ (hist ++ [r]) _ h2 h3]
    refine List.map_congr_left fun i _ => ?_
    simp only [Function.comp, List.take_succ_cons, List.map_cons, contradictions, List.map_append, List.map_nil, Nat.add_assoc]

/-- **C37, what the program does.** Once two different observations are stored, every further call raises `ValueError` and
changes nothing, so the selection never gets past the second set (the first singleton), whatever is observed. -/
theorem C37_stuck {V : Type} [DecidableEq V] (ms : List String) (h : List (BfsRow V)) :
    (((newSelector V ms).run pandasEq h).2.openList = (newSelector V ms).openList ∨
      ((newSelector V ms).run pandasEq h).2.openList = (newSelector V ms).openList.tail) ∧
    (2 ≤ ((newSelector V ms).run pandasEq h).2.observations.length →
      ∀ r, ((newSelector V ms).run pandasEq h).2.add pandasEq r = (.error .valueError, ((newSelector V ms).run pandasEq h).2)) ∧
    ((∃ r ∈ h, ∃ r' ∈ h, r ≠ r') → 2 ≤ ((newSelector V ms).run pandasEq h).2.observations.length) := by
  have hstuck : ∀ (b : Bfs V), 2 ≤ b.observations.length → ∀ r, b.add pandasEq r = (.error .valueError, b) := by
    intro b hb r
    unfold Bfs.add
    match hob : b.observations with
    | [] => rw [hob] at hb; simp at hb
    | [x] => rw [hob] at hb; simp at hb
    | x :: y :: l => simp [pandasEq]
  have inv : ∀ h : List (BfsRow V), let b := ((newSelector V ms).run pandasEq h).2
      (h = [] ∧ b.observations = [] ∧ b.openList = (newSelector V ms).openList) ∨
      (∃ r, b.observations = [r] ∧ (∀ x ∈ h, x = r) ∧ b.openList = (newSelector V ms).openList) ∨
      (2 ≤ b.observations.length ∧ (b.openList = (newSelector V ms).openList ∨ b.openList = (newSelector V ms).openList.tail)) := by
    intro h
    induction h using List.reverseRecOn with
    | nil => exact Or.inl ⟨rfl, rfl, rfl⟩
    | append_singleton h r ih =>
      dsimp only at ih ⊢
      rw [(run_append pandasEq _ h r).1]
      rcases ih with ⟨rfl, ho, hl⟩ | ⟨r0, ho, hall, hl⟩ | ⟨h2, hl⟩
      · refine Or.inr (Or.inl ⟨r, ?_, by simp, ?_⟩)
        · simp only [Bfs.run] at ho ⊢; simp [Bfs.add, ho]
        · simp only [Bfs.run] at ho ⊢; simp [Bfs.add, ho]
      · by_cases hr : r0 = r
        · subst hr
          refine Or.inr (Or.inl ⟨r0, ?_, ?_, ?_⟩)
          · simp [Bfs.add, ho, pandasEq]
          · intro x hx
            rcases List.mem_append.mp hx with hx | hx
            · exact hall x hx
            · exact List.mem_singleton.mp hx
          · simp [Bfs.add, ho, pandasEq, hl]
        · refine Or.inr (Or.inr ⟨?_, ?_⟩)
          · unfold Bfs.add
            rw [ho]
            simp only [pandasEq, hr, decide_false, List.cons_append, List.nil_append]
            split
            · split <;> simp
            · simp
          · rcases (add_step pandasEq ((newSelector V ms).run pandasEq h).2 r).1 with e | ⟨e, _⟩
            · exact Or.inl (e.trans hl)
            · exact Or.inr (e.trans (by rw [hl]))
      · rw [hstuck _ h2]; exact Or.inr (Or.inr ⟨h2, hl⟩)
  refine ⟨?_, hstuck _, ?_⟩
  · rcases inv h with ⟨_, _, hl⟩ | ⟨_, _, _, hl⟩ | ⟨_, hl⟩
    · exact Or.inl hl
    · exact Or.inl hl
    · exact hl
  · rintro ⟨r, hr, r', hr', hne⟩
    rcases inv h with ⟨rfl, _⟩ | ⟨r0, _, hall, _⟩ | ⟨h2, _⟩
    · simp at hr
    · exact absurd ((hall r hr).trans (hall r' hr').symm) hne
    · exact h2

/-! ### Examples -/

private def rowA : BfsRow Nat := ⟨{"p"}, 0, true⟩
private def rowB : BfsRow Nat := ⟨{"p", "q"}, 1, false⟩
private def rowC : BfsRow Nat := ⟨{"p"}, 2, false⟩

example : (newSelector Nat ["x", "y"]).openList = [[], ["x"], ["y"], ["x", "y"]] := by decide +kernel
/-- Two contradictions: the intended run moves twice, the real one raises `ValueError` at the third observation. -/
example : ((newSelector Nat ["x", "y"]).run intendedEq [rowA, rowB, rowB, rowC]).1 = [.ok [], .ok ["x"], .ok ["x"], .ok ["y"]] ∧
    ((newSelector Nat ["x", "y"]).run pandasEq [rowA, rowA, rowB, rowC]).1 = [.ok [], .ok [], .ok ["x"], .error .valueError] := by
  decide +kernel
/-- Contradictions beyond the last set are `IndexError`s. -/
example : ((newSelector Nat []).run intendedEq [rowA, rowB, rowC]).1 = [.ok [], .error .indexError, .error .indexError] := by decide +kernel

end Props

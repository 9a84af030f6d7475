import Verif.Spec.Queue
import Verif.Lemmas.PriorityQueue

/-! C34, C35: the priority queue. -/
namespace Props
open Model Spec

section
variable {P K I : Type} [LinearOrder K] [DecidableEq I]

/-- The program: answer and next queue of a call; an exception leaves the queue as it was. -/
def pqStep (rnd : P → K) (q : PQ K I) : QOp P I → QAns K I × PQ K I
  | .insert i p w => (.unit, q.insert rnd i p w)
  | .getItem u => match q.getItem u with
    | .ok (i, q') => (.item i, q')
    | .error _ => (.valueError, q)
  | .getData u => match q.getData u with
    | .ok ((i, k, w), q') => (.data i k w, q')
    | .error _ => (.valueError, q)
  | .len => (.size q.len, q)
  | .clear => (.unit, q.clear)

/-- The program run on a sequence of calls. -/
def pqRun (rnd : P → K) (q : PQ K I) : List (QOp P I) → List (QOp P I × QAns K I) × PQ K I
  | [] => ([], q)
  | o :: os =>
    let (a, q') := pqStep rnd q o
    let (l, q'') := pqRun rnd q' os
    ((o, a) :: l, q'')

theorem top_of {q q' : PQ K I} {e : K × I × Rat} (h : q.contents = e ::ₘ q'.contents) (hm : ∀ x ∈ q.contents, x.1 ≤ e.1) :
    Top q.contents e ∧ q'.contents = q.contents.erase e := by
  refine ⟨⟨by rw [h]; exact Multiset.mem_cons_self _ _, hm⟩, ?_⟩
  rw [h, Multiset.erase_cons_head]

theorem noWeight_of {q : PQ K I} (hq : q.OK) {k : K} {b : List (I × Rat)} (hb : q.lookup k = some b) (hne : b ≠ [])
    (hmax : ∀ x ∈ q.contents, x.1 ≤ k) (hs : (b.map Prod.snd).sum ≤ 0) : NoWeight q.contents := by
  obtain ⟨e, he⟩ := List.exists_mem_of_ne_nil _ hne
  have hmem : (k, b) ∈ q := (pq_split hq.keys hb).mem_iff.mpr List.mem_cons_self
  refine ⟨(k, e.1, e.2), ⟨PQ.mem_contents.mpr ⟨(k, b), hmem, rfl, he⟩, hmax⟩, ?_⟩
  rw [pq_top_entries hq hb, Multiset.map_coe, Multiset.sum_coe, List.map_map]
  exact hs

theorem max_none {q : PQ K I} (h : (q.map Prod.fst).max? = none) : q = [] := by
  rw [List.max?_eq_none_iff, List.map_eq_nil_iff] at h; exact h

theorem getItem_fails {q : PQ K I} (hq : q.OK) {u : Rat} {e : Err} (h : q.getItem u = .error e) :
    e = .valueError ∧ (q.contents = 0 ∨ NoWeight q.contents ∧
      ∀ e, Top q.contents e → (q.contents.filter fun x => x.1 = e.1).card ≠ 1) := by
  unfold PQ.getItem at h
  split at h
  · rename_i hk
    simp only [Except.error.injEq] at h
    exact ⟨h.symm, Or.inl ((contents_eq_zero hq).mpr (max_none hk))⟩
  · rename_i k hk
    obtain ⟨b, hb, hne, hmax⟩ := pq_top hq hk
    simp only [hb, Option.getD_some] at h
    split at h
    · simp at h
    · rename_i hb1
      simp only [bind, Except.bind] at h
      split at h
      · rename_i e' he'
        simp only [Except.error.injEq] at h
        have hs := chooseIndex_error.mp ⟨_, he'⟩
        unfold chooseIndex at he'
        rw [if_pos hs] at he'
        simp only [Except.error.injEq] at he'
        refine ⟨by rw [← h, ← he'], Or.inr ⟨noWeight_of hq hb hne hmax hs, fun t ht hc => ?_⟩⟩
        have htk : t.1 = k := by
          obtain ⟨e0, he0⟩ := List.exists_mem_of_ne_nil _ hne
          have hmem : (k, b) ∈ q := (pq_split hq.keys hb).mem_iff.mpr List.mem_cons_self
          exact le_antisymm (hmax t ht.1) (ht.2 (k, e0.1, e0.2) (PQ.mem_contents.mpr ⟨(k, b), hmem, rfl, he0⟩))
        rw [htk, pq_top_entries hq hb, Multiset.coe_card, List.length_map] at hc
        obtain ⟨x, rfl⟩ := List.length_eq_one_iff.mp hc
        exact hb1 x rfl
      · rename_i j hj
        obtain ⟨e', he', _⟩ := pq_choose hj
        rw [he'] at h
        simp at h

theorem getData_fails {q : PQ K I} (hq : q.OK) {u : Rat} {e : Err} (h : q.getData u = .error e) :
    e = .valueError ∧ (q.contents = 0 ∨ NoWeight q.contents) := by
  unfold PQ.getData at h
  split at h
  · rename_i hk
    simp only [Except.error.injEq] at h
    exact ⟨h.symm, Or.inl ((contents_eq_zero hq).mpr (max_none hk))⟩
  · rename_i k hk
    obtain ⟨b, hb, hne, hmax⟩ := pq_top hq hk
    simp only [hb, Option.getD_some, bind, Except.bind] at h
    split at h
    · rename_i e' he'
      simp only [Except.error.injEq] at h
      have hs := chooseIndex_error.mp ⟨_, he'⟩
      unfold chooseIndex at he'
      rw [if_pos hs] at he'
      simp only [Except.error.injEq] at he'
      exact ⟨by rw [← h, ← he'], Or.inr (noWeight_of hq hb hne hmax hs)⟩
    · rename_i j hj
      obtain ⟨e', he', _⟩ := pq_choose hj
      rw [he'] at h
      dsimp only at h
      split at h <;> simp at h

theorem pqStep_refines (rnd : P → K) {q : PQ K I} (hq : q.OK) (o : QOp P I) :
    QStep rnd q.contents o (pqStep rnd q o).1 (pqStep rnd q o).2.contents ∧ (pqStep rnd q o).2.OK := by
  cases o with
  | insert i p w => exact ⟨by simp only [pqStep]; rw [PQ.insert_contents rnd hq]; exact .insert, hq.insert rnd i p w⟩
  | getItem u =>
    simp only [pqStep]
    split
    · rename_i i q' h
      obtain ⟨k, w, h1, h2, h3⟩ := PQ.getItem_ok hq h
      obtain ⟨t, e⟩ := top_of h1 h2
      dsimp only
      rw [e]
      exact ⟨.getItem t, h3⟩
    · rename_i e h
      exact ⟨.itemFails (getItem_fails hq h).2, hq⟩
  | getData u =>
    simp only [pqStep]
    split
    · rename_i i k w q' h
      obtain ⟨h1, h2, h3⟩ := PQ.getData_ok hq h
      obtain ⟨t, e⟩ := top_of h1 h2
      dsimp only
      rw [e]
      exact ⟨.getData t, h3⟩
    · rename_i e h
      exact ⟨.dataFails (getData_fails hq h).2, hq⟩
  | len => exact ⟨by simp only [pqStep]; rw [PQ.len_eq]; exact .len, hq⟩
  | clear => exact ⟨.clear, ⟨by simp [pqStep, PQ.clear], by simp [pqStep, PQ.clear]⟩⟩

theorem pqRun_refines (rnd : P → K) (os : List (QOp P I)) {q : PQ K I} (hq : q.OK) :
    QRun rnd q.contents (pqRun rnd q os).1 (pqRun rnd q os).2.contents ∧ (pqRun rnd q os).2.OK := by
  induction os generalizing q with
  | nil => exact ⟨.nil, hq⟩
  | cons o os ih =>
    obtain ⟨h1, h2⟩ := pqStep_refines rnd hq o
    obtain ⟨h3, h4⟩ := ih h2
    exact ⟨.cons h1 h3, h4⟩

/-- **C34, C35.** Every sequence of calls on a new queue, whatever the random numbers, is a run of the bag of entries: each
retrieval returns an entry of maximal rounded priority and removes exactly that entry, `len` is the number of entries, and a
retrieval fails only on the empty queue or when the entries of maximal priority have no positive total weight (and, for
`get_item`, are several). -/
theorem C34_C35_refines_bag (rnd : P → K) (os : List (QOp P I)) :
    ∃ m, QRun rnd 0 (pqRun rnd ([] : PQ K I) os).1 m :=
  ⟨_, (pqRun_refines rnd os (q := []) ⟨by simp, by simp⟩).1⟩

/-- The items inserted and the items returned by a sequence of calls. -/
def inserted : List (QOp P I × QAns K I) → Multiset I
  | [] => 0
  | (.insert i _ _, _) :: l => i ::ₘ inserted l
  | _ :: l => inserted l
def returned : List (QOp P I × QAns K I) → Multiset I
  | [] => 0
  | (_, .item i) :: l => i ::ₘ returned l
  | (_, .data i _ _) :: l => i ::ₘ returned l
  | _ :: l => returned l

theorem bag_conserves (rnd : P → K) {m m' : Multiset (K × I × Rat)} {l : List (QOp P I × QAns K I)} (h : QRun rnd m l m')
    (hc : ∀ x ∈ l, x.1 ≠ QOp.clear) : m.map (·.2.1) + inserted l = returned l + m'.map (·.2.1) := by
  induction h with
  | nil => simp [inserted, returned]
  | cons hs _ ih =>
    have ih := ih fun x hx => hc x (List.mem_cons_of_mem _ hx)
    cases hs with
    | insert =>
      simp only [inserted, returned]
      rw [← ih]
      simp only [Multiset.map_cons, Multiset.cons_add, Multiset.add_cons]
    | getItem ht =>
      simp only [inserted, returned, Multiset.cons_add]
      rw [← ih, ← Multiset.cons_add]
      conv_lhs => rw [← Multiset.cons_erase ht.1, Multiset.map_cons]
    | getData ht =>
      simp only [inserted, returned, Multiset.cons_add]
      rw [← ih, ← Multiset.cons_add]
      conv_lhs => rw [← Multiset.cons_erase ht.1, Multiset.map_cons]
    | itemFails _ => simpa [inserted, returned] using ih
    | dataFails _ => simpa [inserted, returned] using ih
    | len => simpa [inserted, returned] using ih
    | clear => exact absurd rfl (hc _ List.mem_cons_self)

/-- **C35.** Without `clear`, the items returned and the items still stored are together exactly the items inserted, and `len`
counts the latter. -/
theorem C35_conserves (rnd : P → K) (os : List (QOp P I)) (hc : QOp.clear ∉ os) :
    ∃ rest : Multiset I, inserted (pqRun rnd ([] : PQ K I) os).1 = returned (pqRun rnd ([] : PQ K I) os).1 + rest ∧
      (pqRun rnd ([] : PQ K I) os).2.len = rest.card := by
  have h := (pqRun_refines rnd os (q := []) ⟨by simp, by simp⟩).1
  have hl : ∀ (os : List (QOp P I)) (q : PQ K I), ((pqRun rnd q os).1.map Prod.fst) = os := by
    intro os
    induction os with
    | nil => simp [pqRun]
    | cons o os ih => intro q; simp [pqRun, ih]
  refine ⟨_, ?_, by rw [PQ.len_eq, ← Multiset.card_map (fun x : K × I × Rat => x.2.1)]⟩
  have := bag_conserves rnd h fun x hx => by
    rintro e
    refine hc ?_
    rw [← hl os ([] : PQ K I), ← e]
    exact List.mem_map.mpr ⟨x, hx, rfl⟩
  rw [← this]
  simp [PQ.contents]

/-- C34: an item whose weight is zero is never drawn among several candidates (non-negative weights, `0 ≤ u < 1`). -/
theorem C34_positive_weight (rnd : P → K) (os : List (QOp P I)) {u : Rat} (hu : 0 ≤ u ∧ u < 1) {i : I} {k : K} {w : Rat} {q' : PQ K I}
    (hw : ∀ x ∈ (pqRun rnd ([] : PQ K I) os).2.contents, 0 ≤ x.2.2)
    (h : (pqRun rnd ([] : PQ K I) os).2.getData u = .ok ((i, k, w), q')) : 0 < w := by
  have hq := (pqRun_refines rnd os (q := ([] : PQ K I)) ⟨by simp, by simp⟩).2
  generalize (pqRun rnd ([] : PQ K I) os).2 = q at h hq hw
  unfold PQ.getData at h
  split at h
  · simp at h
  · rename_i k' hk
    obtain ⟨b, hb, hne, hmax⟩ := pq_top hq hk
    have hmem : (k', b) ∈ q := (pq_split hq.keys hb).mem_iff.mpr List.mem_cons_self
    simp only [hb, Option.getD_some, bind, Except.bind] at h
    split at h
    · simp at h
    · rename_i j hj
      obtain ⟨e, he, hem⟩ := pq_choose hj
      have hpos : 0 < e.2 := by
        unfold chooseIndex at hj
        split at hj
        · simp at hj
        · rename_i hs
          rw [not_le] at hs
          simp only [Except.ok.injEq] at hj
          obtain ⟨x, h1, h2⟩ := choose_positive (b.map Prod.snd) 0 (u * (b.map Prod.snd).sum)
            (fun w hwm => by
              obtain ⟨e, hem, rfl⟩ := List.mem_map.mp hwm
              exact hw (k', e.1, e.2) (PQ.mem_contents.mpr ⟨(k', b), hmem, rfl, hem⟩))
            (mul_nonneg hu.1 hs.le) (by rw [zero_add]; nlinarith [hu.2])
          rw [hj, List.getElem?_map, he] at h1
          simp only [Option.map_some, Option.some.injEq] at h1
          rw [h1]; exact h2
      rw [he] at h
      dsimp only at h
      split at h
      · simp only [Except.ok.injEq, Prod.mk.injEq] at h
        rw [← h.1.2.2]; exact hpos
      · simp only [Except.ok.injEq, Prod.mk.injEq] at h
        rw [← h.1.2.2]; exact hpos

end

/-! ### A concrete run: priorities in thousandths, rounded to hundredths -/

private def hundredths (p : Nat) : Nat := (p + 5) / 10

example : (pqRun hundredths ([] : PQ Nat String)
    [.insert "a" 101 (1/2), .insert "b" 99 (1/2), .insert "c" 3 1, .getData 0, .getItem (9/10), .len, .getItem 0, .getItem 0]).1.map Prod.snd =
    [.unit, .unit, .unit, .data "a" 10 (1/2), .item "b", .size 1, .item "c", .valueError] := by decide +kernel

end Props

import Verif.Model.PriorityQueue
import Mathlib.Tactic.Linarith
import Mathlib.Data.List.Perm.Basic
import Mathlib.Data.Multiset.Basic
import Mathlib.Data.List.MinMax
import Mathlib.Algebra.Order.BigOperators.Group.List

namespace Model

theorem length_accumulate (acc : Rat) (ws : List Rat) : (accumulate acc ws).length = ws.length := by
  induction ws generalizing acc with
  | nil => rfl
  | cons w ws ih => simp [accumulate, ih]

theorem accumulate_ge (acc : Rat) (ws : List Rat) (h : ∀ w ∈ ws, 0 ≤ w) : ∀ c ∈ accumulate acc ws, acc ≤ c := by
  induction ws generalizing acc with
  | nil => simp [accumulate]
  | cons w ws ih =>
    intro c hc
    have hw := h w List.mem_cons_self
    simp only [accumulate, List.mem_cons] at hc
    rcases hc with rfl | hc
    · linarith
    · have := ih (acc + w) (fun x hx => h x (List.mem_cons_of_mem _ hx)) c hc
      linarith

/-- The chosen index exists and has a positive weight. -/
theorem choose_positive (ws : List Rat) (acc t : Rat) (h : ∀ w ∈ ws, 0 ≤ w) (h1 : acc ≤ t) (h2 : t < acc + ws.sum) :
    ∃ w, ws[((accumulate acc ws).dropLast).countP fun c => c ≤ t]? = some w ∧ 0 < w := by
  induction ws generalizing acc with
  | nil => simp at h2; linarith
  | cons w ws ih =>
    cases ws with
    | nil =>
      simp only [List.sum_cons, List.sum_nil] at h2
      exact ⟨w, by simp [accumulate], by linarith⟩
    | cons w' ws =>
      have hd : (accumulate acc (w :: w' :: ws)).dropLast = (acc + w) :: (accumulate (acc + w) (w' :: ws)).dropLast := by
        simp [accumulate]
      rw [hd, List.countP_cons]
      have hw := h w List.mem_cons_self
      by_cases hc : acc + w ≤ t
      · obtain ⟨x, e, hx⟩ := ih (acc + w) (fun x hx => h x (List.mem_cons_of_mem _ hx)) hc
          (by simp only [List.sum_cons] at h2 ⊢; linarith)
        refine ⟨x, ?_, hx⟩
        simp only [hc, decide_true, if_true, List.getElem?_cons_succ]
        exact e
      · have h0 : ((accumulate (acc + w) (w' :: ws)).dropLast).countP (fun c => c ≤ t) = 0 := by
          rw [List.countP_eq_zero]
          intro c hcm
          have := accumulate_ge (acc + w) (w' :: ws) (fun x hx => h x (List.mem_cons_of_mem _ hx)) c (List.dropLast_subset _ hcm)
          simp only [decide_eq_true_eq, not_le]
          rw [not_le] at hc
          linarith
        refine ⟨w, ?_, ?_⟩
        · rw [h0]; simp [hc]
        · rw [not_le] at hc; linarith

theorem chooseIndex_lt {ws : List Rat} {u : Rat} {i : Nat} (h : chooseIndex ws u = .ok i) : i < ws.length := by
  unfold chooseIndex at h
  split at h
  · simp at h
  · rename_i hs
    simp only [Except.ok.injEq] at h
    subst h
    have hne : ws ≠ [] := by rintro rfl; simp at hs
    have hl := List.length_pos_iff.mpr hne
    refine lt_of_le_of_lt List.countP_le_length ?_
    rw [List.length_dropLast, length_accumulate]
    omega

theorem chooseIndex_error {ws : List Rat} {u : Rat} : (∃ e, chooseIndex ws u = .error e) ↔ ws.sum ≤ 0 := by
  unfold chooseIndex; split <;> simp_all

variable {P K I : Type} [LinearOrder K] [DecidableEq I]

/-- The entries of the queue. -/
def PQ.contents (q : PQ K I) : Multiset (K × I × Rat) := ↑(q.flatMap fun b => b.2.map fun e => (b.1, e.1, e.2))

/-- Distinct keys, no empty bucket. -/
structure PQ.OK (q : PQ K I) : Prop where
  keys : (q.map Prod.fst).Nodup
  nonempty : ∀ b ∈ q, b.2 ≠ []

theorem pq_split {q : PQ K I} (hk : (q.map Prod.fst).Nodup) {k : K} {b : List (I × Rat)} (h : q.lookup k = some b) :
    q.Perm ((k, b) :: q.filter fun x => x.1 ≠ k) := by
  induction q with
  | nil => simp at h
  | cons p q ih =>
    obtain ⟨a, c⟩ := p
    rw [List.map_cons, List.nodup_cons] at hk
    rw [List.lookup_cons] at h
    by_cases hka : k = a
    · subst hka
      simp only [beq_self_eq_true, Option.some.injEq] at h
      subst h
      rw [List.filter_cons]
      simp only [ne_eq, not_true_eq_false, decide_false, Bool.false_eq_true, if_false]
      have : (q.filter fun x => decide (¬ x.1 = k)) = q := by
        rw [List.filter_eq_self]
        intro x hx
        simp only [decide_eq_true_eq]
        rintro rfl
        exact hk.1 (List.mem_map.mpr ⟨x, hx, rfl⟩)
      rw [this]
    · have : (k == a) = false := by simpa using hka
      rw [this] at h
      have := ih hk.2 h
      rw [List.filter_cons]
      simp only [ne_eq, Ne.symm hka, not_false_eq_true, decide_true, if_true]
      exact (this.cons _).trans (List.Perm.swap _ _ _)

theorem pq_set_split {q : PQ K I} (hk : (q.map Prod.fst).Nodup) (k : K) (b : List (I × Rat)) :
    (Py.dictSet q k b).Perm ((k, b) :: q.filter fun x => x.1 ≠ k) := by
  have hn : ((Py.dictSet q k b).map Prod.fst).Nodup := by
    rw [Py.keys_dictSet]
    split
    · exact hk
    · rename_i h; rw [List.nodup_append]
      exact ⟨hk, by simp, by intro a ha c hc; simp at hc; subst hc; rintro rfl; exact h ha⟩
  have hl : (Py.dictSet q k b).lookup k = some b := by rw [Py.lookup_dictSet]; simp
  have := pq_split hn hl
  have he : ((Py.dictSet q k b).filter fun x => x.1 ≠ k) = q.filter fun x => x.1 ≠ k := by
    unfold Py.dictSet
    split
    · clear * -
      induction q with
      | nil => rfl
      | cons p q ih =>
        by_cases hp : p.1 = k
        · simp only [List.map_cons, hp, if_true, List.filter_cons, ne_eq, not_true_eq_false, decide_false, Bool.false_eq_true,
            if_false] at ih ⊢
          exact ih
        · simp only [List.map_cons, hp, if_false, List.filter_cons, ne_eq, not_false_eq_true, decide_true, if_true] at ih ⊢
          rw [ih]
    · rw [List.filter_append]; simp
  rw [he] at this
  exact this

theorem contents_perm {q q' : PQ K I} (h : q.Perm q') : q.contents = q'.contents := by
  unfold PQ.contents
  exact Multiset.coe_eq_coe.mpr (h.flatMap_right _)

theorem contents_cons (b : K × List (I × Rat)) (q : PQ K I) :
    PQ.contents (b :: q) = ↑(b.2.map fun e => (b.1, e.1, e.2)) + PQ.contents q := by
  unfold PQ.contents
  rw [List.flatMap_cons]
  rfl

theorem PQ.mem_contents {q : PQ K I} {x : K × I × Rat} : x ∈ q.contents ↔ ∃ b ∈ q, b.1 = x.1 ∧ (x.2.1, x.2.2) ∈ b.2 := by
  unfold PQ.contents
  simp only [Multiset.mem_coe, List.mem_flatMap, List.mem_map]
  constructor
  · rintro ⟨b, hb, e, he, rfl⟩; exact ⟨b, hb, rfl, he⟩
  · rintro ⟨b, hb, h1, h2⟩; exact ⟨b, hb, _, h2, by rw [h1]⟩

theorem PQ.insert_contents (rnd : P → K) {q : PQ K I} (hq : q.OK) (i : I) (p : P) (w : Rat) :
    (q.insert rnd i p w).contents = (rnd p, i, w) ::ₘ q.contents := by
  unfold PQ.insert
  rw [contents_perm (pq_set_split hq.keys _ _), contents_cons]
  cases hl : q.lookup (rnd p) with
  | none =>
    have hk := (Py.lookup_none_iff q (rnd p)).mp hl
    have : (q.filter fun x => x.1 ≠ rnd p) = q := by
      rw [List.filter_eq_self]
      intro x hx
      simp only [ne_eq, decide_eq_true_eq]
      rintro he
      exact hk (List.mem_map.mpr ⟨x, hx, he⟩)
    rw [this]
    simp only [Option.getD_none, List.nil_append, List.map_cons, List.map_nil, Multiset.coe_singleton, Multiset.singleton_add]
  | some b =>
    rw [contents_perm (pq_split hq.keys hl), contents_cons]
    simp only [Option.getD_some, List.map_append, List.map_cons, List.map_nil]
    rw [← Multiset.coe_add, Multiset.coe_singleton, add_assoc, add_left_comm, Multiset.singleton_add]

theorem PQ.OK.insert (rnd : P → K) {q : PQ K I} (hq : q.OK) (i : I) (p : P) (w : Rat) : (q.insert rnd i p w).OK := by
  unfold PQ.insert
  constructor
  · rw [Py.keys_dictSet]
    split
    · exact hq.keys
    · rename_i h; rw [List.nodup_append]
      exact ⟨hq.keys, by simp, by intro a ha c hc; simp at hc; subst hc; rintro rfl; exact h ha⟩
  · intro b hb
    have := (pq_set_split hq.keys _ _).mem_iff.mp hb
    rw [List.mem_cons, List.mem_filter] at this
    rcases this with rfl | h
    · simp
    · exact hq.nonempty b h.1

/-- The bucket of the highest priority. -/
theorem pq_top {q : PQ K I} (hq : q.OK) {k : K} (h : (q.map Prod.fst).max? = some k) :
    ∃ b, q.lookup k = some b ∧ b ≠ [] ∧ ∀ x ∈ q.contents, x.1 ≤ k := by
  rw [List.max?_eq_some_iff] at h
  obtain ⟨h1, h2⟩ := h
  cases hl : q.lookup k with
  | none => exact absurd h1 ((Py.lookup_none_iff q k).mp hl)
  | some b =>
    refine ⟨b, rfl, ?_, ?_⟩
    · exact hq.nonempty (k, b) ((pq_split hq.keys hl).mem_iff.mpr List.mem_cons_self)
    · intro x hx
      obtain ⟨c, hc, e, _⟩ := PQ.mem_contents.mp hx
      exact e ▸ h2 c.1 (List.mem_map.mpr ⟨c, hc, rfl⟩)

theorem pq_remove_single {q : PQ K I} (hq : q.OK) {k : K} {e : I × Rat} (h : q.lookup k = some [e]) :
    q.contents = (k, e.1, e.2) ::ₘ PQ.contents (q.filter fun b => b.1 ≠ k) ∧ PQ.OK (q.filter fun b => b.1 ≠ k) := by
  refine ⟨?_, ⟨hq.keys.sublist (List.filter_sublist.map _), fun b hb => hq.nonempty b (List.mem_filter.mp hb).1⟩⟩
  rw [contents_perm (pq_split hq.keys h), contents_cons]
  simp only [List.map_cons, List.map_nil, Multiset.coe_singleton, Multiset.singleton_add]

theorem pq_remove_one {q : PQ K I} (hq : q.OK) {k : K} {b : List (I × Rat)} (h : q.lookup k = some b) {e : I × Rat} (he : e ∈ b)
    (h1 : b.length ≠ 1) :
    q.contents = (k, e.1, e.2) ::ₘ PQ.contents (Py.dictSet q k (b.erase e)) ∧ PQ.OK (Py.dictSet q k (b.erase e)) := by
  have hlen := List.length_erase_of_mem he
  have hpos := List.length_pos_of_mem he
  refine ⟨?_, ⟨?_, ?_⟩⟩
  · rw [contents_perm (pq_split hq.keys h), contents_perm (pq_set_split hq.keys _ _), contents_cons, contents_cons]
    have : (↑(b.map fun e => (k, e.1, e.2)) : Multiset (K × I × Rat)) =
        (k, e.1, e.2) ::ₘ ↑((b.erase e).map fun e => (k, e.1, e.2)) := by
      rw [Multiset.cons_coe]
      exact Multiset.coe_eq_coe.mpr ((List.perm_cons_erase he).map _)
    dsimp only
    rw [this, Multiset.cons_add]
  · rw [Py.keys_dictSet]
    split
    · exact hq.keys
    · rename_i hh
      rw [← Py.lookup_none_iff] at hh
      rw [h] at hh; simp at hh
  · intro c hc
    have := (pq_set_split hq.keys _ _).mem_iff.mp hc
    rw [List.mem_cons, List.mem_filter] at this
    rcases this with rfl | h
    · intro h0
      dsimp only at h0
      rw [h0] at hlen
      simp at hlen
      omega
    · exact hq.nonempty c h.1

theorem pq_choose {b : List (I × Rat)} {u : Rat} {i : Nat} (h : chooseIndex (b.map Prod.snd) u = .ok i) :
    ∃ e, b[i]? = some e ∧ e ∈ b := by
  have := chooseIndex_lt h
  rw [List.length_map] at this
  exact ⟨b[i], List.getElem?_eq_getElem this, List.getElem_mem this⟩

theorem PQ.getItem_ok {q q' : PQ K I} (hq : q.OK) {u : Rat} {i : I} (h : q.getItem u = .ok (i, q')) :
    ∃ k w, q.contents = (k, i, w) ::ₘ q'.contents ∧ (∀ x ∈ q.contents, x.1 ≤ k) ∧ q'.OK := by
  unfold PQ.getItem at h
  split at h
  · simp at h
  · rename_i k hk
    obtain ⟨b, hb, hne, hmax⟩ := pq_top hq hk
    simp only [hb, Option.getD_some] at h
    split at h
    · rename_i e
      simp only [Except.ok.injEq, Prod.mk.injEq] at h
      obtain ⟨rfl, rfl⟩ := h
      obtain ⟨h1, h2⟩ := pq_remove_single hq hb
      exact ⟨k, e.2, h1, hmax, h2⟩
    · rename_i hb1
      simp only [bind, Except.bind] at h
      split at h
      · simp at h
      · rename_i j hj
        obtain ⟨e, he, hem⟩ := pq_choose hj
        rw [he] at h
        simp only [Except.ok.injEq, Prod.mk.injEq] at h
        obtain ⟨rfl, rfl⟩ := h
        obtain ⟨h1, h2⟩ := pq_remove_one hq hb hem (fun h => by
          obtain ⟨x, rfl⟩ := List.length_eq_one_iff.mp h; exact hb1 x rfl)
        exact ⟨k, e.2, h1, hmax, h2⟩

theorem PQ.getData_ok {q q' : PQ K I} (hq : q.OK) {u : Rat} {i : I} {k : K} {w : Rat} (h : q.getData u = .ok ((i, k, w), q')) :
    q.contents = (k, i, w) ::ₘ q'.contents ∧ (∀ x ∈ q.contents, x.1 ≤ k) ∧ q'.OK := by
  unfold PQ.getData at h
  split at h
  · simp at h
  · rename_i k' hk
    obtain ⟨b, hb, hne, hmax⟩ := pq_top hq hk
    simp only [hb, Option.getD_some, bind, Except.bind] at h
    split at h
    · simp at h
    · rename_i j hj
      obtain ⟨e, he, hem⟩ := pq_choose hj
      rw [he] at h
      dsimp only at h
      split at h
      · rename_i hlen
        simp only [Except.ok.injEq, Prod.mk.injEq] at h
        obtain ⟨⟨rfl, rfl, rfl⟩, rfl⟩ := h
        obtain ⟨x, rfl⟩ := List.length_eq_one_iff.mp hlen
        rw [List.mem_singleton] at hem
        subst hem
        obtain ⟨h1, h2⟩ := pq_remove_single hq hb
        exact ⟨h1, hmax, h2⟩
      · rename_i hlen
        simp only [Except.ok.injEq, Prod.mk.injEq] at h
        obtain ⟨⟨rfl, rfl, rfl⟩, rfl⟩ := h
        obtain ⟨h1, h2⟩ := pq_remove_one hq hb hem hlen
        exact ⟨h1, hmax, h2⟩

theorem contents_eq_zero {q : PQ K I} (hq : q.OK) : q.contents = 0 ↔ q = [] := by
  constructor
  · intro h
    cases q with
    | nil => rfl
    | cons b q =>
      obtain ⟨e, he⟩ := List.exists_mem_of_ne_nil _ (hq.nonempty b List.mem_cons_self)
      have : (b.1, e.1, e.2) ∈ PQ.contents (b :: q) := PQ.mem_contents.mpr ⟨b, List.mem_cons_self, rfl, he⟩
      rw [h] at this; simp at this
  · rintro rfl; rfl

theorem PQ.len_eq (q : PQ K I) : q.len = q.contents.card := by
  unfold PQ.len PQ.contents
  rw [Multiset.coe_card, List.length_flatMap]
  simp

/-- The entries of the highest priority. -/
theorem pq_top_entries {q : PQ K I} (hq : q.OK) {k : K} {b : List (I × Rat)} (h : q.lookup k = some b) :
    q.contents.filter (fun x => x.1 = k) = ↑(b.map fun e => (k, e.1, e.2)) := by
  rw [contents_perm (pq_split hq.keys h), contents_cons, Multiset.filter_add]
  have h1 : Multiset.filter (fun x : K × I × Rat => x.1 = k) ↑(b.map fun e => (k, e.1, e.2)) = ↑(b.map fun e => (k, e.1, e.2)) := by
    rw [Multiset.filter_eq_self]
    intro x hx
    rw [Multiset.mem_coe, List.mem_map] at hx
    obtain ⟨e, _, rfl⟩ := hx; rfl
  have h2 : Multiset.filter (fun x : K × I × Rat => x.1 = k) (PQ.contents (q.filter fun x => x.1 ≠ k)) = 0 := by
    rw [Multiset.filter_eq_nil]
    intro x hx e
    obtain ⟨c, hc, e', _⟩ := PQ.mem_contents.mp hx
    rw [List.mem_filter] at hc
    simp only [ne_eq, decide_eq_true_eq] at hc
    exact hc.2 (e'.trans e)
  rw [h2, add_zero]; exact h1

end Model

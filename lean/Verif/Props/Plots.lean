import Verif.Model.Plots
import Verif.Props.OnlineResults
import Mathlib.Algebra.BigOperators.Group.List.Basic
import Mathlib.Algebra.BigOperators.Field
import Mathlib.Algebra.Order.BigOperators.Group.Finset
import Mathlib.Tactic.FieldSimp
import Mathlib.Tactic.Ring

/-! C133: the plots of the online experiments. -/
namespace Props
namespace Plots
open Model Model.Results Model.OnlineResults Model.Plots Props.OnlineResults

/-- The positions that count for a position: those from two before to two after it. -/
def window (n i : Nat) : Finset Nat := (Finset.range n).filter fun j => i ≤ j + 2 ∧ j ≤ i + 2

theorem mem_window {n i j : Nat} : j ∈ window n i ↔ j < n ∧ i ≤ j + 2 ∧ j ≤ i + 2 := by simp [window]

theorem self_window {n i : Nat} (h : i < n) : i ∈ window n i := mem_window.mpr ⟨h, by omega, by omega⟩

theorem slice_eq : ∀ (l : List ℚ) (a k : Nat), (l.drop a).take k = (List.range' a (min k (l.length - a))).map fun j => l.getD j 0 := by
  intro l a k
  apply List.ext_getElem?
  intro m
  rw [List.getElem?_take, List.getElem?_drop, List.getElem?_map]
  by_cases h : m < min k (l.length - a)
  · rw [if_pos (by omega), List.getElem?_range' h, List.getElem?_eq_getElem (by omega)]
    simp [List.getD_eq_getElem?_getD, List.getElem?_eq_getElem (show a + m < l.length by omega)]
  · rw [List.getElem?_eq_none (l := List.range' a (min k (l.length - a))) (by rw [List.length_range']; omega)]
    split
    · rw [List.getElem?_eq_none (by omega)]; rfl
    · rfl

/-- The smoothed value is the mean over the window. -/
theorem smooth_eq (l : List ℚ) {i : Nat} (hi : i < l.length) :
    smooth l i = (∑ j ∈ window l.length i, l.getD j 0) / ((window l.length i).card : ℚ) := by
  have hw : (List.range' (i - 2) (min (i + 3 - (i - 2)) (l.length - (i - 2)))).toFinset = window l.length i := by
    ext j
    rw [List.mem_toFinset, List.mem_range'_1, mem_window]
    omega
  unfold smooth mean
  rw [slice_eq, List.length_map, ← List.sum_toFinset _ List.nodup_range', hw, List.length_range']
  congr 2
  rw [← hw, List.toFinset_card_of_nodup List.nodup_range', List.length_range']

/-- The rows of an episode. -/
def ofEpisode (rows : List Out) (e : Nat) : List Out := rows.filter fun o => o.row.episode == e

theorem mem_episodes {rows : List Out} {e : Nat} : e ∈ episodes rows ↔ ∃ o ∈ rows, o.row.episode = e := by
  unfold episodes
  rw [List.mem_insertionSort, List.mem_dedup, List.mem_map]

theorem episodes_sorted (rows : List Out) : (episodes rows).Pairwise (· < ·) := by
  have h1 : (episodes rows).Pairwise (· ≤ ·) := List.pairwise_insertionSort _ _
  have h2 : (episodes rows).Nodup := (List.perm_insertionSort _ _).nodup_iff.mpr (List.nodup_dedup _)
  exact (h1.and h2).imp fun h => lt_of_le_of_ne h.1 h.2

theorem ofEpisode_ne {rows : List Out} {e : Nat} (h : e ∈ episodes rows) : 0 < (ofEpisode rows e).length := by
  obtain ⟨o, ho, he⟩ := mem_episodes.mp h
  exact List.length_pos_of_mem (List.mem_filter.mpr ⟨ho, by simpa using he⟩)

theorem share_eq (f : Out → Bool) (rows : List Out) (e : Nat) : share f rows e = ((ofEpisode rows e).countP f : ℚ) / ((ofEpisode rows e).length : ℚ) := rfl

theorem share_range (f : Out → Bool) {rows : List Out} {e : Nat} (h : e ∈ episodes rows) : 0 ≤ share f rows e ∧ share f rows e ≤ 1 ∧
    (share f rows e = 0 ↔ ∀ o ∈ ofEpisode rows e, f o = false) ∧ (share f rows e = 1 ↔ ∀ o ∈ ofEpisode rows e, f o = true) := by
  have hp : (0 : ℚ) < (ofEpisode rows e).length := by exact_mod_cast ofEpisode_ne h
  rw [share_eq]
  refine ⟨by positivity, ?_, ?_, ?_⟩
  · rw [div_le_one hp]
    exact_mod_cast List.countP_le_length
  · rw [div_eq_zero_iff, or_iff_left hp.ne', Nat.cast_eq_zero, List.countP_eq_zero]
    simp
  · rw [div_eq_one_iff_eq hp.ne', Nat.cast_inj, List.countP_eq_length]

/-- **C133, averages.** The height of a layer at the `i`-th episode is the mean of the shares of the episodes at most two positions away, as far as there are any; the
share of an episode is that of its rows. Episodes are shown in ascending order, each once. -/
theorem C133_average (f : Out → Bool) (rows : List Out) {i : Nat} (hi : i < (episodes rows).length) :
    (episodes rows).Pairwise (· < ·) ∧ (∀ e, e ∈ episodes rows ↔ ∃ o ∈ rows, o.row.episode = e) ∧
    height f rows i = (∑ j ∈ window (episodes rows).length i,
      (((ofEpisode rows ((episodes rows).getD j 0)).countP f : ℚ) / ((ofEpisode rows ((episodes rows).getD j 0)).length : ℚ))) /
        ((window (episodes rows).length i).card : ℚ) := by
  refine ⟨episodes_sorted rows, fun e => mem_episodes, ?_⟩
  unfold height
  rw [smooth_eq _ (by simpa using hi), List.length_map]
  congr 1
  refine Finset.sum_congr rfl fun j hj => ?_
  have hj : j < (episodes rows).length := (mem_window.mp hj).1
  rw [List.getD_eq_getElem?_getD, List.getElem?_map, List.getD_eq_getElem?_getD, List.getElem?_eq_getElem hj]
  rfl

theorem height_eq (f : Out → Bool) (rows : List Out) {i : Nat} (hi : i < (episodes rows).length) :
    height f rows i = (∑ j ∈ window (episodes rows).length i, share f rows ((episodes rows).getD j 0)) / ((window (episodes rows).length i).card : ℚ) :=
  (C133_average f rows hi).2.2

theorem getD_mem {rows : List Out} {j : Nat} (hj : j < (episodes rows).length) : (episodes rows).getD j 0 ∈ episodes rows := by
  rw [List.getD_eq_getElem?_getD, List.getElem?_eq_getElem hj]
  exact List.getElem_mem hj

theorem card_pos {n i : Nat} (h : i < n) : (0 : ℚ) < ((window n i).card : ℚ) := by
  exact_mod_cast Finset.card_pos.mpr ⟨i, self_window h⟩

/-- A row of the episodes that count at a position. -/
def Near (rows : List Out) (i : Nat) (o : Out) : Prop :=
  o ∈ rows ∧ ∃ j ∈ window (episodes rows).length i, (episodes rows)[j]? = some o.row.episode

theorem near_iff {rows : List Out} {i : Nat} {o : Out} : Near rows i o ↔ ∃ j ∈ window (episodes rows).length i, o ∈ ofEpisode rows ((episodes rows).getD j 0) := by
  unfold Near ofEpisode
  constructor
  · rintro ⟨ho, j, hj, he⟩
    refine ⟨j, hj, List.mem_filter.mpr ⟨ho, ?_⟩⟩
    rw [List.getD_eq_getElem?_getD, he]
    simp
  · rintro ⟨j, hj, h⟩
    obtain ⟨ho, he⟩ := List.mem_filter.mp h
    refine ⟨ho, j, hj, ?_⟩
    have hl := (mem_window.mp hj).1
    rw [List.getD_eq_getElem?_getD, List.getElem?_eq_getElem hl] at he
    rw [List.getElem?_eq_getElem hl]
    simpa using Eq.symm (by simpa using he)

/-- **C133, range.** A height is between 0 and 1; it is 0 exactly if no row near the position is counted, and 1 exactly if all are. -/
theorem C133_range (f : Out → Bool) (rows : List Out) {i : Nat} (hi : i < (episodes rows).length) :
    0 ≤ height f rows i ∧ height f rows i ≤ 1 ∧ (height f rows i = 0 ↔ ∀ o, Near rows i o → f o = false) ∧
    (height f rows i = 1 ↔ ∀ o, Near rows i o → f o = true) := by
  have hc := card_pos hi
  have hr : ∀ j ∈ window (episodes rows).length i, _ := fun j hj => share_range f (getD_mem (mem_window.mp hj).1)
  rw [height_eq f rows hi]
  refine ⟨div_nonneg (Finset.sum_nonneg fun j hj => (hr j hj).1) hc.le, ?_, ?_, ?_⟩
  · rw [div_le_one hc]
    calc _ ≤ ∑ j ∈ window (episodes rows).length i, (1 : ℚ) := Finset.sum_le_sum fun j hj => (hr j hj).2.1
      _ = _ := by simp
  · rw [div_eq_zero_iff, or_iff_left hc.ne', Finset.sum_eq_zero_iff_of_nonneg fun j hj => (hr j hj).1]
    constructor
    · intro h o ho
      obtain ⟨j, hj, ho⟩ := near_iff.mp ho
      exact (hr j hj).2.2.1.mp (h j hj) o ho
    · exact fun h j hj => (hr j hj).2.2.1.mpr fun o ho => h o (near_iff.mpr ⟨j, hj, ho⟩)
  · rw [div_eq_one_iff_eq hc.ne']
    have h1 : ((window (episodes rows).length i).card : ℚ) = ∑ j ∈ window (episodes rows).length i, (1 : ℚ) := by simp
    rw [h1, Finset.sum_eq_sum_iff_of_le fun j hj => (hr j hj).2.1]
    constructor
    · intro h o ho
      obtain ⟨j, hj, ho⟩ := near_iff.mp ho
      exact (hr j hj).2.2.2.mp (h j hj) o ho
    · exact fun h j hj => (hr j hj).2.2.2.mpr fun o ho => h o (near_iff.mpr ⟨j, hj, ho⟩)

/-- The optimistic model was not applicable, but the episode succeeded. -/
def both (o : Out) : Bool := decide (o.row.optimistic = "not_applicable" ∧ Succeeded o.row)

theorem counts {l : List Out} (h : ∀ o ∈ l, ∃ f r, o = derive f r) :
    l.countP Out.notSolved + l.countP Out.optimisticNotApplicable + l.countP Out.optimisticSolved + l.countP Out.safeSolved = l.length + l.countP both := by
  induction l with
  | nil => rfl
  | cons o l ih =>
    have ih := ih fun x hx => h x (List.mem_cons_of_mem _ hx)
    obtain ⟨f, r, rfl⟩ := h o List.mem_cons_self
    have key : (derive f r).notSolved.toNat + (derive f r).optimisticNotApplicable.toNat + (derive f r).optimisticSolved.toNat + (derive f r).safeSolved.toNat =
        1 + (both (derive f r)).toNat := by
      obtain ⟨h1, h2⟩ := C105_verdicts f r
      have hb : both (derive f r) = decide (r.optimistic = "not_applicable" ∧ Succeeded r) := by
        unfold both; rw [(C105_columns f r).1]
      by_cases hs : r.optimistic = "not_applicable" ∧ Succeeded r
      · have := h2 hs
        rw [hb, decide_eq_true hs]
        simp only [Bool.toNat_true]
        omega
      · have := h1.mpr hs
        rw [hb, decide_eq_false hs]
        simp only [Bool.toNat_false]
        omega
    have cs : ∀ p : Out → Bool, (derive f r :: l).countP p = l.countP p + (p (derive f r)).toNat := by
      intro p
      rw [List.countP_cons]
      cases p (derive f r) <;> rfl
    rw [cs, cs, cs, cs, cs, List.length_cons]
    omega

theorem unify_derived {a : Alg} {files : List (Name × List Rec)} {rows : List Out} (h : unify a files = .ok rows) : ∀ o ∈ rows, ∃ f r, o = derive f r := by
  unfold unify at h
  dsimp only at h
  split at h
  · cases h
  · cases h
    intro o ho
    obtain ⟨p, _, ho⟩ := List.mem_flatMap.mp ho
    obtain ⟨r, _, rfl⟩ := List.mem_map.mp ho
    exact ⟨_, _, rfl⟩

/-- **C133, the stack.** The four layers together have the height 1 plus the smoothed share of the episodes that succeeded although the optimistic model was not
applicable, which are in two layers. -/
theorem C133_stack {a : Alg} {files : List (Name × List Rec)} {rows : List Out} (hu : unify a files = .ok rows) {i : Nat} (hi : i < (episodes rows).length) :
    (layers.map fun f => height f rows i).sum = 1 + height both rows i ∧
    ((layers.map fun f => height f rows i).sum = 1 ↔ ∀ o, Near rows i o → ¬ (o.row.optimistic = "not_applicable" ∧ Succeeded o.row)) ∧
    borders rows i = [height Out.notSolved rows i, height Out.notSolved rows i + height Out.optimisticNotApplicable rows i,
      height Out.notSolved rows i + height Out.optimisticNotApplicable rows i + height Out.optimisticSolved rows i] := by
  have hsum : (layers.map fun f => height f rows i).sum = 1 + height both rows i := by
    have hshare : ∀ e ∈ episodes rows, share Out.notSolved rows e + share Out.optimisticNotApplicable rows e + share Out.optimisticSolved rows e +
        share Out.safeSolved rows e = 1 + share both rows e := by
      intro e he
      have hp : (0 : ℚ) < (ofEpisode rows e).length := by exact_mod_cast ofEpisode_ne he
      have hc := counts (l := ofEpisode rows e) fun o ho => unify_derived hu o (List.mem_filter.mp ho).1
      have hc' : ((ofEpisode rows e).countP Out.notSolved : ℚ) + (ofEpisode rows e).countP Out.optimisticNotApplicable +
          (ofEpisode rows e).countP Out.optimisticSolved + (ofEpisode rows e).countP Out.safeSolved = (ofEpisode rows e).length + (ofEpisode rows e).countP both := by
        exact_mod_cast hc
      simp only [share_eq]
      rw [← add_div, ← add_div, ← add_div, hc', add_div, div_self hp.ne']
    simp only [layers, List.map_cons, List.map_nil, List.sum_cons, List.sum_nil, add_zero]
    rw [height_eq _ _ hi, height_eq _ _ hi, height_eq _ _ hi, height_eq _ _ hi, height_eq _ _ hi, ← add_div, ← add_div, ← add_div,
      ← Finset.sum_add_distrib, ← Finset.sum_add_distrib, ← Finset.sum_add_distrib]
    have hone : (1 : ℚ) = (∑ j ∈ window (episodes rows).length i, (1 : ℚ)) / ((window (episodes rows).length i).card : ℚ) := by
      rw [Finset.sum_const, nsmul_eq_mul, mul_one, div_self (card_pos hi).ne']
    rw [hone, ← add_div, ← Finset.sum_add_distrib]
    congr 1
    refine Finset.sum_congr rfl fun j hj => ?_
    rw [← hshare _ (getD_mem (mem_window.mp hj).1)]
    ring
  refine ⟨hsum, ?_, by simp [borders, layers]⟩
  rw [hsum, add_eq_left, (C133_range both rows hi).2.2.1]
  simp only [both, decide_eq_false_iff_not]

/-- **C133, order.** The order of the rows, and so of the files, does not matter. -/
theorem C133_order {rows rows' : List Out} (h : rows.Perm rows') (f : Out → Bool) (i : Nat) :
    episodes rows = episodes rows' ∧ height f rows i = height f rows' i := by
  have he : episodes rows = episodes rows' := by
    refine List.Perm.eq_of_pairwise (le := (· < ·)) (fun a b _ _ h1 h2 => absurd (h1.trans h2) (lt_irrefl _)) (episodes_sorted _) (episodes_sorted _) ?_
    refine (List.perm_ext_iff_of_nodup ((episodes_sorted _).imp ne_of_lt) ((episodes_sorted _).imp ne_of_lt)).mpr fun e => ?_
    rw [mem_episodes, mem_episodes]
    exact ⟨fun ⟨o, ho, e⟩ => ⟨o, h.mem_iff.mp ho, e⟩, fun ⟨o, ho, e⟩ => ⟨o, h.mem_iff.mpr ho, e⟩⟩
  refine ⟨he, ?_⟩
  unfold height
  rw [he]
  congr 1
  refine List.map_congr_left fun e _ => ?_
  have hp := h.filter fun o => o.row.episode == e
  unfold share
  dsimp only
  rw [hp.countP_eq, hp.length_eq]

namespace Case

/-- Two folds with six and two episodes. -/
def recs : Nat → List Rec
  | 0 => [OnlineResults.Case.ep 1 "no_solution" "not_applicable" true, OnlineResults.Case.ep 2 "no_solution" "timeout" false, OnlineResults.Case.ep 3 "ok" "irrelevant" true,
    OnlineResults.Case.ep 4 "ok" "irrelevant" true, OnlineResults.Case.ep 5 "ok" "irrelevant" true, OnlineResults.Case.ep 6 "ok" "irrelevant" true]
  | 1 => [OnlineResults.Case.ep 1 "no_solution" "timeout" false, OnlineResults.Case.ep 2 "no_solution" "ok" true]
  | _ => []

def rows : List Out := (List.range 2).flatMap fun f => (recs f).map (derive f)

/-- Six episodes; at the first three positions the stack is higher than 1, because in the first episode of one fold the goal was reached although the optimistic model was not
applicable. -/
example : unify .noamLearning (folds .noamLearning 2 recs) = .ok rows ∧ episodes rows = [1, 2, 3, 4, 5, 6] ∧
    (List.range 6).map (fun i => (layers.map fun f => height f rows i).sum) = [7 / 6, 9 / 8, 11 / 10, 1, 1, 1] :=
  ⟨(C105_labels .noamLearning (by decide) recs).1 (by decide), by decide +kernel, by decide +kernel⟩

end Case
end Plots
end Props

import Verif.Model.KFold
import Mathlib.Data.Finset.Dedup
import Mathlib.Data.List.Nodup
import Mathlib.Tactic.Push

namespace Model
open Spec

theorem mem_pickAll {items : List String} {idx : List Nat} {n : String} :
    n ∈ pickAll items idx ↔ ∃ i ∈ idx, items[i]? = some n := by
  unfold pickAll; rw [List.mem_filterMap]

theorem mem_itemsAt {items : List String} {idx : List Nat} {n : String} :
    n ∈ itemsAt items idx ↔ ∃ i ∈ idx, items[i]? = some n := by
  unfold itemsAt; rw [List.mem_toFinset, List.mem_filterMap]

theorem foldl_insert_pair {α : Type} (f g : α → File) (l : List α) (acc : Finset File) (x : File) :
    x ∈ l.foldl (fun acc p => insert (f p) (insert (g p) acc)) acc ↔ x ∈ acc ∨ ∃ p ∈ l, x = f p ∨ x = g p := by
  induction l generalizing acc with
  | nil => simp
  | cons a l ih =>
    rw [List.foldl_cons, ih]
    simp only [Finset.mem_insert, List.mem_cons]
    constructor
    · rintro ((h | h | h) | ⟨p, hp, h⟩)
      · exact Or.inr ⟨a, Or.inl rfl, Or.inl h⟩
      · exact Or.inr ⟨a, Or.inl rfl, Or.inr h⟩
      · exact Or.inl h
      · exact Or.inr ⟨p, Or.inr hp, h⟩
    · rintro (h | ⟨p, rfl | hp, h⟩)
      · exact Or.inl (Or.inr (Or.inr h))
      · rcases h with h | h
        · exact Or.inl (Or.inl h)
        · exact Or.inl (Or.inr (Or.inl h))
      · exact Or.inr ⟨p, hp, h⟩

theorem foldl_insert_one {α : Type} (f : α → File) (l : List α) (acc : Finset File) (x : File) :
    x ∈ l.foldl (fun acc p => insert (f p) acc) acc ↔ x ∈ acc ∨ ∃ p ∈ l, x = f p := by
  have h := foldl_insert_pair f f l acc x
  simpa using h

/-- The training indices are those outside the test set. -/
theorem Split.divides_train {n : Nat} {s : Split} (h : s.Divides n) (i : Nat) :
    i ∈ (List.range n).filter (fun i => !s.test.contains i) ↔ i ∈ s.train := by
  have hnd : (s.train ++ s.test).Nodup := h.nodup_iff.mpr List.nodup_range
  rw [List.nodup_append] at hnd
  simp only [List.mem_filter, List.mem_range, List.contains_eq_mem, Bool.not_eq_true', decide_eq_false_iff_not]
  constructor
  · rintro ⟨h1, h2⟩
    have : i ∈ s.train ++ s.test := h.mem_iff.mpr (List.mem_range.mpr h1)
    exact (List.mem_append.mp this).resolve_right h2
  · intro h1
    refine ⟨List.mem_range.mp (h.mem_iff.mp (List.mem_append_left _ h1)), fun h2 => hnd.2.2 i h1 i h2 rfl⟩

theorem Split.divides_perm {n : Nat} {s : Split} (h : s.Divides n) :
    ((List.range n).filter (fun i => !s.test.contains i)).Perm s.train := by
  have hnd : (s.train ++ s.test).Nodup := h.nodup_iff.mpr List.nodup_range
  rw [List.perm_ext_iff_of_nodup (List.nodup_range.filter _) (List.nodup_append.mp hnd).1]
  exact Split.divides_train h

theorem foldLists_perm {items : List String} {s : Split} (h : s.Divides items.length) :
    (foldLists items s).2.2.Perm (foldLists items s).1 :=
  (Split.divides_perm h).filterMap _

theorem mem_foldLists_trajs {items : List String} {s : Split} (h : s.Divides items.length) (n : String) :
    n ∈ (foldLists items s).2.2 ↔ n ∈ itemsAt items s.train := by
  rw [(foldLists_perm h).mem_iff]
  show n ∈ pickAll items s.train ↔ _
  rw [mem_pickAll, mem_itemsAt]

/-- Zipping two lists of the same length loses nothing. -/
theorem mem_zip_iff {α β : Type} {l : List α} {m : List β} (hl : l.length = m.length) :
    (∀ a, (∃ b, (a, b) ∈ l.zip m) ↔ a ∈ l) ∧ (∀ b, (∃ a, (a, b) ∈ l.zip m) ↔ b ∈ m) := by
  constructor
  · intro a
    have : (l.zip m).map Prod.fst = l := List.map_fst_zip hl.le
    conv_rhs => rw [← this]
    simp
  · intro b
    have : (l.zip m).map Prod.snd = m := List.map_snd_zip hl.ge
    conv_rhs => rw [← this]
    simp

theorem createContent_train {fs : FoldDirs} {domain : String} {tp te tr : List String} (hl : tr.length = tp.length) (x : File) :
    x ∈ (createContent fs domain tp te tr).train.getD ∅ ↔
      x ∈ fs.train.getD ∅ ∨ x = ⟨domain, .domain⟩ ∨ (∃ n ∈ tr, x = ⟨n, .trajectory⟩) ∨ (∃ n ∈ tp, x = ⟨n, .problem⟩) := by
  unfold createContent mkdirKeep
  simp only [Option.getD_some]
  rw [foldl_insert_pair]
  obtain ⟨h1, h2⟩ := mem_zip_iff hl
  simp only [Finset.mem_insert]
  constructor
  · rintro ((h | h) | ⟨⟨a, b⟩, hp, h | h⟩)
    · exact Or.inr (Or.inl h)
    · exact Or.inl h
    · exact Or.inr (Or.inr (Or.inr ⟨b, (h2 b).mp ⟨a, hp⟩, h⟩))
    · exact Or.inr (Or.inr (Or.inl ⟨a, (h1 a).mp ⟨b, hp⟩, h⟩))
  · rintro (h | h | ⟨n, hn, h⟩ | ⟨n, hn, h⟩)
    · exact Or.inl (Or.inr h)
    · exact Or.inl (Or.inl h)
    · obtain ⟨b, hb⟩ := (h1 n).mpr hn
      exact Or.inr ⟨(n, b), hb, Or.inr h⟩
    · obtain ⟨a, ha⟩ := (h2 n).mpr hn
      exact Or.inr ⟨(a, n), ha, Or.inl h⟩

theorem createContent_test {fs : FoldDirs} {domain : String} {tp te tr : List String} (x : File) :
    x ∈ (createContent fs domain tp te tr).test.getD ∅ ↔
      x ∈ fs.test.getD ∅ ∨ ∃ n ∈ te, x = ⟨n, .trajectory⟩ ∨ x = ⟨n, .problem⟩ := by
  unfold createContent mkdirKeep
  simp only [Option.getD_some]
  rw [foldl_insert_pair]

/-- A fold made in clean directories. -/
theorem createContent_fold {items : List String} {s : Split} (h : s.Divides items.length) {fs : FoldDirs}
    (h1 : fs.train.getD ∅ = ∅) (h2 : fs.test.getD ∅ = ∅) (domain : String) :
    createContent fs domain (foldLists items s).1 (foldLists items s).2.1 (foldLists items s).2.2 =
      ⟨some (trainFiles items s domain), some (testFiles items s)⟩ := by
  have hc : ∀ fs' tp te tr, createContent fs' domain tp te tr =
      ⟨some ((createContent fs' domain tp te tr).train.getD ∅), some ((createContent fs' domain tp te tr).test.getD ∅)⟩ :=
    fun _ _ _ _ => rfl
  rw [hc]
  congr 2
  · ext x
    rw [createContent_train (foldLists_perm h).length_eq, h1]
    unfold trainFiles
    simp only [Finset.notMem_empty, false_or, Finset.mem_insert, Finset.mem_union, Finset.mem_image]
    simp only [mem_foldLists_trajs h]
    have : ∀ n, n ∈ (foldLists items s).1 ↔ n ∈ itemsAt items s.train := by
      intro n
      show n ∈ pickAll items s.train ↔ _
      rw [mem_pickAll, mem_itemsAt]
    simp only [this]
    constructor
    · rintro (h | ⟨n, hn, rfl⟩ | ⟨n, hn, rfl⟩)
      · exact Or.inl h
      · exact Or.inr (Or.inr ⟨n, hn, rfl⟩)
      · exact Or.inr (Or.inl ⟨n, hn, rfl⟩)
    · rintro (h | ⟨n, hn, rfl⟩ | ⟨n, hn, rfl⟩)
      · exact Or.inl h
      · exact Or.inr (Or.inr ⟨n, hn, rfl⟩)
      · exact Or.inr (Or.inl ⟨n, hn, rfl⟩)
  · ext x
    rw [createContent_test, h2]
    unfold testFiles
    simp only [Finset.notMem_empty, false_or, Finset.mem_union, Finset.mem_image]
    have : ∀ n, n ∈ (foldLists items s).2.1 ↔ n ∈ itemsAt items s.test := by
      intro n
      show n ∈ pickAll items s.test ↔ _
      rw [mem_pickAll, mem_itemsAt]
    simp only [this]
    constructor
    · rintro ⟨n, hn, rfl | rfl⟩
      · exact Or.inr ⟨n, hn, rfl⟩
      · exact Or.inl ⟨n, hn, rfl⟩
    · rintro (⟨n, hn, rfl⟩ | ⟨n, hn, rfl⟩)
      · exact ⟨n, hn, Or.inr rfl⟩
      · exact ⟨n, hn, Or.inl rfl⟩

theorem folds_scratch {items : List String} {ss : List Split} (h : ∀ s ∈ ss, s.Divides items.length) {fs : FoldDirs}
    (h1 : fs.train.getD ∅ = ∅) (h2 : fs.test.getD ∅ = ∅) (domain : String) (conf : FoldConfig) (k : Nat) :
    (foldsFromScratch domain items fs conf k ss).1 =
      ss.map fun s => ⟨some (trainFiles items s domain), some (testFiles items s)⟩ := by
  induction ss generalizing fs conf k with
  | nil => rfl
  | cons s ss ih =>
    unfold foldsFromScratch
    dsimp only
    rw [createContent_fold (h s (by simp)) h1 h2, List.map_cons]
    congr 1
    exact ih (fun s hs => h s (by simp [hs])) rfl rfl _ _

theorem folds_conf {items : List String} (ss : List Split) (fs : FoldDirs) (domain : String) (conf : FoldConfig) (k : Nat)
    (hk : ∀ p ∈ conf, p.1 < k) :
    (foldsFromScratch domain items fs conf k ss).2 =
      conf ++ (ss.zipIdx k).map fun p => (p.2, (foldLists items p.1).1, (foldLists items p.1).2.1) := by
  induction ss generalizing fs conf k with
  | nil => simp [foldsFromScratch]
  | cons s ss ih =>
    unfold foldsFromScratch
    dsimp only
    have hn : k ∉ conf.map Prod.fst := by
      intro hm
      obtain ⟨p, hp, e⟩ := List.mem_map.mp hm
      have := hk p hp
      omega
    have e : Py.dictSet conf k ((foldLists items s).1, (foldLists items s).2.1) =
        conf ++ [(k, (foldLists items s).1, (foldLists items s).2.1)] := by
      unfold Py.dictSet; rw [if_neg hn]
    rw [e, ih]
    · simp [List.zipIdx_cons]
    · intro p hp
      rcases List.mem_append.mp hp with h | h
      · exact Nat.lt_succ_of_lt (hk p h)
      · rw [List.mem_singleton.mp h]; exact Nat.lt_succ_self k

theorem folds_config {items : List String} {ps : List (Split × Nat)} (h : ∀ p ∈ ps, p.1.Divides items.length) {fs : FoldDirs}
    (h1 : fs.train.getD ∅ = ∅) (h2 : fs.test.getD ∅ = ∅) (domain : String) :
    foldsFromConfig domain fs (ps.map fun p => (p.2, (foldLists items p.1).1, (foldLists items p.1).2.1)) =
      ps.map fun p => ⟨some (trainFiles items p.1 domain), some (testFiles items p.1)⟩ := by
  induction ps generalizing fs with
  | nil => rfl
  | cons p ps ih =>
    rw [List.map_cons, List.map_cons]
    unfold foldsFromConfig
    dsimp only
    congr 1
    · have hd := h p (by simp)
      rw [← createContent_fold hd h1 h2 domain]
      have hc : ∀ fs' tp te tr, createContent fs' domain tp te tr =
          ⟨some ((createContent fs' domain tp te tr).train.getD ∅), some ((createContent fs' domain tp te tr).test.getD ∅)⟩ :=
        fun _ _ _ _ => rfl
      rw [hc, hc fs _ _ (foldLists items p.1).2.2]
      congr 2
      · ext x
        rw [createContent_train rfl, createContent_train (foldLists_perm hd).length_eq]
        simp only [(foldLists_perm hd).mem_iff]
    · exact ih (fun p hp => h p (by simp [hp])) rfl rfl

/-- Training and test items are disjoint and cover the sample. -/
theorem itemsAt_split {items : List String} (hnd : items.Nodup) {s : Split} (h : s.Divides items.length) :
    Disjoint (itemsAt items s.train) (itemsAt items s.test) ∧
    itemsAt items s.train ∪ itemsAt items s.test = items.toFinset := by
  have hn : (s.train ++ s.test).Nodup := h.nodup_iff.mpr List.nodup_range
  rw [List.nodup_append] at hn
  constructor
  · rw [Finset.disjoint_left]
    intro n h1 h2
    obtain ⟨i, hi, e1⟩ := mem_itemsAt.mp h1
    obtain ⟨j, hj, e2⟩ := mem_itemsAt.mp h2
    have : i = j := by
      have hil : i < items.length := by
        by_contra hc
        rw [List.getElem?_eq_none (by omega)] at e1
        exact absurd e1 (by simp)
      exact (List.getElem?_inj hil hnd).mp (e1.trans e2.symm)
    exact hn.2.2 i hi j hj this
  · ext n
    rw [Finset.mem_union, mem_itemsAt, mem_itemsAt, List.mem_toFinset, List.mem_iff_getElem?]
    constructor
    · rintro (⟨i, _, e⟩ | ⟨i, _, e⟩) <;> exact ⟨i, e⟩
    · rintro ⟨i, e⟩
      have hil : i < items.length := by
        by_contra hc
        rw [List.getElem?_eq_none (by omega)] at e
        exact absurd e (by simp)
      have := h.mem_iff.mpr (List.mem_range.mpr hil)
      rcases List.mem_append.mp this with h | h
      · exact Or.inl ⟨i, h, e⟩
      · exact Or.inr ⟨i, h, e⟩

/-- What a distributed training directory holds. -/
def contentOf (domain : String) (l : List String) : Finset File :=
  l.foldl (fun acc t => insert ⟨t, .problem⟩ (insert ⟨t, .trajectory⟩ acc)) {⟨domain, .domain⟩}

theorem mem_contentOf {domain : String} {l : List String} {x : File} :
    x ∈ contentOf domain l ↔ x = ⟨domain, .domain⟩ ∨ ∃ n ∈ l, x = ⟨n, .problem⟩ ∨ x = ⟨n, .trajectory⟩ := by
  unfold contentOf
  rw [foldl_insert_pair, Finset.mem_singleton]

theorem mem_distributedTrain {domain : String} {items : List String} {iters : Option (List Nat)} {s : Split}
    {k : Option Nat × Bool} {c : Finset File} (h : (k, c) ∈ distributedTrain domain items iters s) :
    (k.1 = none ∧ c = contentOf domain (foldLists items s).2.2) ∨
    ∃ n, k.1 = some n ∧ c = contentOf domain ((foldLists items s).2.2.take n) := by
  unfold distributedTrain at h
  cases iters with
  | none =>
    simp only [List.mem_singleton, Prod.mk.injEq] at h
    exact Or.inl ⟨by rw [h.1], h.2⟩
  | some its =>
    simp only [List.mem_append, List.mem_map, Prod.mk.injEq] at h
    right
    rcases h with ⟨n, _, rfl, rfl⟩ | h
    · exact ⟨n, rfl, rfl⟩
    · cases hl : its.getLast? with
      | none => rw [hl] at h; simp at h
      | some n =>
        rw [hl] at h
        simp only [List.mem_singleton, Prod.mk.injEq] at h
        exact ⟨n, by rw [h.1], h.2⟩

theorem mem_distributedTest {items : List String} {s : Split} {x : File} :
    x ∈ distributedTest items s ↔ ∃ n ∈ itemsAt items s.test, x = ⟨n, .problem⟩ := by
  unfold distributedTest
  rw [foldl_insert_one]
  have : ∀ n, n ∈ (foldLists items s).2.1 ↔ n ∈ itemsAt items s.test := by
    intro n
    show n ∈ pickAll items s.test ↔ _
    rw [mem_pickAll, mem_itemsAt]
  simp [this]

end Model

import Verif.Lemmas.KFold

/-! C44: cross-validation folds. -/
namespace Props
open Model Spec

/-- **C44.** From clean directories, at every `yield` of the cross validation the training and the
test directory hold exactly the files of that fold. -/
theorem C44_folds_exact {items : List String} {splits : List Split} (h : ∀ s ∈ splits, s.Divides items.length)
    (domain : String) (conf : FoldConfig) :
    (foldsFromScratch domain items ⟨none, none⟩ conf 0 splits).1 =
      splits.map fun s => ⟨some (trainFiles items s domain), some (testFiles items s)⟩ :=
  folds_scratch h rfl rfl domain conf 0

/-- **C44.** In every fold no file of a test item is in the training directory, and training and test
items together are the whole sample. -/
theorem C44_disjoint_and_cover {items : List String} (hnd : items.Nodup) {splits : List Split}
    (h : ∀ s ∈ splits, s.Divides items.length) (domain : String) (conf : FoldConfig) {d : FoldDirs}
    (hd : d ∈ (foldsFromScratch domain items ⟨none, none⟩ conf 0 splits).1) :
    ∃ train test, d.train = some train ∧ d.test = some test ∧ Disjoint train test ∧
      ∀ n, n ∈ items ↔ (⟨n, .trajectory⟩ : File) ∈ train ∨ (⟨n, .trajectory⟩ : File) ∈ test := by
  rw [C44_folds_exact h, List.mem_map] at hd
  obtain ⟨s, hs, rfl⟩ := hd
  obtain ⟨h1, h2⟩ := itemsAt_split hnd (h s hs)
  refine ⟨_, _, rfl, rfl, ?_, ?_⟩
  · rw [Finset.disjoint_left]
    intro x hx hy
    unfold testFiles at hy
    unfold trainFiles at hx
    simp only [Finset.mem_insert, Finset.mem_union, Finset.mem_image] at hx hy
    have hdis := Finset.disjoint_left.mp h1
    rcases hx with rfl | ⟨n, hn, rfl⟩ | ⟨n, hn, rfl⟩ <;> rcases hy with ⟨m, hm, e⟩ | ⟨m, hm, e⟩ <;>
      simp only [File.mk.injEq, reduceCtorEq, and_false, and_true] at e
    · exact hdis hn (e ▸ hm)
    · exact hdis hn (e ▸ hm)
  · intro n
    rw [← List.mem_toFinset, ← h2, Finset.mem_union]
    unfold testFiles trainFiles
    simp

/-- **C44.** If the splits test every index once (cross validation), every item is tested in exactly
one fold. -/
theorem C44_tested_once {items : List String} (hnd : items.Nodup) {splits : List Split}
    (h : ((splits.map Split.test).flatten).Perm (List.range items.length)) {n : String} (hn : n ∈ items) :
    ∃ pre s post, splits = pre ++ s :: post ∧ n ∈ itemsAt items s.test ∧
      ∀ t ∈ pre ++ post, n ∉ itemsAt items t.test := by
  obtain ⟨i, hi, rfl⟩ := List.mem_iff_getElem.mp hn
  have hm : i ∈ (splits.map Split.test).flatten := h.mem_iff.mpr (List.mem_range.mpr hi)
  obtain ⟨l, hl, hil⟩ := List.mem_flatten.mp hm
  obtain ⟨s, hs, rfl⟩ := List.mem_map.mp hl
  obtain ⟨pre, post, rfl⟩ := List.append_of_mem hs
  refine ⟨pre, s, post, rfl, mem_itemsAt.mpr ⟨i, hil, List.getElem?_eq_getElem hi⟩, ?_⟩
  intro t ht hmem
  obtain ⟨j, hj, e⟩ := mem_itemsAt.mp hmem
  rw [← List.getElem?_eq_getElem hi] at e
  have hij : i = j := (List.getElem?_inj hi hnd).mp e.symm
  subst hij
  have hdup : ((pre ++ s :: post).map Split.test).flatten.Nodup := h.nodup_iff.mpr List.nodup_range
  rw [List.map_append, List.map_cons, List.flatten_append, List.flatten_cons, List.nodup_append, List.nodup_append] at hdup
  rcases List.mem_append.mp ht with hp | hp
  · exact hdup.2.2 i (List.mem_flatten.mpr ⟨_, List.mem_map_of_mem hp, hj⟩) i (List.mem_append_left _ hil) rfl
  · exact hdup.2.1.2.2 i hil i (List.mem_flatten.mpr ⟨_, List.mem_map_of_mem hp, hj⟩) rfl

/-- **C44.** Replaying the saved configuration produces the same directories, fold by fold (when no
configuration was there before). -/
theorem C44_replay {items : List String} {splits : List Split} (h : ∀ s ∈ splits, s.Divides items.length)
    (domain : String) :
    let run := foldsFromScratch domain items ⟨none, none⟩ [] 0 splits
    foldsFromConfig domain ⟨none, none⟩ run.2 = run.1 := by
  dsimp only
  rw [folds_conf splits _ _ [] 0 (by simp), List.nil_append, folds_config _ rfl rfl, folds_scratch h rfl rfl]
  · conv_rhs => rw [← List.zipIdx_map_fst 0 splits, List.map_map]
    rfl
  · intro p hp
    exact h p.1 (List.fst_mem_of_mem_zipIdx hp)

/-- **C44, distributed.** In every directory made for a fold, whatever the number of trajectories
used, no trajectory of a test item is there; smaller numbers of trajectories give subsets. -/
theorem C44_distributed {items : List String} (hnd : items.Nodup) {s : Split} (h : s.Divides items.length)
    (domain : String) (iters : Option (List Nat)) {k : Option Nat × Bool} {c : Finset File}
    (hk : (k, c) ∈ distributedTrain domain items iters s) :
    Disjoint c (distributedTest items s) ∧
    (∀ n, (⟨n, .trajectory⟩ : File) ∈ c → n ∈ itemsAt items s.train) ∧
    (k.1 = none → ∀ n ∈ itemsAt items s.train, (⟨n, .trajectory⟩ : File) ∈ c) ∧
    (∀ k' c' a b, (k', c') ∈ distributedTrain domain items iters s → k.1 = some a → k'.1 = some b → a ≤ b → c ⊆ c') := by
  have hdis := Finset.disjoint_left.mp (itemsAt_split hnd h).1
  have hsub : ∃ l, c = contentOf domain l ∧ ∀ n ∈ l, n ∈ itemsAt items s.train := by
    rcases mem_distributedTrain hk with ⟨_, rfl⟩ | ⟨n, _, rfl⟩
    · exact ⟨_, rfl, fun n hn => (mem_foldLists_trajs h n).mp hn⟩
    · exact ⟨_, rfl, fun m hm => (mem_foldLists_trajs h m).mp (List.mem_of_mem_take hm)⟩
  refine ⟨?_, ?_, ?_, ?_⟩
  · obtain ⟨l, rfl, hl⟩ := hsub
    rw [Finset.disjoint_left]
    intro x hx hy
    obtain ⟨m, hm, rfl⟩ := mem_distributedTest.mp hy
    rcases mem_contentOf.mp hx with e | ⟨n, hn, e | e⟩ <;> simp only [File.mk.injEq, reduceCtorEq, and_false, and_true] at e
    subst e
    exact hdis (hl _ hn) hm
  · obtain ⟨l, rfl, hl⟩ := hsub
    intro n hn
    rcases mem_contentOf.mp hn with e | ⟨m, hm, e | e⟩ <;> simp only [File.mk.injEq, reduceCtorEq, and_false, and_true] at e
    subst e
    exact hl _ hm
  · intro hkn n hn
    rcases mem_distributedTrain hk with ⟨_, rfl⟩ | ⟨m, hm, rfl⟩
    · exact mem_contentOf.mpr (Or.inr ⟨n, (mem_foldLists_trajs h n).mpr hn, Or.inr rfl⟩)
    · rw [hkn] at hm; exact absurd hm (by simp)
  · intro k' c' a b hk' ha hb hab
    rcases mem_distributedTrain hk with ⟨e, _⟩ | ⟨m, hm, rfl⟩
    · rw [ha] at e; exact absurd e (by simp)
    rcases mem_distributedTrain hk' with ⟨e, _⟩ | ⟨m', hm', rfl⟩
    · rw [hb] at e; exact absurd e (by simp)
    rw [ha, Option.some.injEq] at hm
    rw [hb, Option.some.injEq] at hm'
    subst hm hm'
    intro x hx
    rcases mem_contentOf.mp hx with e | ⟨n, hn, e⟩
    · exact mem_contentOf.mpr (Or.inl e)
    · exact mem_contentOf.mpr (Or.inr ⟨n, (List.take_subset_take_left _ hab) hn, e⟩)

/-! Concrete cases. -/

def foldItems : List String := ["pfile3", "pfile1", "pfile2"]
def foldSplits : List Split := [⟨[1, 2], [0]⟩, ⟨[0, 2], [1]⟩, ⟨[0, 1], [2]⟩]

example : foldItems.Nodup ∧ (∀ s ∈ foldSplits, s.Divides foldItems.length) ∧
    ((foldSplits.map Split.test).flatten).Perm (List.range foldItems.length) := by decide +kernel

example : (⟨"pfile1", .trajectory⟩ : File) ∈ trainFiles foldItems ⟨[1, 2], [0]⟩ "domain" ∧
    (⟨"pfile3", .trajectory⟩ : File) ∉ trainFiles foldItems ⟨[1, 2], [0]⟩ "domain" := by decide +kernel

/-- Limit of C44: if an earlier run was abandoned after a `yield` its directories stay, and the next
run (with another random order of the same items) adds to them: in its first fold a test trajectory
is also in the training directory. -/
theorem C44_limit_leftover_leaks : ∃ (left d : FoldDirs),
    left ∈ (foldsFromScratch "domain" foldItems ⟨none, none⟩ [] 0 foldSplits).1 ∧
    (foldsFromScratch "domain" ["pfile1", "pfile3", "pfile2"] left [] 0 foldSplits).1[0]? = some d ∧
    (⟨"pfile1", .trajectory⟩ : File) ∈ d.train.getD ∅ ∧ (⟨"pfile1", .trajectory⟩ : File) ∈ d.test.getD ∅ := by
  refine ⟨⟨some (trainFiles foldItems ⟨[1, 2], [0]⟩ "domain"), some (testFiles foldItems ⟨[1, 2], [0]⟩)⟩, _, ?_, rfl, ?_, ?_⟩
  · rw [C44_folds_exact (by decide +kernel)]; simp [foldSplits]
  · decide +kernel
  · decide +kernel

/-- **C44, size of the sample.** The number of sampled items never exceeds the number of items (so the
sample exists), it is the given maximum whenever that is a positive number not above it, and all items
when the maximum is zero or too large. -/
theorem C44_sample_size (maxItems total : Nat) :
    itemsPerFold maxItems total ≤ total ∧
    (0 < maxItems → maxItems ≤ total → itemsPerFold maxItems total = maxItems) ∧
    (maxItems = 0 ∨ total < maxItems → itemsPerFold maxItems total = total) := by
  unfold itemsPerFold
  refine ⟨?_, ?_, ?_⟩
  · split_ifs <;> omega
  · intro h1 h2; rw [if_pos ⟨h1, h2⟩]
  · intro h; rw [if_neg (by omega)]

example : itemsPerFold 80 100 = 80 ∧ itemsPerFold 0 100 = 100 ∧ itemsPerFold 100 100 = 100 ∧ itemsPerFold 101 100 = 100 :=
  ⟨(C44_sample_size 80 100).2.1 (by decide) (by decide), (C44_sample_size 0 100).2.2 (by decide),
    (C44_sample_size 100 100).2.1 (by decide) (by decide), (C44_sample_size 101 100).2.2 (by decide)⟩

/-- Limit of C44: a new run that ignores an existing configuration with more folds keeps the old
surplus folds in the saved configuration. -/
theorem C44_limit_stale_folds :
    (foldsFromScratch "domain" ["a", "b"] ⟨none, none⟩ [(0, (["b"], ["a"])), (1, (["a"], ["b"])), (2, (["b"], ["old"]))] 0
      [⟨[1], [0]⟩, ⟨[0], [1]⟩]).2 = [(0, (["b"], ["a"])), (1, (["a"], ["b"])), (2, (["b"], ["old"]))] := by decide +kernel

end Props

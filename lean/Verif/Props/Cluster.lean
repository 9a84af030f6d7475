import Verif.Model.Cluster
import Verif.Props.Results

/-!
C114: the directories of the folds and the jobs that use them.
-/
namespace Props
namespace Cluster

open Model Model.Cluster Model.Results Spec

/-! ### Vocabulary -/

/-- The directory a job of an iteration reads, below `train` and below `test`. -/
def jobName (fold alg it : Nat) : Name := "fold_".toList ++ num fold ++ '_' :: num alg ++ '_' :: num it

/-- The directory a job over triplets reads. -/
def tripletsName (fold alg : Nat) : Name := "fold_".toList ++ num fold ++ '_' :: num alg ++ "_triplets".toList

/-- The items of the sample that are not in the test set of the split, in order. -/
def trainItems (items : List String) (s : Split) : List String :=
  ((List.range items.length).filter fun i => decide (i ∉ s.test)).filterMap fun i => items[i]?

/-- The items of the test set. -/
def testItems (items : List String) (s : Split) : List String := s.test.filterMap fun i => items[i]?

/-- A training directory with these trajectories: the domain, and every trajectory with its problem. -/
def HoldsTraining (domain : String) (trajs : List String) (d : Option (Finset File)) : Prop :=
  ∃ c, d = some c ∧ ∀ x : File, x ∈ c ↔ x = ⟨domain, .domain⟩ ∨ (x.kind = .trajectory ∨ x.kind = .problem) ∧ x.stem ∈ trajs

/-- A test directory with these problems, and nothing else. -/
def HoldsTest (problems : List String) (d : Option (Finset File)) : Prop :=
  ∃ c, d = some c ∧ ∀ x : File, x ∈ c ↔ x.kind = .problem ∧ x.stem ∈ problems

/-! ### Names -/

theorem cut {a a' t t' : Name} (ha : '_' ∉ a) (ha' : '_' ∉ a') (ht : t = [] ∨ ∃ r, t = '_' :: r) (ht' : t' = [] ∨ ∃ r, t' = '_' :: r)
    (h : a ++ t = a' ++ t') : a = a' ∧ t = t' := by
  induction a generalizing a' with
  | nil =>
    cases a' with
    | nil => exact ⟨rfl, h⟩
    | cons c cs =>
      exfalso
      simp only [List.nil_append, List.cons_append] at h
      rcases ht with rfl | ⟨r, rfl⟩
      · cases h
      · injection h with h1 _
        apply ha'; rw [← h1]; simp
  | cons c cs ih =>
    cases a' with
    | nil =>
      exfalso
      simp only [List.nil_append, List.cons_append] at h
      rcases ht' with rfl | ⟨r, rfl⟩
      · cases h
      · injection h with h1 _
        apply ha; rw [h1]; simp
    | cons c' cs' =>
      simp only [List.cons_append] at h
      injection h with h1 h2
      obtain ⟨e1, e2⟩ := ih (fun hm => ha (by simp [hm])) (a' := cs') (fun hm => ha' (by simp [hm])) h2
      exact ⟨by rw [h1, e1], e2⟩

theorem triplets_cons : triplets = '_' :: 't' :: "riplets".toList := by decide

theorem num_ne_t (n : Nat) (r r' : Name) : num n ++ r ≠ 't' :: r' := by
  intro h
  cases hn : num n with
  | nil => exact Results.num_ne_nil n hn
  | cons c cs =>
    rw [hn] at h
    simp only [List.cons_append] at h
    injection h with h1 _
    have := Results.digit_num (n := n) (c := c) (by rw [hn]; simp)
    rw [h1] at this
    exact absurd this (by decide)

/-- What follows the algorithm in the name of a directory. -/
def tail (dbl b : Bool) (it : Option Nat) : Name :=
  (if b then triplets else []) ++ (match it with | some i => '_' :: num i ++ (if dbl && b then triplets else []) | none => [])

theorem tail_shape (dbl b : Bool) (it : Option Nat) : tail dbl b it = [] ∨ ∃ r, tail dbl b it = '_' :: r := by
  cases b
  · cases it
    · left; rfl
    · right; exact ⟨_, rfl⟩
  · right
    unfold tail
    rw [if_pos rfl, triplets_cons]
    exact ⟨_, rfl⟩

theorem tail_inj {dbl b b' : Bool} {it it' : Option Nat} (h : tail dbl b it = tail dbl b' it') : b = b' ∧ it = it' := by
  have key : ∀ (it it' : Option Nat), tail dbl false it ≠ tail dbl true it' := by
    intro it it' h
    cases it with
    | none =>
      simp only [tail, triplets_cons] at h
      simp at h
    | some i =>
      simp only [tail, triplets_cons] at h
      simp only [Bool.false_eq_true, reduceIte, List.nil_append, Bool.and_false, List.append_nil, List.cons_append] at h
      injection h with _ h2
      have := num_ne_t i [] _ (by rw [List.append_nil]; exact h2)
      exact this
  cases b <;> cases b'
  · refine ⟨rfl, ?_⟩
    cases it <;> cases it' <;> simp [tail] at h
    · rfl
    · rw [Results.num_inj h]
  · exact absurd h (key _ _)
  · exact absurd h.symm (key _ _)
  · refine ⟨rfl, ?_⟩
    cases it <;> cases it' <;> simp [tail] at h
    · rfl
    · rw [Results.num_inj h]

/-- The suffix. -/
def sfx (b : Bool) : Name := if b then triplets else []

theorem trainDir_eq (f a : Nat) (b : Bool) (it : Option Nat) :
    trainDir f a (sfx b) it = "fold_".toList ++ (num f ++ '_' :: (num a ++ tail false b it)) := by
  unfold trainDir sfx tail
  cases it <;> simp

theorem testDir_eq (f a : Nat) (b : Bool) (it : Option Nat) :
    testDir f a (sfx b) it = "fold_".toList ++ (num f ++ '_' :: (num a ++ tail true b it)) := by
  unfold testDir sfx tail
  cases it <;> cases b <;> simp

theorem dir_inj {dbl b b' : Bool} {f f' a a' : Nat} {it it' : Option Nat}
    (h : "fold_".toList ++ (num f ++ '_' :: (num a ++ tail dbl b it)) = "fold_".toList ++ (num f' ++ '_' :: (num a' ++ tail dbl b' it'))) :
    f = f' ∧ a = a' ∧ b = b' ∧ it = it' := by
  have h := List.append_cancel_left h
  obtain ⟨h1, h2⟩ := cut (Results.under_num f) (Results.under_num f') (.inr ⟨_, rfl⟩) (.inr ⟨_, rfl⟩) h
  injection h2 with _ h2
  obtain ⟨h3, h4⟩ := cut (Results.under_num a) (Results.under_num a') (tail_shape _ _ _) (tail_shape _ _ _) h2
  obtain ⟨h5, h6⟩ := tail_inj h4
  exact ⟨Results.num_inj h1, Results.num_inj h3, h5, h6⟩

theorem trainDir_inj {b b' : Bool} {f f' a a' : Nat} {it it' : Option Nat}
    (h : trainDir f a (sfx b) it = trainDir f' a' (sfx b') it') : f = f' ∧ a = a' ∧ b = b' ∧ it = it' := by
  rw [trainDir_eq, trainDir_eq] at h
  exact dir_inj h

theorem testDir_inj {b b' : Bool} {f f' a a' : Nat} {it it' : Option Nat}
    (h : testDir f a (sfx b) it = testDir f' a' (sfx b') it') : f = f' ∧ a = a' ∧ b = b' ∧ it = it' := by
  rw [testDir_eq, testDir_eq] at h
  exact dir_inj h

theorem jobName_train (f a n : Nat) : jobName f a n = trainDir f a (sfx false) (some n) := by
  unfold jobName trainDir sfx
  generalize "fold_".toList = p
  simp

theorem jobName_test (f a n : Nat) : jobName f a n = testDir f a (sfx false) (some n) := by
  unfold jobName testDir sfx
  generalize "fold_".toList = p
  simp

theorem tripletsName_train (f a : Nat) : tripletsName f a = trainDir f a (sfx true) none := by
  unfold tripletsName trainDir sfx triplets
  generalize "fold_".toList = p
  generalize "_triplets".toList = q
  simp

theorem tripletsName_test (f a : Nat) : tripletsName f a = testDir f a (sfx true) none := by
  unfold tripletsName testDir sfx triplets
  generalize "fold_".toList = p
  generalize "_triplets".toList = q
  simp

theorem content_train (domain : String) (test trajs : List String) (fold alg : Nat) (it : Option Nat) (sf : Name) :
    (content domain test trajs fold alg it sf).train = trainDir fold alg sf it := by
  delta content
  exact rfl

theorem content_test (domain : String) (test trajs : List String) (fold alg : Nat) (it : Option Nat) (sf : Name) :
    (content domain test trajs fold alg it sf).test = testDir fold alg sf it := by
  delta content
  exact rfl

/-! ### Directories after a series of calls -/

theorem put_fold (l : List (Name × Finset File)) : ∀ (d : Name → Option (Finset File)) (n : Name) (c : Finset File),
    (∀ p ∈ l, p.1 = n → p.2 = c) → (d n = none ∨ d n = some c) →
    (l.foldl (fun d p => put d p.1 p.2) d) n = if (∃ p ∈ l, p.1 = n) then some c else d n := by
  induction l with
  | nil => intro d n c _ _; simp
  | cons p rest ih =>
    intro d n c hall hd
    rw [List.foldl_cons]
    by_cases hp : p.1 = n
    · have hc := hall p (by simp) hp
      have hput : put d p.1 p.2 n = some c := by
        unfold put
        rw [if_pos hp.symm, hp, hc]
        rcases hd with h | h <;> simp [h]
      rw [ih _ n c (fun q hq => hall q (by simp [hq])) (.inr hput), hput]
      rw [if_pos (⟨p, by simp, hp⟩ : ∃ q ∈ p :: rest, q.1 = n)]
      split <;> rfl
    · have hput : put d p.1 p.2 n = d n := by
        unfold put
        rw [if_neg (fun h => hp h.symm)]
      rw [ih _ n c (fun q hq => hall q (by simp [hq])) (by rw [hput]; exact hd), hput]
      have : (∃ q ∈ p :: rest, q.1 = n) ↔ ∃ q ∈ rest, q.1 = n := by simp [hp]
      simp only [this]

theorem run_train (ops : List Op) : ∀ d : Disk, (ops.foldl Disk.run d).train =
    (ops.map fun o => (o.train, o.trainFiles)).foldl (fun d p => put d p.1 p.2) d.train := by
  induction ops with
  | nil => intro d; rfl
  | cons o rest ih => intro d; rw [List.foldl_cons, ih]; rfl

theorem run_test (ops : List Op) : ∀ d : Disk, (ops.foldl Disk.run d).test =
    (ops.map fun o => (o.test, o.testFiles)).foldl (fun d p => put d p.1 p.2) d.test := by
  induction ops with
  | nil => intro d; rfl
  | cons o rest ih => intro d; rw [List.foldl_cons, ih]; rfl

theorem train_some {ops : List Op} {n : Name} {c : Finset File} (h1 : ∃ o ∈ ops, o.train = n)
    (h2 : ∀ o ∈ ops, o.train = n → o.trainFiles = c) : (ops.foldl Disk.run .empty).train n = some c := by
  rw [run_train, put_fold _ _ n c ?_ (.inl rfl), if_pos]
  · obtain ⟨o, ho, e⟩ := h1
    exact ⟨_, List.mem_map_of_mem ho, e⟩
  · intro p hp e
    obtain ⟨o, ho, rfl⟩ := List.mem_map.mp hp
    exact h2 o ho e

theorem test_some {ops : List Op} {n : Name} {c : Finset File} (h1 : ∃ o ∈ ops, o.test = n)
    (h2 : ∀ o ∈ ops, o.test = n → o.testFiles = c) : (ops.foldl Disk.run .empty).test n = some c := by
  rw [run_test, put_fold _ _ n c ?_ (.inl rfl), if_pos]
  · obtain ⟨o, ho, e⟩ := h1
    exact ⟨_, List.mem_map_of_mem ho, e⟩
  · intro p hp e
    obtain ⟨o, ho, rfl⟩ := List.mem_map.mp hp
    exact h2 o ho e

theorem train_none {ops : List Op} {n : Name} (h : ∀ o ∈ ops, o.train ≠ n) : (ops.foldl Disk.run .empty).train n = none := by
  rw [run_train, put_fold _ _ n ∅ ?_ (.inl rfl), if_neg]
  · rfl
  · rintro ⟨p, hp, e⟩
    obtain ⟨o, ho, rfl⟩ := List.mem_map.mp hp
    exact h o ho e
  · intro p hp e
    obtain ⟨o, ho, rfl⟩ := List.mem_map.mp hp
    exact absurd e (h o ho)

theorem test_none {ops : List Op} {n : Name} (h : ∀ o ∈ ops, o.test ≠ n) : (ops.foldl Disk.run .empty).test n = none := by
  rw [run_test, put_fold _ _ n ∅ ?_ (.inl rfl), if_neg]
  · rfl
  · rintro ⟨p, hp, e⟩
    obtain ⟨o, ho, rfl⟩ := List.mem_map.mp hp
    exact h o ho e
  · intro p hp e
    obtain ⟨o, ho, rfl⟩ := List.mem_map.mp hp
    exact absurd e (h o ho)

/-! ### The calls -/

theorem foldLists_train (items : List String) (s : Split) : (foldLists items s).2.2 = trainItems items s := by
  unfold foldLists trainItems pickAll
  dsimp only
  congr 1
  apply List.filter_congr
  intro i _
  simp

theorem foldLists_test (items : List String) (s : Split) : (foldLists items s).2.1 = testItems items s := rfl

/-- The calls of a first creation with iterations. -/
def ScratchOp (domain : String) (items : List String) (algs its : List Nat) (start : Nat) (splits : List Split) (o : Op) : Prop :=
  ∃ (f : Nat) (s : Split) (a : Nat) (b : Bool) (n : Nat), splits[f]? = some s ∧ a ∈ algs ∧ n ∈ its ∧ (b = true → its.getLast? = some n) ∧
    o = content domain (testItems items s) ((trainItems items s).take n) (start + f) a (some n) (sfx b)

theorem mem_algDirs {domain : String} {algs : List Nat} {test trajs : List String} {fold : Nat} {it : Option Nat} {sf : Name} {o : Op} :
    o ∈ algDirs domain algs test trajs fold it sf ↔ ∃ a ∈ algs, o = content domain test trajs fold a it sf := by
  unfold algDirs
  simp [eq_comm]

theorem scratch_spec {domain : String} {items : List String} {algs its : List Nat} : ∀ {splits : List Split} {start : Nat} {r : List Op × List FoldConf},
    scratch domain items algs (some its) start splits = .ok r →
    (∀ o, o ∈ r.1 ↔ ScratchOp domain items algs its start splits o) ∧
    r.2 = splits.map fun s => ⟨.byIteration (its.map fun n => (n, (trainItems items s).take n)), testItems items s⟩
  | [], start, r, h => by
    unfold scratch at h
    cases h
    refine ⟨fun o => ?_, rfl⟩
    simp [ScratchOp]
  | s :: ss, start, r, h => by
    unfold scratch at h
    unfold scratchFold at h
    dsimp only at h
    rw [foldLists_train, foldLists_test] at h
    cases hl : its.getLast? with
    | none => rw [hl] at h; cases h
    | some m =>
      rw [hl] at h
      dsimp only at h
      split at h
      · cases h
      · rename_i rs hrs
        cases h
        obtain ⟨ih1, ih2⟩ := scratch_spec hrs
        refine ⟨fun o => ?_, by rw [List.map_cons, ← ih2]⟩
        rw [List.mem_append, List.mem_append, ih1, List.mem_flatMap]
        constructor
        · rintro ((⟨n, hn, ho⟩ | ho) | ⟨f, s', a, b, n, h1, h2, h3, h4, h5⟩)
          · obtain ⟨a, ha, rfl⟩ := mem_algDirs.mp ho
            exact ⟨0, s, a, false, n, rfl, ha, hn, by simp, rfl⟩
          · obtain ⟨a, ha, rfl⟩ := mem_algDirs.mp ho
            exact ⟨0, s, a, true, m, rfl, ha, List.mem_of_getLast? hl, fun _ => hl, rfl⟩
          · refine ⟨f + 1, s', a, b, n, by simpa using h1, h2, h3, h4, ?_⟩
            rw [h5]; congr 1; omega
        · rintro ⟨f, s', a, b, n, h1, h2, h3, h4, rfl⟩
          cases f with
          | zero =>
            simp only [List.getElem?_cons_zero, Option.some.injEq] at h1
            subst h1
            left
            cases b
            · left; exact ⟨n, h3, mem_algDirs.mpr ⟨a, h2, rfl⟩⟩
            · right
              have := h4 rfl
              rw [hl] at this; cases this
              exact mem_algDirs.mpr ⟨a, h2, rfl⟩
          | succ f =>
            right
            refine ⟨f, s', a, b, n, by simpa using h1, h2, h3, h4, ?_⟩
            congr 1; omega

theorem holdsTraining (domain : String) (trajs : List String) : HoldsTraining domain trajs (some (trainContent domain trajs)) := by
  refine ⟨_, rfl, fun x => ?_⟩
  obtain ⟨st, k⟩ := x
  unfold trainContent
  simp only [Finset.mem_insert, Finset.mem_union, Finset.mem_image, List.mem_toFinset, File.mk.injEq]
  constructor
  · rintro (h | ⟨t, ht, rfl, rfl⟩ | ⟨t, ht, rfl, rfl⟩)
    · exact .inl h
    · exact .inr ⟨.inl rfl, ht⟩
    · exact .inr ⟨.inr rfl, ht⟩
  · rintro (h | ⟨hk, ht⟩)
    · exact .inl h
    · rcases hk with hk | hk
      · exact .inr (.inl ⟨st, ht, rfl, hk.symm⟩)
      · exact .inr (.inr ⟨st, ht, rfl, hk.symm⟩)

theorem holdsTest (problems : List String) : HoldsTest problems (some (testContent problems)) := by
  refine ⟨_, rfl, fun x => ?_⟩
  obtain ⟨st, k⟩ := x
  unfold testContent
  simp only [Finset.mem_image, List.mem_toFinset, File.mk.injEq]
  constructor
  · rintro ⟨t, ht, rfl, rfl⟩
    exact ⟨rfl, ht⟩
  · rintro ⟨hk, ht⟩
    exact ⟨st, ht, rfl, hk.symm⟩

/-! ### C114 -/

/-- C114. First creation of the directories. Every fold, algorithm and iteration `n` has its own training directory with
exactly the domain and the first `n` training trajectories of the fold, and a test directory with exactly the test problems of the fold;
there are none for other folds, algorithms and iterations. But no directory of the name that the jobs over triplets read exists. -/
theorem C114_first (domain : String) (items : List String) (splits : List Split) (algs its : List Nat) (trip : Bool) (disk : Disk)
    (conf : List FoldConf) (h : createFolds domain items splits algs (some its) trip [] = .ok (disk, conf)) :
    (∀ f s a n, splits[f]? = some s → a ∈ algs → n ∈ its →
      HoldsTraining domain ((trainItems items s).take n) (disk.train (jobName f a n)) ∧
      HoldsTest (testItems items s) (disk.test (jobName f a n))) ∧
    (∀ f a n, splits.length ≤ f ∨ a ∉ algs ∨ n ∉ its → disk.train (jobName f a n) = none ∧ disk.test (jobName f a n) = none) ∧
    (∀ f a, disk.train (tripletsName f a) = none ∧ disk.test (tripletsName f a) = none) := by
  unfold createFolds at h
  rw [if_neg (by simp)] at h
  cases hs : scratch domain items algs (some its) 0 splits with
  | error e => rw [hs] at h; cases h
  | ok r =>
    rw [hs] at h
    cases h
    obtain ⟨hops, -⟩ := scratch_spec hs
    refine ⟨fun f s a n hf ha hn => ⟨?_, ?_⟩, fun f a n hno => ⟨?_, ?_⟩, fun f a => ⟨?_, ?_⟩⟩
    · rw [train_some (c := trainContent domain ((trainItems items s).take n))]
      · exact holdsTraining _ _
      · exact ⟨_, (hops _).mpr ⟨f, s, a, false, n, hf, ha, hn, by simp, rfl⟩, by rw [jobName_train, content_train, Nat.zero_add]⟩
      · intro o ho he
        obtain ⟨f', s', a', b, n', h1, -, -, -, rfl⟩ := (hops o).mp ho
        rw [jobName_train] at he
        rw [content_train] at he
        obtain ⟨e1, e2, e3, e4⟩ := trainDir_inj he
        rw [Nat.zero_add] at e1
        cases e4
        subst e1
        rw [hf] at h1
        cases h1
        rfl
    · rw [test_some (c := testContent (testItems items s))]
      · exact holdsTest _
      · exact ⟨_, (hops _).mpr ⟨f, s, a, false, n, hf, ha, hn, by simp, rfl⟩, by rw [jobName_test, content_test, Nat.zero_add]⟩
      · intro o ho he
        obtain ⟨f', s', a', b, n', h1, -, -, -, rfl⟩ := (hops o).mp ho
        rw [jobName_test] at he
        rw [content_test] at he
        obtain ⟨e1, e2, e3, e4⟩ := testDir_inj he
        rw [Nat.zero_add] at e1
        subst e1
        rw [hf] at h1
        cases h1
        rfl
    · apply train_none
      intro o ho he
      obtain ⟨f', s', a', b, n', h1, h2, h3, -, rfl⟩ := (hops o).mp ho
      rw [jobName_train] at he
      rw [content_train] at he
      obtain ⟨e1, e2, e3, e4⟩ := trainDir_inj he
      rw [Nat.zero_add] at e1
      cases e4
      subst e1; subst e2
      rcases hno with hl | hl | hl
      · rw [List.getElem?_eq_none hl] at h1; cases h1
      · exact hl h2
      · exact hl h3
    · apply test_none
      intro o ho he
      obtain ⟨f', s', a', b, n', h1, h2, h3, -, rfl⟩ := (hops o).mp ho
      rw [jobName_test] at he
      rw [content_test] at he
      obtain ⟨e1, e2, e3, e4⟩ := testDir_inj he
      rw [Nat.zero_add] at e1
      cases e4
      subst e1; subst e2
      rcases hno with hl | hl | hl
      · rw [List.getElem?_eq_none hl] at h1; cases h1
      · exact hl h2
      · exact hl h3
    · apply train_none
      intro o ho he
      obtain ⟨f', s', a', b, n', h1, h2, h3, -, rfl⟩ := (hops o).mp ho
      rw [tripletsName_train] at he
      rw [content_train] at he
      obtain ⟨-, -, -, e4⟩ := trainDir_inj he
      cases e4
    · apply test_none
      intro o ho he
      obtain ⟨f', s', a', b, n', h1, h2, h3, -, rfl⟩ := (hops o).mp ho
      rw [tripletsName_test] at he
      rw [content_test] at he
      obtain ⟨-, -, -, e4⟩ := testDir_inj he
      cases e4

/-! ### Creation from saved settings -/

theorem largest_map (g : Nat → List String) : ∀ its : List Nat, its ≠ [] →
    ∃ m ∈ its, (∀ n ∈ its, n ≤ m) ∧ largest (its.map fun n => (n, g n)) = some (m, g m)
  | [], h => absurd rfl h
  | [n], _ => ⟨n, by simp, by simp, rfl⟩
  | n :: k :: rest, _ => by
    obtain ⟨m, hm, hmax, he⟩ := largest_map g (k :: rest) (by simp)
    rw [List.map_cons]
    unfold largest
    rw [he]
    dsimp only
    by_cases hle : m ≤ n
    · rw [if_pos hle]
      refine ⟨n, by simp, ?_, rfl⟩
      intro x hx
      rcases List.mem_cons.mp hx with rfl | hx
      · exact le_refl _
      · exact (hmax x hx).trans hle
    · rw [if_neg hle]
      refine ⟨m, List.mem_cons_of_mem _ hm, ?_, rfl⟩
      intro x hx
      rcases List.mem_cons.mp hx with rfl | hx
      · omega
      · exact hmax x hx

/-- The settings saved by a first creation with the iterations `its`. -/
def savedFold (items : List String) (its : List Nat) (s : Split) : FoldConf :=
  ⟨.byIteration (its.map fun n => (n, (trainItems items s).take n)), testItems items s⟩

/-- The calls of a creation from saved settings. -/
def LoadOp (domain : String) (items : List String) (algs its : List Nat) (trip : Bool) (m : Nat) (start : Nat) (splits : List Split) (o : Op) : Prop :=
  ∃ (f : Nat) (s : Split) (a : Nat), splits[f]? = some s ∧ a ∈ algs ∧
    ((∃ n ∈ its, o = content domain (testItems items s) ((trainItems items s).take n) (start + f) a (some n) (sfx false)) ∨
     trip = true ∧ o = content domain (testItems items s) ((trainItems items s).take m) (start + f) a none (sfx true))

theorem load_spec {domain : String} {items : List String} {algs its : List Nat} {trip : Bool} {m : Nat} (hm : m ∈ its) (hmax : ∀ n ∈ its, n ≤ m) :
    ∀ (splits : List Split) (start : Nat), ∃ ops, load domain algs false trip start (splits.map (savedFold items its)) = .ok ops ∧
      ∀ o, o ∈ ops ↔ LoadOp domain items algs its trip m start splits o
  | [], start => ⟨[], rfl, fun o => by simp [LoadOp]⟩
  | s :: ss, start => by
    obtain ⟨ops, h, hops⟩ := load_spec (domain := domain) (items := items) (algs := algs) (trip := trip) hm hmax ss (start + 1)
    have hone : ∃ r, loadFold domain algs false trip start (savedFold items its s) = .ok r ∧ ∀ o, o ∈ r ↔ ∃ a ∈ algs,
        ((∃ n ∈ its, o = content domain (testItems items s) ((trainItems items s).take n) start a (some n) (sfx false)) ∨
        trip = true ∧ o = content domain (testItems items s) ((trainItems items s).take m) start a none (sfx true)) := by
      have hflat : ∀ o, (o ∈ (its.map fun n => (n, (trainItems items s).take n)).flatMap
          fun p => algDirs domain algs (testItems items s) p.2 start (if false = true then none else some p.1) []) ↔
          ∃ a ∈ algs, ∃ n ∈ its, o = content domain (testItems items s) ((trainItems items s).take n) start a (some n) (sfx false) := by
        intro o
        simp only [List.mem_flatMap, List.mem_map, Bool.false_eq_true, reduceIte]
        constructor
        · rintro ⟨p, ⟨n, hn, rfl⟩, ho⟩
          obtain ⟨a, ha, rfl⟩ := mem_algDirs.mp ho
          exact ⟨a, ha, n, hn, rfl⟩
        · rintro ⟨a, ha, n, hn, rfl⟩
          exact ⟨_, ⟨n, hn, rfl⟩, mem_algDirs.mpr ⟨a, ha, rfl⟩⟩
      unfold loadFold savedFold
      dsimp only
      cases trip
      · refine ⟨_, rfl, fun o => ?_⟩
        rw [hflat]
        simp
      · obtain ⟨m', hm', hmax', he⟩ := largest_map (fun n => (trainItems items s).take n) its (List.ne_nil_of_mem hm)
        have : m' = m := le_antisymm (hmax m' hm') (hmax' m hm)
        subst this
        rw [if_pos rfl, he]
        refine ⟨_, rfl, fun o => ?_⟩
        rw [List.mem_append, hflat, mem_algDirs]
        constructor
        · rintro (⟨a, ha, h⟩ | ⟨a, ha, h⟩)
          · exact ⟨a, ha, .inl h⟩
          · exact ⟨a, ha, .inr ⟨rfl, h⟩⟩
        · rintro ⟨a, ha, h | ⟨-, h⟩⟩
          · exact .inl ⟨a, ha, h⟩
          · exact .inr ⟨a, ha, h⟩
    obtain ⟨r, hr, hrm⟩ := hone
    refine ⟨r ++ ops, ?_, fun o => ?_⟩
    · rw [List.map_cons]
      unfold load
      rw [hr]
      dsimp only
      rw [h]
    · rw [List.mem_append, hrm, hops]
      constructor
      · rintro (⟨a, ha, h⟩ | ⟨f, s', a, h1, h2, h3⟩)
        · exact ⟨0, s, a, rfl, ha, h⟩
        · have e : start + 1 + f = start + (f + 1) := by omega
          rw [e] at h3
          exact ⟨f + 1, s', a, by simpa using h1, h2, h3⟩
      · rintro ⟨f, s', a, h1, h2, h3⟩
        cases f with
        | zero =>
          simp only [List.getElem?_cons_zero, Option.some.injEq] at h1
          subst h1
          exact .inl ⟨a, h2, h3⟩
        | succ f =>
          have e : start + 1 + f = start + (f + 1) := by omega
          exact .inr ⟨f, s', a, by simpa using h1, h2, by rw [e]; exact h3⟩

/-- C114. A later creation uses what the first one saved. Whatever sample, splits and iterations it is called with, it has the same
training and test directories for the folds and iterations of the first creation and none for others, also for algorithms that the first creation
did not know; the saved settings stay as they are. If the experiment over triplets is requested, the directories that its jobs read
exist now, with the trajectories of the largest iteration. -/
theorem C114_again (domain : String) (items : List String) (splits : List Split) (algs its : List Nat) (trip : Bool) (disk : Disk)
    (conf : List FoldConf) (h : createFolds domain items splits algs (some its) trip [] = .ok (disk, conf)) (hne : splits ≠ [])
    (items' : List String) (splits' : List Split) (algs' its' : List Nat) (trip' : Bool) :
    ∃ disk', createFolds domain items' splits' algs' (some its') trip' conf = .ok (disk', conf) ∧
    (∀ f s a n, splits[f]? = some s → a ∈ algs' → n ∈ its →
      HoldsTraining domain ((trainItems items s).take n) (disk'.train (jobName f a n)) ∧
      HoldsTest (testItems items s) (disk'.test (jobName f a n))) ∧
    (∀ f a n, splits.length ≤ f ∨ a ∉ algs' ∨ n ∉ its → disk'.train (jobName f a n) = none ∧ disk'.test (jobName f a n) = none) ∧
    (∀ f s a, splits[f]? = some s → a ∈ algs' → trip' = true → ∃ m ∈ its, (∀ n ∈ its, n ≤ m) ∧
      HoldsTraining domain ((trainItems items s).take m) (disk'.train (tripletsName f a)) ∧
      HoldsTest (testItems items s) (disk'.test (tripletsName f a))) := by
  unfold createFolds at h
  rw [if_neg (by simp)] at h
  cases hs : scratch domain items algs (some its) 0 splits with
  | error e => rw [hs] at h; cases h
  | ok r =>
    rw [hs] at h
    cases h
    obtain ⟨-, hconf⟩ := scratch_spec hs
    have hits : its ≠ [] := by
      rintro rfl
      cases splits with
      | nil => exact hne rfl
      | cons s ss =>
        unfold scratch at hs
        unfold scratchFold at hs
        cases hs
    obtain ⟨m, hm, hmax, -⟩ := largest_map (fun _ => []) its hits
    obtain ⟨ops, hops, hspec⟩ := load_spec (domain := domain) (items := items) (algs := algs') (trip := trip') hm hmax splits 0
    have hconf' : r.2 = splits.map (savedFold items its) := hconf
    rw [hconf']
    refine ⟨ops.foldl Disk.run .empty, ?_, fun f s a n hf ha hn => ⟨?_, ?_⟩, fun f a n hno => ⟨?_, ?_⟩,
      fun f s a hf ha ht => ⟨m, hm, hmax, ?_, ?_⟩⟩
    · unfold createFolds
      rw [if_pos (by simpa using hne)]
      simp only [Option.isNone_some]
      rw [hops]
    · rw [train_some (c := trainContent domain ((trainItems items s).take n))]
      · exact holdsTraining _ _
      · exact ⟨_, (hspec _).mpr ⟨f, s, a, hf, ha, .inl ⟨n, hn, rfl⟩⟩, by rw [jobName_train, content_train, Nat.zero_add]⟩
      · intro o ho he
        obtain ⟨f', s', a', h1, -, ⟨n', -, rfl⟩ | ⟨-, rfl⟩⟩ := (hspec o).mp ho
        · rw [jobName_train, content_train] at he
          obtain ⟨e1, e2, e3, e4⟩ := trainDir_inj he
          rw [Nat.zero_add] at e1
          cases e4
          subst e1
          rw [hf] at h1
          cases h1
          rfl
        · rw [jobName_train, content_train] at he
          obtain ⟨-, -, -, e4⟩ := trainDir_inj he
          cases e4
    · rw [test_some (c := testContent (testItems items s))]
      · exact holdsTest _
      · exact ⟨_, (hspec _).mpr ⟨f, s, a, hf, ha, .inl ⟨n, hn, rfl⟩⟩, by rw [jobName_test, content_test, Nat.zero_add]⟩
      · intro o ho he
        obtain ⟨f', s', a', h1, -, ⟨n', -, rfl⟩ | ⟨-, rfl⟩⟩ := (hspec o).mp ho
        · rw [jobName_test, content_test] at he
          obtain ⟨e1, e2, e3, e4⟩ := testDir_inj he
          rw [Nat.zero_add] at e1
          subst e1
          rw [hf] at h1
          cases h1
          rfl
        · rw [jobName_test, content_test] at he
          obtain ⟨-, -, -, e4⟩ := testDir_inj he
          cases e4
    · apply train_none
      intro o ho he
      obtain ⟨f', s', a', h1, h2, ⟨n', h3, rfl⟩ | ⟨-, rfl⟩⟩ := (hspec o).mp ho
      · rw [jobName_train, content_train] at he
        obtain ⟨e1, e2, e3, e4⟩ := trainDir_inj he
        rw [Nat.zero_add] at e1
        cases e4
        subst e1; subst e2
        rcases hno with hl | hl | hl
        · rw [List.getElem?_eq_none hl] at h1; cases h1
        · exact hl h2
        · exact hl h3
      · rw [jobName_train, content_train] at he
        obtain ⟨-, -, -, e4⟩ := trainDir_inj he
        cases e4
    · apply test_none
      intro o ho he
      obtain ⟨f', s', a', h1, h2, ⟨n', h3, rfl⟩ | ⟨-, rfl⟩⟩ := (hspec o).mp ho
      · rw [jobName_test, content_test] at he
        obtain ⟨e1, e2, e3, e4⟩ := testDir_inj he
        rw [Nat.zero_add] at e1
        cases e4
        subst e1; subst e2
        rcases hno with hl | hl | hl
        · rw [List.getElem?_eq_none hl] at h1; cases h1
        · exact hl h2
        · exact hl h3
      · rw [jobName_test, content_test] at he
        obtain ⟨-, -, -, e4⟩ := testDir_inj he
        cases e4
    · rw [train_some (c := trainContent domain ((trainItems items s).take m))]
      · exact holdsTraining _ _
      · exact ⟨_, (hspec _).mpr ⟨f, s, a, hf, ha, .inr ⟨ht, rfl⟩⟩, by rw [tripletsName_train, content_train, Nat.zero_add]⟩
      · intro o ho he
        obtain ⟨f', s', a', h1, -, ⟨n', -, rfl⟩ | ⟨-, rfl⟩⟩ := (hspec o).mp ho
        · rw [tripletsName_train, content_train] at he
          obtain ⟨-, -, -, e4⟩ := trainDir_inj he
          cases e4
        · rw [tripletsName_train, content_train] at he
          obtain ⟨e1, e2, e3, e4⟩ := trainDir_inj he
          rw [Nat.zero_add] at e1
          subst e1
          rw [hf] at h1
          cases h1
          rfl
    · rw [test_some (c := testContent (testItems items s))]
      · exact holdsTest _
      · exact ⟨_, (hspec _).mpr ⟨f, s, a, hf, ha, .inr ⟨ht, rfl⟩⟩, by rw [tripletsName_test, content_test, Nat.zero_add]⟩
      · intro o ho he
        obtain ⟨f', s', a', h1, -, ⟨n', -, rfl⟩ | ⟨-, rfl⟩⟩ := (hspec o).mp ho
        · rw [tripletsName_test, content_test] at he
          obtain ⟨-, -, -, e4⟩ := testDir_inj he
          cases e4
        · rw [tripletsName_test, content_test] at he
          obtain ⟨e1, e2, e3, e4⟩ := testDir_inj he
          rw [Nat.zero_add] at e1
          subst e1
          rw [hf] at h1
          cases h1
          rfl

/-! ### Jobs -/

/-- The entries of an experiment that go to the jobs. -/
def passed (e : Experiment) : List Arg := e.entries.filter fun p => p.1 != "compared_versions" && p.1 != "parallelization_data"

/-- The command line of a job: the fold, the algorithm, the entries of the experiment, and the iteration. -/
def command (e : Experiment) (f v i : Nat) : List Arg :=
  [("fold_number", num f), ("learning_algorithm", num v)] ++ passed e ++ [("iteration_number", num i)]

/-- The command line of a job over triplets. -/
def commandTriplets (e : Experiment) (f v : Nat) : List Arg :=
  [("fold_number", num f), ("learning_algorithm", num v)] ++ passed e

theorem execArgs_eq (e : Experiment) (f v : Nat) : execArgs e f v = commandTriplets e f v := rfl

theorem iterLoop_eq (attempts : Nat → Nat) (args : List Arg) : ∀ its : List Nat, iterLoop attempts args its =
    (its.flatMap fun i => List.replicate (attempts i + 1) (args ++ [("iteration_number", num i)]), args)
  | [] => rfl
  | i :: is => by
    unfold iterLoop
    dsimp only
    rw [List.dropLast_concat, iterLoop_eq attempts args is]
    rfl

theorem numericVersions_eq {known : List Nat} {e : Experiment} {its : List Nat} {attempts : Nat → Nat → Nat} {fold : Nat} :
    ∀ {vs : List Nat}, (∀ v ∈ vs, v ∈ known) → numericVersions known e its attempts fold vs =
      (vs.flatMap fun v => its.flatMap fun i => List.replicate (attempts v i + 1) (command e fold v i), none)
  | [], _ => rfl
  | v :: vs, h => by
    unfold numericVersions
    rw [if_neg (fun hh => hh.1 (h v (by simp))), numericVersions_eq (fun w hw => h w (by simp [hw])), iterLoop_eq]
    rfl

/-- C114. The submitted jobs: for every fold, compared version and iteration, in this order, one job (several if the
queue does not show a submitted job), with the fold, the version, the entries of the experiment and the iteration as arguments.
Nothing of a previous iteration is left in the arguments. -/
theorem C114_submitted (known : List Nat) (e : Experiment) (its : List Nat) (attempts : Nat → Nat → Nat → Nat)
    (h : ∀ v ∈ e.versions, v ∈ known) (n : Nat) :
    numericFolds known e its attempts 0 n = ((List.range n).flatMap fun f => e.versions.flatMap fun v => its.flatMap fun i =>
      List.replicate (attempts f v i + 1) (command e f v i), none) := by
  have key : ∀ n start, numericFolds known e its attempts start n = ((List.range' start n).flatMap fun f => e.versions.flatMap fun v =>
      its.flatMap fun i => List.replicate (attempts f v i + 1) (command e f v i), none) := by
    intro n
    induction n with
    | zero => intro start; rfl
    | succ n ih =>
      intro start
      unfold numericFolds
      rw [numericVersions_eq h]
      dsimp only
      rw [ih, List.range'_succ]
      rfl
  rw [key, List.range_eq_range']

/-- C114. A compared version without a name ends the submission with an exception: only the jobs of the first fold for the versions
before it are submitted, and nothing of the other folds. -/
theorem C114_unknown_version (known : List Nat) (e : Experiment) (its : List Nat) (attempts : Nat → Nat → Nat → Nat) (before after : List Nat)
    (v : Nat) (hv : e.versions = before ++ v :: after) (h : ∀ w ∈ before, w ∈ known) (hu : v ∉ known) (hi : its ≠ []) (n : Nat) :
    numericFolds known e its attempts 0 (n + 1) = (before.flatMap fun w => its.flatMap fun i =>
      List.replicate (attempts 0 w i + 1) (command e 0 w i), some .keyError) := by
  have key : ∀ before : List Nat, (∀ w ∈ before, w ∈ known) → numericVersions known e its (attempts 0) 0 (before ++ v :: after) =
      (before.flatMap fun w => its.flatMap fun i => List.replicate (attempts 0 w i + 1) (command e 0 w i), some .keyError) := by
    intro before
    induction before with
    | nil =>
      intro _
      rw [List.nil_append]
      unfold numericVersions
      rw [if_pos ⟨hu, hi⟩]
      rfl
    | cons w ws ih =>
      intro hb
      rw [List.cons_append]
      unfold numericVersions
      rw [if_neg (fun hh => hh.1 (hb w (by simp))), ih (fun x hx => hb x (by simp [hx])), iterLoop_eq]
      rfl
  unfold numericFolds
  rw [hv, key before h]

/-- C114. The multi-agent experiments: for every version the same jobs, and then exactly one job over triplets, without an
iteration. -/
theorem C114_submitted_multi (e : Experiment) (its : List Nat) (attempts : Nat → Nat → Nat) (f : Nat) (vs : List Nat) :
    multiVersions e its attempts f vs = vs.flatMap fun v => (its.flatMap fun i => List.replicate (attempts v i + 1) (false, command e f v i)) ++
      [(true, commandTriplets e f v)] := by
  induction vs with
  | nil => rfl
  | cons v vs ih =>
    unfold multiVersions
    dsimp only
    rw [ih, iterLoop_eq, List.flatMap_cons]
    simp only [List.map_flatMap, List.map_replicate, List.append_assoc, List.singleton_append]
    rfl

theorem lookup_none {l : List Arg} {k : String} (h : ∀ p ∈ l, p.1 ≠ k) : l.lookup k = none := by
  induction l with
  | nil => rfl
  | cons p rest ih =>
    rw [List.lookup_cons]
    rw [show (k == p.1) = false from by simpa using fun e => h p (by simp) e.symm]
    exact ih fun q hq => h q (by simp [hq])

theorem lookup_unique {l : List Arg} {k : String} {x : Name} (h : (k, x) ∈ l) (hu : ∀ p ∈ l, p.1 = k → p.2 = x) : l.lookup k = some x := by
  induction l with
  | nil => cases h
  | cons p rest ih =>
    rw [List.lookup_cons]
    by_cases hp : k = p.1
    · rw [show (k == p.1) = true from by simpa using hp]
      simp only [Option.some.injEq]
      exact hu p (by simp) hp.symm
    · rw [show (k == p.1) = false from by simpa using hp]
      rcases List.mem_cons.mp h with e | h
      · exact absurd (by rw [← e]) hp
      · exact ih h fun q hq => hu q (by simp [hq])

theorem valueOf_none {l : List Arg} {k : String} (h : ∀ p ∈ l, p.1 ≠ k) : valueOf l k = none :=
  lookup_none fun p hp => h p (List.mem_reverse.mp hp)

theorem valueOf_unique {l : List Arg} {k : String} {x : Name} (h : (k, x) ∈ l) (hu : ∀ p ∈ l, p.1 = k → p.2 = x) : valueOf l k = some x :=
  lookup_unique (List.mem_reverse.mpr h) fun p hp => hu p (List.mem_reverse.mp hp)

theorem valueOf_append (a b : List Arg) (k : String) : valueOf (a ++ b) k = (valueOf b k).or (valueOf a k) := by
  unfold valueOf
  rw [List.reverse_append, List.lookup_append]

/-- The options of the jobs that the scripts themselves give. -/
def own : List String := ["fold_number", "learning_algorithm", "iteration_number"]

/-- The entries of the experiment suit a script: they are options of it, among them all that it requires, none of them is one of
the options the submitting script gives, and none occurs twice. -/
def Suits (P : Parser) (e : Experiment) : Prop :=
  (∀ p ∈ passed e, p.1 ∈ P.accepted ∧ p.1 ∉ own) ∧ (∀ k ∈ P.required, k ∉ own → k ∈ (passed e).map Prod.fst) ∧
  ∀ p ∈ passed e, ∀ q ∈ passed e, p.1 = q.1 → p.2 = q.2

theorem own_value {e : Experiment} (h : ∀ p ∈ passed e, p.1 ∉ own) {k : String} (hk : k ∈ own) : valueOf (passed e) k = none :=
  valueOf_none fun p hp he => h p hp (he ▸ hk)

theorem value_fold {e : Experiment} (h : ∀ p ∈ passed e, p.1 ∉ own) (f v i : Nat) :
    valueOf (command e f v i) "fold_number" = some (num f) := by
  unfold command
  rw [valueOf_append, valueOf_append, own_value h (by decide)]
  rfl

theorem value_alg {e : Experiment} (h : ∀ p ∈ passed e, p.1 ∉ own) (f v i : Nat) :
    valueOf (command e f v i) "learning_algorithm" = some (num v) := by
  unfold command
  rw [valueOf_append, valueOf_append, own_value h (by decide)]
  rfl

theorem value_iter (e : Experiment) (f v i : Nat) : valueOf (command e f v i) "iteration_number" = some (num i) := by
  unfold command
  rw [valueOf_append]
  rfl

theorem value_entry {e : Experiment} {p : Arg} (hp : p ∈ passed e) (hown : p.1 ∉ own) (hu : ∀ q ∈ passed e, q.1 = p.1 → q.2 = p.2) (f v i : Nat) :
    valueOf (command e f v i) p.1 = some p.2 := by
  refine valueOf_unique (by unfold command; simp [hp]) ?_
  intro q hq he
  unfold command at hq
  simp only [List.mem_append, List.mem_cons, List.not_mem_nil, or_false] at hq
  rcases hq with ((rfl | rfl) | hq) | rfl
  · exact absurd (he ▸ (by decide : "fold_number" ∈ own)) hown
  · exact absurd (he ▸ (by decide : "learning_algorithm" ∈ own)) hown
  · exact hu q hq he
  · exact absurd (he ▸ (by decide : "iteration_number" ∈ own)) hown

theorem parse_command {P : Parser} {e : Experiment} (hs : Suits P e) (hown : ∀ k ∈ own, k ∈ P.accepted) {v : Nat} (hv : v ∈ P.algorithms) (f i : Nat) :
    P.parse (command e f v i) = some (valueOf (command e f v i)) := by
  unfold Parser.parse
  refine if_pos ⟨?_, ?_, ?_⟩
  · intro a ha
    unfold command at ha
    simp only [List.mem_append, List.mem_cons, List.not_mem_nil, or_false] at ha
    rcases ha with ((rfl | rfl) | ha) | rfl
    · exact hown _ (by dsimp only; decide)
    · exact hown _ (by dsimp only; decide)
    · exact (hs.1 a ha).1
    · exact hown _ (by dsimp only; decide)
  · intro k hk
    unfold command
    simp only [List.map_append, List.map_cons, List.map_nil, List.mem_append, List.mem_cons, List.not_mem_nil, or_false]
    by_cases ho : k ∈ own
    · simp only [own, List.mem_cons, List.not_mem_nil, or_false] at ho
      rcases ho with h | h | h
      · exact .inl (.inl (.inl h))
      · exact .inl (.inl (.inr h))
      · exact .inr h
    · exact .inl (.inr (hs.2.1 k hk ho))
  · intro x hx
    rw [value_alg (fun p hp => (hs.1 p hp).2)] at hx
    cases hx
    exact List.mem_map_of_mem hv

theorem jobDir_command {e : Experiment} (h : ∀ p ∈ passed e, p.1 ∉ own) (f v i : Nat) :
    jobDir (valueOf (command e f v i)) false = jobName f v i := by
  unfold jobDir jobName
  dsimp only
  rw [value_fold h, value_alg h, value_iter]
  rfl

/-- C114. Every job finds its data. If the directories were created for the compared versions and the iterations, the
entries of the experiment suit the script, and there are at most as many folds as splits, then every submitted job starts, with the values of
the experiment, and its directories hold the first trajectories of its own fold and the test problems of that fold. -/
theorem C114_job (P : Parser) (e : Experiment) (hs : Suits P e) (f v i : Nat)
    (hP : P = numericParser ∧ v ∈ [3, 5, 15, 19, 20, 21] ∨ P = multiParser ∧ v ∈ [1, 7, 25]) (hve : v ∈ e.versions)
    (domain : String) (items : List String) (splits : List Split) (its : List Nat) (trip : Bool) (disk : Disk) (conf : List FoldConf)
    (hc : createFolds domain items splits e.versions (some its) trip [] = .ok (disk, conf)) (hi : i ∈ its) (s : Split) (hf : splits[f]? = some s) :
    ∃ p, P.parse (command e f v i) = some p ∧
      (∀ k x, (k, x) ∈ passed e → p k = some x) ∧
      HoldsTraining domain ((trainItems items s).take i) (disk.train (jobDir p false)) ∧
      HoldsTest (testItems items s) (disk.test (jobDir p false)) := by
  have hown : ∀ k ∈ own, k ∈ P.accepted := by rcases hP with ⟨rfl, -⟩ | ⟨rfl, -⟩ <;> decide
  have hv : v ∈ P.algorithms := by rcases hP with ⟨rfl, h⟩ | ⟨rfl, h⟩ <;> exact h
  refine ⟨_, parse_command hs hown hv f i, ?_, ?_⟩
  · intro k x hk
    exact value_entry hk (hs.1 _ hk).2 (fun q hq he => hs.2.2 q hq _ hk he) f v i
  · rw [jobDir_command (fun p hp => (hs.1 p hp).2)]
    exact (C114_first domain items splits e.versions its trip disk conf hc).1 f s v i hf hve hi

/-- C114. An entry of the experiment that repeats an option overrides it, and silently: with an entry `learning_algorithm` the jobs of all compared
versions run that algorithm, on its directories. -/
theorem C114_override (P : Parser) (e : Experiment) (x : Name) (hx : ("learning_algorithm", x) ∈ passed e)
    (hu : ∀ q ∈ passed e, q.1 = "learning_algorithm" → q.2 = x) (f v i : Nat) (p : String → Option Name)
    (hp : P.parse (command e f v i) = some p) :
    p "learning_algorithm" = some x ∧ ((∀ q ∈ passed e, q.1 ≠ "fold_number") →
      jobDir p false = "fold_".toList ++ num f ++ '_' :: x ++ '_' :: num i) := by
  unfold Parser.parse at hp
  split at hp
  · cases hp
    have h1 : valueOf (command e f v i) "learning_algorithm" = some x := by
      unfold command
      rw [valueOf_append, valueOf_append, valueOf_unique hx hu]
      rfl
    refine ⟨h1, fun hq => ?_⟩
    unfold jobDir
    dsimp only
    have h2 : valueOf (command e f v i) "fold_number" = some (num f) := by
      unfold command
      rw [valueOf_append, valueOf_append, valueOf_none hq]
      rfl
    rw [h1, value_iter, h2]
    rfl
  · cases hp

/-- C114. An entry of the experiment that is no option of the script ends every job at once. -/
theorem C114_unknown_entry (P : Parser) (e : Experiment) (q : Arg) (hq : q ∈ passed e) (hn : q.1 ∉ P.accepted) (f v i : Nat) :
    P.parse (command e f v i) = none := by
  unfold Parser.parse
  refine if_neg fun h => hn (h.1 q ?_)
  unfold command
  simp [hq]

/-- C114. A job over triplets starts, and reads the directories of that name: they do not exist after the first creation; after a
creation from saved settings they hold the trajectories of the largest iteration. -/
theorem C114_triplets_job (e : Experiment) (hs : Suits tripletsParser e) (f v : Nat) (hv : v ∈ [1, 7, 25]) (hve : v ∈ e.versions)
    (domain : String) (items : List String) (splits : List Split) (its : List Nat) (trip : Bool) (disk : Disk) (conf : List FoldConf)
    (hc : createFolds domain items splits e.versions (some its) trip [] = .ok (disk, conf)) (s : Split) (hf : splits[f]? = some s) :
    ∃ p, tripletsParser.parse (commandTriplets e f v) = some p ∧
      disk.train (jobDir p true) = none ∧ disk.test (jobDir p true) = none ∧
      ∀ items' splits' its', ∃ disk', createFolds domain items' splits' e.versions (some its') true conf = .ok (disk', conf) ∧
        ∃ m ∈ its, (∀ n ∈ its, n ≤ m) ∧
          HoldsTraining domain ((trainItems items s).take m) (disk'.train (jobDir p true)) ∧
          HoldsTest (testItems items s) (disk'.test (jobDir p true)) := by
  have hno : ∀ p ∈ passed e, p.1 ∉ own := fun p hp => (hs.1 p hp).2
  have v1 : valueOf (commandTriplets e f v) "fold_number" = some (num f) := by
    unfold commandTriplets
    rw [valueOf_append, own_value hno (by decide)]; rfl
  have v2 : valueOf (commandTriplets e f v) "learning_algorithm" = some (num v) := by
    unfold commandTriplets
    rw [valueOf_append, own_value hno (by decide)]; rfl
  have hdir : jobDir (valueOf (commandTriplets e f v)) true = tripletsName f v := by
    unfold jobDir tripletsName
    dsimp only
    rw [v1, v2]
    rfl
  refine ⟨valueOf (commandTriplets e f v), ?_, ?_⟩
  · unfold Parser.parse
    refine if_pos ⟨?_, ?_, ?_⟩
    · intro a ha
      unfold commandTriplets at ha
      simp only [List.mem_append, List.mem_cons, List.not_mem_nil, or_false] at ha
      rcases ha with (rfl | rfl) | ha
      · dsimp only; decide
      · dsimp only; decide
      · exact (hs.1 a ha).1
    · intro k hk
      unfold commandTriplets
      simp only [List.map_append, List.map_cons, List.map_nil, List.mem_append, List.mem_cons, List.not_mem_nil, or_false]
      by_cases ho : k ∈ own
      · simp only [own, List.mem_cons, List.not_mem_nil, or_false] at ho
        rcases ho with h | h | h
        · exact .inl (.inl h)
        · exact .inl (.inr h)
        · subst h
          exact absurd hk (by decide)
      · exact .inr (hs.2.1 k hk ho)
    · intro x hx
      rw [v2] at hx
      cases hx
      exact List.mem_map_of_mem hv
  · rw [hdir]
    obtain ⟨-, -, h3⟩ := C114_first domain items splits e.versions its trip disk conf hc
    refine ⟨(h3 f v).1, (h3 f v).2, fun items' splits' its' => ?_⟩
    have hne : splits ≠ [] := by rintro rfl; simp at hf
    obtain ⟨disk', h1, -, -, h4⟩ := C114_again domain items splits e.versions its trip disk conf hc hne items' splits' e.versions its' true
    exact ⟨disk', h1, h4 f s v hf hve rfl⟩

/-- C114. The job that creates the directories starts exactly when iterations are requested: without them its command line has an
option the script does not know, so that for the online experiments nothing is created. -/
theorem C114_folders_job (dir domain prefixes algs iters size : Name) (createIters random : Bool) :
    (folderParser.parse (folderArgs dir domain prefixes algs iters size createIters random) ≠ none) ↔ createIters = true := by
  cases createIters
  · simp only [Bool.false_eq_true, iff_false, ne_eq, not_not]
    unfold Parser.parse
    refine if_neg fun h => ?_
    have := h.1 ("ignore_internal_iterations", []) (by unfold folderArgs; simp)
    exact absurd this (by decide)
  · simp only [iff_true]
    unfold Parser.parse
    rw [if_pos]
    · simp
    · refine ⟨?_, ?_, ?_⟩
      · intro a ha
        unfold folderArgs at ha
        cases random
        · simp only [reduceIte, Bool.false_eq_true, List.cons_append, List.nil_append, List.mem_cons, List.not_mem_nil, or_false] at ha
          rcases ha with rfl | rfl | rfl | rfl | rfl | rfl | rfl <;> (dsimp only; decide)
        · simp only [reduceIte, List.cons_append, List.nil_append, List.mem_cons, List.not_mem_nil, or_false] at ha
          rcases ha with rfl | rfl | rfl | rfl | rfl | rfl <;> (dsimp only; decide)
      · intro k hk
        unfold folderArgs
        simp only [folderParser, List.mem_cons, List.not_mem_nil, or_false] at hk
        rcases hk with rfl | rfl | rfl | rfl <;> simp
      · intro x hx
        rw [valueOf_none] at hx
        · cases hx
        · intro q hq
          unfold folderArgs at hq
          cases random
          · simp only [reduceIte, Bool.false_eq_true, List.cons_append, List.nil_append, List.mem_cons, List.not_mem_nil, or_false] at hq
            rcases hq with rfl | rfl | rfl | rfl | rfl | rfl | rfl <;> simp
          · simp only [reduceIte, List.cons_append, List.nil_append, List.mem_cons, List.not_mem_nil, or_false] at hq
            rcases hq with rfl | rfl | rfl | rfl | rfl | rfl <;> simp

/-! ### Examples -/

/-- An experiment of the kind of the repository's sample file, without the entry `solver_type`. -/
def sampleExperiment : Experiment :=
  ⟨[3, 15], [("parallelization_data", []), ("compared_versions", []), ("working_directory_path", "dir".toList),
    ("domain_file_name", "domain.pddl".toList), ("problems_prefix", "pfile".toList), ("polynom_degree", "0".toList)]⟩

example : Suits numericParser sampleExperiment := by unfold Suits; decide +kernel

/-- Five items in two splits. -/
def sampleSplits : List Split := [⟨[2, 3, 4], [0, 1]⟩, ⟨[0, 1], [2, 3, 4]⟩]

example : ∃ disk conf, createFolds "domain" ["a", "b", "c", "d", "e"] sampleSplits [3, 15] (some [1, 2]) true [] = .ok (disk, conf) ∧
    conf ≠ [] := ⟨_, _, rfl, by simp⟩

example : testItems ["a", "b", "c", "d", "e"] ⟨[2, 3, 4], [0, 1]⟩ = ["a", "b"] ∧
    (trainItems ["a", "b", "c", "d", "e"] ⟨[2, 3, 4], [0, 1]⟩).take 2 = ["c", "d"] := by decide

/-- The sample file of the repository: version 19 has no name, and `solver_type` is not an option. -/
example : (numericFolds [3, 15, 5] ⟨[3, 19, 15], [("solver_type", "3".toList)]⟩ [1, 2] (fun _ _ _ => 0) 0 5).2 = some .keyError ∧
    (numericFolds [3, 15, 5] ⟨[3, 19, 15], [("solver_type", "3".toList)]⟩ [1, 2] (fun _ _ _ => 0) 0 5).1.length = 2 ∧
    "solver_type" ∉ numericParser.accepted := by decide +kernel

/-- A multi-agent experiment. -/
def sampleMulti : Experiment :=
  ⟨[1, 7], [("working_directory_path", "dir".toList), ("domain_file_name", "domain.pddl".toList), ("executing_agents", "[a,b]".toList)]⟩

example : Suits multiParser sampleMulti ∧ Suits tripletsParser sampleMulti := by unfold Suits; decide +kernel

/-- An entry `learning_algorithm`: every job runs algorithm 3. -/
def sampleOverride : Experiment := { sampleExperiment with entries := ("learning_algorithm", num 3) :: sampleExperiment.entries }

example : (numericParser.parse (command sampleOverride 0 15 1)).isSome ∧ ("learning_algorithm", num 3) ∈ passed sampleOverride ∧
    ∀ q ∈ passed sampleOverride, q.1 = "learning_algorithm" → q.2 = num 3 := by decide +kernel

end Cluster
end Props

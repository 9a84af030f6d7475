import Verif.Model.OnlineResults
import Verif.Props.Results
import Mathlib.Data.List.Basic
import Mathlib.Data.List.Count
import Mathlib.Data.Rat.Defs
import Mathlib.Algebra.Order.Field.Rat
import Mathlib.Tactic.Positivity
import Mathlib.Tactic.Linarith

/-! C105: the collected statistics of the online experiments. -/
namespace Props
namespace OnlineResults
open Model Model.Results Model.OnlineResults

/-- An episode succeeded if the goal was reached or a model solved its problem. -/
def Succeeded (r : Rec) : Prop := r.goal = true ∨ r.safe = "ok" ∨ r.optimistic = "ok"

instance instDecSucceeded (r : Rec) : Decidable (Succeeded r) := by unfold Succeeded; infer_instance

/-- **C105.** The added columns. -/
theorem C105_columns (fold : Nat) (r : Rec) :
    (derive fold r).row = r ∧ (derive fold r).fold = fold ∧
    ((derive fold r).aggregatedSuccess = true ↔ Succeeded r) ∧
    (derive fold r).aggregatedSuccessSolver = (derive fold r).aggregatedSuccess ∧
    ((derive fold r).safeSolved = true ↔ r.safe = "ok") ∧
    ((derive fold r).optimisticNotApplicable = true ↔ r.optimistic = "not_applicable") ∧
    ((derive fold r).optimisticSolved = true ↔ r.safe ≠ "ok" ∧ Succeeded r) ∧
    ((derive fold r).notSolved = true ↔ ¬ Succeeded r ∧ r.optimistic ≠ "not_applicable") := by
  unfold derive Succeeded
  refine ⟨rfl, rfl, ?_, ?_, ?_, ?_, ?_, ?_⟩ <;> dsimp only <;>
    by_cases h1 : r.safe = "ok" <;> by_cases h2 : r.optimistic = "ok" <;> by_cases h3 : r.optimistic = "not_applicable" <;>
    cases h4 : r.goal <;> simp_all

/-- **C105, a limit.** The four verdicts safe, optimistic, not applicable and not solved exclude each other exactly when
an optimistic plan that is not applicable does not come with a success; otherwise two of them hold. -/
theorem C105_verdicts (fold : Nat) (r : Rec) :
    (((derive fold r).safeSolved.toNat + (derive fold r).optimisticSolved.toNat + (derive fold r).optimisticNotApplicable.toNat +
      (derive fold r).notSolved.toNat = 1) ↔ ¬ (r.optimistic = "not_applicable" ∧ Succeeded r)) ∧
    ((r.optimistic = "not_applicable" ∧ Succeeded r) →
      (derive fold r).safeSolved.toNat + (derive fold r).optimisticSolved.toNat + (derive fold r).optimisticNotApplicable.toNat +
      (derive fold r).notSolved.toNat = 2) := by
  unfold derive Succeeded
  have hs : (r.safe == "ok") = decide (r.safe = "ok") := by rw [Bool.beq_eq_decide_eq]
  have ho : ∀ x, (r.optimistic == x) = decide (r.optimistic = x) := by intro x; rw [Bool.beq_eq_decide_eq]
  rw [hs, ho, ho]
  constructor <;> dsimp only <;>
    by_cases h1 : r.safe = "ok" <;> by_cases h2 : r.optimistic = "ok" <;> by_cases h3 : r.optimistic = "not_applicable" <;>
    cases h4 : r.goal <;> simp_all

theorem strLe_refl (x : Name) : strLe x x = true := by
  induction x with
  | nil => rfl
  | cons a x ih => rw [strLe, if_pos rfl, ih]

theorem strLe_total (x y : Name) : strLe x y = true ∨ strLe y x = true := by
  induction x generalizing y with
  | nil => exact Or.inl rfl
  | cons a x ih =>
    cases y with
    | nil => exact Or.inr rfl
    | cons b y =>
      rw [strLe, strLe]
      by_cases h : a = b
      · subst h; rw [if_pos rfl, if_pos rfl]; exact ih y
      · rw [if_neg h, if_neg (Ne.symm h), decide_eq_true_eq, decide_eq_true_eq]
        have : a.toNat ≠ b.toNat := fun e => h (Char.toNat_inj.mp e)
        omega

theorem strLe_antisymm {x y : Name} (h : strLe x y = true) (h' : strLe y x = true) : x = y := by
  induction x generalizing y with
  | nil =>
    cases y with
    | nil => rfl
    | cons b y => cases h'
  | cons a x ih =>
    cases y with
    | nil => cases h
    | cons b y =>
      rw [strLe] at h h'
      by_cases e : a = b
      · subst e
        rw [if_pos rfl] at h h'
        rw [ih h h']
      · rw [if_neg e, decide_eq_true_eq] at h
        rw [if_neg (Ne.symm e), decide_eq_true_eq] at h'
        omega

theorem strLe_trans {x y z : Name} (h : strLe x y = true) (h' : strLe y z = true) : strLe x z = true := by
  induction x generalizing y z with
  | nil => rfl
  | cons a x ih =>
    cases y with
    | nil => cases h
    | cons b y =>
      cases z with
      | nil => cases h'
      | cons c z =>
        rw [strLe] at h h' ⊢
        by_cases e : a = b
        · subst e
          rw [if_pos rfl] at h
          by_cases e' : a = c
          · subst e'; rw [if_pos rfl] at h' ⊢; exact ih h h'
          · rw [if_neg e'] at h' ⊢; exact h'
        · rw [if_neg e, decide_eq_true_eq] at h
          by_cases e' : b = c
          · subst e'
            rw [if_neg e, decide_eq_true_eq]
            exact h
          · rw [if_neg e', decide_eq_true_eq] at h'
            have : a ≠ c := fun e => by subst e; omega
            rw [if_neg this, decide_eq_true_eq]
            omega

theorem strLe_append (p x y : Name) : strLe (p ++ x) (p ++ y) = strLe x y := by
  induction p with
  | nil => rfl
  | cons a p ih => rw [List.cons_append, List.cons_append, strLe, if_pos rfl, ih]

theorem sortedGlob_perm {α : Type} (pre suf : Name) (files : List (Name × α)) :
    (sortedGlob pre suf files).Perm (files.filter fun p => glob pre suf p.1) := List.perm_insertionSort _ _

theorem sortedGlob_sorted {α : Type} (pre suf : Name) (files : List (Name × α)) :
    (sortedGlob pre suf files).Pairwise fun p q => strLe p.1 q.1 = true :=
  haveI : Std.Total (fun p q : Name × α => strLe p.1 q.1 = true) := ⟨fun a b => strLe_total a.1 b.1⟩
  haveI : IsTrans (Name × α) (fun p q => strLe p.1 q.1 = true) := ⟨fun _ _ _ h h' => strLe_trans h h'⟩
  List.pairwise_insertionSort _ _

/-- Two sorted lists with the same names and distinct names are equal. -/
theorem sorted_unique {α : Type} {l l' : List (Name × α)} (hp : l.Perm l') (hn : (l'.map Prod.fst).Nodup)
    (h : l.Pairwise fun p q => strLe p.1 q.1 = true) (h' : l'.Pairwise fun p q => strLe p.1 q.1 = true) : l = l' := by
  apply hp.eq_of_pairwise _ h h'
  intro a b ha hb h1 h2
  exact List.inj_on_of_nodup_map hn (hp.mem_iff.mp ha) hb (strLe_antisymm h1 h2)

theorem glob_iff {pre suf n : Name} : glob pre suf n = true ↔ ∃ x, n = pre ++ x ++ suf := by
  unfold glob
  rw [Bool.and_eq_true, Bool.and_eq_true, decide_eq_true_eq, List.isPrefixOf_iff_prefix, List.isSuffixOf_iff_suffix]
  constructor
  · rintro ⟨⟨⟨t, rfl⟩, ⟨u, h⟩⟩, hl⟩
    rw [List.length_append] at hl
    have : suf.length ≤ t.length := by omega
    obtain ⟨x, hx⟩ := (List.suffix_of_suffix_length_le ⟨u, h⟩ ⟨pre, rfl⟩ this)
    exact ⟨x, by rw [← hx, List.append_assoc]⟩
  · rintro ⟨x, rfl⟩
    exact ⟨⟨⟨x ++ suf, by simp⟩, ⟨pre ++ x, rfl⟩⟩, by simp⟩

theorem alg_lit (a : Alg) : 35 ≤ (a.name ++ "_exploration_statistics_fold_".toList).length := by cases a <;> decide

theorem alg_take {a b : Alg} (h : (a.name ++ "_exploration_statistics_fold_".toList).take 35 =
    (b.name ++ "_exploration_statistics_fold_".toList).take 35) : a = b := by
  revert h
  cases a <;> cases b <;> first | exact fun _ => rfl | (intro h; exact absurd h (by decide))

theorem alg_prefix {a b : Alg} {x y : Name}
    (h : a.name ++ "_exploration_statistics_fold_".toList ++ x = b.name ++ "_exploration_statistics_fold_".toList ++ y) : a = b := by
  apply alg_take
  have := congrArg (List.take 35) h
  rwa [List.take_append_of_le_length (alg_lit a), List.take_append_of_le_length (alg_lit b)] at this

/-- **C105.** The files found for an algorithm are those of this algorithm, whatever other algorithms have written. -/
theorem C105_glob (a b : Alg) (f : Nat) :
    glob (a.name ++ "_exploration_statistics_fold_".toList) ".csv".toList (exploreName b f) = true ↔ a = b := by
  rw [glob_iff]
  constructor
  · rintro ⟨x, h⟩
    unfold exploreName at h
    rw [List.append_assoc _ (num f), List.append_assoc _ x] at h
    exact (alg_prefix h).symm
  · rintro rfl
    exact ⟨num f, rfl⟩

/-- **C105.** With no file it raises; otherwise the rows of all the files of the algorithm are collected, each once, unchanged, with
the columns of `C105_columns`; the label of the fold is the position of the name in alphabetical order. -/
theorem C105_rows (a : Alg) (files : List (Name × List Rec)) (hn : (files.map Prod.fst).Nodup) :
    (unify a files = .error .valueError ↔ ∀ p ∈ files, glob (a.name ++ "_exploration_statistics_fold_".toList) ".csv".toList p.1 = false) ∧
    ∀ out, unify a files = .ok out → ∃ order : List (Name × List Rec),
      order.Perm (files.filter fun p => glob (a.name ++ "_exploration_statistics_fold_".toList) ".csv".toList p.1) ∧
      order.Pairwise (fun p q => strLe p.1 q.1 = true ∧ p.1 ≠ q.1) ∧
      out.map Out.row = order.flatMap Prod.snd ∧
      out = order.zipIdx.flatMap fun p => p.1.2.map (derive p.2) := by
  have hperm := sortedGlob_perm (a.name ++ "_exploration_statistics_fold_".toList) ".csv".toList files
  unfold unify
  dsimp only
  constructor
  · by_cases h : sortedGlob (a.name ++ "_exploration_statistics_fold_".toList) ".csv".toList files = []
    · rw [if_pos h]
      rw [h] at hperm
      have := List.filter_eq_nil_iff.mp (List.nil_perm.mp hperm)
      exact ⟨fun _ p hp => by simpa using this p hp, fun _ => rfl⟩
    · rw [if_neg h]
      constructor
      · intro k; cases k
      · intro k
        exfalso
        apply h
        have : (files.filter fun p => glob (a.name ++ "_exploration_statistics_fold_".toList) ".csv".toList p.1) = [] := by
          rw [List.filter_eq_nil_iff]
          intro p hp
          rw [k p hp]
          simp
        rw [this] at hperm
        exact List.perm_nil.mp hperm
  · intro out h
    by_cases h' : sortedGlob (a.name ++ "_exploration_statistics_fold_".toList) ".csv".toList files = []
    · rw [if_pos h'] at h; cases h
    · rw [if_neg h'] at h
      have h := (Except.ok.inj h).symm
      subst h
      refine ⟨_, hperm, ?_, ?_, rfl⟩
      · rw [List.pairwise_and_iff]
        refine ⟨sortedGlob_sorted _ _ _, ?_⟩
        have h1 : ((files.filter fun p => glob (a.name ++ "_exploration_statistics_fold_".toList) ".csv".toList p.1).map Prod.fst).Nodup :=
          hn.sublist (List.filter_sublist.map _)
        have h2 := (hperm.map Prod.fst).nodup_iff.mpr h1
        rw [List.Nodup, List.pairwise_map] at h2
        exact h2
      · rw [List.map_flatMap]
        simp only [List.map_map]
        have : ∀ n, (Out.row ∘ derive n) = id := by intro n; funext r; rfl
        simp only [this, List.map_id]
        generalize sortedGlob (a.name ++ "_exploration_statistics_fold_".toList) ".csv".toList files = l
        have h3 : ∀ (l : List (Name × List Rec)) k, (l.zipIdx k).flatMap (fun p => p.1.2) = l.flatMap Prod.snd := by
          intro l
          induction l with
          | nil => intro k; rfl
          | cons x l ih => intro k; rw [List.zipIdx_cons, List.flatMap_cons, List.flatMap_cons, ih]
        exact h3 l 0

/-- The statistics of `n` folds. -/
def folds (a : Alg) (n : Nat) (recs : Nat → List Rec) : List (Name × List Rec) := (List.range n).map fun f => (exploreName a f, recs f)

theorem explore_inj {a : Alg} {f g : Nat} (h : exploreName a f = exploreName a g) : f = g := by
  unfold exploreName at h
  have := List.append_cancel_right h
  exact num_inj' (List.append_cancel_left this)
where num_inj' {m n : Nat} (h : num m = num n) : m = n := Props.Results.num_inj h

theorem digits_sorted : ∀ g < 10, ∀ f < g, strLe (num f ++ ".csv".toList) (num g ++ ".csv".toList) = true := by decide +kernel

theorem folds_nodup (a : Alg) (n : Nat) (recs : Nat → List Rec) : ((folds a n recs).map Prod.fst).Nodup := by
  unfold folds
  rw [List.map_map]
  exact List.Nodup.map (fun f g h => explore_inj h) List.nodup_range

theorem folds_filter (a : Alg) (n : Nat) (recs : Nat → List Rec) :
    ((folds a n recs).filter fun p => glob (a.name ++ "_exploration_statistics_fold_".toList) ".csv".toList p.1) = folds a n recs := by
  rw [List.filter_eq_self]
  intro p hp
  unfold folds at hp
  obtain ⟨f, -, rfl⟩ := List.mem_map.mp hp
  exact (C105_glob a a f).mpr rfl

theorem strLe_explore (a : Alg) (f g : Nat) : strLe (exploreName a f) (exploreName a g) = strLe (num f ++ ".csv".toList) (num g ++ ".csv".toList) := by
  unfold exploreName
  rw [List.append_assoc _ (num f), List.append_assoc _ (num g), strLe_append]

/-- **C105, a limit.** The label of a fold is its number for every fold exactly when there are at most ten: with more,
fold 10 sorts before fold 2. -/
theorem C105_labels (a : Alg) {n : Nat} (hn : 0 < n) (recs : Nat → List Rec) :
    (n ≤ 10 → unify a (folds a n recs) = .ok ((List.range n).flatMap fun f => (recs f).map (derive f))) ∧
    (10 < n → ∃ out g, unify a (folds a n recs) = .ok out ∧ g ≠ 2 ∧ g < n ∧
      ∀ o, o ∈ out → o.fold = 2 → o.row ∈ recs g) := by
  have hne : (folds a n recs) ≠ [] := by
    unfold folds
    intro h
    have := congrArg List.length h
    simp at this
    omega
  have hperm := sortedGlob_perm (a.name ++ "_exploration_statistics_fold_".toList) ".csv".toList (folds a n recs)
  rw [folds_filter] at hperm
  have hs := sortedGlob_sorted (a.name ++ "_exploration_statistics_fold_".toList) ".csv".toList (folds a n recs)
  have hne' : sortedGlob (a.name ++ "_exploration_statistics_fold_".toList) ".csv".toList (folds a n recs) ≠ [] := by
    intro h; rw [h] at hperm; exact hne (List.nil_perm.mp hperm)
  have hu : unify a (folds a n recs) = .ok ((sortedGlob (a.name ++ "_exploration_statistics_fold_".toList) ".csv".toList (folds a n recs)).zipIdx.flatMap
      fun p => p.1.2.map (derive p.2)) := by
    unfold unify; dsimp only; rw [if_neg hne']
  constructor
  · intro h10
    have hsorted : (folds a n recs).Pairwise fun p q => strLe p.1 q.1 = true := by
      unfold folds
      rw [List.pairwise_map]
      apply List.Pairwise.imp_of_mem _ (List.pairwise_lt_range (n := n))
      intro f g hf hg hfg
      rw [List.mem_range] at hg
      dsimp only
      rw [strLe_explore]
      exact digits_sorted g (by omega) f hfg
    rw [hu, sorted_unique hperm (folds_nodup a n recs) hs hsorted]
    congr 1
    unfold folds
    rw [List.zipIdx_map, List.flatMap_map]
    have : (List.range n).zipIdx = (List.range n).map fun f => (f, f) := by
      apply List.ext_getElem
      · simp
      · intro i h1 h2; simp
    rw [this, List.flatMap_map]
    rfl
  · intro h10
    rw [hu]
    set l := sortedGlob (a.name ++ "_exploration_statistics_fold_".toList) ".csv".toList (folds a n recs) with hl
    have hlen : l.length = n := by rw [hperm.length_eq]; simp [folds]
    have h2 : 2 < l.length := by omega
    have hmem : l[2] ∈ folds a n recs := hperm.mem_iff.mp (List.getElem_mem h2)
    unfold folds at hmem
    obtain ⟨g, hg, hge⟩ := List.mem_map.mp hmem
    rw [List.mem_range] at hg
    refine ⟨_, g, rfl, ?_, hg, ?_⟩
    · rintro rfl
      -- 0, 1 and 10 all sort before 2
      have before : ∀ f, f = 0 ∨ f = 1 ∨ f = 10 → ∃ i : Fin 2, l[i.1]'(by omega) = (exploreName a f, recs f) := by
        intro f hf
        have hm : (exploreName a f, recs f) ∈ l := by
          rw [hperm.mem_iff]
          unfold folds
          exact List.mem_map.mpr ⟨f, List.mem_range.mpr (by omega), rfl⟩
        obtain ⟨i, hi, hie⟩ := List.getElem_of_mem hm
        by_cases h : i < 2
        · exact ⟨⟨i, h⟩, hie⟩
        · exfalso
          have hlt : strLe (num 2 ++ ".csv".toList) (num f ++ ".csv".toList) = false := by
            rcases hf with rfl | rfl | rfl <;> decide +kernel
          have hne2 : (2 : Nat) ≠ i := by
            rintro rfl
            rw [← hge] at hie
            have := explore_inj (congrArg Prod.fst hie)
            omega
          have := List.pairwise_iff_getElem.mp hs 2 i h2 hi (by omega)
          rw [hie, ← hge] at this
          dsimp only at this
          rw [strLe_explore, hlt] at this
          cases this
      obtain ⟨i0, e0⟩ := before 0 (by simp)
      obtain ⟨i1, e1⟩ := before 1 (by simp)
      obtain ⟨i2, e2⟩ := before 10 (by simp)
      have d01 : i0 ≠ i1 := by
        rintro rfl; rw [e0] at e1; have := explore_inj (congrArg Prod.fst e1); omega
      have d02 : i0 ≠ i2 := by
        rintro rfl; rw [e0] at e2; have := explore_inj (congrArg Prod.fst e2); omega
      have d12 : i1 ≠ i2 := by
        rintro rfl; rw [e1] at e2; have := explore_inj (congrArg Prod.fst e2); omega
      omega
    · intro o ho hf
      rw [List.mem_flatMap] at ho
      obtain ⟨⟨p, k⟩, hp, ho⟩ := ho
      obtain ⟨r, hr, rfl⟩ := List.mem_map.mp ho
      have hk : k = 2 := hf
      subst hk
      rw [List.mem_zipIdx_iff_getElem?] at hp
      dsimp only at hp hr
      have : p = l[2] := by
        rw [List.getElem?_eq_getElem h2] at hp
        exact (Option.some.inj hp).symm
      rw [this, ← hge] at hr
      exact hr

theorem countP_le_one {l : List Rec} (hn : (l.map Rec.episode).Nodup) (e : Nat) (P : Rec → Prop) [DecidablePred P] (hP : ∀ r, P r → r.episode = e) :
    l.countP (fun r => decide (P r)) = if ∃ r ∈ l, P r then 1 else 0 := by
  induction l with
  | nil => simp
  | cons x l ih =>
    rw [List.map_cons, List.nodup_cons] at hn
    rw [List.countP_cons, ih hn.2]
    by_cases h : P x
    · have hno : ¬ ∃ r ∈ l, P r := by
        rintro ⟨r, hr, h'⟩
        apply hn.1
        rw [hP x h, ← hP r h']
        exact List.mem_map_of_mem hr
      rw [if_neg hno, if_pos (by simpa using h), if_pos ⟨x, by simp, h⟩]
    · rw [if_neg (c := decide (P x) = true) (by simpa using h), Nat.add_zero]
      apply if_congr _ rfl rfl
      constructor
      · rintro ⟨r, hr, h'⟩; exact ⟨r, List.mem_cons_of_mem _ hr, h'⟩
      · rintro ⟨r, hr, h'⟩
        rcases List.mem_cons.mp hr with rfl | hr
        · exact absurd h' h
        · exact ⟨r, hr, h'⟩

theorem countP_folds (n : Nat) (recs : Nat → List Rec) (hn : ∀ f, ((recs f).map Rec.episode).Nodup) (e : Nat) (P : Rec → Prop)
    [DecidablePred P] (hP : ∀ r, P r → r.episode = e) :
    ((List.range n).flatMap recs).countP (fun r => decide (P r)) = ((Finset.range n).filter fun f => ∃ r ∈ recs f, P r).card := by
  induction n with
  | zero => simp
  | succ n ih =>
    rw [List.range_succ, List.flatMap_append, List.countP_append, ih, Finset.range_add_one, Finset.filter_insert]
    rw [List.flatMap_cons, List.flatMap_nil, List.append_nil, countP_le_one (hn n) e P hP]
    by_cases h : ∃ r ∈ recs n, P r
    · rw [if_pos h, if_pos h, Finset.card_insert_of_notMem (by simp)]
    · rw [if_neg h, if_neg h, Nat.add_zero]

/-- **C105.** A cell of the table of all algorithms: the number of folds whose episode of that number succeeded, over the number of folds that
have such an episode; folds that ended earlier do not count. Empty if no fold has it. -/
theorem C105_mean (a : Alg) {n : Nat} (h0 : 0 < n) (recs : Nat → List Rec) (ha : ∀ f, ∀ r ∈ recs f, r.alg = a)
    (he : ∀ f, ((recs f).map Rec.episode).Nodup) (e : Nat) :
    ∃ out, unifyAll [a] (folds a n recs) = .ok out ∧
      (pivot out e a = none ↔ ∀ f < n, ∀ r ∈ recs f, r.episode ≠ e) ∧
      ∀ q, pivot out e a = some q →
        q = (((Finset.range n).filter fun f => ∃ r ∈ recs f, r.episode = e ∧ Succeeded r).card : Rat) /
            (((Finset.range n).filter fun f => ∃ r ∈ recs f, r.episode = e).card : Rat) := by
  cases hu : unify a (folds a n recs) with
  | error er =>
    exfalso
    have h1 : er = .valueError := by
      unfold unify at hu
      dsimp only at hu
      split_ifs at hu
      exact (Except.error.inj hu).symm
    subst h1
    have := ((C105_rows a _ (folds_nodup a n recs)).1.mp hu) (exploreName a 0, recs 0)
      (List.mem_map.mpr ⟨0, List.mem_range.mpr h0, rfl⟩)
    rw [(C105_glob a a 0).mpr rfl] at this
    cases this
  | ok out =>
    obtain ⟨order, hperm, -, hrow, hout⟩ := (C105_rows a _ (folds_nodup a n recs)).2 out hu
    rw [folds_filter] at hperm
    have hrows : (out.map Out.row).Perm ((List.range n).flatMap recs) := by
      rw [hrow]
      have := hperm.flatMap_right Prod.snd
      unfold folds at this
      rwa [List.flatMap_map] at this
    have hagg : ∀ o ∈ out, o.aggregatedSuccess = decide (Succeeded o.row) := by
      intro o ho
      rw [hout, List.mem_flatMap] at ho
      obtain ⟨p, -, ho⟩ := ho
      obtain ⟨r, -, rfl⟩ := List.mem_map.mp ho
      have := (C105_columns p.2 r).2.2.1
      rw [(C105_columns p.2 r).1]
      by_cases h : Succeeded r
      · rw [this.mpr h, decide_eq_true h]
      · rw [decide_eq_false h]
        exact Bool.eq_false_iff.mpr fun k => h (this.mp k)
    have hal : ∀ o ∈ out, o.row.alg = a := by
      intro o ho
      have : o.row ∈ (List.range n).flatMap recs := hrows.mem_iff.mp (List.mem_map_of_mem ho)
      obtain ⟨f, -, hr⟩ := List.mem_flatMap.mp this
      exact ha f _ hr
    have hlen : (out.filter fun o => decide (o.row.episode = e ∧ o.row.alg = a)).length =
        ((Finset.range n).filter fun f => ∃ r ∈ recs f, r.episode = e).card := by
      rw [← countP_folds n recs he e (fun r => r.episode = e) (fun _ h => h), ← hrows.countP_eq, List.countP_map, ← List.countP_eq_length_filter]
      apply List.countP_congr
      intro o ho
      simp [hal o ho]
    have hsucc : (out.filter fun o => decide (o.row.episode = e ∧ o.row.alg = a)).countP Out.aggregatedSuccess =
        ((Finset.range n).filter fun f => ∃ r ∈ recs f, r.episode = e ∧ Succeeded r).card := by
      rw [← countP_folds n recs he e (fun r => r.episode = e ∧ Succeeded r) (fun _ h => h.1), ← hrows.countP_eq, List.countP_map, List.countP_filter]
      apply List.countP_congr
      intro o ho
      simp [hal o ho, hagg o ho, and_comm]
    refine ⟨out, ?_, ?_, ?_⟩
    · unfold unifyAll
      rw [List.mapM_cons, hu]
      simp [Bind.bind, Except.bind, pure, Except.pure]
    · unfold pivot
      dsimp only
      by_cases h : (out.filter fun o => decide (o.row.episode = e ∧ o.row.alg = a)) = []
      · rw [if_pos h]
        refine ⟨fun _ f hf r hr hre => ?_, fun _ => rfl⟩
        rw [h, List.length_nil] at hlen
        have := Finset.card_eq_zero.mp hlen.symm
        have hf' : f ∈ (Finset.range n).filter fun f => ∃ r ∈ recs f, r.episode = e :=
          Finset.mem_filter.mpr ⟨Finset.mem_range.mpr hf, r, hr, hre⟩
        rw [this] at hf'
        cases hf'
      · rw [if_neg h]
        refine ⟨(fun k => by cases k), fun k => ?_⟩
        exfalso
        apply h
        rw [← List.length_eq_zero_iff, hlen, Finset.card_eq_zero, Finset.filter_eq_empty_iff]
        rintro f hf ⟨r, hr, hre⟩
        exact k f (Finset.mem_range.mp hf) r hr hre
    · intro q hq
      unfold pivot at hq
      dsimp only at hq
      split_ifs at hq
      rw [hsucc, hlen] at hq
      exact (Option.some.inj hq).symm

/-- **C105, a limit.** Files of the test set carry the number of training problems besides the fold. Two of them from the same fold get
different labels: every file counts as a fold. -/
theorem C105_solving_labels (a : Alg) {α : Type} (files : List (Name × List α)) {out : List (α × Nat)} (h : collectSolving a files = .ok out)
    (hne : ∀ p ∈ files, p.2 ≠ []) :
    (out.map Prod.snd).toFinset = Finset.range (files.filter fun p => glob (a.name ++ "_problem_solving_stats_fold_".toList) ".csv".toList p.1).length := by
  unfold collectSolving at h
  dsimp only at h
  split_ifs at h
  have h := (Except.ok.inj h).symm
  subst h
  have hperm := sortedGlob_perm (a.name ++ "_problem_solving_stats_fold_".toList) ".csv".toList files
  rw [← hperm.length_eq]
  have hl : ∀ p ∈ sortedGlob (a.name ++ "_problem_solving_stats_fold_".toList) ".csv".toList files, p.2 ≠ [] :=
    fun p hp => hne p (List.mem_filter.mp (hperm.mem_iff.mp hp)).1
  generalize sortedGlob (a.name ++ "_problem_solving_stats_fold_".toList) ".csv".toList files = l at hl
  ext k
  rw [List.mem_toFinset, Finset.mem_range, List.mem_map]
  constructor
  · rintro ⟨x, hx, rfl⟩
    obtain ⟨⟨p, i⟩, hp, hx⟩ := List.mem_flatMap.mp hx
    obtain ⟨y, -, rfl⟩ := List.mem_map.mp hx
    rw [List.mem_zipIdx_iff_getElem?] at hp
    obtain ⟨hlt, -⟩ := List.getElem?_eq_some_iff.mp hp
    exact hlt
  · intro hk
    obtain ⟨x, hx⟩ := List.exists_mem_of_ne_nil _ (hl l[k] (List.getElem_mem hk))
    exact ⟨(x, k), List.mem_flatMap.mpr ⟨(l[k], k), List.mem_zipIdx_iff_getElem?.mpr (List.getElem?_eq_getElem hk), List.mem_map.mpr ⟨x, hx, rfl⟩⟩, rfl⟩

/-! ### A concrete case -/
namespace Case

def ep (e : Nat) (s o : String) (g : Bool) : Rec := ⟨e, .noamLearning, s, o, g⟩
/-- Two folds with two and one episodes. -/
def recs : Nat → List Rec
  | 0 => [ep 1 "no_solution" "not_applicable" true, ep 2 "ok" "irrelevant" true]
  | 1 => [ep 1 "no_solution" "timeout" false]
  | _ => []

example : (∀ f, ∀ r ∈ recs f, r.alg = .noamLearning) ∧ ∀ f, ((recs f).map Rec.episode).Nodup := by
  constructor <;> intro f <;> match f with
    | 0 => decide
    | 1 => decide
    | n + 2 => simp [recs]

example : (unifyAll [.noamLearning] (folds .noamLearning 2 recs)).toOption.map (fun out => [pivot out 1 .noamLearning, pivot out 2 .noamLearning, pivot out 3 .noamLearning]) =
    some [some (1 / 2), some 1, none] := by decide +kernel

/-- The first episode of fold 0 is counted as solved by the optimistic model and as not applicable. -/
example : ((derive 0 (ep 1 "no_solution" "not_applicable" true)).optimisticSolved, (derive 0 (ep 1 "no_solution" "not_applicable" true)).optimisticNotApplicable) =
    (true, true) := by decide

/-- With eleven folds the rows labelled 2 are those of fold 10. -/
example : (unify .noamLearning (folds .noamLearning 11 fun f => [ep f "ok" "ok" true])).toOption.map (fun out => out.map fun o => (o.fold, o.row.episode)) =
    some [(0, 0), (1, 1), (2, 10), (3, 2), (4, 3), (5, 4), (6, 5), (7, 6), (8, 7), (9, 8), (10, 9)] := by decide +kernel

end Case

end OnlineResults
end Props

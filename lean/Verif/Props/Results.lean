import Verif.Model.Results
import Mathlib.Data.List.Basic

/-! C104: the result files of the experiments. -/
namespace Props
namespace Results
open Model Model.Results

theorem num_inj {m n : Nat} (h : num m = num n) : m = n := by
  have := congrArg (fun l => Nat.ofDigitChars 10 l 0) h
  simpa [num, Nat.ofDigitChars_ten_toDigits] using this

theorem num_ne_nil (n : Nat) : num n ≠ [] := Nat.toDigits_ne_nil

theorem under_num (n : Nat) : '_' ∉ num n := Nat.underscore_not_in_toDigits

theorem digit_num {n : Nat} {c : Char} (h : c ∈ num n) : c.isDigit = true := Nat.isDigit_of_mem_toDigits (by omega) (by omega) h

theorem split_last {a a' d d' : Name} (hd : '_' ∉ d) (hd' : '_' ∉ d') (h : a ++ '_' :: d = a' ++ '_' :: d') : a = a' ∧ d = d' := by
  rcases List.append_eq_append_iff.mp h with ⟨as, h1, h2⟩ | ⟨as, h1, h2⟩
  · cases as with
    | nil => simp at h1 h2; exact ⟨h1.symm, h2⟩
    | cons c as =>
      simp at h2
      exact absurd (by rw [h2.2]; simp) hd
  · cases as with
    | nil => simp at h1 h2; exact ⟨h1, h2.symm⟩
    | cons c as =>
      simp at h2
      exact absurd (by rw [h2.2]; simp) hd'

/-- The common beginning of the files of a kind. -/
def stem (dom : Name) (k : Kind) (a : Alg) : Name :=
  match k with
  | .solving => a.name ++ "_problem_solving".toList ++ "_stats_fold".toList
  | .semantic => a.name ++ ('_' :: dom)
  | .syntactic => a.name ++ ('_' :: dom) ++ "_action".toList ++ "_stats_fold".toList
  | .numeric => a.name ++ ('_' :: dom) ++ "_numeric_learning_performance".toList ++ "_stats_fold".toList

/-- Their common end. -/
def sfx : Kind → Name
  | .solving => "_trajectories".toList
  | .semantic => "_semantic_performance".toList
  | _ => []

theorem lit_solving : "_problem_solving_stats_fold_".toList = "_problem_solving".toList ++ ("_stats_fold".toList ++ ['_']) := by decide
theorem lit_action : "action_stats_fold".toList = "action".toList ++ "_stats_fold".toList := by decide
theorem lit_action' : "_action".toList = '_' :: "action".toList := by decide
theorem lit_action'' : "_action_stats_fold_".toList = "_action".toList ++ ("_stats_fold".toList ++ ['_']) := by decide
theorem lit_numeric : "_numeric_learning_performance_stats_fold_".toList =
    "_numeric_learning_performance".toList ++ ("_stats_fold".toList ++ ['_']) := by decide
theorem lit_traj : "_trajectories.csv".toList = "_trajectories".toList ++ ".csv".toList := by decide
theorem lit_sem : "_semantic_performance.csv".toList = "_semantic_performance".toList ++ ".csv".toList := by decide

theorem name_some (dom : Name) (k : Kind) (a : Alg) (f i : Nat) :
    fileName dom k a f (some i) = ((stem dom k a ++ '_' :: num f) ++ '_' :: num i) ++ sfx k ++ ".csv".toList := by
  cases k <;> unfold fileName stem sfx <;> dsimp only
  · rw [lit_solving]; simp only [List.append_assoc, List.cons_append, List.nil_append]
  · rw [lit_sem]; simp only [List.append_assoc, List.cons_append, List.nil_append]
  · rw [lit_action, lit_action']; simp only [List.append_assoc, List.cons_append, List.nil_append]
  · rw [lit_numeric]; simp only [List.append_assoc, List.cons_append, List.nil_append]

theorem name_none (dom : Name) {k : Kind} (hk : k ≠ .semantic) (a : Alg) (f : Nat) :
    fileName dom k a f none = (stem dom k a ++ '_' :: num f) ++ ".csv".toList := by
  cases k <;> unfold fileName stem <;> dsimp only
  · rw [lit_solving]; simp only [List.append_assoc, List.cons_append, List.nil_append]
  · exact absurd rfl hk
  · rw [lit_action, lit_action']; simp only [List.append_assoc, List.cons_append, List.nil_append]
  · rw [lit_numeric]; simp only [List.append_assoc, List.cons_append, List.nil_append]

theorem name_none_semantic (dom : Name) (a : Alg) (f : Nat) :
    fileName dom .semantic a f none = ((stem dom .semantic a ++ '_' :: num f) ++ '_' :: []) ++ sfx .semantic ++ ".csv".toList := by
  unfold fileName stem sfx; dsimp only
  rw [lit_sem]; simp only [List.append_assoc, List.cons_append, List.nil_append]

theorem alg_name_inj {a b : Alg} (h : a.name = b.name) : a = b := by
  cases a <;> cases b <;> first | rfl | exact absurd h (by decide)

theorem stem_alg_inj {dom : Name} {k : Kind} {a b : Alg} (h : stem dom k a = stem dom k b) : a = b := by
  apply alg_name_inj
  cases k <;> simp only [stem, List.append_cancel_right_eq] at h <;> exact h

/-- The last character. -/
theorem last_digit {x : Name} (n : Nat) : ∃ c, (x ++ '_' :: num n).getLast? = some c ∧ c.isDigit = true := by
  have : num n ≠ [] := num_ne_nil n
  refine ⟨(num n).getLast this, ?_, digit_num (List.getLast_mem this)⟩
  rw [List.getLast?_append_cons, List.getLast?_cons, List.getLast?_eq_some_getLast this]
  rfl

theorem lit_last {x : Name} {s : Name} {c : Char} (h : s.getLast? = some c) : (x ++ s).getLast? = some c := by
  rw [List.getLast?_append, h]; rfl

/-- What stands before the last number or before the end of the kind. -/
def body (dom : Name) (k : Kind) (a : Alg) (f : Nat) : Option Nat → Name
  | some i => ((stem dom k a ++ '_' :: num f) ++ '_' :: num i) ++ sfx k
  | none => if k = .semantic then ((stem dom k a ++ '_' :: num f) ++ '_' :: []) ++ sfx k else stem dom k a ++ '_' :: num f

theorem name_body (dom : Name) (k : Kind) (a : Alg) (f : Nat) (it : Option Nat) :
    fileName dom k a f it = body dom k a f it ++ ".csv".toList := by
  cases it with
  | some i => exact name_some ..
  | none =>
    unfold body
    split_ifs with h
    · subst h; exact name_none_semantic ..
    · exact name_none dom h a f

theorem sfx_syn : sfx .syntactic = [] := rfl
theorem sfx_num : sfx .numeric = [] := rfl

theorem body_last (dom : Name) (k : Kind) (a : Alg) (f : Nat) (it : Option Nat) :
    ∃ c, (body dom k a f it).getLast? = some c ∧
      ((k = .semantic ∧ c = 'e') ∨ (k = .solving ∧ it ≠ none ∧ c = 's') ∨
        (k ≠ .semantic ∧ (k = .solving → it = none) ∧ c.isDigit = true)) := by
  cases it with
  | some i =>
    unfold body
    cases k with
    | solving => exact ⟨'s', lit_last (by decide), Or.inr (Or.inl ⟨rfl, by simp, rfl⟩)⟩
    | semantic => exact ⟨'e', lit_last (by decide), Or.inl ⟨rfl, rfl⟩⟩
    | syntactic =>
      obtain ⟨c, h, hd⟩ := last_digit (x := stem dom .syntactic a ++ '_' :: num f) i
      exact ⟨c, (by dsimp only; rw [sfx_syn, List.append_nil]; exact h), Or.inr (Or.inr ⟨by decide, (fun e => (by cases e)), hd⟩)⟩
    | numeric =>
      obtain ⟨c, h, hd⟩ := last_digit (x := stem dom .numeric a ++ '_' :: num f) i
      exact ⟨c, (by dsimp only; rw [sfx_num, List.append_nil]; exact h), Or.inr (Or.inr ⟨by decide, (fun e => (by cases e)), hd⟩)⟩
  | none =>
    unfold body
    split_ifs with h
    · subst h; exact ⟨'e', lit_last (by decide), Or.inl ⟨rfl, rfl⟩⟩
    · obtain ⟨c, hc, hd⟩ := last_digit (x := stem dom k a) f
      exact ⟨c, hc, Or.inr (Or.inr ⟨h, fun _ => rfl, hd⟩)⟩

theorem stem_last {dom : Name} {k : Kind} (hk : k ≠ .semantic) (a : Alg) : (stem dom k a).getLast? = some 'd' := by
  cases k with
  | semantic => exact absurd rfl hk
  | _ => exact lit_last (by decide)

theorem stem_kind_inj {dom : Name} {k k' : Kind} (hk : k ≠ .semantic) (hk' : k' ≠ .semantic) {a a' : Alg}
    (h : stem dom k a = stem dom k' a') : k = k' := by
  have hl : ∀ x : Name, (x ++ "_problem_solving".toList).getLast? = some 'g' := fun x => lit_last (by decide)
  have ha : ∀ x : Name, (x ++ "_action".toList).getLast? = some 'n' := fun x => lit_last (by decide)
  have hn : ∀ x : Name, (x ++ "_numeric_learning_performance".toList).getLast? = some 'e' := fun x => lit_last (by decide)
  cases k <;> cases k' <;> first
    | rfl
    | exact absurd rfl hk
    | exact absurd rfl hk'
    | (exfalso
       unfold stem at h
       have h := congrArg List.getLast? (List.append_cancel_right h)
       simp only [hl, ha, hn] at h
       revert h
       decide)

theorem digit_ne {c : Char} (h : c.isDigit = true) : c ≠ 'd' ∧ c ≠ 'e' ∧ c ≠ 's' ∧ c ≠ '_' := by
  refine ⟨?_, ?_, ?_, ?_⟩ <;> rintro rfl <;> revert h <;> decide

/-- **C104.** No two runs write the same file: the name determines the kind of the statistics, the
algorithm, the fold and the iteration, whatever the name of the domain. -/
theorem C104_names_distinct {dom : Name} {k k' : Kind} {a a' : Alg} {f f' : Nat} {it it' : Option Nat}
    (h : fileName dom k a f it = fileName dom k' a' f' it') : k = k' ∧ a = a' ∧ f = f' ∧ it = it' := by
  rw [name_body, name_body] at h
  have h := List.append_cancel_right h
  obtain ⟨c, hc, hk⟩ := body_last dom k a f it
  obtain ⟨c', hc', hk'⟩ := body_last dom k' a' f' it'
  rw [h, hc'] at hc
  have hcc := Option.some.inj hc
  subst hcc
  -- the two numbers of names with an iteration
  have two : ∀ {d d' : Name}, '_' ∉ d → '_' ∉ d' → (stem dom k a ++ '_' :: num f) ++ '_' :: d = (stem dom k a' ++ '_' :: num f') ++ '_' :: d' →
      a = a' ∧ f = f' ∧ d = d' := by
    intro d d' hd hd' e
    obtain ⟨e1, e2⟩ := split_last hd hd' e
    obtain ⟨e3, e4⟩ := split_last (under_num _) (under_num _) e1
    exact ⟨stem_alg_inj e3, num_inj e4, e2⟩
  have num_or : ∀ i : Nat, num i ≠ [] := num_ne_nil
  rcases hk with ⟨rfl, rfl⟩ | ⟨rfl, hi, rfl⟩ | ⟨hk, hi, hd⟩
  · rcases hk' with ⟨rfl, -⟩ | ⟨-, -, h'⟩ | ⟨-, -, h'⟩
    · refine ⟨rfl, ?_⟩
      cases it with
      | some i =>
        cases it' with
        | some i' =>
          obtain ⟨e1, e2, e3⟩ := two (under_num _) (under_num _) (List.append_cancel_right h)
          exact ⟨e1, e2, by rw [num_inj e3]⟩
        | none =>
          obtain ⟨e1, e2, e3⟩ := two (under_num _) (by simp) (List.append_cancel_right h)
          exact absurd e3 (num_or _)
      | none =>
        cases it' with
        | some i' =>
          obtain ⟨e1, e2, e3⟩ := two (by simp) (under_num _) (List.append_cancel_right h)
          exact absurd e3.symm (num_or _)
        | none =>
          obtain ⟨e1, e2, -⟩ := two (by simp) (by simp) (List.append_cancel_right h)
          exact ⟨e1, e2, rfl⟩
    · exact absurd h' (by decide)
    · exact absurd rfl (digit_ne h').2.1
  · rcases hk' with ⟨-, h'⟩ | ⟨rfl, hi', -⟩ | ⟨-, -, h'⟩
    · exact absurd h' (by decide)
    · refine ⟨rfl, ?_⟩
      cases it with
      | none => exact absurd rfl hi
      | some i =>
        cases it' with
        | none => exact absurd rfl hi'
        | some i' =>
          obtain ⟨e1, e2, e3⟩ := two (under_num _) (under_num _) (List.append_cancel_right h)
          exact ⟨e1, e2, by rw [num_inj e3]⟩
    · exact absurd rfl (digit_ne h').2.2.1
  · rcases hk' with ⟨-, h'⟩ | ⟨-, -, h'⟩ | ⟨hk', hi', hd'⟩
    · exact absurd h' (digit_ne hd).2.1
    · exact absurd h' (digit_ne hd).2.2.1
    · have nosfx : ∀ {k : Kind}, k ≠ .semantic → k ≠ .solving → sfx k = [] := by
        intro k h1 h2
        cases k with
        | solving => exact absurd rfl h2
        | semantic => exact absurd rfl h1
        | _ => rfl
      have someForm : ∀ {k a f i}, k ≠ Kind.semantic → (k = Kind.solving → some i = none) →
          body dom k a f (some i) = (stem dom k a ++ '_' :: num f) ++ '_' :: num i := by
        intro k a f i h1 h2
        show _ ++ sfx k = _
        rw [nosfx h1 (fun e => by cases h2 e), List.append_nil]
      have noneForm : ∀ {k a f}, k ≠ Kind.semantic → body dom k a f none = stem dom k a ++ '_' :: num f := by
        intro k a f h1; unfold body; rw [if_neg h1]
      have clash : ∀ {k k' a a' f}, k ≠ Kind.semantic → stem dom k a ≠ stem dom k' a' ++ '_' :: num f := by
        intro k k' a a' f h1 e
        have := stem_last (dom := dom) h1 a
        obtain ⟨c, hc, hd⟩ := last_digit (x := stem dom k' a') f
        rw [e, hc] at this
        exact (digit_ne hd).1 (Option.some.inj this)
      cases it with
      | some i =>
        rw [someForm hk hi] at h
        cases it' with
        | some i' =>
          rw [someForm hk' hi'] at h
          obtain ⟨e1, e2⟩ := split_last (under_num _) (under_num _) h
          obtain ⟨e3, e4⟩ := split_last (under_num _) (under_num _) e1
          have := stem_kind_inj hk hk' e3
          subst this
          exact ⟨rfl, stem_alg_inj e3, num_inj e4, by rw [num_inj e2]⟩
        | none =>
          rw [noneForm hk'] at h
          obtain ⟨e1, e2⟩ := split_last (under_num _) (under_num _) h
          exact absurd e1.symm (clash hk')
      | none =>
        rw [noneForm hk] at h
        cases it' with
        | some i' =>
          rw [someForm hk' hi'] at h
          obtain ⟨e1, e2⟩ := split_last (under_num _) (under_num _) h
          exact absurd e1 (clash hk)
        | none =>
          rw [noneForm hk'] at h
          obtain ⟨e1, e2⟩ := split_last (under_num _) (under_num _) h
          have := stem_kind_inj hk hk' e1
          subst this
          exact ⟨rfl, stem_alg_inj e1, num_inj e2, rfl⟩

/-- **C104.** The collectors look for the files the runs write, except in one case. -/
theorem C104_same_names (dom : Name) {k : Kind} {tr : Bool} (h : ¬ (k = .semantic ∧ tr = true)) (a : Alg) (f i : Nat) :
    template dom k tr a f i = fileName dom k a f (if tr then none else some i) := by
  cases k <;> cases tr <;> simp only [Bool.false_eq_true, if_true, if_false] <;> first
    | exact absurd ⟨rfl, rfl⟩ h
    | (unfold template fileName; dsimp only; done)
    | (unfold template fileName
       dsimp only
       first
        | (rw [lit_traj]; simp only [List.append_assoc, List.cons_append, List.nil_append])
        | (rw [lit_action, lit_action'', lit_action']; simp only [List.append_assoc, List.cons_append, List.nil_append])
        | simp only [List.append_assoc, List.cons_append, List.nil_append])

theorem alg_no_digit (a : Alg) : ∀ c ∈ a.name, c.isDigit = false := by
  cases a <;> decide

/-- **C104, a limit.** In one case they do not: no run, of whatever algorithm, fold and iteration, writes
the file with semantic statistics that the collector for triplets reads. -/
theorem C104_semantic_triplets_missing (dom : Name) (a : Alg) (f i : Nat) (k' : Kind) (a' : Alg) (f' : Nat) (it' : Option Nat) :
    template dom .semantic true a f i ≠ fileName dom k' a' f' it' := by
  intro h
  have h0 : template dom .semantic true a f i = (stem dom .semantic a ++ '_' :: num f) ++ sfx .semantic ++ ".csv".toList := by
    unfold template stem sfx; dsimp only; rw [lit_sem]; simp only [List.append_assoc, List.cons_append]
  rw [h0, name_body] at h
  have h := List.append_cancel_right h
  obtain ⟨c', hc', hk'⟩ := body_last dom k' a' f' it'
  have hl : (stem dom .semantic a ++ '_' :: num f ++ sfx .semantic).getLast? = some 'e' := lit_last (by decide)
  rw [← h, hl] at hc'
  have := Option.some.inj hc'
  subst this
  rcases hk' with ⟨rfl, -⟩ | ⟨-, -, h'⟩ | ⟨-, -, h'⟩
  rotate_left
  · exact absurd h' (by decide)
  · exact absurd rfl (digit_ne h').2.1
  have key : ∀ d : Name, '_' ∉ d → d ≠ [] → stem dom .semantic a ++ '_' :: num f = (stem dom .semantic a' ++ '_' :: num f') ++ '_' :: d → False := by
    intro d hd _ e
    obtain ⟨e1, -⟩ := split_last (under_num _) hd e
    have e1 : a.name ++ '_' :: dom = (a'.name ++ '_' :: dom) ++ '_' :: num f' := e1
    rw [List.append_assoc] at e1
    have hx : ∃ x, a.name = a'.name ++ x ∧ x ++ '_' :: dom = '_' :: dom ++ '_' :: num f' := by
      rcases List.append_eq_append_iff.mp e1 with ⟨x, h1, h2⟩ | ⟨x, h1, h2⟩
      · have := congrArg List.length h2
        simp at this
        omega
      · exact ⟨x, h1, h2.symm⟩
    obtain ⟨x, hx, e2⟩ := hx
    have hp : x.Perm ('_' :: num f') := by
      have h1 : (x ++ '_' :: dom).Perm ('_' :: num f' ++ '_' :: dom) := by
        rw [e2]; exact List.perm_append_comm
      exact (List.perm_append_right_iff _).mp h1
    obtain ⟨c, hc⟩ := List.exists_mem_of_ne_nil _ (num_ne_nil f')
    have h1 : c ∈ a.name := by
      rw [hx, List.mem_append]
      exact Or.inr (hp.mem_iff.mpr (List.mem_cons_of_mem _ hc))
    have := alg_no_digit a c h1
    rw [digit_num hc] at this
    cases this
  cases it' with
  | some i' => exact key _ (under_num _) (num_ne_nil _) (List.append_cancel_right h)
  | none =>
    have e := List.append_cancel_right h
    obtain ⟨-, e2⟩ := split_last (under_num _) (by simp) e
    exact num_ne_nil _ e2

/-- The results directory after some runs. -/
def runs (dom : Name) (jobs : List Job) : Dir := jobs.foldl (Dir.export dom) (fun _ => none)

theorem foldl_export (dom : Name) (jobs : List Job) (d : Dir) (n : Name) :
    (jobs.foldl (Dir.export dom) d) n =
      ((jobs.reverse.find? fun j => decide (fileName dom j.kind j.alg j.fold j.it = n)).map Job.table).or (d n) := by
  induction jobs generalizing d with
  | nil => simp
  | cons j jobs ih =>
    rw [List.foldl_cons, ih, List.reverse_cons, List.find?_append]
    cases hf : jobs.reverse.find? fun j => decide (fileName dom j.kind j.alg j.fold j.it = n) with
    | some x => simp
    | none =>
      simp only [Option.map_none, Option.none_or, List.find?_cons, List.find?_nil]
      unfold Dir.export Dir.put
      by_cases h : fileName dom j.kind j.alg j.fold j.it = n
      · simp [h]
      · simp [h, Ne.symm h]

/-- What identifies a run. -/
def Job.key (j : Job) : Kind × Alg × Nat × Option Nat := (j.kind, j.alg, j.fold, j.it)

theorem runs_at {dom : Name} {jobs : List Job} (hn : (jobs.map Job.key).Nodup) {j : Job} (hj : j ∈ jobs) :
    runs dom jobs (fileName dom j.kind j.alg j.fold j.it) = some j.table := by
  unfold runs
  rw [foldl_export]
  have : jobs.reverse.find? (fun x => decide (fileName dom x.kind x.alg x.fold x.it = fileName dom j.kind j.alg j.fold j.it)) = some j := by
    cases hf : jobs.reverse.find? (fun x => decide (fileName dom x.kind x.alg x.fold x.it = fileName dom j.kind j.alg j.fold j.it)) with
    | none =>
      rw [List.find?_eq_none] at hf
      exact absurd (hf j (List.mem_reverse.mpr hj)) (by simp)
    | some x =>
      have h1 := List.find?_some hf
      have h2 := List.mem_reverse.mp (List.mem_of_find?_eq_some hf)
      obtain ⟨e1, e2, e3, e4⟩ := C104_names_distinct (of_decide_eq_true h1)
      have : x = j := List.inj_on_of_nodup_map hn h2 hj (by unfold Job.key; rw [e1, e2, e3, e4])
      rw [this]
  rw [this]; rfl

theorem runs_none {dom : Name} {jobs : List Job} {n : Name} (h : ∀ j ∈ jobs, fileName dom j.kind j.alg j.fold j.it ≠ n) : runs dom jobs n = none := by
  unfold runs
  rw [foldl_export]
  have : jobs.reverse.find? (fun x => decide (fileName dom x.kind x.alg x.fold x.it = n)) = none := by
    rw [List.find?_eq_none]
    intro x hx
    simpa using h x (List.mem_reverse.mp hx)
  rw [this]; rfl

theorem mapM_ok {ε α β : Type} {g : α → Except ε β} {g' : α → β} : ∀ {l : List α}, (∀ a ∈ l, g a = .ok (g' a)) → l.mapM g = .ok (l.map g')
  | [], _ => rfl
  | a :: l, h => by
    rw [List.mapM_cons, h a (by simp), mapM_ok (fun b hb => h b (List.mem_cons_of_mem _ hb))]
    rfl

theorem mapM_error_iff {ε α β : Type} {g : α → Except ε β} : ∀ {l : List α}, (∃ e, l.mapM g = .error e) ↔ ∃ a ∈ l, ∃ e, g a = .error e
  | [] => by simp [pure, Except.pure]
  | a :: l => by
    rw [List.mapM_cons]
    simp only [Bind.bind, Except.bind, pure, Except.pure]
    cases h : g a with
    | error e => simp [h]
    | ok b =>
      have ih := mapM_error_iff (g := g) (l := l)
      cases hl : l.mapM g with
      | error e =>
        rw [hl] at ih
        obtain ⟨x, hx, hx'⟩ := ih.mp ⟨_, rfl⟩
        simp only
        exact ⟨fun _ => ⟨x, List.mem_cons_of_mem _ hx, hx'⟩, fun _ => ⟨_, rfl⟩⟩
      | ok bs =>
        rw [hl] at ih
        simp only
        constructor
        · rintro ⟨e, he⟩; cases he
        · rintro ⟨x, hx, e, he⟩
          rcases List.mem_cons.mp hx with rfl | hx
          · rw [h] at he; cases he
          · obtain ⟨e', he'⟩ := ih.mpr ⟨x, hx, e, he⟩; cases he'

/-- **C104.** Collecting raises exactly when a file of the grid is missing. -/
theorem C104_missing_raises (dom : Name) (c : Config) (k : Kind) (tr : Bool) (ex : Option Alg) (d : Dir) :
    (∃ e, combine dom c k tr ex d = .error e) ↔
      ∃ f < c.folds, ∃ i ∈ c.iters, ∃ a ∈ c.algs, some a ≠ ex ∧ d (template dom k tr a f i) = none := by
  have h0 : (∃ e, combine dom c k tr ex d = .error e) ↔ ∃ e, ((List.range c.folds).mapM fun f => c.iters.mapM fun i =>
      (c.algsWithout ex).mapM fun a => readOne d (template dom k tr a f i) f) = .error e := by
    unfold combine
    simp only [Bind.bind, Except.bind]
    cases ((List.range c.folds).mapM fun f => c.iters.mapM fun i =>
      (c.algsWithout ex).mapM fun a => readOne d (template dom k tr a f i) f) <;> simp
  have hal : ∀ a, a ∈ c.algsWithout ex ↔ a ∈ c.algs ∧ some a ≠ ex := by
    intro a
    unfold Config.algsWithout
    cases ex with
    | none => simp
    | some e => simp [List.mem_filter]
  have hr : ∀ n f, (∃ e, readOne d n f = .error e) ↔ d n = none := by
    intro n f; unfold readOne; cases d n <;> simp
  rw [h0, mapM_error_iff]
  simp only [mapM_error_iff, List.mem_range, hal, hr]
  constructor
  · rintro ⟨f, hf, i, hi, a, ⟨ha, he⟩, h⟩; exact ⟨f, hf, i, hi, a, ha, he, h⟩
  · rintro ⟨f, hf, i, hi, a, ha, he, h⟩; exact ⟨f, hf, i, hi, a, ⟨ha, he⟩, h⟩

/-- The rows one expects to collect for one file: its cells behind the number of its fold. -/
def labelled (f : Nat) (cells : List (List String)) : List (List String) := cells.map fun r => String.ofList (num f) :: r

theorem lookup_zip {cols r : List String} (hn : cols.Nodup) (hl : r.length = cols.length) :
    (cols.map fun f => (((cols.zip r).lookup f).getD "")) = r := by
  induction cols generalizing r with
  | nil => exact (List.length_eq_zero_iff.mp hl).symm
  | cons c cols ih =>
    cases r with
    | nil => simp at hl
    | cons x r =>
      rw [List.nodup_cons] at hn
      have := ih hn.2 (by simpa using hl)
      rw [List.map_cons]
      congr 1
      · simp
      · conv_rhs => rw [← this]
        apply List.map_congr_left
        intro f hf
        have : f ≠ c := fun e => hn.1 (e ▸ hf)
        rw [List.zip_cons_cons, List.lookup_cons, beq_eq_false_iff_ne.mpr this]

theorem row_cells {cols r : List String} (hn : ("fold" :: cols).Nodup) (hl : r.length = cols.length) (x : String) :
    fits ("fold" :: cols) (Py.dictOf (("fold", x) :: cols.zip r)) = true ∧
    (("fold" :: cols).map fun f => ((Py.dictOf (("fold", x) :: cols.zip r)).lookup f).getD "") = x :: r := by
  have hk : (cols.zip r).map Prod.fst = cols := List.map_fst_zip (by omega)
  have h1 : Py.dictOf (("fold", x) :: cols.zip r) = ("fold", x) :: cols.zip r := by
    apply Py.dictOf_of_nodup
    rw [List.map_cons, hk]; exact hn
  rw [h1]
  constructor
  · unfold fits
    rw [List.all_eq_true]
    intro p hp
    rw [List.contains_iff_mem]
    rcases List.mem_cons.mp hp with rfl | hp
    · simp
    · apply List.mem_cons_of_mem
      rw [← hk]
      exact List.mem_map_of_mem hp
  · have := lookup_zip (cols := "fold" :: cols) (r := x :: r) hn (by simpa using hl)
    rw [List.zip_cons_cons] at this
    exact this

theorem takeWhile_all {α : Type} {p : α → Bool} {l : List α} (h : ∀ x ∈ l, p x = true) : l.takeWhile p = l := by
  induction l with
  | nil => rfl
  | cons a l ih => rw [List.takeWhile_cons, h a (by simp), if_pos rfl, ih fun x hx => h x (List.mem_cons_of_mem _ hx)]

/-- **C104.** When the files of all the folds, iterations and algorithms have been written, collecting
them writes the combined file: for every fold, iteration and algorithm, in this order, the rows of the file, as they were and behind
the number of the fold. No other file changes and nothing is raised. -/
theorem C104_collects (dom : Name) {columns : Kind → List String} {k : Kind} (hc : ("fold" :: columns k).Nodup) (c : Config)
    {tr : Bool} (hk : ¬ (k = .semantic ∧ tr = true)) (ex : Option Alg) (d : Dir) (cells : Alg → Nat → Option Nat → List (List String))
    (hd : ∀ f < c.folds, ∀ i ∈ c.iters, ∀ a ∈ c.algs, some a ≠ ex →
      d (fileName dom k a f (if tr then none else some i)) = some ⟨columns k, cells a f (if tr then none else some i)⟩ ∧
      ∀ r ∈ cells a f (if tr then none else some i), r.length = (columns k).length) :
    collect dom columns c k tr ex d =
      (d.put (combinedName k tr) ⟨"fold" :: columns k,
        (List.range c.folds).flatMap fun f => c.iters.flatMap fun i => (c.algs.filter fun a => decide (some a ≠ ex)).flatMap fun a =>
          labelled f (cells a f (if tr then none else some i))⟩, none) := by
  have hal : c.algsWithout ex = c.algs.filter fun a => decide (some a ≠ ex) := by
    unfold Config.algsWithout
    cases ex with
    | none => simp
    | some e => simp
  set row : Nat → List String → Row := fun f r => Py.dictOf (("fold", String.ofList (num f)) :: (columns k).zip r) with hrow
  have hcomb : combine dom c k tr ex d = .ok ((List.range c.folds).flatMap fun f => c.iters.flatMap fun i =>
      (c.algs.filter fun a => decide (some a ≠ ex)).flatMap fun a => (cells a f (if tr then none else some i)).map (row f)) := by
    unfold combine
    rw [hal]
    rw [mapM_ok (g' := fun f => c.iters.map fun i => (c.algs.filter fun a => decide (some a ≠ ex)).map fun a =>
      (cells a f (if tr then none else some i)).map (row f))]
    · simp only [Bind.bind, Except.bind, List.flatMap, List.flatten_flatten, List.map_map, Function.comp_def]
    · intro f hf
      apply mapM_ok
      intro i hi
      apply mapM_ok
      intro a ha
      rw [List.mem_filter, decide_eq_true_eq] at ha
      rw [C104_same_names dom hk]
      unfold readOne
      rw [(hd f (List.mem_range.mp hf) i hi a ha.1 ha.2).1]
      simp only [Table.read, List.map_map, hrow, Function.comp_def]
  have hfit : ∀ r ∈ ((List.range c.folds).flatMap fun f => c.iters.flatMap fun i =>
      (c.algs.filter fun a => decide (some a ≠ ex)).flatMap fun a => (cells a f (if tr then none else some i)).map (row f)),
      fits ("fold" :: columns k) r = true := by
    intro r hr
    simp only [List.mem_flatMap, List.mem_map, List.mem_filter, decide_eq_true_eq, List.mem_range] at hr
    obtain ⟨f, hf, i, hi, a, ⟨ha, he⟩, r', hr', rfl⟩ := hr
    exact (row_cells hc ((hd f hf i hi a ha he).2 r' hr') _).1
  unfold collect
  rw [hcomb]
  dsimp only
  unfold writeTable
  rw [takeWhile_all hfit, if_pos (List.all_eq_true.mpr hfit)]
  dsimp only
  rw [List.map_flatMap]
  congr 3
  apply List.flatMap_congr
  intro f hf
  rw [List.map_flatMap]
  apply List.flatMap_congr
  intro i hi
  rw [List.map_flatMap]
  apply List.flatMap_congr
  intro a ha
  rw [List.mem_filter, decide_eq_true_eq] at ha
  rw [List.map_map]
  unfold labelled
  apply List.map_congr_left
  intro r hr
  exact (row_cells hc ((hd f (List.mem_range.mp hf) i hi a ha.1 ha.2).2 r hr) _).2

theorem flatMap_const {α β : Type} (l : List α) (x : List β) : (l.flatMap fun _ => x) = (List.replicate l.length x).flatten := by
  induction l with
  | nil => rfl
  | cons a l ih => rw [List.flatMap_cons, ih, List.length_cons, List.replicate_succ, List.flatten_cons]

/-- **C104, a limit.** The statistics over triplets have one file per fold and algorithm, but the collector reads it
once for every iteration: the combined file has every row as many times as there are iterations. -/
theorem C104_triplets_repeated (dom : Name) {columns : Kind → List String} {k : Kind} (hc : ("fold" :: columns k).Nodup) (c : Config)
    (hk : k ≠ .semantic) (ex : Option Alg) (d : Dir) (cells : Alg → Nat → List (List String))
    (hd : ∀ f < c.folds, ∀ a ∈ c.algs, some a ≠ ex → d (fileName dom k a f none) = some ⟨columns k, cells a f⟩ ∧
      ∀ r ∈ cells a f, r.length = (columns k).length) :
    ∃ t : Table, (collect dom columns c k true ex d).1 (combinedName k true) = some t ∧
      t.cells = (List.range c.folds).flatMap fun f =>
        (List.replicate c.iters.length ((c.algs.filter fun a => decide (some a ≠ ex)).flatMap fun a => labelled f (cells a f))).flatten := by
  have := C104_collects dom hc c (tr := true) (fun h => hk h.1) ex d (fun a f _ => cells a f)
    (fun f hf _ _ a ha he => by simpa using hd f hf a ha he)
  rw [this]
  refine ⟨_, (by unfold Dir.put; exact if_pos rfl), ?_⟩
  dsimp only
  congr 1
  funext f
  exact flatMap_const _ _

/-- The combined files are not files a run writes. -/
theorem combined_ne (dom : Name) (k : Kind) (tr : Bool) (k' : Kind) (a : Alg) (f : Nat) (it : Option Nat) :
    fileName dom k' a f it ≠ combinedName k tr := by
  intro h
  have hc : ∀ k tr, ((combinedName k tr).reverse.take 6 = "vsc.sc".toList) ∨ ((combinedName k tr).reverse.take 6 = "vsc.st".toList) := by
    intro k tr; cases k <;> cases tr <;> decide
  have hr : ∀ (x s : Name), 6 ≤ s.length → (x ++ s).reverse.take 6 = s.reverse.take 6 := by
    intro x s hs
    rw [List.reverse_append, List.take_append_of_le_length (by rw [List.length_reverse]; exact hs)]
  rw [name_body] at h
  obtain ⟨c, hl, hk⟩ := body_last dom k' a f it
  have hs : c = 's' := by
    have h2 : ∀ x : Name, (x ++ ".csv".toList).reverse[4]? = x.getLast? := by
      intro x
      rw [List.reverse_append, List.getElem?_append_right (by decide), ← List.head?_reverse, List.head?_eq_getElem?]
      rfl
    have h3 := h2 (body dom k' a f it)
    have h4 : ∀ k tr, (combinedName k tr).reverse[4]? = some 's' := by intro k tr; cases k <;> cases tr <;> decide
    rw [h, h4, hl] at h3
    exact (Option.some.inj h3).symm
  subst hs
  rcases hk with ⟨-, h'⟩ | ⟨rfl, hi, -⟩ | ⟨-, -, h'⟩
  · exact absurd h' (by decide)
  · cases it with
    | none => exact hi rfl
    | some i =>
      have e : body dom .solving a f (some i) ++ ".csv".toList =
          (stem dom .solving a ++ '_' :: num f ++ '_' :: num i) ++ "_trajectories.csv".toList := by
        rw [lit_traj, ← List.append_assoc]; rfl
      rw [e] at h
      have h2 := hr (stem dom .solving a ++ '_' :: num f ++ '_' :: num i) "_trajectories.csv".toList (by decide)
      rw [h] at h2
      have h3 : "_trajectories.csv".toList.reverse.take 6 = "vsc.se".toList := by decide
      rw [h3] at h2
      rcases hc k tr with h4 | h4 <;> rw [h4] at h2 <;> revert h2 <;> decide
  · exact absurd rfl (digit_ne h').2.2.1

theorem combined_inj {k k' : Kind} {tr tr' : Bool} (h : combinedName k tr = combinedName k' tr') : k = k' ∧ tr = tr' := by
  revert h; cases k <;> cases k' <;> cases tr <;> cases tr' <;> decide

/-- **C104.** Collecting never touches a file a run wrote. -/
theorem C104_runs_kept (dom : Name) (columns : Kind → List String) (c : Config) (k : Kind) (tr : Bool) (ex : Option Alg) (d : Dir)
    (k' : Kind) (a : Alg) (f : Nat) (it : Option Nat) :
    (collect dom columns c k tr ex d).1 (fileName dom k' a f it) = d (fileName dom k' a f it) := by
  unfold collect
  cases combine dom c k tr ex d with
  | error e => rfl
  | ok rows => exact if_neg (combined_ne _ _ _ _ _ _ _)

theorem collect_other (dom : Name) (columns : Kind → List String) (c : Config) (k : Kind) (tr : Bool) (ex : Option Alg) (d : Dir)
    {n : Name} (hn : n ≠ combinedName k tr) : (collect dom columns c k tr ex d).1 n = d n := by
  unfold collect
  cases combine dom c k tr ex d with
  | error e => rfl
  | ok rows => exact if_neg hn

theorem collect_error {dom : Name} {columns : Kind → List String} {c : Config} {k : Kind} {tr : Bool} {ex : Option Alg} {d : Dir}
    (h : ∃ f < c.folds, ∃ i ∈ c.iters, ∃ a ∈ c.algs, some a ≠ ex ∧ d (template dom k tr a f i) = none) :
    (collect dom columns c k tr ex d).1 = d ∧ (collect dom columns c k tr ex d).2 ≠ none := by
  obtain ⟨e, he⟩ := (C104_missing_raises dom c k tr ex d).mpr h
  unfold collect
  rw [he]
  exact ⟨rfl, by simp⟩

theorem steps_cons (f : Dir → Dir × Option IOErr) (s : List (Dir → Dir × Option IOErr)) (d : Dir) :
    steps (f :: s) d = if (f d).2 = none then steps s (f d).1 else f d := by
  rw [steps]
  rcases h : f d with ⟨d', _ | e⟩ <;> simp

/-- What the steps leave of a file they do not write. -/
theorem steps_file {n : Name} : ∀ {s : List (Dir → Dir × Option IOErr)}, (∀ f ∈ s, ∀ d, (f d).1 n = d n) → ∀ d, (steps s d).1 n = d n
  | [], _, _ => rfl
  | f :: s, h, d => by
    rw [steps_cons]
    split_ifs
    · rw [steps_file (fun g hg => h g (List.mem_cons_of_mem _ hg)), h f (by simp)]
    · exact h f (by simp) d

theorem steps_append (s s' : List (Dir → Dir × Option IOErr)) (d : Dir) :
    steps (s ++ s') d = if (steps s d).2 = none then steps s' (steps s d).1 else steps s d := by
  induction s generalizing d with
  | nil => simp [steps]
  | cons f s ih =>
    rw [List.cons_append, steps_cons, steps_cons, ih]
    by_cases h : (f d).2 = none
    · simp only [h, if_true]
    · simp only [h, if_false]

/-- **C104, a limit.** Whatever the runs wrote, collecting the statistics of the multi-agent experiments
ends with an exception, and the combined syntactic statistics are never written. -/
theorem C104_multi_agent_raises (dom : Name) (columns : Kind → List String) (c : Config) (hf : 0 < c.folds) (hi : c.iters ≠ [])
    (ha : ∃ a ∈ c.algs, a ≠ .maSamPlus) (jobs : List Job) :
    (collectMultiAgent dom columns c (runs dom jobs)).2 ≠ none ∧
    (collectMultiAgent dom columns c (runs dom jobs)).1 (combinedName .semantic true) = none ∧
    ∀ tr, (collectMultiAgent dom columns c (runs dom jobs)).1 (combinedName .syntactic tr) = none := by
  obtain ⟨i, hi⟩ := List.exists_mem_of_ne_nil _ hi
  obtain ⟨a, ha, hne⟩ := ha
  set pre : List (Dir → Dir × Option IOErr) := [collect dom columns c .solving false none, collect dom columns c .solving true none,
    collect dom columns c .semantic false (some .maSamPlus)] with hpre
  have e : collectMultiAgent dom columns c = steps (pre ++ [collect dom columns c .semantic true (some .maSamPlus)] ++
    [collect dom columns c .syntactic false (some .maSamPlus), collect dom columns c .syntactic true (some .maSamPlus)]) := rfl
  have h0 : ∀ n, (∀ j ∈ jobs, fileName dom j.kind j.alg j.fold j.it ≠ n) →
      n ≠ combinedName .solving false → n ≠ combinedName .solving true → n ≠ combinedName .semantic false →
      (steps pre (runs dom jobs)).1 n = none := by
    intro n hn h1 h2 h3
    rw [steps_file, runs_none hn]
    intro f hf d
    rw [hpre] at hf
    simp only [List.mem_cons, List.not_mem_nil, or_false] at hf
    rcases hf with rfl | rfl | rfl
    · exact collect_other _ _ _ _ _ _ _ h1
    · exact collect_other _ _ _ _ _ _ _ h2
    · exact collect_other _ _ _ _ _ _ _ h3
  have hmiss : (steps pre (runs dom jobs)).1 (template dom .semantic true a 0 i) = none := by
    have hlast : ∀ x : Name, (x ++ "_semantic_performance.csv".toList).reverse[4]? = some 'e' := by
      intro x
      rw [List.reverse_append, List.getElem?_append_left (by decide)]
      decide
    have h4 : ∀ k tr, (combinedName k tr).reverse[4]? = some 's' := by intro k tr; cases k <;> cases tr <;> decide
    have hno : ∀ k tr, template dom .semantic true a 0 i ≠ combinedName k tr := by
      intro k tr h
      have e1 : template dom .semantic true a 0 i = (a.name ++ '_' :: dom ++ '_' :: num 0) ++ "_semantic_performance.csv".toList := by
        unfold template; dsimp only
      have := hlast (a.name ++ '_' :: dom ++ '_' :: num 0)
      rw [← e1, h, h4] at this
      exact absurd (Option.some.inj this) (by decide)
    exact h0 _ (fun j _ h => C104_semantic_triplets_missing dom a 0 i _ _ _ _ h.symm) (hno _ _) (hno _ _) (hno _ _)
  have hx := collect_error (columns := columns) (k := .semantic) (tr := true) (ex := some .maSamPlus) (d := (steps pre (runs dom jobs)).1)
    ⟨0, hf, i, hi, a, ha, (fun e => hne (Option.some.inj e)), hmiss⟩
  have hsteps : ∃ err, err ≠ none ∧ collectMultiAgent dom columns c (runs dom jobs) = ((steps pre (runs dom jobs)).1, err) := by
    rw [e, steps_append, steps_append]
    by_cases h : (steps pre (runs dom jobs)).2 = none
    · rw [if_pos h, steps_cons, if_neg hx.2, if_neg hx.2]
      exact ⟨_, hx.2, Prod.ext hx.1 rfl⟩
    · rw [if_neg h, if_neg h]
      exact ⟨_, h, rfl⟩
  obtain ⟨err, he, hs⟩ := hsteps
  rw [hs]
  refine ⟨he, ?_, fun tr => ?_⟩
  · exact h0 _ (fun j _ => combined_ne _ _ _ _ _ _ _) (by decide) (by decide) (by decide)
  · exact h0 _ (fun j _ => combined_ne _ _ _ _ _ _ _) (by cases tr <;> decide) (by cases tr <;> decide) (by cases tr <;> decide)

theorem put_same (d : Dir) (n : Name) (t : Table) : d.put n t n = some t := if_pos rfl
theorem put_other (d : Dir) {n m : Name} (t : Table) (h : m ≠ n) : d.put n t m = d m := if_neg h

theorem filter_key {jobs : List Job} (hn : (jobs.map Job.key).Nodup) {j : Job} (hj : j ∈ jobs) :
    (jobs.filter fun x => decide (Job.key x = Job.key j)) = [j] := by
  induction jobs with
  | nil => cases hj
  | cons x jobs ih =>
    rw [List.map_cons, List.nodup_cons] at hn
    rcases List.mem_cons.mp hj with rfl | hj
    · rw [List.filter_cons, if_pos (by simp)]
      congr 1
      rw [List.filter_eq_nil_iff]
      intro y hy
      rw [decide_eq_true_eq]
      exact fun e => hn.1 (e ▸ List.mem_map_of_mem hy)
    · rw [List.filter_cons, if_neg, ih hn.2 hj]
      rw [decide_eq_true_eq]
      exact fun e => hn.1 (e ▸ List.mem_map_of_mem hj)

/-- **C104.** Collecting the statistics of the numeric experiments succeeds when all the runs have written
their files, and leaves the three combined files with the rows of all of them. -/
theorem C104_numeric_complete (dom : Name) {columns : Kind → List String} (hc : ∀ k, ("fold" :: columns k).Nodup) (c : Config)
    (jobs : List Job) (hn : (jobs.map Job.key).Nodup) (hj : ∀ j ∈ jobs, j.table.fields = columns j.kind ∧ ∀ r ∈ j.table.cells, r.length = (columns j.kind).length)
    (hall : ∀ k, k = .solving ∨ k = .syntactic ∨ k = .numeric → ∀ f < c.folds, ∀ i ∈ c.iters, ∀ a ∈ c.algs, (k, a, f, some i) ∈ jobs.map Job.key) :
    (collectNumeric dom columns c (runs dom jobs)).2 = none ∧
    ∀ k, k = .solving ∨ k = .syntactic ∨ k = .numeric → ∃ t : Table,
      (collectNumeric dom columns c (runs dom jobs)).1 (combinedName k false) = some t ∧
      t.fields = "fold" :: columns k ∧
      t.cells = (List.range c.folds).flatMap fun f => c.iters.flatMap fun i => c.algs.flatMap fun a =>
        (jobs.filter fun j => decide (Job.key j = (k, a, f, some i))).flatMap fun j => labelled f j.table.cells := by
  set cells : Kind → Alg → Nat → Option Nat → List (List String) := fun k a f it =>
    (jobs.filter fun j => decide (Job.key j = (k, a, f, it))).flatMap fun j => j.table.cells with hcells
  have hgrid : ∀ d : Dir, (∀ k a f it, d (fileName dom k a f it) = runs dom jobs (fileName dom k a f it)) →
      ∀ k, k = .solving ∨ k = .syntactic ∨ k = .numeric → ∀ f < c.folds, ∀ i ∈ c.iters, ∀ a ∈ c.algs,
      d (fileName dom k a f (some i)) = some ⟨columns k, cells k a f (some i)⟩ ∧
      ∀ r ∈ cells k a f (some i), r.length = (columns k).length := by
    intro d hd k hk f hf i hi a ha
    obtain ⟨j, hjm, hkey⟩ := List.mem_map.mp (hall k hk f hf i hi a ha)
    have hfil := filter_key hn hjm
    rw [hkey] at hfil
    have hce : cells k a f (some i) = j.table.cells := by
      rw [hcells]; dsimp only; rw [hfil]; simp
    have hk' : j.kind = k ∧ j.alg = a ∧ j.fold = f ∧ j.it = some i := by
      unfold Job.key at hkey
      simpa using hkey
    obtain ⟨rfl, rfl, rfl, hit⟩ := hk'
    rw [hce]
    refine ⟨?_, (hj j hjm).2⟩
    rw [hd, ← hit, runs_at hn hjm, ← (hj j hjm).1]
  have hcol : ∀ d : Dir, (∀ k a f it, d (fileName dom k a f it) = runs dom jobs (fileName dom k a f it)) →
      ∀ k, k = .solving ∨ k = .syntactic ∨ k = .numeric → collect dom columns c k false none d =
        (d.put (combinedName k false) ⟨"fold" :: columns k, (List.range c.folds).flatMap fun f => c.iters.flatMap fun i => c.algs.flatMap fun a =>
          labelled f (cells k a f (some i))⟩, none) := by
    intro d hd k hk
    have := C104_collects dom (hc k) c (tr := false) (fun h => by cases h.2) none d (cells k)
      (fun f hf i hi a ha _ => by simpa using hgrid d hd k hk f hf i hi a ha)
    rw [this]
    simp
  have hput : ∀ (d : Dir) k t, (∀ k a f it, d (fileName dom k a f it) = runs dom jobs (fileName dom k a f it)) →
      ∀ k' a f it, (d.put (combinedName k false) t) (fileName dom k' a f it) = runs dom jobs (fileName dom k' a f it) := by
    intro d k t hd k' a f it
    unfold Dir.put
    rw [if_neg (combined_ne _ _ _ _ _ _ _), hd]
  have h1 := hcol (runs dom jobs) (fun _ _ _ _ => rfl) .solving (by simp)
  have hd1 := hput (runs dom jobs) .solving ⟨"fold" :: columns .solving, (List.range c.folds).flatMap fun f => c.iters.flatMap fun i => c.algs.flatMap fun a =>
          labelled f (cells .solving a f (some i))⟩ (fun _ _ _ _ => rfl)
  have h2 := hcol _ hd1 .syntactic (by simp)
  have hd2 := hput _ .syntactic ⟨"fold" :: columns .syntactic, (List.range c.folds).flatMap fun f => c.iters.flatMap fun i => c.algs.flatMap fun a =>
          labelled f (cells .syntactic a f (some i))⟩ hd1
  have h3 := hcol _ hd2 .numeric (by simp)
  have hlab : ∀ k a f it, labelled f (cells k a f it) =
      (jobs.filter fun j => decide (Job.key j = (k, a, f, it))).flatMap fun j => labelled f j.table.cells := by
    intro k a f it
    rw [hcells]
    unfold labelled
    rw [List.map_flatMap]
  set t1 : Table := ⟨"fold" :: columns .solving, (List.range c.folds).flatMap fun f => c.iters.flatMap fun i => c.algs.flatMap fun a =>
          labelled f (cells .solving a f (some i))⟩ with ht1
  set t2 : Table := ⟨"fold" :: columns .syntactic, (List.range c.folds).flatMap fun f => c.iters.flatMap fun i => c.algs.flatMap fun a =>
          labelled f (cells .syntactic a f (some i))⟩ with ht2
  set t3 : Table := ⟨"fold" :: columns .numeric, (List.range c.folds).flatMap fun f => c.iters.flatMap fun i => c.algs.flatMap fun a =>
          labelled f (cells .numeric a f (some i))⟩ with ht3
  have hres : collectNumeric dom columns c (runs dom jobs) =
      ((((runs dom jobs).put (combinedName .solving false) t1).put (combinedName .syntactic false) t2).put (combinedName .numeric false) t3, none) := by
    unfold collectNumeric
    rw [steps_cons, h1]
    dsimp only
    rw [if_pos rfl, steps_cons, h2]
    dsimp only
    rw [if_pos rfl, steps_cons, h3]
    dsimp only
    rw [if_pos rfl, steps]
  rw [hres]
  refine ⟨rfl, ?_⟩
  rintro k (rfl | rfl | rfl)
  · refine ⟨t1, ?_, rfl, (by rw [ht1]; simp only [hlab])⟩
    dsimp only
    rw [put_other _ _ (by decide), put_other _ _ (by decide), put_same]
  · refine ⟨t2, ?_, rfl, (by rw [ht2]; simp only [hlab])⟩
    dsimp only
    rw [put_other _ _ (by decide), put_same]
  · refine ⟨t3, ?_, rfl, (by rw [ht3]; simp only [hlab])⟩
    dsimp only
    rw [put_same]

/-! ### A concrete case -/
namespace Case

def cols : Kind → List String := fun _ => ["problem", "ok"]
def cfg : Config := ⟨[.numericSam, .naiveNsam], 2, [1, 3]⟩
/-- Every run of the grid. -/
def grid : List Job :=
  [Kind.solving, .syntactic, .numeric].flatMap fun k => [0, 1].flatMap fun f => [1, 3].flatMap fun i => cfg.algs.map fun a =>
    ⟨k, a, f, some i, ⟨["problem", "ok"], [["p1", String.ofList (num (10 * f + i))], ["p2", ""]]⟩⟩

example : (grid.map Job.key).Nodup ∧ (∀ j ∈ grid, j.table.fields = cols j.kind ∧ ∀ r ∈ j.table.cells, r.length = (cols j.kind).length) ∧
    (∀ k, k = .solving ∨ k = .syntactic ∨ k = .numeric → ∀ f < cfg.folds, ∀ i ∈ cfg.iters, ∀ a ∈ cfg.algs, (k, a, f, some i) ∈ grid.map Job.key) ∧
    ∀ k, ("fold" :: cols k).Nodup := by
  refine ⟨by decide +kernel, by decide +kernel, ?_, by intro k; unfold cols; decide⟩
  rintro k (rfl | rfl | rfl) <;> decide +kernel

/-- The combined file of the case, in full: 2 folds, 2 iterations, 2 algorithms, 2 rows each. -/
example : ((collectNumeric "d".toList cols cfg (runs "d".toList grid)).1 (combinedName .numeric false)).map (·.cells) =
    some [["0", "p1", "1"], ["0", "p2", ""], ["0", "p1", "1"], ["0", "p2", ""], ["0", "p1", "3"], ["0", "p2", ""], ["0", "p1", "3"], ["0", "p2", ""],
      ["1", "p1", "11"], ["1", "p2", ""], ["1", "p1", "11"], ["1", "p2", ""], ["1", "p1", "13"], ["1", "p2", ""], ["1", "p1", "13"], ["1", "p2", ""]] := by
  decide +kernel

/-- The multi-agent collector meets the hypotheses of `C104_multi_agent_raises` with `ma_sam` among the algorithms. -/
example : (0 < (Config.mk [.maSam, .maSamPlus] 2 [1, 3]).folds) ∧ (Config.mk [.maSam, .maSamPlus] 2 [1, 3]).iters ≠ [] ∧
    ∃ a ∈ (Config.mk [.maSam, .maSamPlus] 2 [1, 3]).algs, a ≠ .maSamPlus := by decide

example : (collectMultiAgent "d".toList cols cfg (runs "d".toList grid)).2 = some .fileNotFound := by decide +kernel

/-- Names. -/
example : fileName "d".toList .semantic .maSam 3 none = "ma_sam_d_3__semantic_performance.csv".toList ∧
    template "d".toList .semantic true .maSam 3 7 = "ma_sam_d_3_semantic_performance.csv".toList ∧
    fileName "d".toList .syntactic .maSam 3 (some 12) = "ma_sam_d_action_stats_fold_3_12.csv".toList := by decide +kernel

/-- The triplet files of one fold, read three times. -/
example : ((collect "d".toList cols ⟨[.maSam], 1, [1, 2, 5]⟩ .solving true none
      (runs "d".toList [⟨.solving, .maSam, 0, none, ⟨["problem", "ok"], [["p", "1"]]⟩⟩])).1 (combinedName .solving true)).map (·.cells) =
    some [["0", "p", "1"], ["0", "p", "1"], ["0", "p", "1"]] := by decide +kernel

end Case

end Results
end Props

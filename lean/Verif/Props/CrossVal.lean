import Verif.Model.CrossVal
import Mathlib.Data.List.Basic

/-! C107: the results of the cross validation. -/
namespace Props
namespace CrossVal
open Model Model.CrossVal

variable {A V P : Type}

/-- The rows of a fold: of the action, solving and semantic statistics. -/
abbrev Rows (A V P : Type) := List A × List V × List P

/-- A fold that finishes with these rows. -/
def finishing (r : Rows A V P) : Fold A V P := ⟨.ok r.1, .ok r.2.1, .ok r.2.2⟩

/-- A fold that raises somewhere. -/
def Raises (w : Fold A V P) : Prop := (∃ e, w.learn = .error e) ∨ (∃ e, w.validate = .error e) ∨ ∃ e, w.evaluate = .error e

theorem finishing_or_raises (w : Fold A V P) : (∃ r, w = finishing r) ∨ Raises w := by
  obtain ⟨l, v, e⟩ := w
  cases l with
  | error x => exact Or.inr (Or.inl ⟨x, rfl⟩)
  | ok a =>
    cases v with
    | error x => exact Or.inr (Or.inr (Or.inl ⟨x, rfl⟩))
    | ok v =>
      cases e with
      | error x => exact Or.inr (Or.inr (Or.inr ⟨x, rfl⟩))
      | ok p => exact Or.inl ⟨(a, v, p), rfl⟩

theorem lookup_put (fs : List (File × Content A V P)) (f g : File) (c : Content A V P) :
    (put fs f c).lookup g = if g = f then some c else fs.lookup g := by
  unfold put
  induction fs with
  | nil =>
    simp only [List.filter_nil, List.nil_append, List.lookup_cons, List.lookup_nil]
    by_cases h : g = f
    · subst h; simp
    · rw [if_neg h, beq_eq_false_iff_ne.mpr h]
  | cons x fs ih =>
    obtain ⟨k, y⟩ := x
    rw [List.filter_cons]
    by_cases h : k = f
    · subst h
      rw [if_neg (by simp), ih, List.lookup_cons]
      by_cases hg : g = k
      · rw [if_pos hg, if_pos hg]
      · rw [if_neg hg, if_neg hg, beq_eq_false_iff_ne.mpr hg]
    · rw [if_pos (by simpa using h), List.cons_append, List.lookup_cons, List.lookup_cons, ih]
      by_cases hg : g = k
      · subst hg; simp [h]
      · rw [beq_eq_false_iff_ne.mpr hg]

theorem takeWhile_all {α : Type} {p : α → Bool} {l : List α} (h : ∀ x ∈ l, p x = true) : l.takeWhile p = l := by
  induction l with
  | nil => rfl
  | cons a l ih => rw [List.takeWhile_cons, h a (by simp), if_pos rfl, ih fun x hx => h x (List.mem_cons_of_mem _ hx)]

/-- The files of folds that have finished: fold `k` has the files `actions k`, `solving k` and `semantic (k + 1)` with exactly its rows. -/
def foldFiles (rows : List (Rows A V P)) : File → Option (Content A V P)
  | .actions k => (rows[k]?).map fun r => .actions r.1
  | .solving k => (rows[k]?).map fun r => .solving r.2.1
  | .semantic 0 => none
  | .semantic (k + 1) => (rows[k]?).map fun r => .semantic r.2.2
  | _ => none

/-- What the folds leave behind. -/
structure After (rows : List (Rows A V P)) (s : St A V P) : Prop where
  files : ∀ f, s.file f = foldFiles rows f
  aggregated : s.aggregated = rows.flatMap (·.2.1)
  merged : s.mergedActions = rows.flatMap (·.1)
  numeric : s.mergedNumeric = [] ∧ s.numericStats = []
  fresh : s.actionStats = [] ∧ s.solvingStats = []
  sem : s.sem = (rows.getLast?).map (·.2.2)

theorem after_new : After ([] : List (Rows A V P)) St.new :=
  ⟨fun f => by cases f <;> first | rfl | (rename_i k; cases k <;> rfl), rfl, rfl, ⟨rfl, rfl⟩, ⟨rfl, rfl⟩, rfl⟩

theorem learn_finishing (n : Nat) (r : Rows A V P) (s : St A V P) (hs : s.actionStats = [] ∧ s.solvingStats = []) :
    learnOffline n (finishing r) { s with sem := some [] } =
      ({ s with actionStats := r.1, solvingStats := r.2.1, sem := some r.2.2,
                files := put (put (put s.files (.actions n) (.actions r.1)) (.semantic (n + 1)) (.semantic r.2.2)) (.solving n) (.solving r.2.1) }, none) := by
  unfold learnOffline finishing
  simp only [hs.1, hs.2, List.nil_append]

theorem learn_raises {w : Fold A V P} (h : Raises w) (n : Nat) (s : St A V P) :
    (learnOffline n w s).1.files = s.files ∧ (learnOffline n w s).2 ≠ none := by
  unfold learnOffline
  rcases h with ⟨e, h⟩ | ⟨e, h⟩ | ⟨e, h⟩ <;> rw [h] <;> cases w.learn <;> simp <;> cases w.validate <;> simp <;> cases s.sem <;> simp

theorem after_step {rows : List (Rows A V P)} {s : St A V P} (h : After rows s) (r : Rows A V P) :
    ∃ s', After (rows ++ [r]) s' ∧ ∀ ws, folds rows.length (finishing r :: ws) s = folds (rows.length + 1) ws s' := by
  refine ⟨_, ?_, fun ws => by rw [folds, learn_finishing _ _ _ h.fresh]⟩
  constructor
  · intro f
    show (put (put (put s.files _ _) _ _) _ _).lookup f = _
    rw [lookup_put, lookup_put, lookup_put]
    have hf := h.files f
    unfold St.file at hf
    rw [hf]
    have other : ∀ {k : Nat}, k ≠ rows.length → (rows ++ [r])[k]? = rows[k]? := by
      intro k hk
      rcases Nat.lt_or_gt_of_ne hk with hk | hk
      · rw [List.getElem?_append_left hk]
      · rw [List.getElem?_eq_none (by simp; omega), List.getElem?_eq_none (by omega)]
    cases f with
    | actions k =>
      by_cases hk : k = rows.length
      · subst hk; simp [foldFiles]
      · simp [foldFiles, hk, other hk]
    | solving k =>
      by_cases hk : k = rows.length
      · subst hk; simp [foldFiles]
      · simp [foldFiles, hk, other hk]
    | semantic k =>
      cases k with
      | zero => simp [foldFiles]
      | succ k =>
        by_cases hk : k = rows.length
        · subst hk; simp [foldFiles]
        · simp [foldFiles, hk, other hk]
    | _ => simp [foldFiles]
  · simp [clear, h.aggregated]
  · simp [clear, h.merged]
  · simp [clear, h.numeric.1, h.numeric.2]
  · simp [clear]
  · simp [clear]

theorem after_steps (rows : List (Rows A V P)) : ∀ {done : List (Rows A V P)} {s : St A V P}, After done s →
    ∃ s', After (done ++ rows) s' ∧ ∀ ws, folds done.length (rows.map finishing ++ ws) s = folds (done.length + rows.length) ws s' := by
  induction rows with
  | nil => intro done s h; exact ⟨s, by rw [List.append_nil]; exact h, fun ws => rfl⟩
  | cons r rows ih =>
    intro done s h
    obtain ⟨s1, h1, e1⟩ := after_step h r
    obtain ⟨s2, h2, e2⟩ := ih h1
    refine ⟨s2, by rw [List.append_assoc] at h2; exact h2, fun ws => ?_⟩
    rw [List.map_cons, List.cons_append, e1]
    have := e2 ws
    rw [List.length_append, List.length_singleton] at this
    rw [this, List.length_cons]
    congr 1
    omega

/-- **C107.** When every fold finishes, every fold has its own three files with exactly its rows, and the joint file of the
problem solving statistics has the rows of all folds in order. Limits: the joint semantic file has only the rows of the last fold,
the third joint file never has a row, and the semantic file of fold `k` is numbered `k + 1`. -/
theorem C107_complete (fits : P → Bool) (rows : List (Rows A V P)) (r : Rows A V P) (hf : ∀ x ∈ r.2.2, fits x = true) :
    ∃ s : St A V P, run fits ((rows ++ [r]).map finishing) St.new = (s, none) ∧
      s.file .allSolving = some (.solving ((rows ++ [r]).flatMap (·.2.1))) ∧
      s.file .combinedSemantic = some (.semantic r.2.2) ∧
      s.file .allNumeric = some (.actions []) ∧
      (∀ k, s.file (.actions k) = ((rows ++ [r])[k]?).map fun x => .actions x.1) ∧
      (∀ k, s.file (.solving k) = ((rows ++ [r])[k]?).map fun x => .solving x.2.1) ∧
      (∀ k, s.file (.semantic (k + 1)) = ((rows ++ [r])[k]?).map fun x => .semantic x.2.2) ∧ s.file (.semantic 0) = none ∧
      s.mergedActions = (rows ++ [r]).flatMap (·.1) := by
  obtain ⟨s, hs, e⟩ := after_steps (rows ++ [r]) (after_new (A := A) (V := V) (P := P))
  have e := e []
  rw [List.append_nil] at e
  have hsem : s.sem = some r.2.2 := by rw [hs.sem]; simp
  have hall : r.2.2.all fits = true := List.all_eq_true.mpr hf
  have htw : r.2.2.takeWhile fits = r.2.2 := takeWhile_all hf
  have hrun : run fits ((rows ++ [r]).map finishing) St.new = ({ s with files := put (put (put s.files .allSolving (.solving s.aggregated)) .combinedSemantic (.semantic r.2.2)) .allNumeric (.actions s.mergedNumeric) }, none) := by
    unfold run
    rw [show folds 0 ((rows ++ [r]).map finishing) St.new = (s, none) from e]
    dsimp only
    rw [hsem]
    dsimp only
    rw [if_pos hall, htw]
  have hfile : ∀ f, s.files.lookup f = foldFiles (rows ++ [r]) f := hs.files
  refine ⟨_, hrun, ?_, ?_, ?_, ?_, ?_, ?_, ?_, hs.merged⟩
  · simp [St.file, lookup_put, hs.aggregated]
  · simp [St.file, lookup_put]
  · simp [St.file, lookup_put, hs.numeric.1]
  · intro k; simp only [St.file, lookup_put, reduceCtorEq, if_false, hfile]; rfl
  · intro k; simp only [St.file, lookup_put, reduceCtorEq, if_false, hfile]; rfl
  · intro k; simp only [St.file, lookup_put, reduceCtorEq, if_false, hfile]; rfl
  · simp only [St.file, lookup_put, reduceCtorEq, if_false, hfile]; rfl

/-- **C107.** If a fold raises, the run raises; the folds before it have their complete files, and neither the fold itself
nor a later one, nor any joint file, has been written. -/
theorem C107_crash (fits : P → Bool) (rows : List (Rows A V P)) (w : Fold A V P) (hw : Raises w) (rest : List (Fold A V P)) :
    (run fits (rows.map finishing ++ w :: rest) St.new).2 ≠ none ∧
    (∀ k, (run fits (rows.map finishing ++ w :: rest) St.new).1.file (.actions k) = (rows[k]?).map fun x => .actions x.1) ∧
    (∀ k, (run fits (rows.map finishing ++ w :: rest) St.new).1.file (.solving k) = (rows[k]?).map fun x => .solving x.2.1) ∧
    (∀ k, (run fits (rows.map finishing ++ w :: rest) St.new).1.file (.semantic (k + 1)) = (rows[k]?).map fun x => .semantic x.2.2) ∧
    (∀ f, f = .allSolving ∨ f = .combinedSemantic ∨ f = .allNumeric → (run fits (rows.map finishing ++ w :: rest) St.new).1.file f = none) := by
  obtain ⟨s, hs, e⟩ := after_steps rows (after_new (A := A) (V := V) (P := P))
  have hr := learn_raises hw rows.length { s with sem := some [] }
  have hrun : run fits (rows.map finishing ++ w :: rest) St.new = learnOffline rows.length w { s with sem := some [] } := by
    unfold run
    have e' : folds 0 (rows.map finishing ++ w :: rest) St.new = learnOffline rows.length w { s with sem := some [] } := by
      have := e (w :: rest)
      rw [List.length_nil, Nat.zero_add] at this
      rw [this, folds]
      rcases hl : learnOffline rows.length w { s with sem := some [] } with ⟨s', _ | er⟩
      · rw [hl] at hr; exact absurd rfl hr.2
      · rfl
    rw [e']
    rcases hl : learnOffline rows.length w { s with sem := some [] } with ⟨s', _ | er⟩
    · rw [hl] at hr; exact absurd rfl hr.2
    · rfl
  have hfile : ∀ f, (learnOffline rows.length w { s with sem := some [] }).1.file f = foldFiles rows f := by
    intro f
    unfold St.file
    rw [hr.1]
    exact hs.files f
  rw [hrun]
  refine ⟨hr.2, fun k => hfile _, fun k => hfile _, fun k => hfile _, ?_⟩
  rintro f (rfl | rfl | rfl) <;> exact hfile _

/-- **C107, a limit.** Without folds the run raises. -/
theorem C107_no_folds (fits : P → Bool) : (run fits ([] : List (Fold A V P)) St.new).2 = some .attributeError := rfl

/-- **C107, a limit.** If a row of the last fold has a column the combined semantic file does not have, the run raises after all folds; the
joint solving statistics are there and the third joint file is not. -/
theorem C107_combined_raises (fits : P → Bool) (rows : List (Rows A V P)) (r : Rows A V P) (hf : ∃ x ∈ r.2.2, fits x = false) :
    ∃ s : St A V P, run fits ((rows ++ [r]).map finishing) St.new = (s, some .valueError) ∧
      s.file .allSolving = some (.solving ((rows ++ [r]).flatMap (·.2.1))) ∧ s.file .allNumeric = none := by
  obtain ⟨s, hs, e⟩ := after_steps (rows ++ [r]) (after_new (A := A) (V := V) (P := P))
  have e := e []
  rw [List.append_nil] at e
  have hsem : s.sem = some r.2.2 := by rw [hs.sem]; simp
  have hall : ¬ r.2.2.all fits = true := by
    obtain ⟨x, hx, hxf⟩ := hf
    intro h
    rw [List.all_eq_true.mp h x hx] at hxf
    cases hxf
  have hrun : run fits ((rows ++ [r]).map finishing) St.new = ({ s with files := put (put s.files .allSolving (.solving s.aggregated)) .combinedSemantic (.semantic (r.2.2.takeWhile fits)) }, some .valueError) := by
    unfold run
    rw [show folds 0 ((rows ++ [r]).map finishing) St.new = (s, none) from e]
    dsimp only
    rw [hsem]
    dsimp only
    rw [if_neg hall]
  have hfile : ∀ f, s.files.lookup f = foldFiles (rows ++ [r]) f := hs.files
  refine ⟨_, hrun, ?_, ?_⟩
  · simp [St.file, lookup_put, hs.aggregated]
  · simp only [St.file, lookup_put, reduceCtorEq, if_false, hfile]; rfl

/-! ### A concrete case -/
namespace Case

def r0 : Rows Nat Nat Nat := ([1], [10, 11], [100])
def r1 : Rows Nat Nat Nat := ([2, 3], [20], [200, 201])

/-- Two folds: the joint semantic file has lost fold 0. -/
example : ((run (fun _ => true) ([r0, r1].map finishing) St.new).1.file .combinedSemantic, (run (fun _ => true) ([r0, r1].map finishing) St.new).1.file .allSolving,
      (run (fun _ => true) ([r0, r1].map finishing) St.new).1.file (.semantic 1)) =
    (some (.semantic [200, 201]), some (.solving [10, 11, 20]), some (.semantic [100])) := by decide

/-- A fold whose validation raises. -/
example : Raises (⟨.ok [5], .error .keyError, .ok [6]⟩ : Fold Nat Nat Nat) := Or.inr (Or.inl ⟨_, rfl⟩)

/-- The run with it: fold 0 has its files, the failing fold and the joint files do not exist. -/
example : ((run (fun _ => true) ([r0].map finishing ++ ⟨.ok [5], .error .keyError, .ok [6]⟩ :: [finishing r1]) St.new).2,
      (run (fun _ => true) ([r0].map finishing ++ ⟨.ok [5], .error .keyError, .ok [6]⟩ :: [finishing r1]) St.new).1.file (.solving 0),
      (run (fun _ => true) ([r0].map finishing ++ ⟨.ok [5], .error .keyError, .ok [6]⟩ :: [finishing r1]) St.new).1.file .allSolving) =
    (some .keyError, some (.solving [10, 11]), none) := by decide

/-- A row that does not fit the columns of the combined file. -/
example : (run (fun x => decide (x ≠ 201)) ([r0, r1].map finishing) St.new).2 = some .valueError := by decide

end Case

end CrossVal
end Props

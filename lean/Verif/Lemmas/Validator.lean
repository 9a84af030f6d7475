import Verif.Model.Validator

/-! Lemmas on the validator model. -/
namespace Model
open Spec

/-- Whether a problem counts under a label. -/
def hits (t : TestCase) : Label → Bool
  | .out o => decide (t.verdict = some o)
  | .validated => decide (¬ t.Solved) && t.expert.valid
  | .notValidated => decide (¬ t.Solved) && !t.expert.valid

/-- The name under which a problem is listed. -/
def listedAs (t : TestCase) : Label → String
  | .out _ => if t.Solved then fileName t.stem else t.stem
  | _ => fileName t.stem

theorem deciding_ok {as : List (Outcome × ValLog)} (h : ∃ a ∈ as, a.1 = .ok) :
    ∃ log, deciding as = some (.ok, log) := by
  induction as with
  | nil => simp at h
  | cons a rest ih =>
    cases rest with
    | nil =>
      obtain ⟨x, hx, hx1⟩ := h
      simp at hx; subst hx
      exact ⟨x.2, by simp [deciding, ← hx1]⟩
    | cons b rest =>
      by_cases ha : a.1 = .ok
      · exact ⟨a.2, by rw [deciding, if_pos ha, ← ha]⟩
      · rw [deciding, if_neg ha]
        apply ih
        obtain ⟨x, hx, hx1⟩ := h
        rcases List.mem_cons.mp hx with rfl | hx
        · exact absurd hx1 ha
        · exact ⟨x, hx, hx1⟩

theorem deciding_mem {as : List (Outcome × ValLog)} {a} (h : deciding as = some a) : a ∈ as := by
  induction as with
  | nil => simp [deciding] at h
  | cons b rest ih =>
    cases rest with
    | nil => simp [deciding] at h; simp [h]
    | cons c rest =>
      rw [deciding] at h
      split at h
      · simp at h; simp [h]
      · exact List.mem_cons_of_mem _ (ih h)

theorem tryPortfolio_spec (t : TestCase) (s : SolvingStats) (as : List (Outcome × ValLog)) (rep : Option Outcome) :
    tryPortfolio t s as rep =
      match deciding as with
      | none => .ok (.inr rep)
      | some (.ok, log) => (validateSolution t log s).map .inl
      | some (o, _) => .ok (.inr (some o)) := by
  induction as generalizing rep with
  | nil => rfl
  | cons a rest ih =>
    obtain ⟨o, log⟩ := a
    rw [tryPortfolio]
    by_cases ho : o = .ok
    · subst ho
      rw [if_pos rfl]
      have : deciding ((Outcome.ok, log) :: rest) = some (.ok, log) := by
        cases rest <;> simp [deciding]
      rw [this]
      simp only [Bind.bind, Except.bind, Except.map]
      cases validateSolution t log s <;> rfl
    · rw [if_neg ho, ih]
      cases rest with
      | nil => cases o <;> first | exact absurd rfl ho | rfl
      | cons b rest =>
        have : deciding ((o, log) :: b :: rest) = deciding (b :: rest) := by
          rw [deciding, if_neg ho]
        rw [this]
        have hne : deciding (b :: rest) ≠ none := by
          clear ih this
          induction rest generalizing b with
          | nil => simp [deciding]
          | cons c rest ih => rw [deciding]; split <;> simp_all
        cases hd : deciding (b :: rest) with
        | none => exact absurd hd hne
        | some x => obtain ⟨o', l'⟩ := x; cases o' <;> rfl

theorem bump_ok {s : SolvingStats} {l : Label} {n : String} (h : isLabel l = true) :
    s.bump l n = .ok ⟨fun l' => s.count l' + if l' = l then 1 else 0,
      fun l' => s.names l' ++ if l' = l then [n] else []⟩ := by
  rw [SolvingStats.bump, if_pos h]
  congr 2
  · funext l'; by_cases hl : l' = l
    · subst hl; simp
    · simp [Function.update_of_ne hl, hl]
  · funext l'; by_cases hl : l' = l
    · subst hl; simp
    · simp [Function.update_of_ne hl, hl]

theorem bump_error {s : SolvingStats} {l : Label} {n : String} (h : isLabel l = false) :
    s.bump l n = .error .keyError := by
  rw [SolvingStats.bump, if_neg (by simp [h])]

/-- The statistics with one problem added. -/
def addCase (t : TestCase) (s : SolvingStats) : SolvingStats :=
  ⟨fun l => s.count l + if hits t l then 1 else 0,
   fun l => s.names l ++ if hits t l then [listedAs t l] else []⟩

theorem not_solved {as : List (Outcome × ValLog)} {o log} (h : deciding as = some (o, log)) (ho : o ≠ .ok) :
    ¬ ∃ a ∈ as, a.1 = .ok := by
  intro hs
  obtain ⟨l, hl⟩ := deciding_ok hs
  rw [hl] at h
  exact ho (by simpa using (congrArg Prod.fst (Option.some.inj h)).symm)

theorem validateProblem_ok {t : TestCase} (s : SolvingStats) (h : ¬ t.Stuck) :
    validateProblem t s = .ok (addCase t s) := by
  unfold validateProblem
  rw [tryPortfolio_spec]
  cases hd : deciding t.answers with
  | none =>
    exfalso; apply h; left
    cases hA : t.answers with
    | nil => rfl
    | cons a rest =>
      exfalso
      rw [hA] at hd
      clear hA h
      induction rest generalizing a with
      | nil => simp [deciding] at hd
      | cons b rest ih => rw [deciding] at hd; split at hd <;> simp_all
  | some x =>
    obtain ⟨o, log⟩ := x
    by_cases ho : o = .ok
    · subst ho
      have hS : t.Solved := ⟨_, deciding_mem hd, rfl⟩
      have hv : t.verdict = log.verdict := by rw [TestCase.verdict, hd]
      simp only [validateSolution, ValLog.verdict] at hv ⊢
      have key : ∀ o', t.verdict = some o' → isLabel (.out o') = true →
          (Except.map (Sum.inl (β := Option Outcome)) (s.bump (.out o') (fileName t.stem)) >>= fun x =>
            match x with
            | .inl s' => return s'
            | .inr none => .error .keyError
            | .inr (some o) => do
              let s' ← s.bump (.out o) t.stem
              validateExpert t s') = .ok (addCase t s) := by
        intro o' hv' hl
        rw [bump_ok hl]
        simp only [Except.map, Bind.bind, Except.bind, pure, Except.pure]
        congr 1
        simp only [addCase]
        congr 1
        · funext l; cases l <;> simp [hits, hv', hS, eq_comm]
        · funext l; cases l <;> simp [hits, hv', hS, listedAs, eq_comm]
      by_cases h1 : log.valid = true
      · rw [if_pos h1] at hv ⊢
        exact key _ hv rfl
      · rw [if_neg h1] at hv ⊢
        by_cases h2 : log.inapplicable = true
        · rw [if_pos h2] at hv ⊢
          exact key _ hv rfl
        · rw [if_neg h2] at hv ⊢
          by_cases h3 : log.goalMissed = true
          · rw [if_pos h3] at hv ⊢
            exact key _ hv rfl
          · rw [if_neg h3] at hv ⊢
            simp only [Except.map, Bind.bind, Except.bind, pure, Except.pure]
            congr 1
            simp only [addCase]
            have : ∀ l, hits t l = false := by
              intro l; cases l <;> simp [hits, hv, hS]
            simp [this]
    · have hS : ¬ t.Solved := not_solved hd ho
      have hi : o ≠ .irrelevant := by
        rintro rfl; exact h (Or.inr ⟨log, hd⟩)
      have hv : t.verdict = some o := by
        rw [TestCase.verdict, hd]; cases o <;> first | exact absurd rfl ho | rfl
      have hl : isLabel (.out o) = true := by cases o <;> first | rfl | exact absurd rfl hi
      have e : (match (some (o, log) : Option (Outcome × ValLog)) with
          | none => (.ok (.inr none) : Except Err (SolvingStats ⊕ Option Outcome))
          | some (.ok, log) => (validateSolution t log s).map .inl
          | some (o, _) => .ok (.inr (some o))) = .ok (.inr (some o)) := by
        cases o <;> first | exact absurd rfl ho | rfl
      rw [e]
      simp only [Bind.bind, Except.bind]
      rw [bump_ok hl]
      simp only [validateExpert]
      by_cases hx : t.expert.valid = true
      · rw [if_pos hx, bump_ok rfl]
        congr 1
        simp only [addCase]
        congr 1
        · funext l; cases l <;> simp [hits, hv, hS, hx, eq_comm]
        · funext l; cases l <;> simp [hits, hv, hS, hx, listedAs, eq_comm]
      · rw [if_neg hx, bump_ok rfl]
        congr 1
        simp only [addCase]
        congr 1
        · funext l; cases l <;> simp [hits, hv, hS, hx, eq_comm]
        · funext l; cases l <;> simp [hits, hv, hS, hx, listedAs, eq_comm]

theorem validateProblem_error {t : TestCase} (s : SolvingStats) (h : t.Stuck) :
    validateProblem t s = .error .keyError := by
  unfold validateProblem
  rw [tryPortfolio_spec]
  rcases h with h | ⟨log, h⟩
  · rw [h]; rfl
  · rw [h]; rfl

/-- The statistics after a list of problems. -/
theorem foldl_addCase (ts : List TestCase) (s : SolvingStats) :
    ts.foldl (fun s t => addCase t s) s =
      ⟨fun l => s.count l + ts.countP (hits · l),
       fun l => s.names l ++ (ts.filter (hits · l)).map (listedAs · l)⟩ := by
  induction ts generalizing s with
  | nil => simp
  | cons t ts ih =>
    rw [List.foldl_cons, ih]
    simp only [addCase]
    congr 1
    · funext l; rw [List.countP_cons]; omega
    · funext l; rw [List.filter_cons]; split <;> simp

theorem foldlM_ok {ts : List TestCase} (s : SolvingStats) (h : ∀ t ∈ ts, ¬ t.Stuck) :
    ts.foldlM (fun s t => validateProblem t s) s = (.ok (ts.foldl (fun s t => addCase t s) s) : Except Err _) := by
  induction ts generalizing s with
  | nil => rfl
  | cons t ts ih =>
    rw [List.foldlM_cons, validateProblem_ok s (h t (by simp))]
    exact ih _ (fun x hx => h x (List.mem_cons_of_mem _ hx))

theorem foldlM_error {ts : List TestCase} (s : SolvingStats) (h : ∃ t ∈ ts, t.Stuck) :
    ts.foldlM (fun s t => validateProblem t s) s = (.error .keyError : Except Err _) := by
  induction ts generalizing s with
  | nil => simp at h
  | cons t ts ih =>
    rw [List.foldlM_cons]
    by_cases ht : t.Stuck
    · rw [validateProblem_error s ht]; rfl
    · rw [validateProblem_ok s ht]
      refine ih _ ?_
      obtain ⟨x, hx, hxs⟩ := h
      rcases List.mem_cons.mp hx with rfl | hx
      · exact absurd hxs ht
      · exact ⟨x, hx, hxs⟩

end Model

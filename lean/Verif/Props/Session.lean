import Verif.Model.Session
import Verif.Lemmas.Episodes
import Verif.Props.Explore
import Verif.Props.OnlineTraining

/-! C112: whole runs of the online learners over series of problems, with the concrete learners. -/
namespace Props
namespace Session
open Model Spec Model.OnlineDomain Props.OnlineDomain Props.OnlineSafety Model.OnlineTraining Props.OnlineTraining Model.Session

variable {K : Type} [Field K] [LinearOrder K] [IsStrictOrderedRing K] [FloorRing K]

/-! ### The specification -/

/-- The environment executes the actions of the true domain. -/
def EnvOf (T : String → HybridAction K) (E : Env (HybridState K) Ground) : Prop := ∀ s g s', E.step s g = some s' ↔ trueStep T s g.call s'

/-- What was observed is what the true domain does: a success is a step, and a failure changes nothing and is no step. -/
def Truthful (T : String → HybridAction K) (o : Obs K) : Prop :=
  (o.ok = true ∧ trueStep T o.before o.call o.after) ∨ (o.ok = false ∧ o.after = o.before ∧ ∀ s', ¬ trueStep T o.before o.call s')

/-- Different parameters of the call are different objects, as far as literals and functions of the action can tell. -/
def ProperCall (U : Setup K) (c : HybridCall) : Prop :=
  InjectiveOn (U.voc c.name) c.ρ ∧ ∀ f ∈ U.fns c.name, ∀ g ∈ U.fns c.name, c.fluent f = c.fluent g → f = g

/-- Calls without repeated objects are proper. -/
def Fits (U : Setup K) (g : Ground) : Prop := g.params.Nodup → ProperCall U g.call

/-- A problem of the true domain, whatever its solvers answer. -/
structure EpisodeOK (U : Setup K) (T : String → HybridAction K) (p : Episode K) : Prop where
  env : EnvOf T p.env
  grounded : ∀ g ∈ p.grounded, Fits U g
  plans : ∀ safe acts, ∀ x ∈ p.answers safe acts, ∀ g ∈ x.2, Fits U g

/-- The random choices permute the frontier, and select from it. -/
structure ChoicesOK (U : Setup K) : Prop where
  order : OrderOK U.order
  select : SelOK U.select

/-- The learners are the result of their lessons; what the lessons show, and what waits to be read, was observed in the true domain with
proper calls. -/
structure Faithful (U : Setup K) (T : String → HybridAction K) (st : Learner K) : Prop where
  trained : learnLessons U.cfg U.read U.names (newClass U.names U.voc U.fns U.degree) st.lessons = .ok st.pupils
  lessons : ∀ o ∈ st.lessons.flatMap shown, Truthful T o ∧ o.params.Nodup ∧ ProperCall U o.call
  pending : ∀ t ∈ st.pending, ∀ o ∈ t, Truthful T o ∧ o.params.Nodup ∧ ProperCall U o.call

/-- The chosen attempts of the explorations were shown to the learners, or wait to be read. -/
def Kept (which : Bool → Bool) (st : Learner K) : Prop :=
  ∀ t ∈ st.explorer.log, which t.2 = true → obsOf t.1 ∈ st.lessons.flatMap shown ∨ obsOf t.1 ∈ st.pending.flatten

/-! ### Proofs -/

theorem nodup_of {l : List String} (h : containsDuplicates l = false) : l.Nodup := by
  unfold containsDuplicates at h
  have h' : l.toFinset.card = l.length := by simpa using h
  exact List.dedup_eq_self.mp ((List.dedup_sublist l).eq_of_length (by rw [← List.card_toFinset]; exact h'))

theorem dup_of_nodup {l : List String} (h : l.Nodup) : containsDuplicates l = false := by
  unfold containsDuplicates
  simpa using List.toFinset_card_of_nodup h

theorem learnLessons_snoc {cfg : ONumCfg K} {read : Reader K} {names : List String} : ∀ {ls : List (Model.OnlineTraining.Lesson K)} {D D1 D2 : Class K}
    {l : Model.OnlineTraining.Lesson K}, learnLessons cfg read names D ls = .ok D1 → learnLesson cfg read names D1 l = .ok D2 →
      learnLessons cfg read names D (ls ++ [l]) = .ok D2 := by
  intro ls
  induction ls with
  | nil =>
    intro D D1 D2 l h h2
    cases h
    rw [List.nil_append, learnLessons, h2]
    rfl
  | cons x xs ih =>
    intro D D1 D2 l h h2
    rw [learnLessons] at h
    rw [List.cons_append, learnLessons]
    cases hx : learnLesson cfg read names D x with
    | error e => rw [hx] at h; cases h
    | ok D' => rw [hx] at h; exact ih h h2

theorem teach_eq {U : Setup K} {st st' : Learner K} {l : Model.OnlineTraining.Lesson K} (h : teach U st l = .ok st') :
    learnLesson U.cfg U.read U.names st.pupils l = .ok st'.pupils ∧ st'.lessons = st.lessons ++ [l] ∧ st'.explorer = st.explorer ∧ st'.pending = st.pending := by
  unfold teach at h
  cases hl : learnLesson U.cfg U.read U.names st.pupils l with
  | error e => rw [hl] at h; cases h
  | ok D => rw [hl] at h; cases h; exact ⟨rfl, rfl, rfl, rfl⟩

/-- The observations of `os` may be shown to the learners. -/
def Good (U : Setup K) (T : String → HybridAction K) (os : List (Obs K)) : Prop := ∀ o ∈ os, Truthful T o ∧ o.params.Nodup ∧ ProperCall U o.call

theorem teach_faithful {U : Setup K} {T : String → HybridAction K} {st st' : Learner K} {l : Model.OnlineTraining.Lesson K} (F : Faithful U T st)
    (h : teach U st l = .ok st') (hl : Good U T (shown l)) : Faithful U T st' := by
  obtain ⟨h1, h2, _, h4⟩ := teach_eq h
  refine ⟨by rw [h2]; exact learnLessons_snoc F.trained h1, fun o ho => ?_, by rw [h4]; exact F.pending⟩
  rw [h2, List.flatMap_append] at ho
  rcases List.mem_append.mp ho with ho | ho
  · exact F.lessons o ho
  · exact hl o (by simpa using ho)

theorem shown_trace {t : List (Obs K)} {o : Obs K} : o ∈ shown (.trace t) ↔ o ∈ t ∧ o.params.Nodup := by
  unfold shown
  rw [List.mem_filter]
  constructor
  · exact fun h => ⟨h.1, nodup_of (by simpa using h.2)⟩
  · exact fun h => ⟨h.1, by simpa using dup_of_nodup h.2⟩

theorem honest_truthful {T : String → HybridAction K} {E : Env (HybridState K) Ground} (hE : EnvOf T E) {t : Try (HybridState K) Ground}
    (h : Honest E t) : Truthful T (obsOf t) := by
  rcases h with ⟨h1, h2⟩ | ⟨h1, h2, h3⟩
  · exact .inl ⟨h1, (hE _ _ _).mp h2⟩
  · refine .inr ⟨h1, h3, fun s' hs => ?_⟩
    have := (hE t.before t.act s').mpr hs
    rw [h2] at this
    cases this

/-- The actions of an executed plan come from a solver. -/
theorem solverLoop_acts {S A : Type} {kn : A → Bool} {E : Env S A} {init : S} : ∀ {l : List (SolveStatus × List A)} {st : SolveStatus} {q : Solved S A},
    solverLoop kn E init st l = .ok q → ∀ t ∈ q.trace, ∃ x ∈ l, t.act ∈ x.2 := by
  intro l
  induction l with
  | nil => intro st q h; cases h; simp
  | cons x rest ih =>
    intro st q h t ht
    obtain ⟨sx, plan⟩ := x
    by_cases hx : sx = .ok
    · subst hx
      rw [solverLoop] at h
      cases hr : executePlan kn E init plan with
      | error e => rw [hr] at h; simp at h
      | ok r =>
        rw [hr] at h
        obtain ⟨_, _, h2, _⟩ := C71_execute_plan hr
        have key : q.trace = r.1 := by
          dsimp only at h
          by_cases hg : r.2.1 = true
          · rw [if_pos hg] at h; cases h; rfl
          · rw [if_neg hg] at h
            cases hl : r.1.getLast? with
            | none => rw [hl] at h; cases h
            | some t => rw [hl] at h; cases h; rfl
        rw [key] at ht
        exact ⟨_, List.mem_cons_self, h2.subset (List.mem_map.mpr ⟨t, ht, rfl⟩)⟩
    · have : solverLoop kn E init st ((sx, plan) :: rest) = solverLoop kn E init sx rest := by
        cases sx <;> first | exact absurd rfl hx | rfl
      rw [this] at h
      obtain ⟨y, hy, h2⟩ := ih h t ht
      exact ⟨y, List.mem_cons_of_mem _ hy, h2⟩

/-- The constructed domain. -/
def domainOf (U : Setup K) (safe : Bool) (st : Learner K) : Except NumErr (List (String × OAction K)) :=
  if safe then constructSafe U.cfg U.add U.ord U.names (discOf st.pupils) (numOf st.pupils)
  else constructOptimistic U.cfg U.add U.ord U.names (discOf st.pupils) (numOf st.pupils)

theorem solve_inv {U : Setup K} {safe : Bool} {st st' : Learner K} {p : Episode K} {q : Solved (HybridState K) Ground} (h : solve U safe st p = .ok (st', q)) :
    ∃ acts, domainOf U safe st = .ok acts ∧ useSolvers (known U) p.env p.init (some (p.answers safe acts)) = .ok q ∧
      (((∃ x ∈ p.answers safe acts, x.1 = .ok) ∧ teach U st (.trace (q.trace.map obsOf)) = .ok st') ∨ ((∀ x ∈ p.answers safe acts, x.1 ≠ .ok) ∧ st' = st)) := by
  unfold solve at h
  unfold domainOf
  cases ha : (if safe then constructSafe U.cfg U.add U.ord U.names (discOf st.pupils) (numOf st.pupils)
    else constructOptimistic U.cfg U.add U.ord U.names (discOf st.pupils) (numOf st.pupils)) with
  | error e => rw [ha] at h; cases h
  | ok acts =>
    rw [ha] at h
    dsimp only at h
    cases hq : useSolvers (known U) p.env p.init (some (p.answers safe acts)) with
    | error e => rw [hq] at h; cases h
    | ok q' =>
      rw [hq] at h
      dsimp only at h
      refine ⟨acts, rfl, ?_⟩
      by_cases hany : (p.answers safe acts).any (fun x => decide (x.1 = .ok)) = true
      · rw [if_pos hany] at h
        cases ht : teach U st (.trace (q'.trace.map obsOf)) with
        | error e => rw [ht] at h; cases h
        | ok st1 =>
          rw [ht] at h
          cases h
          obtain ⟨x, hx, hx'⟩ := List.any_eq_true.mp hany
          exact ⟨hq, .inl ⟨⟨x, hx, of_decide_eq_true hx'⟩, ht⟩⟩
      · rw [if_neg hany] at h
        cases h
        refine ⟨hq, .inr ⟨fun x hx hk => hany ?_, rfl⟩⟩
        exact List.any_eq_true.mpr ⟨x, hx, decide_eq_true hk⟩

theorem trace_good {U : Setup K} {T : String → HybridAction K} {p : Episode K} (hp : EpisodeOK U T p) {safe : Bool} {acts : List (String × OAction K)}
    {q : Solved (HybridState K) Ground} (hq : useSolvers (known U) p.env p.init (some (p.answers safe acts)) = .ok q) :
    Good U T (shown (.trace (q.trace.map obsOf))) := by
  intro o ho
  obtain ⟨h1, h2⟩ := shown_trace.mp ho
  obtain ⟨t, ht, rfl⟩ := List.mem_map.mp h1
  obtain ⟨_, hpath, _⟩ := C75_solved_truthful hq
  obtain ⟨x, hx, hact⟩ := solverLoop_acts hq t ht
  exact ⟨honest_truthful hp.env (path_honest hpath t ht), h2, hp.plans safe acts x hx _ hact h2⟩

/-- What a step of the learner does to what it was shown: only more lessons. -/
def Grows (st st' : Learner K) : Prop := (∃ ls, st'.lessons = st.lessons ++ ls) ∧ st'.explorer = st.explorer ∧ st'.pending = st.pending

theorem teach_grows {U : Setup K} {st st' : Learner K} {l : Model.OnlineTraining.Lesson K} (h : teach U st l = .ok st') : Grows st st' := by
  obtain ⟨_, h2, h3, h4⟩ := teach_eq h
  exact ⟨⟨_, h2⟩, h3, h4⟩

theorem solve_faithful {U : Setup K} {T : String → HybridAction K} {p : Episode K} (hp : EpisodeOK U T p) {safe : Bool} {st st' : Learner K}
    {q : Solved (HybridState K) Ground} (F : Faithful U T st) (h : solve U safe st p = .ok (st', q)) : Faithful U T st' ∧ Grows st st' := by
  obtain ⟨acts, _, hq, ⟨_, ht⟩ | ⟨_, rfl⟩⟩ := solve_inv h
  · exact ⟨teach_faithful F ht (trace_good hp hq), teach_grows ht⟩
  · exact ⟨F, ⟨[], by simp⟩, rfl, rfl⟩

theorem kept_grows {which : Bool → Bool} {st st' : Learner K} (k : Kept which st) (g : Grows st st') : Kept which st' := by
  obtain ⟨⟨ls, h1⟩, h2, h3⟩ := g
  intro t ht hw
  rw [h2] at ht
  rcases k t ht hw with h | h
  · left; rw [h1, List.flatMap_append]; exact List.mem_append_left _ h
  · right; rw [h3]; exact h

theorem readAll_faithful {U : Setup K} {T : String → HybridAction K} : ∀ {ts : List (List (Obs K))} {st st' : Learner K}, Faithful U T st →
    (∀ t ∈ ts, Good U T t) → readAll U st ts = .ok st' → Faithful U T st' ∧ st'.lessons = st.lessons ++ ts.map .trace ∧ st'.explorer = st.explorer ∧ st'.pending = st.pending := by
  intro ts
  induction ts with
  | nil => intro st st' F _ h; cases h; exact ⟨F, by simp, rfl, rfl⟩
  | cons t ts ih =>
    intro st st' F hg h
    rw [readAll] at h
    cases ht : teach U st (.trace t) with
    | error e => rw [ht] at h; cases h
    | ok st1 =>
      rw [ht] at h
      have F1 := teach_faithful F ht fun o ho => hg t (by simp) o (shown_trace.mp ho).1
      obtain ⟨_, e2, e3, e4⟩ := teach_eq ht
      obtain ⟨r1, r2, r3, r4⟩ := ih F1 (fun u hu => hg u (List.mem_cons_of_mem _ hu)) h
      exact ⟨r1, by rw [r2, e2]; simp, r3.trans e3, r4.trans e4⟩

theorem readPending_faithful {U : Setup K} {T : String → HybridAction K} {st st' : Learner K} (F : Faithful U T st) (h : readPending U st = .ok st') :
    Faithful U T st' ∧ st'.lessons = st.lessons ++ st.pending.map .trace ∧ st'.explorer = st.explorer ∧ st'.pending = [] := by
  unfold readPending at h
  exact readAll_faithful (st := { st with pending := [] }) ⟨F.trained, F.lessons, by simp⟩ (fun t ht => F.pending t ht) h

theorem readPending_kept {U : Setup K} {T : String → HybridAction K} {which : Bool → Bool} {st st' : Learner K} (F : Faithful U T st) (k : Kept which st)
    (h : readPending U st = .ok st') : Kept which st' := by
  obtain ⟨_, h2, h3, h4⟩ := readPending_faithful F h
  intro t ht hw
  rw [h3] at ht
  left
  rw [h2, List.flatMap_append]
  rcases k t ht hw with h | h
  · exact List.mem_append_left _ h
  · refine List.mem_append_right _ ?_
    obtain ⟨u, hu, hm⟩ := List.mem_flatten.mp h
    refine List.mem_flatMap.mpr ⟨.trace u, List.mem_map.mpr ⟨u, hu, rfl⟩, shown_trace.mpr ⟨hm, ?_⟩⟩
    exact (F.pending u hu _ hm).2.1

/-- Attempts of an exploration are good observations. -/
theorem attempts_good {U : Setup K} {T : String → HybridAction K} {p : Episode K} (hp : EpisodeOK U T p) {s s' : HybridState K}
    {new : List (Try (HybridState K) Ground × Bool)} (hpath : Path p.env s (new.map Prod.fst) s')
    (hact : ∀ t ∈ new, t.1.act ∈ p.grounded ∧ dup t.1.act = false) : Good U T (new.map fun t => obsOf t.1) := by
  intro o ho
  obtain ⟨t, ht, rfl⟩ := List.mem_map.mp ho
  have hn : t.1.act.params.Nodup := nodup_of (hact t ht).2
  exact ⟨honest_truthful hp.env (path_honest hpath t.1 (List.mem_map.mpr ⟨t, ht, rfl⟩)), hn, hp.grounded _ (hact t ht).1 hn⟩

theorem drop_log {α : Type} {l l' new : List α} (h : l' = l ++ new) : l'.drop l.length = new := by rw [h]; exact List.drop_left

theorem semiEpisode_faithful {U : Setup K} (hc : ChoicesOK U) (hf : 0 < U.maxFile) {T : String → HybridAction K} {p : Episode K} (hp : EpisodeOK U T p)
    {st : Learner K} {out : Learner K × Record} {s : HybridState K} {a b : SolveStatus} (F : Faithful U T st) (k : Kept (fun _ => true) st)
    (h : semiEpisode U st p s a b = .ok out) : Faithful U T out.1 ∧ Kept (fun _ => true) out.1 := by
  unfold semiEpisode at h
  dsimp only at h
  obtain ⟨new, e1, e2, e3, _⟩ := C72_semi_episode (E := p.env) (F := U.maxFailed) (bound := U.maxSteps) (dup := dup) (grounded := p.grounded) hc.order s st.explorer
  rw [drop_log e1] at h
  have good : Good U T (new.map fun t => obsOf t.1) := attempts_good hp e2 fun t ht => ⟨(e3 t ht).1, (e3 t ht).2.1⟩
  have fl := (slices_flatten U.maxFile hf (new.map fun t => obsOf t.1).length (new.map fun t => obsOf t.1) (le_refl _)).1
  have step : ∀ {st1 : Learner K}, Faithful U T st1 → Kept (fun _ => true) st1 → st1.explorer = st.explorer →
      Faithful U T { st1 with
        explorer := (semiExplore p.env U.maxFailed U.maxSteps U.order dup p.grounded s st.explorer).learner
        pending := st1.pending ++ slices U.maxFile (new.map fun t => obsOf t.1).length (new.map fun t => obsOf t.1) } ∧
      Kept (fun _ => true) { st1 with
        explorer := (semiExplore p.env U.maxFailed U.maxSteps U.order dup p.grounded s st.explorer).learner
        pending := st1.pending ++ slices U.maxFile (new.map fun t => obsOf t.1).length (new.map fun t => obsOf t.1) } := by
    intro st1 F1 k1 ee
    refine ⟨⟨F1.trained, F1.lessons, fun t ht o ho => ?_⟩, fun t ht hw => ?_⟩
    · rcases List.mem_append.mp ht with ht | ht
      · exact F1.pending t ht o ho
      · exact good o (by rw [← fl]; exact List.mem_flatten.mpr ⟨t, ht, ho⟩)
    · dsimp only at ht ⊢
      rw [e1] at ht
      rw [List.flatten_append]
      rcases List.mem_append.mp ht with ht | ht
      · rw [← ee] at ht
        rcases k1 t ht hw with h | h
        · exact .inl h
        · exact .inr (List.mem_append_left _ h)
      · right
        refine List.mem_append_right _ ?_
        rw [fl]
        exact List.mem_map.mpr ⟨t, ht, rfl⟩
  by_cases hr : (semiExplore p.env U.maxFailed U.maxSteps U.order dup p.grounded s st.explorer).reached = true
  · rw [if_pos hr] at h
    cases h
    exact step F k rfl
  · rw [if_neg hr] at h
    cases ht : teach U st (.explored [] true) with
    | error e => rw [ht] at h; cases h
    | ok st1 =>
      rw [ht] at h
      cases h
      exact step (teach_faithful F ht (by unfold shown Good; simp)) (kept_grows k (teach_grows ht)) (teach_eq ht).2.2.1

theorem semiProblem_faithful {U : Setup K} (hc : ChoicesOK U) (hf : 0 < U.maxFile) {T : String → HybridAction K} {p : Episode K} (hp : EpisodeOK U T p)
    {i : Nat} {st : Learner K} {out : Learner K × Record} (F : Faithful U T st) (k : Kept (fun _ => true) st) (h : semiProblem U i st p = .ok out) :
    Faithful U T out.1 ∧ Kept (fun _ => true) out.1 := by
  unfold semiProblem at h
  split_ifs at h with hplan
  · cases hr : readPending U st with
    | error e => rw [hr] at h; cases h
    | ok st1 =>
      rw [hr] at h
      dsimp only at h
      have F1 := (readPending_faithful F hr).1
      have k1 := readPending_kept F k hr
      cases hs : solve U true st1 p with
      | error e => rw [hs] at h; cases h
      | ok r =>
        obtain ⟨st2, q⟩ := r
        rw [hs] at h
        dsimp only at h
        obtain ⟨F2, g2⟩ := solve_faithful hp F1 hs
        have k2 := kept_grows k1 g2
        by_cases hq : q.status = .ok
        · rw [if_pos hq] at h; cases h; exact ⟨F2, k2⟩
        · rw [if_neg hq] at h
          cases ho : solve U false st2 p with
          | error e => rw [ho] at h; cases h
          | ok r =>
            obtain ⟨st3, o⟩ := r
            rw [ho] at h
            dsimp only at h
            obtain ⟨F3, g3⟩ := solve_faithful hp F2 ho
            have k3 := kept_grows k2 g3
            by_cases hq' : o.status = .ok
            · rw [if_pos hq'] at h; cases h; exact ⟨F3, k3⟩
            · rw [if_neg hq'] at h; exact semiEpisode_faithful hc hf hp F3 k3 h
  · exact semiEpisode_faithful hc hf hp F k h

theorem new_faithful (U : Setup K) (T : String → HybridAction K) (which : Bool → Bool) : Faithful U T (Learner.new U) ∧ Kept which (Learner.new U) := by
  unfold Learner.new
  exact ⟨⟨rfl, by simp, by simp⟩, by intro t ht; simp [Explorer.init] at ht⟩

/-- **C112, the semi-online learner.** After any series of problems of the true domain, whatever the solvers answered and whatever the
random choices were: the learners are the result of lessons that only show what the true domain did, with proper calls, and every
attempt made in an exploration was shown to the learners or waits in a trajectory file. -/
theorem C112_semi_faithful {U : Setup K} (hc : ChoicesOK U) (hf : 0 < U.maxFile) {T : String → HybridAction K} {ps : List (Episode K)}
    (hp : ∀ p ∈ ps, EpisodeOK U T p) {st : Learner K} {rs : List Record} (h : semiRun U 0 (Learner.new U) ps = .ok (st, rs)) :
    Faithful U T st ∧ Kept (fun _ => true) st ∧ rs.length = ps.length := by
  have key : ∀ {ps : List (Episode K)} {i : Nat} {st st' : Learner K} {rs : List Record}, (∀ p ∈ ps, EpisodeOK U T p) → Faithful U T st → Kept (fun _ => true) st →
      semiRun U i st ps = .ok (st', rs) → Faithful U T st' ∧ Kept (fun _ => true) st' ∧ rs.length = ps.length := by
    intro ps
    induction ps with
    | nil => intro i st st' rs _ F k h; cases h; exact ⟨F, k, rfl⟩
    | cons p ps ih =>
      intro i st st' rs hp F k h
      rw [semiRun] at h
      cases h1 : semiProblem U i st p with
      | error e => rw [h1] at h; cases h
      | ok r =>
        obtain ⟨st1, r⟩ := r
        rw [h1] at h
        dsimp only at h
        obtain ⟨F1, k1⟩ := semiProblem_faithful hc hf (hp p (by simp)) F k h1
        cases h2 : semiRun U (i + 1) st1 ps with
        | error e => rw [h2] at h; cases h
        | ok r' =>
          obtain ⟨st2, rs'⟩ := r'
          rw [h2] at h
          cases h
          obtain ⟨a1, a2, a3⟩ := ih (fun q hq => hp q (List.mem_cons_of_mem _ hq)) F1 k1 h2
          exact ⟨a1, a2, by simp [a3]⟩
  exact key hp (new_faithful U T (fun _ => true)).1 (new_faithful U T _).2 h

theorem noamEpisode_faithful {U : Setup K} (hc : ChoicesOK U) {T : String → HybridAction K} {p : Episode K} (hp : EpisodeOK U T p)
    {st : Learner K} {out : Learner K × Bool × Nat} {s : HybridState K} (F : Faithful U T st) (k : Kept id st) (h : noamEpisode U st p s = .ok out) :
    Faithful U T out.1 ∧ Kept id out.1 ∧ out.1.pending = st.pending := by
  unfold noamEpisode at h
  dsimp only at h
  obtain ⟨new, e1, e2, e3, _⟩ := C73_noam_episode (E := p.env) (F := U.maxFailed) (bound := U.maxSteps) (dup := dup) (grounded := p.grounded)
    (name := fun g : Ground => g.call.name) hc.order hc.select s st.explorer
  rw [drop_log e1] at h
  have good : Good U T (new.map fun t => obsOf t.1) := attempts_good hp e2 e3
  cases ht : teach U st (.explored ((new.filter fun t => t.2).map fun t => obsOf t.1) true) with
  | error e => rw [ht] at h; cases h
  | ok st1 =>
    rw [ht] at h
    cases h
    have F1 := teach_faithful F ht fun o ho => good o (by
      obtain ⟨t, ht', rfl⟩ := List.mem_map.mp (show o ∈ (new.filter fun t => t.2).map fun t => obsOf t.1 from ho)
      exact List.mem_map.mpr ⟨t, (List.mem_filter.mp ht').1, rfl⟩)
    obtain ⟨_, l2, l3, l4⟩ := teach_eq ht
    refine ⟨⟨F1.trained, F1.lessons, F1.pending⟩, fun t ht' hw => ?_, l4⟩
    dsimp only at ht' ⊢
    rw [e1] at ht'
    rcases List.mem_append.mp ht' with ht' | ht'
    · rcases k t ht' hw with h | h
      · left; rw [l2, List.flatMap_append]; exact List.mem_append_left _ h
      · right; rw [l4]; exact h
    · left
      rw [l2, List.flatMap_append]
      refine List.mem_append_right _ ?_
      simp only [List.flatMap_cons, List.flatMap_nil, List.append_nil]
      exact List.mem_map.mpr ⟨t, List.mem_filter.mpr ⟨ht', hw⟩, rfl⟩

theorem noamProblem_faithful {U : Setup K} (hc : ChoicesOK U) {T : String → HybridAction K} {p : Episode K} (hp : EpisodeOK U T p) {π : Explorers}
    {st : Learner K} {out : Learner K × Bool × Nat} (F : Faithful U T st) (k : Kept id st) (h : noamProblem U π st p = .ok out) :
    Faithful U T out.1 ∧ Kept id out.1 ∧ out.1.pending = st.pending := by
  have other : ∀ {st : Learner K} {b : Bool}, Faithful U T st → Kept id st → tryOptimistic U b st p = .ok out →
      Faithful U T out.1 ∧ Kept id out.1 ∧ out.1.pending = st.pending := by
    intro st b F k h
    unfold tryOptimistic at h
    cases hs : solve U false st p with
    | error e => rw [hs] at h; cases h
    | ok r =>
      obtain ⟨st1, o⟩ := r
      rw [hs] at h
      dsimp only at h
      obtain ⟨F1, g1⟩ := solve_faithful hp F hs
      by_cases ho : o.status = .ok
      · rw [if_pos ho] at h; cases h; exact ⟨F1, kept_grows k g1, g1.2.2⟩
      · rw [if_neg ho] at h
        obtain ⟨a1, a2, a3⟩ := noamEpisode_faithful hc hp F1 (kept_grows k g1) h
        exact ⟨a1, a2, a3.trans g1.2.2⟩
  have safe : ∀ {next : Learner K → Except RunErr (Learner K × Bool × Nat)},
      (∀ {st1 : Learner K}, Faithful U T st1 → Kept id st1 → next st1 = .ok out → Faithful U T out.1 ∧ Kept id out.1 ∧ out.1.pending = st1.pending) →
      trySafe U next st p = .ok out → Faithful U T out.1 ∧ Kept id out.1 ∧ out.1.pending = st.pending := by
    intro next hnext h
    unfold trySafe at h
    cases hs : solve U true st p with
    | error e => rw [hs] at h; cases h
    | ok r =>
      obtain ⟨st1, q⟩ := r
      rw [hs] at h
      dsimp only at h
      obtain ⟨F1, g1⟩ := solve_faithful hp F hs
      have k1 := kept_grows k g1
      by_cases hq : q.status = .ok
      · rw [if_pos hq] at h; cases h; exact ⟨F1, k1, g1.2.2⟩
      · rw [if_neg hq] at h
        by_cases hn : q.status = .notApplicable
        · rw [if_pos hn] at h; cases h
        · rw [if_neg hn] at h
          obtain ⟨a1, a2, a3⟩ := hnext F1 k1 h
          exact ⟨a1, a2, a3.trans g1.2.2⟩
  cases π with
  | noam => exact safe (fun F1 k1 h1 => other F1 k1 h1) h
  | informative => exact safe (fun F1 k1 h1 => noamEpisode_faithful hc hp F1 k1 h1) h
  | optimistic => exact other F k h

/-- **C112, NOAM and its variants.** The same for the learners that integrate what they observe at once: every informative attempt was
shown to the learners, and nothing waits. -/
theorem C112_noam_faithful {U : Setup K} (hc : ChoicesOK U) {T : String → HybridAction K} {π : Explorers} {ps : List (Episode K)}
    (hp : ∀ p ∈ ps, EpisodeOK U T p) {st : Learner K} {rs : List (Bool × Nat)} (h : noamRun U π (Learner.new U) ps = .ok (st, rs)) :
    Faithful U T st ∧ (∀ t ∈ st.explorer.log, t.2 = true → obsOf t.1 ∈ st.lessons.flatMap shown) ∧ rs.length = ps.length := by
  have key : ∀ {ps : List (Episode K)} {st st' : Learner K} {rs : List (Bool × Nat)}, (∀ p ∈ ps, EpisodeOK U T p) → Faithful U T st → Kept id st →
      noamRun U π st ps = .ok (st', rs) → Faithful U T st' ∧ Kept id st' ∧ st'.pending = st.pending ∧ rs.length = ps.length := by
    intro ps
    induction ps with
    | nil => intro st st' rs _ F k h; cases h; exact ⟨F, k, rfl, rfl⟩
    | cons p ps ih =>
      intro st st' rs hp F k h
      rw [noamRun] at h
      cases h1 : noamProblem U π st p with
      | error e => rw [h1] at h; cases h
      | ok r =>
        obtain ⟨st1, r⟩ := r
        rw [h1] at h
        dsimp only at h
        obtain ⟨F1, k1, p1⟩ := noamProblem_faithful hc (hp p (by simp)) F k h1
        cases h2 : noamRun U π st1 ps with
        | error e => rw [h2] at h; cases h
        | ok r' =>
          obtain ⟨st2, rs'⟩ := r'
          rw [h2] at h
          cases h
          obtain ⟨a1, a2, a3, a4⟩ := ih (fun q hq => hp q (List.mem_cons_of_mem _ hq)) F1 k1 h2
          exact ⟨a1, a2, a3.trans p1, by simp [a4]⟩
  obtain ⟨a1, a2, a3, a4⟩ := key hp (new_faithful U T id).1 (new_faithful U T _).2 h
  refine ⟨a1, fun t ht hw => ?_, a4⟩
  rcases a2 t ht hw with h | h
  · exact h
  · rw [a3] at h; simp [Learner.new] at h

/-! ### Plans of the safe domain -/

/-- The structure of the true domain (C110), without any lessons. -/
abbrev World (U : Setup K) (T : String → HybridAction K) : Prop := OnlineTraining.Setting T U.read U.names U.voc U.fns U.degree []

/-- The libraries behave on what the learner was shown as their contracts say (C110), and no effect divides. -/
structure Exactly (U : Setup K) (st : Learner K) (acts : List (String × OAction K)) : Prop where
  addOK : AddOK U.add
  ordOK : EnumNodup U.ord
  plain : U.cfg.plain = true
  digits : U.cfg.digits ≤ 10
  reg : RegContract U.cfg.reg
  exactOn : ∀ a ∈ U.names, ExactOn U.cfg (U.fns a) U.degree ((successesAt a (st.lessons.flatMap shown)).map (transitionOf U.read))
  ops : ∀ a A, (a, A) ∈ acts → ∀ e ∈ A.numEff, e.op ≠ .scaleDown

/-- The solvers are sound on the exported safe domain: a reported plan has no repeated objects in a call, is a plan of that domain and
reaches the goal there. -/
def SoundOn (p : Episode K) (acts : List (String × OAction K)) : Prop :=
  ∀ x ∈ p.answers true acts, x.1 = .ok → (∀ g ∈ x.2, g.params.Nodup) ∧ ∃ s', Leads (builtStep acts) p.init (x.2.map (·.call)) s' ∧ p.env.goal s' = true

theorem setting_of {U : Setup K} {T : String → HybridAction K} (W : World U T) {st : Learner K} (F : Faithful U T st) :
    OnlineTraining.Setting T U.read U.names U.voc U.fns U.degree st.lessons :=
  { functions := W.functions, voc := W.voc, pre := W.pre, eff := W.eff, convex := W.convex, affine := W.affine, reads := W.reads
    honest := fun o ho hk => by
      rcases (F.lessons o ho).1 with ⟨_, h⟩ | ⟨h, _⟩
      · exact h
      · rw [h] at hk; cases hk
    proper := fun o ho _ => (F.lessons o ho).2.2 }

theorem leads_runs {T : String → HybridAction K} {E : Env (HybridState K) Ground} (hE : EnvOf T E) : ∀ {plan : List Ground} {s s' : HybridState K},
    Leads (trueStep T) s (plan.map (·.call)) s' → Runs E s plan s' := by
  intro plan
  induction plan with
  | nil => intro s s' h; exact h
  | cons g gs ih =>
    rintro s s' ⟨m, h1, h2⟩
    exact ⟨m, (hE _ _ _).mpr h1, ih h2⟩

theorem leads_names {acts : List (String × OAction K)} : ∀ {plan : List HybridCall} {s s' : HybridState K}, Leads (builtStep acts) s plan s' →
    ∀ c ∈ plan, c.name ∈ acts.map Prod.fst := by
  intro plan
  induction plan with
  | nil => intro _ _ _ c hc; simp at hc
  | cons d ds ih =>
    rintro s s' ⟨m, ⟨A, hA, _⟩, h2⟩ c hc'
    rcases List.mem_cons.mp hc' with rfl | hc'
    · exact List.mem_map.mpr ⟨_, hA, rfl⟩
    · exact ih h2 c hc'

theorem runs_unique {S A : Type} {E : Env S A} {plan : List A} {s a b : S} (h : Runs E s plan a) (h' : Runs E s plan b) : a = b := by
  induction plan generalizing s with
  | nil => exact (show s = a from h).symm.trans h'
  | cons x xs ih =>
    obtain ⟨m, h1, h2⟩ := h
    obtain ⟨m', h3, h4⟩ := h'
    rw [h1] at h3
    cases h3
    exact ih h2 h4

/-- A plan that reaches the goal when executed is used. -/
theorem solverLoop_reaches {S A : Type} {kn : A → Bool} {E : Env S A} {init : S} : ∀ {l : List (SolveStatus × List A)} (st : SolveStatus),
    (∀ x ∈ l, x.1 = .ok → (∀ g ∈ x.2, kn g = true) ∧ ∃ s', Runs E init x.2 s' ∧ E.goal s' = true) → (∃ x ∈ l, x.1 = .ok) →
    ∃ q plan, solverLoop kn E init st l = .ok q ∧ q.status = .ok ∧ (SolveStatus.ok, plan) ∈ l ∧ q.trace.map (·.act) = plan ∧ (∀ t ∈ q.trace, t.ok = true) ∧
      q.len = plan.length := by
  intro l
  induction l with
  | nil => rintro st _ ⟨x, hx, _⟩; simp at hx
  | cons x rest ih =>
    intro st hall hex
    obtain ⟨sx, plan⟩ := x
    by_cases hx : sx = .ok
    · subst hx
      obtain ⟨hk, s', hr, hg⟩ := hall _ List.mem_cons_self rfl
      obtain ⟨r, hr'⟩ := C71_no_exception (E := E) hk init
      obtain ⟨final, _, _, h3, h4, _⟩ := C71_execute_plan hr'
      have hok := (C71_applicable_iff hr').mpr ⟨s', hr⟩
      obtain ⟨h5, h6, h7⟩ := h4 hok
      rw [runs_unique h7 hr, hg] at h3
      refine ⟨⟨.ok, r.1.length, none, r.1⟩, plan, ?_, rfl, List.mem_cons_self, h5, h6, (by have := congrArg List.length h5; simpa using this)⟩
      rw [solverLoop, hr']
      dsimp only
      rw [if_pos h3]
    · have e : solverLoop kn E init st ((sx, plan) :: rest) = solverLoop kn E init sx rest := by
        cases sx <;> first | exact absurd rfl hx | rfl
      rw [e]
      obtain ⟨q, pl, h1, h2, h3, h4⟩ := ih sx (fun y hy => hall y (List.mem_cons_of_mem _ hy)) (by
        obtain ⟨y, hy, hy'⟩ := hex
        rcases List.mem_cons.mp hy with rfl | hy
        · exact absurd hy' hx
        · exact ⟨y, hy, hy'⟩)
      exact ⟨q, pl, h1, h2, List.mem_cons_of_mem _ h3, h4⟩

theorem solverLoop_none {S A : Type} {kn : A → Bool} {E : Env S A} {init : S} : ∀ {l : List (SolveStatus × List A)} {st : SolveStatus} {q : Solved S A},
    (∀ x ∈ l, x.1 ≠ .ok) → solverLoop kn E init st l = .ok q → q.trace = [] ∧ (q.status = st ∨ ∃ x ∈ l, q.status = x.1) := by
  intro l
  induction l with
  | nil => intro st q _ h; cases h; exact ⟨rfl, .inl rfl⟩
  | cons x rest ih =>
    intro st q hall h
    obtain ⟨sx, plan⟩ := x
    have hx : sx ≠ .ok := hall _ List.mem_cons_self
    have e : solverLoop kn E init st ((sx, plan) :: rest) = solverLoop kn E init sx rest := by
      cases sx <;> first | exact absurd rfl hx | rfl
    rw [e] at h
    obtain ⟨h1, h2⟩ := ih (fun y hy => hall y (List.mem_cons_of_mem _ hy)) h
    refine ⟨h1, .inr ?_⟩
    rcases h2 with h2 | ⟨y, hy, h2⟩
    · exact ⟨_, List.mem_cons_self, h2⟩
    · exact ⟨y, List.mem_cons_of_mem _ hy, h2⟩

/-- A sound plan of the exported safe domain reaches the goal in the environment. -/
theorem safe_reaches {U : Setup K} {T : String → HybridAction K} (W : World U T) {st : Learner K} (F : Faithful U T st) {p : Episode K} (hp : EpisodeOK U T p)
    {acts : List (String × OAction K)} (hd : domainOf U true st = .ok acts) (hx : Exactly U st acts) (hs : SoundOn p acts) :
    ∀ x ∈ p.answers true acts, x.1 = .ok → (∀ g ∈ x.2, known U g = true) ∧ ∃ s', Runs p.env p.init x.2 s' ∧ p.env.goal s' = true := by
  intro x hxm hk
  obtain ⟨h1, s', h2, h3⟩ := hs x hxm hk
  have hd' : constructSafe U.cfg U.add U.ord U.names (discOf st.pupils) (numOf st.pupils) = .ok acts := hd
  have hnames := leads_names h2
  rw [(build_ok.mp hd').1] at hnames
  refine ⟨fun g hg => ?_, s', leads_runs hp.env ?_, h3⟩
  · unfold known
    exact decide_eq_true (hnames g.call (List.mem_map.mpr ⟨g, hg, rfl⟩))
  · refine C110_plan hx.addOK hx.ordOK hx.plain hx.digits hx.reg (setting_of W F) hx.exactOn F.trained hd' hx.ops ?_ h2
    intro c hc
    obtain ⟨g, hg, rfl⟩ := List.mem_map.mp hc
    exact hp.plans true acts x hxm g hg (h1 g hg)

/-- What happens when the solvers are given the safe domain. -/
theorem solve_safe {U : Setup K} {T : String → HybridAction K} (W : World U T) {st : Learner K} (F : Faithful U T st) {p : Episode K} (hp : EpisodeOK U T p)
    {acts : List (String × OAction K)} (hd : domainOf U true st = .ok acts) (hx : Exactly U st acts) (hs : SoundOn p acts)
    {st' : Learner K} {q : Solved (HybridState K) Ground} (h : solve U true st p = .ok (st', q)) :
    ((∃ x ∈ p.answers true acts, x.1 = .ok) → q.status = .ok ∧ ∃ plan, (SolveStatus.ok, plan) ∈ p.answers true acts ∧ q.len = plan.length ∧
      (∀ t ∈ q.trace, t.ok = true) ∧ q.trace.map (·.act) = plan ∧ st'.lessons = st.lessons ++ [.trace (q.trace.map obsOf)]) ∧
    ((∀ x ∈ p.answers true acts, x.1 ≠ .ok) → st' = st ∧ (q.status = .noSolution ∨ ∃ x ∈ p.answers true acts, q.status = x.1)) := by
  obtain ⟨acts', hd', hq, hcase⟩ := solve_inv h
  rw [hd] at hd'
  cases hd'
  constructor
  · intro hex
    obtain ⟨q', plan, h1, h2, h3, h4, h5, h6⟩ := solverLoop_reaches (kn := known U) .noSolution (safe_reaches W F hp hd hx hs) hex
    have : q = q' := by
      have := hq.symm.trans (show useSolvers (known U) p.env p.init (some (p.answers true acts)) = .ok q' from h1)
      exact Except.ok.inj this
    subst this
    refine ⟨h2, plan, h3, h6, h5, h4, ?_⟩
    rcases hcase with ⟨_, ht⟩ | ⟨hno, _⟩
    · exact (teach_eq ht).2.1
    · obtain ⟨x, hx1, hx2⟩ := hex
      exact absurd hx2 (hno x hx1)
  · intro hno
    rcases hcase with ⟨⟨x, hx1, hx2⟩, _⟩ | ⟨_, e⟩
    · exact absurd hx2 (hno x hx1)
    · exact ⟨e, (solverLoop_none hno hq).2⟩

/-- **C112, the safe model in the semi-online learner.** After any series of problems, when the next problem is given to the solvers with
the safe domain of that moment (its trajectory files read) and they are sound on it: if some solver reports a plan, the plan is executed
completely, every action succeeds, the goal is reached, and the episode is recorded as solved by the safe model; otherwise the recorded
status is one that a solver returned. The status never says that a plan was not applicable or missed the goal, unless a solver says so. -/
theorem C112_semi_safe {U : Setup K} (hc : ChoicesOK U) (hf : 0 < U.maxFile) {T : String → HybridAction K} (W : World U T) {ps : List (Episode K)}
    (hps : ∀ p ∈ ps, EpisodeOK U T p) {st : Learner K} {rs : List Record} (hrun : semiRun U 0 (Learner.new U) ps = .ok (st, rs))
    {p : Episode K} (hp : EpisodeOK U T p) {i : Nat} (hplan : U.minEpisodes ≤ i ∨ enough U st.explorer.log = true) {st1 : Learner K} (hread : readPending U st = .ok st1)
    {acts : List (String × OAction K)} (hd : constructSafe U.cfg U.add U.ord U.names (discOf st1.pupils) (numOf st1.pupils) = .ok acts)
    (hx : Exactly U st1 acts) (hs : SoundOn p acts) {out : Learner K × Record} (h : semiProblem U i st p = .ok out) :
    ((∃ x ∈ p.answers true acts, x.1 = .ok) → out.2 = ⟨true, true, .ok, .other "irrelevant"⟩ ∧
      ∃ plan trace final, (SolveStatus.ok, plan) ∈ p.answers true acts ∧ Path p.env p.init trace final ∧ p.env.goal final = true ∧
        trace.map (·.act) = plan ∧ (∀ t ∈ trace, t.ok = true) ∧ out.1.lessons = st1.lessons ++ [.trace (trace.map obsOf)]) ∧
    ((∀ x ∈ p.answers true acts, x.1 ≠ .ok) → out.2.safe = .noSolution ∨ ∃ x ∈ p.answers true acts, out.2.safe = x.1) := by
  obtain ⟨F, _, _⟩ := C112_semi_faithful hc hf hps hrun
  have F1 := (readPending_faithful F hread).1
  unfold semiProblem at h
  have hcond : (decide (U.minEpisodes ≤ i) || enough U st.explorer.log) = true := by
    rcases hplan with h | h <;> simp [h]
  rw [if_pos hcond, hread] at h
  dsimp only at h
  cases hsol : solve U true st1 p with
  | error e => rw [hsol] at h; cases h
  | ok r =>
    obtain ⟨st2, q⟩ := r
    rw [hsol] at h
    dsimp only at h
    obtain ⟨s1, s2⟩ := solve_safe W F1 hp hd hx hs hsol
    constructor
    · intro hex
      obtain ⟨t1, plan, t2, _, t4, t5, t6⟩ := s1 hex
      rw [if_pos t1] at h
      cases h
      obtain ⟨_, _, hq, _⟩ := solve_inv hsol
      obtain ⟨final, hpath, _, hgoal, _⟩ := C75_solved_truthful hq
      exact ⟨by rw [t1], plan, q.trace, final, t2, hpath, (hgoal t1).1, t5, t4, t6⟩
    · intro hno
      obtain ⟨_, u2⟩ := s2 hno
      have hq : q.status ≠ .ok := by
        rcases u2 with u | ⟨x, hx', u⟩
        · rw [u]; simp
        · rw [u]; exact hno x hx'
      rw [if_neg hq] at h
      have hsafe : out.2.safe = q.status := by
        cases ho : solve U false st2 p with
        | error e => rw [ho] at h; cases h
        | ok r =>
          obtain ⟨st3, o⟩ := r
          rw [ho] at h
          dsimp only at h
          by_cases hq' : o.status = .ok
          · rw [if_pos hq'] at h; cases h; rfl
          · rw [if_neg hq'] at h
            unfold semiEpisode at h
            dsimp only at h
            split at h
            · cases h
            · cases h; rfl
      rw [hsafe]
      exact u2

/-- **C112, the safe model in NOAM.** After any series of problems, if the solvers are sound on the safe domain of that moment and do not
themselves report `not_applicable`, the next problem does not end with "The goal should have been reached when used the safe action
model!"; and if some solver reports a plan, the problem is solved with it, in as many steps as the plan has actions. -/
theorem C112_noam_safe {U : Setup K} (hc : ChoicesOK U) {T : String → HybridAction K} (W : World U T) {π : Explorers} {ps : List (Episode K)}
    (hps : ∀ p ∈ ps, EpisodeOK U T p) {st : Learner K} {rs : List (Bool × Nat)} (hrun : noamRun U π (Learner.new U) ps = .ok (st, rs))
    {p : Episode K} (hp : EpisodeOK U T p)
    {acts : List (String × OAction K)} (hd : constructSafe U.cfg U.add U.ord U.names (discOf st.pupils) (numOf st.pupils) = .ok acts)
    (hx : Exactly U st acts) (hs : SoundOn p acts) (hn : ∀ x ∈ p.answers true acts, x.1 ≠ .notApplicable) :
    (∀ e, noamProblem U π st p = .error e → e ≠ .unsafePlan) ∧
    (π ≠ .optimistic → (∃ x ∈ p.answers true acts, x.1 = .ok) → ∀ out, noamProblem U π st p = .ok out →
      ∃ plan, (SolveStatus.ok, plan) ∈ p.answers true acts ∧ out.2 = (true, plan.length) ∧
        out.1.lessons.length = st.lessons.length + 1) := by
  obtain ⟨F, _, _⟩ := C112_noam_faithful hc hps hrun
  have expl : ∀ {st : Learner K} {s : HybridState K} {e : RunErr}, noamEpisode U st p s = .error e → e ≠ .unsafePlan := by
    intro st s e h
    unfold noamEpisode at h
    dsimp only at h
    split at h
    · rename_i e' he
      cases h
      unfold teach at he
      split at he
      · cases he; simp
      · cases he
    · cases h
  have serr : ∀ {b : Bool} {st : Learner K} {e : RunErr}, solve U b st p = .error e → e ≠ .unsafePlan := by
    intro b st e h
    unfold solve at h
    split at h
    · cases h; simp
    · split at h
      · cases h; simp
      · split_ifs at h
        split at h
        · rename_i e' he
          cases h
          unfold teach at he
          split at he
          · cases he; simp
          · cases he
        · cases h
  have opt : ∀ {st : Learner K} {b : Bool} {e : RunErr}, tryOptimistic U b st p = .error e → e ≠ .unsafePlan := by
    intro st b e h
    unfold tryOptimistic at h
    cases hs : solve U false st p with
    | error e' => rw [hs] at h; cases h; exact serr hs
    | ok r =>
      obtain ⟨st1, o⟩ := r
      rw [hs] at h
      dsimp only at h
      by_cases ho : o.status = .ok
      · rw [if_pos ho] at h; cases h
      · rw [if_neg ho] at h; exact expl h
  have safe : ∀ {next : Learner K → Except RunErr (Learner K × Bool × Nat)} {e : RunErr}, (∀ {st1 : Learner K} {e : RunErr}, next st1 = .error e → e ≠ .unsafePlan) →
      trySafe U next st p = .error e → e ≠ .unsafePlan := by
    intro next e hnext h
    unfold trySafe at h
    cases hsol : solve U true st p with
    | error e' => rw [hsol] at h; cases h; exact serr hsol
    | ok r =>
      obtain ⟨st1, q⟩ := r
      rw [hsol] at h
      dsimp only at h
      obtain ⟨s1, s2⟩ := solve_safe W F hp hd hx hs hsol
      have hna : q.status ≠ .notApplicable := by
        by_cases hex : ∃ x ∈ p.answers true acts, x.1 = .ok
        · rw [(s1 hex).1]; simp
        · push Not at hex
          rcases (s2 hex).2 with u | ⟨x, hx', u⟩
          · rw [u]; simp
          · rw [u]; exact hn x hx'
      by_cases hq : q.status = .ok
      · rw [if_pos hq] at h; cases h
      · rw [if_neg hq, if_neg hna] at h
        exact hnext h
  have solved : ∀ {next : Learner K → Except RunErr (Learner K × Bool × Nat)} {out : Learner K × Bool × Nat}, (∃ x ∈ p.answers true acts, x.1 = .ok) →
      trySafe U next st p = .ok out → ∃ plan, (SolveStatus.ok, plan) ∈ p.answers true acts ∧ out.2 = (true, plan.length) ∧
        out.1.lessons.length = st.lessons.length + 1 := by
    intro next out hex h
    unfold trySafe at h
    cases hsol : solve U true st p with
    | error e' => rw [hsol] at h; cases h
    | ok r =>
      obtain ⟨st1, q⟩ := r
      rw [hsol] at h
      dsimp only at h
      obtain ⟨t1, plan, t2, t3, _, _, t6⟩ := (solve_safe W F hp hd hx hs hsol).1 hex
      rw [if_pos t1] at h
      cases h
      exact ⟨plan, t2, by rw [t3], by rw [t6]; simp⟩
  constructor
  · intro e h
    cases π with
    | noam => exact safe (fun h1 => opt h1) h
    | informative => exact safe (fun h1 => expl h1) h
    | optimistic => exact opt h
  · intro hπ hex out h
    cases π with
    | noam => exact solved hex h
    | informative => exact solved hex h
    | optimistic => exact absurd rfl hπ

end Session
end Props

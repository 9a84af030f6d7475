import Verif.Model.Training
import Verif.Spec.TrueEnv
import Verif.Props.SemiOnline
import Verif.Props.ExploreMore
import Verif.Lemmas.Bind

/-! C74: from honest attempts to safe plans. -/
namespace Props
open Model Spec

variable {N X : Type} [DecidableEq X] {hull : List X → X → Bool} {names : List String} {V : String → Finset Lit}

/-- The attempts that a lesson shows to the learners. -/
def shown : Lesson N → List (Try (State × N) Call)
  | .trace t => t.filter fun t => !containsDuplicates t.act.params
  | .explored log => (log.filter (·.2)).map Prod.fst

/-- The events of one action in a lesson. -/
def eventsOf (B : CallReading N X) (a : String) (l : Lesson N) : List (Event X) :=
  (((shown l).filter fun t => t.act.name == a).map fun t =>
    .attempt ⟨B.ρ t.act, t.before.1, t.after.1, t.ok⟩ (B.pt t.act t.before.2)) ++ [.eliminate]

theorem run_append (L : SemiOnline X) (xs ys : List (Event X)) : L.run hull (xs ++ ys) = (L.run hull xs).run hull ys := by
  induction xs generalizing L with
  | nil => rfl
  | cons e xs ih =>
    cases e with
    | attempt a x => rw [List.cons_append, SemiOnline.run, SemiOnline.run, ih]
    | eliminate => rw [List.cons_append, SemiOnline.run, SemiOnline.run, ih]

theorem foldl_add (B : CallReading N X) (a : String) (ts : List (Try (State × N) Call)) (D : String → SemiOnline X) :
    (ts.foldl (addToLearners hull B) D) a = (D a).run hull ((ts.filter fun t => t.act.name == a).map fun t =>
      .attempt ⟨B.ρ t.act, t.before.1, t.after.1, t.ok⟩ (B.pt t.act t.before.2)) := by
  induction ts generalizing D with
  | nil => rfl
  | cons t ts ih =>
    rw [List.foldl_cons, ih, List.filter_cons]
    by_cases h : t.act.name = a
    · rw [if_pos (by simp [h]), List.map_cons, SemiOnline.run]
      subst h
      unfold addToLearners
      rw [Function.update_self]
    · rw [if_neg (by simp [h])]
      unfold addToLearners
      rw [Function.update_of_ne (Ne.symm h)]

theorem eliminateAll_other {a : String} (ns : List String) (D : String → SemiOnline X) (h : a ∉ ns) : (eliminateAll hull ns D) a = D a := by
  induction ns generalizing D with
  | nil => rfl
  | cons n ns ih =>
    unfold eliminateAll at *
    rw [List.foldl_cons, ih _ fun h' => h (List.mem_cons_of_mem _ h'), Function.update_of_ne fun e => h (by rw [e]; simp)]

theorem eliminateAll_mem {a : String} (ns : List String) (hn : ns.Nodup) (D : String → SemiOnline X) (h : a ∈ ns) :
    (eliminateAll hull ns D) a = (D a).eliminate hull := by
  induction ns generalizing D with
  | nil => simp at h
  | cons n ns ih =>
    rw [List.nodup_cons] at hn
    rcases List.mem_cons.mp h with rfl | h'
    · have := eliminateAll_other (hull := hull) ns (Function.update D a ((D a).eliminate hull)) hn.1
      unfold eliminateAll at *
      rw [List.foldl_cons, this, Function.update_self]
    · have := ih hn.2 (Function.update D n ((D n).eliminate hull)) h'
      unfold eliminateAll at *
      rw [List.foldl_cons, this, Function.update_of_ne fun e => hn.1 (by rw [← e]; exact h')]

theorem foldl_skip {α β : Type} (p : α → Bool) (g : β → α → β) (l : List α) (b : β) :
    l.foldl (fun b x => if p x then b else g b x) b = (l.filter fun x => !p x).foldl g b := by
  induction l generalizing b with
  | nil => rfl
  | cons x l ih =>
    rw [List.foldl_cons, ih, List.filter_cons]
    cases p x <;> simp

theorem lesson_events (B : CallReading N X) (hn : names.Nodup) {a : String} (ha : a ∈ names) (D : String → SemiOnline X) (l : Lesson N) :
    (learnLesson hull B names D l) a = (D a).run hull (eventsOf B a l) := by
  unfold eventsOf
  rw [run_append, ← foldl_add]
  cases l with
  | trace t =>
    unfold learnLesson trainTrace
    dsimp only
    rw [eliminateAll_mem names hn _ ha, foldl_skip (fun t : Try (State × N) Call => containsDuplicates t.act.params) (addToLearners hull B)]
    rfl
  | explored log =>
    unfold learnLesson
    dsimp only
    rw [eliminateAll_mem names hn _ ha]
    unfold shown
    rw [List.foldl_map]
    rfl

/-- **C74.** The dictionaries keep the actions apart: the learner of an action is the one fed with the events of that action only. -/
theorem C74_actions_apart (B : CallReading N X) (hn : names.Nodup) {a : String} (ha : a ∈ names) (lessons : List (Lesson N)) :
    (learnAll hull B names V lessons) a = ran hull (V a) (lessons.flatMap (eventsOf B a)) := by
  have h : ∀ D : String → SemiOnline X, (lessons.foldl (learnLesson hull B names) D) a = (D a).run hull (lessons.flatMap (eventsOf B a)) := by
    induction lessons with
    | nil => intro D; rfl
    | cons l ls ih =>
      intro D
      rw [List.foldl_cons, ih, List.flatMap_cons, run_append, lesson_events B hn ha]
  exact h _

/-- The setting: the true domain, a sound hull test, vocabularies that have some predicate with its negation, contain the true
preconditions and effects and mention parameters only, and lessons made of honest attempts with proper calls. -/
structure Setting (T : TrueDomain Call N X) (hull : List X → X → Bool) (names : List String) (V : String → Finset Lit) (lessons : List (Lesson N)) : Prop where
  name : T.name = Call.name
  objs : T.objs = Call.params
  nodup : names.Nodup
  hull : ∀ a, HullSound hull (T.region a)
  voc : ∀ a ∈ names, ∃ l ∈ V a, l.neg ∈ V a
  pre : ∀ a, (T.schema a).pre ⊆ V a
  eff : ∀ a, (T.schema a).eff ⊆ V a
  consistent : ∀ a, ∀ l ∈ (T.schema a).eff, l.neg ∉ (T.schema a).eff
  params : ∀ a, ∀ l ∈ V a, ∀ x ∈ l.args, x ∈ Sig.names (T.schema a).params
  distinct : ∀ a, (Sig.names (T.schema a).params).Nodup
  honest : ∀ l ∈ lessons, ∀ t ∈ shown l, Honest T.env t
  proper : ∀ l ∈ lessons, ∀ t ∈ shown l, T.Proper t.act

/-- What the learners see of a call. -/
def _root_.Spec.TrueDomain.binding (T : TrueDomain Call N X) : CallReading N X := ⟨T.ρ, T.pt⟩

variable {T : TrueDomain Call N X} {lessons : List (Lesson N)}

theorem env_step_some {s s' : State × N} {c : Call} (h : T.env.step s c = some s') :
    applicable (T.schema (T.name c)).pre (T.ρ c) s.1 ∧ T.region (T.name c) (T.pt c s.2) ∧
    s' = (successor (T.schema (T.name c)).eff (T.ρ c) s.1, T.upd c s.2) := by
  classical
  unfold TrueDomain.env at h
  dsimp only at h
  by_cases hc : applicable (T.schema (T.name c)).pre (T.ρ c) s.1 ∧ T.region (T.name c) (T.pt c s.2)
  · rw [if_pos hc] at h; cases h; exact ⟨hc.1, hc.2, rfl⟩
  · rw [if_neg hc] at h; simp at h

theorem env_step_of {s : State × N} {c : Call} (h1 : applicable (T.schema (T.name c)).pre (T.ρ c) s.1) (h2 : T.region (T.name c) (T.pt c s.2)) :
    T.env.step s c = some (successor (T.schema (T.name c)).eff (T.ρ c) s.1, T.upd c s.2) := by
  classical
  unfold TrueDomain.env
  dsimp only
  exact if_pos ⟨h1, h2⟩

theorem injectiveOn_call (hS : Setting T hull names V lessons) {c : Call} (hc : T.Proper c) : InjectiveOn (V c.name) (T.ρ c) := by
  intro l hl l' hl' x hx y hy h
  unfold TrueDomain.ρ at h
  rw [hS.name] at h
  have hlen := hc.1
  rw [hS.name] at hlen
  exact bind_inj_params (hS.distinct c.name) (by rw [Sig.length_names]; exact hlen) hc.2 (hS.params _ l hl x hx) (hS.params _ l' hl' y hy) h

theorem lessonsExplained (hS : Setting T hull names V lessons) {a : String} : ∀ b x,
    Event.attempt b x ∈ lessons.flatMap (eventsOf T.binding a) → AttemptExplained (T.schema a).pre (T.region a) b x ∧
      (b.ok = true → b.after = successor (T.schema a).eff b.ρ b.before ∧ InjectiveOn (V a) b.ρ) := by
  intro b x hb
  obtain ⟨l, hl, hb⟩ := List.mem_flatMap.mp hb
  unfold eventsOf at hb
  rcases List.mem_append.mp hb with hb | hb
  · obtain ⟨t, ht, e⟩ := List.mem_map.mp hb
    obtain ⟨ht, hn⟩ := List.mem_filter.mp ht
    have hn' : t.act.name = a := by simpa using hn
    cases e
    have hp := hS.proper l hl t ht
    have hnm : T.name t.act = a := by rw [hS.name]; exact hn'
    constructor
    · unfold AttemptExplained
      rcases hS.honest l hl t ht with ⟨h1, h2⟩ | ⟨h1, h2, _⟩
      · obtain ⟨g1, g2, _⟩ := env_step_some h2
        rw [hnm] at g1 g2
        exact ⟨fun _ => ⟨g1, g2⟩, fun _ => h1⟩
      · refine ⟨fun h => by dsimp only at h; rw [h1] at h; simp at h, fun ⟨g1, g2⟩ => ?_⟩
        have := env_step_of (T := T) (s := t.before) (c := t.act) (by rw [hnm]; exact g1) (by rw [hnm]; exact g2)
        rw [h2] at this; simp at this
    · intro hok
      rcases hS.honest l hl t ht with ⟨h1, h2⟩ | ⟨h1, h2, _⟩
      · obtain ⟨_, _, g3⟩ := env_step_some h2
        rw [hnm] at g3
        refine ⟨by dsimp only; rw [g3]; rfl, ?_⟩
        have := injectiveOn_call hS hp
        rw [hn'] at this
        exact this
      · dsimp only at hok; rw [h1] at hok; simp at hok
  · simp at hb

/-- An action that has never succeeded has the whole vocabulary as its safe precondition, which no state satisfies. -/
theorem unobserved_off (hS : Setting T hull names V lessons) {c : Call} (hn : c.name ∈ names) {s : State} {x : X}
    (g1 : applicable (ran hull (V c.name) (lessons.flatMap (eventsOf T.binding c.name))).disc.safeModel.1 (T.ρ c) s)
    (g2 : (ran hull (V c.name) (lessons.flatMap (eventsOf T.binding c.name))).points = [] ∨
      hull (ran hull (V c.name) (lessons.flatMap (eventsOf T.binding c.name))).points x = true) :
    hull (ran hull (V c.name) (lessons.flatMap (eventsOf T.binding c.name))).points x = true := by
  rcases g2 with h0 | h
  · exfalso
    have hex := fun b x hb => (lessonsExplained hS (a := c.name) b x hb).1
    have inv := semiInv (V := V c.name) (hS.hull c.name) (hS.pre c.name) (lessons.flatMap (eventsOf T.binding c.name)) hex
    obtain ⟨hist, e1, _, _, e4⟩ := inv.hist
    have hlearn : (ran hull (V c.name) (lessons.flatMap (eventsOf T.binding c.name))).disc = learned (V c.name) hist := e1
    rw [hlearn] at g1
    have hall : ∀ l ∈ V c.name, holds s (ground (T.ρ c) l) := by
      intro l hl
      refine g1 l ?_
      change l ∈ (learned (V c.name) hist).superset \ (learned (V c.name) hist).cannotPre
      rw [learned_superset]
      refine Finset.mem_sdiff.mpr ⟨hl, fun hc => ?_⟩
      obtain ⟨_, a, ha, hok, _⟩ := ((onlineInv (V c.name) hist).cannotPre l).mp hc
      obtain ⟨y, hy⟩ := e4 a ha
      have hmem : y ∈ (ran hull (V c.name) (lessons.flatMap (eventsOf T.binding c.name))).points := (inv.points y).mpr ⟨a, hy, hok⟩
      rw [h0] at hmem
      simp at hmem
    obtain ⟨l, hl, hl'⟩ := hS.voc c.name hn
    have h1 := hall l hl
    have h2 := hall l.neg hl'
    unfold holds at h1 h2
    cases hp : l.pos <;> simp [ground, hp, Lit.neg, Lit.atom] at h1 h2 <;> first | exact h1 h2 | exact h2 h1
  · exact h

/-- **C74.** After any history of exploration and training in the true environment, every step that the constructed safe model allows
is a step of the environment with the same discrete result. -/
theorem C74_safe_step (hS : Setting T hull names V lessons) {upd : Call → N → N} {goal : State × N → Bool} {s s' : State × N} {c : Call}
    (hc : T.Proper c) (hn : c.name ∈ names)
    (h : (safeEnv hull T.binding (learnAll hull T.binding names V lessons) upd goal).step s c = some s') :
    T.env.step s c = some (s'.1, T.upd c s.2) := by
  unfold safeEnv at h
  dsimp only at h
  rw [C74_actions_apart T.binding hS.nodup hn] at h
  split at h
  · rename_i hg
    cases h
    obtain ⟨g1, g2⟩ := hg
    have g2 := unobserved_off hS hn g1 g2
    have hex := fun b x hb => (lessonsExplained hS (a := c.name) b x hb).1
    have inv := semiInv (V := V c.name) (hS.hull c.name) (hS.pre c.name) (lessons.flatMap (eventsOf T.binding c.name)) hex
    obtain ⟨hist, e1, e2, e3, e4⟩ := inv.hist
    have hlearn : (ran hull (V c.name) (lessons.flatMap (eventsOf T.binding c.name))).disc = learned (V c.name) hist := e1
    rw [hlearn] at g1
    have hnm : T.name c = c.name := by rw [hS.name]
    have ha : applicable (T.schema c.name).pre (T.ρ c) s.1 := by
      refine (C30_safe_exact ⟨_, e2⟩ (T.ρ c) s.1).mp ?_ _ e2
      exact (C30_safe_precondition.2 _ _).mp g1
    have hr : T.region c.name (T.pt c s.2) := by
      refine hS.hull c.name _ ?_ _ g2
      intro p hp
      obtain ⟨b, hb, hbok⟩ := (inv.points p).mp hp
      exact ((hex b p hb).mp hbok).2
    have hE : EffTrue (V c.name) hist (T.schema c.name).eff :=
      { sub := hS.eff _
        consistent := hS.consistent _
        next := fun b hb hok => by
          obtain ⟨x, hx⟩ := e4 b hb
          exact ((lessonsExplained hS (a := c.name) b x hx).2 hok).1
        inj := fun b hb hok => by
          obtain ⟨x, hx⟩ := e4 b hb
          exact ((lessonsExplained hS (a := c.name) b x hx).2 hok).2 }
    have hsucc := C33_safe_next_state hE (injectiveOn_call hS hc) g1
    rw [env_step_of (by rw [hnm]; exact ha) (by rw [hnm]; exact hr), hnm, hlearn]
    rw [← hsucc]
    rfl
  · simp at h

/-- **C74.** Every plan of the safe model is a plan of the environment, with the same last state, when the learned numeric effects agree
with the true ones inside the hull. -/
theorem C74_safe_plan (hS : Setting T hull names V lessons) {upd : Call → N → N} {goal : State × N → Bool}
    (hupd : ∀ c ν, hull (learnAll hull T.binding names V lessons c.name).points (T.pt c ν) = true → upd c ν = T.upd c ν)
    {plan : List Call} (hp : ∀ c ∈ plan, T.Proper c ∧ c.name ∈ names) {s s' : State × N}
    (h : Runs (safeEnv hull T.binding (learnAll hull T.binding names V lessons) upd goal) s plan s') : Runs T.env s plan s' := by
  induction plan generalizing s with
  | nil => exact h
  | cons c p ih =>
    obtain ⟨m, h1, h2⟩ := h
    obtain ⟨q1, q2⟩ := hp c (by simp)
    refine ⟨m, ?_, ih (fun d hd => hp d (List.mem_cons_of_mem _ hd)) h2⟩
    rw [C74_safe_step hS q1 q2 h1]
    unfold safeEnv at h1
    dsimp only at h1
    split at h1
    · rename_i hg
      cases h1
      rw [C74_actions_apart T.binding hS.nodup q2] at hg
      rw [hupd c s.2 (by rw [C74_actions_apart T.binding hS.nodup q2]; exact unobserved_off hS q2 hg.1 hg.2)]
    · simp at h1

theorem runs_unique {S A : Type} {E : Env S A} {s m m' : S} {p : List A} (h : Runs E s p m) (h' : Runs E s p m') : m = m' := by
  induction p generalizing s with
  | nil => exact (show s = m from h).symm.trans h'
  | cons a p ih =>
    obtain ⟨x, h1, h2⟩ := h
    obtain ⟨y, h3, h4⟩ := h'
    rw [h1] at h3; cases h3
    exact ih h2 h4

/-- **C74.** So executing a plan of the safe model never fails and its goal verdict is the one of the plan's last state, and the
`ValueError` of `try_to_solve_problem` for an inapplicable plan of the safe model is never raised. -/
theorem C74_safe_plan_executes (hS : Setting T hull names V lessons) {upd : Call → N → N}
    (hupd : ∀ c ν, hull (learnAll hull T.binding names V lessons c.name).points (T.pt c ν) = true → upd c ν = T.upd c ν)
    {known : Call → Bool} {plan : List Call} (hp : ∀ c ∈ plan, T.Proper c ∧ c.name ∈ names ∧ known c = true) {s s' : State × N}
    (h : Runs (safeEnv hull T.binding (learnAll hull T.binding names V lessons) upd T.goal) s plan s') :
    ∃ trace, executePlan known T.env s plan = .ok (trace, T.goal s', true) := by
  have hr := C74_safe_plan hS hupd (fun c hc => ⟨(hp c hc).1, (hp c hc).2.1⟩) h
  obtain ⟨r, hr2⟩ := C71_no_exception (E := T.env) (fun c hc => (hp c hc).2.2) s
  have hok : r.2.2 = true := (C71_applicable_iff hr2).mpr ⟨s', hr⟩
  obtain ⟨final, _, _, h3, h4, _⟩ := C71_execute_plan hr2
  have : final = s' := runs_unique (h4 hok).2.2 hr
  subst this
  refine ⟨r.1, ?_⟩
  rw [hr2]
  congr 1
  exact Prod.ext rfl (Prod.ext h3 hok)

/-- **C74.** When the solvers only return plans of the safe model, `try_to_solve_problem` does not raise "The goal should have been
reached", whatever happens later. -/
theorem C74_no_unsafe_error (hS : Setting T hull names V lessons) {upd : Call → N → N}
    (hupd : ∀ c ν, hull (learnAll hull T.binding names V lessons c.name).points (T.pt c ν) = true → upd c ν = T.upd c ν)
    {known : Call → Bool} {solvers : List (SolveStatus × List Call)} {init : State × N}
    (hsol : ∀ x ∈ solvers, x.1 ≠ .notApplicable ∧ (x.1 = .ok → (∀ c ∈ x.2, T.Proper c ∧ c.name ∈ names ∧ known c = true) ∧
      ∃ s', Runs (safeEnv hull T.binding (learnAll hull T.binding names V lessons) upd T.goal) init x.2 s'))
    {q : Solved (State × N) Call} (h : useSolvers known T.env init (some solvers) = .ok q) : q.status ≠ .notApplicable := by
  intro hna
  obtain ⟨_, _, _, _, _, _, _, h7⟩ := solverLoop_spec solvers .noSolution q (by simp) h
  obtain ⟨plan, hp, hno⟩ := h7 (by simp) (fun x hx => (hsol x hx).1) hna
  obtain ⟨_, h2⟩ := hsol _ hp
  obtain ⟨h3, s', h4⟩ := h2 rfl
  exact hno s' (C74_safe_plan hS hupd (fun c hc => ⟨(h3 c hc).1, (h3 c hc).2.1⟩) h4)

/-- C74: explorations and executed plans are such honest lessons. -/
theorem C74_lessons_honest {S A : Type} {E : Env S A} {F bound : Nat} {order : List (Try S A × Bool) → List A → List A} {dup : A → Bool}
    {grounded : List A} {name : A → String} {select : Explorer S A → S → A → List A → A × List A} (ho : OrderOK order) (hsel : SelOK select)
    (s : S) (L : Explorer S A) :
    (∃ new, (noamExplore E F bound order name select dup grounded s L).learner.log = L.log ++ new ∧
      ∀ t ∈ new, Honest E t.1 ∧ t.1.act ∈ grounded ∧ dup t.1.act = false) ∧
    ∀ known plan r, executePlan known E s plan = .ok r → ∀ t ∈ r.1, Honest E t ∧ t.act ∈ plan := by
  constructor
  · obtain ⟨new, h1, h2, h3, _⟩ := C73_noam_episode (E := E) (F := F) (bound := bound) (dup := dup) (grounded := grounded) (name := name) ho hsel s L
    exact ⟨new, h1, fun t ht => ⟨path_honest h2 t.1 (List.mem_map.mpr ⟨t, ht, rfl⟩), h3 t ht⟩⟩
  · intro known plan r h t ht
    obtain ⟨final, h1, h2, _⟩ := C71_execute_plan h
    exact ⟨path_honest h1 t ht, h2.subset (List.mem_map.mpr ⟨t, ht, rfl⟩)⟩

end Props

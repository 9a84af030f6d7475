import Verif.Model.SolverJobs

/-! One job on its own: what its acts leave. -/
namespace Model
namespace SolverJobs
open Spec.SolverJobs
open Spec.Jobs (Planner)
open Spec (Outcome)

variable {W : World} {C : Cluster} {s : Planner} {p : String} {f0 : Option Text}

/-- Acts one after the other. -/
def acts (W : World) (s : Planner) (p : String) (j : Job) : List Act → Option Job
  | [] => some j
  | a :: as => (act W s p j a).bind fun j' => acts W s p j' as

/-- What of an event concerns the job of `p`. -/
def seen (C : Cluster) (p : String) (e : Event) : Option Act :=
  if e.1 = p then some e.2
  else if e.2 = .timeout ∧ C.planner e.1 = C.planner p ∧ C.machine e.1 = C.machine p then some .hit
  else none

theorem act_hit (j : Job) : ∃ j', act W s p j .hit = some j' := by
  unfold act; dsimp only; split <;> exact ⟨_, rfl⟩

theorem step_seen {js js' : Jobs} {e : Event} (h : step W C js e = some js') (p : String) :
    match seen C p e with
    | some a => act W (C.planner p) p (js p) a = some (js' p)
    | none => js' p = js p := by
  unfold step at h
  split at h
  · cases h
  rename_i hh
  cases hact : act W (C.planner e.1) e.1 (js e.1) e.2 with
  | none => rw [hact] at h; cases h
  | some j =>
    rw [hact] at h
    simp only [Option.some.injEq] at h
    subst h
    unfold seen
    by_cases hp : e.1 = p
    · subst hp; simp [hact]
    · have hp' : p ≠ e.1 := fun x => hp x.symm
      rw [if_neg hp]
      by_cases ht : e.2 = .timeout ∧ C.planner e.1 = C.planner p ∧ C.machine e.1 = C.machine p
      · rw [if_pos ht]
        obtain ⟨j', hj'⟩ := act_hit (W := W) (s := C.planner p) (p := p) (js p)
        have hk : kills C e.1 p = true := by simp [kills, hp, ht.2.1, ht.2.2]
        simp [hp', ht.1, hk, hj']
      · rw [if_neg ht]
        have : ¬ (e.2 = .timeout ∧ kills C e.1 p = true) := by
          rintro ⟨a, b⟩
          simp only [kills, decide_eq_true_eq] at b
          exact ht ⟨a, b.2⟩
        simp [hp', this]

theorem run_seen : ∀ {es : List Event} {js js' : Jobs}, run W C js es = some js' → ∀ p,
    acts W (C.planner p) p (js p) (es.filterMap (seen C p)) = some (js' p)
  | [], js, js', h, p => by simp only [run, Option.some.injEq] at h; subst h; rfl
  | e :: es, js, js', h, p => by
    simp only [run] at h
    cases h1 : step W C js e with
    | none => rw [h1] at h; cases h
    | some j1 =>
      rw [h1] at h
      have ih := run_seen (es := es) (js := j1) (js' := js') h p
      have hs := step_seen h1 p
      cases hse : seen C p e with
      | none => rw [hse] at hs; rw [List.filterMap_cons_none hse, ← hs]; exact ih
      | some a =>
        rw [hse] at hs
        rw [List.filterMap_cons_some hse]
        simp only [acts, hs, Option.bind_some]
        exact ih

theorem acts_snoc : ∀ {as : List Act} {j j' : Job} {a : Act}, acts W s p j (as ++ [a]) = some j' →
    ∃ k, acts W s p j as = some k ∧ act W s p k a = some j'
  | [], j, j', a, h => by
    simp only [List.nil_append, acts] at h
    cases h1 : act W s p j a with
    | none => rw [h1] at h; cases h
    | some k => rw [h1] at h; exact ⟨j, rfl, by rw [h1]; exact h⟩
  | b :: as, j, j', a, h => by
    simp only [List.cons_append, acts] at h
    cases h1 : act W s p j b with
    | none => rw [h1] at h; cases h
    | some k =>
      rw [h1] at h
      obtain ⟨m, h2, h3⟩ := acts_snoc (as := as) (j := k) h
      exact ⟨m, by simp only [acts, h1, Option.bind_some]; exact h2, h3⟩

/-! ### Metric-FF -/

/-- What its process writes. -/
def ffText (W : World) (p : String) : Text := (W.process p 0).text.getD []

/-- The output the job reads and the return code it sees. -/
def Src (W : World) (p : String) (as : List Act) (t : Text) (code : Nat) : Prop :=
  (t = ffText W p ∧ code = (W.process p 0).code) ∨ (Act.hit ∈ as ∧ t <+: ffText W p ∧ code = 1)

/-- The file at every moment. -/
def AlwaysFF (W : World) (p : String) (f0 f : Option Text) : Prop :=
  f = f0 ∨ f = none ∨ ∃ t, t <+: ffText W p ∧ (f = some t ∨ ∃ d, d <+: W.plan t ∧ f = some d)

def InvFF (W : World) (p : String) (f0 : Option Text) (as : List Act) (j : Job) : Prop :=
  match j.phase with
  | .ready => j.file = f0
  | .planning i d => i = 0 ∧ ∃ k, d = some k ∧ k ≤ (ffText W p).length ∧ j.file = some ((ffText W p).take k)
  | .ended i b => i = 0 ∧ ∃ t, t <+: ffText W p ∧ j.file = some t ∧ (b = true → Act.hit ∈ as) ∧ (b = false → t = ffText W p)
  | .opening c => ∃ t code, Src W p as t code ∧ W.status t = .ok ∧ c = W.plan t ∧ j.file = some t
  | .rewriting r => ∃ t code d, Src W p as t code ∧ W.status t = .ok ∧ j.file = some d ∧ d ++ r = W.plan t
  | .unlinking o => ∃ t, t <+: ffText W p ∧ j.file = some t ∧
      ((o = .timeout ∧ Act.timeout ∈ as) ∨ ∃ code, Src W p as t code ∧ ffAnswer W t code = (o, none))
  | .returned o => (o = .timeout ∧ Act.timeout ∈ as ∧ j.file = none) ∨ ∃ t code, Src W p as t code ∧ ffAnswer W t code = (o, j.file)
  | .raised => False
  | .dead => AlwaysFF W p f0 j.file

theorem Src.mono {as : List Act} {t : Text} {c : Nat} {a : Act} (h : Src W p as t c) : Src W p (as ++ [a]) t c := by
  rcases h with h | h
  · exact Or.inl h
  · exact Or.inr ⟨by simp [h.1], h.2⟩

theorem Src.prefix {as : List Act} {t : Text} {c : Nat} (h : Src W p as t c) : t <+: ffText W p := by
  rcases h with h | h
  · rw [h.1]
  · exact h.2.1

theorem InvFF.always {as : List Act} {j : Job} (h : InvFF W p f0 as j) : AlwaysFF W p f0 j.file := by
  unfold InvFF at h
  split at h
  · exact Or.inl h
  · obtain ⟨_, k, _, _, h⟩ := h; exact Or.inr (Or.inr ⟨_, List.take_prefix _ _, Or.inl h⟩)
  · obtain ⟨_, t, h1, h2, _⟩ := h; exact Or.inr (Or.inr ⟨_, h1, Or.inl h2⟩)
  · obtain ⟨t, c, h1, _, _, h2⟩ := h; exact Or.inr (Or.inr ⟨_, h1.prefix, Or.inl h2⟩)
  · obtain ⟨t, c, d, h1, _, h2, h3⟩ := h; exact Or.inr (Or.inr ⟨_, h1.prefix, Or.inr ⟨d, ⟨_, h3⟩, h2⟩⟩)
  · obtain ⟨t, h1, h2, _⟩ := h; exact Or.inr (Or.inr ⟨_, h1, Or.inl h2⟩)
  · rcases h with h | ⟨t, c, h1, h2⟩
    · exact Or.inr (Or.inl h.2.2)
    · unfold ffAnswer at h2
      split at h2
      · simp only [Prod.mk.injEq] at h2; exact Or.inr (Or.inr ⟨_, h1.prefix, Or.inr ⟨_, List.prefix_rfl, h2.2.symm⟩⟩)
      · split at h2 <;> simp only [Prod.mk.injEq] at h2 <;> exact Or.inr (Or.inl h2.2.symm)
  · exact h.elim
  · exact h

theorem InvFF.go {as : List Act} {j j' : Job} (h : InvFF W p f0 as j) (hg : go W .metricFF p j = some j') : InvFF W p f0 (as ++ [.go]) j' := by
  obtain ⟨ph, fl⟩ := j
  cases ph with
  | ended i b =>
    obtain ⟨rfl, t, h1, h2, h3, h4⟩ := h
    dsimp only at h2
    subst h2
    simp only [SolverJobs.go, Option.some.injEq] at hg
    subst hg
    have src : ∃ code, Src W p (as ++ [.go]) t code ∧ ((b = true ∨ (W.process p 0).code ≠ 0) ↔ code ≠ 0) := by
      cases b with
      | false => exact ⟨_, Or.inl ⟨h4 rfl, rfl⟩, by simp⟩
      | true => exact ⟨1, Or.inr ⟨by simp [h3 rfl], h1, rfl⟩, by simp⟩
    obtain ⟨code, hs, hc⟩ := src
    unfold afterFF
    simp only [hc]
    split
    · rename_i hx
      exact ⟨t, h1, rfl, Or.inr ⟨code, hs, by unfold ffAnswer; rw [if_neg hx.2.1, if_pos ⟨hx.1, hx.2.2⟩]⟩⟩
    · rename_i hx
      split
      · rename_i ho; exact ⟨t, code, hs, ho, rfl, rfl⟩
      · rename_i ho
        exact ⟨t, h1, rfl, Or.inr ⟨code, hs, by
          unfold ffAnswer; rw [if_neg ho, if_neg]; rintro ⟨a, b⟩; exact hx ⟨a, ho, b⟩⟩⟩
  | opening c =>
    obtain ⟨t, code, h1, h2, h3, h4⟩ := h
    simp only [SolverJobs.go, Option.some.injEq] at hg
    subst hg
    exact ⟨t, code, [], h1.mono, h2, rfl, by simpa using h3⟩
  | rewriting r =>
    obtain ⟨t, code, d, h1, h2, h3, h4⟩ := h
    dsimp only at h3
    subst h3
    cases r with
    | nil =>
      simp only [SolverJobs.go, Option.some.injEq] at hg
      subst hg
      exact Or.inr ⟨t, code, h1.mono, by unfold ffAnswer; rw [if_pos h2, ← h4]; simp⟩
    | cons l r =>
      simp only [SolverJobs.go, Option.some.injEq] at hg
      subst hg
      exact ⟨t, code, d ++ [l], h1.mono, h2, rfl, by simpa using h4⟩
  | unlinking o =>
    obtain ⟨t, h1, h2, h3⟩ := h
    simp only [SolverJobs.go, Option.some.injEq] at hg
    subst hg
    rcases h3 with h3 | ⟨code, h3, h4⟩
    · exact Or.inl ⟨h3.1, by simp [h3.2], rfl⟩
    · exact Or.inr ⟨t, code, h3.mono, h4⟩
  | ready | planning | returned | raised | dead => simp [SolverJobs.go] at hg

theorem InvFF.act {as : List Act} {j j' : Job} {a : Act} (h : InvFF W p f0 as j) (ha : act W .metricFF p j a = some j') :
    InvFF W p f0 (as ++ [a]) j' := by
  cases a with
  | go => exact h.go ha
  | kill =>
    have := h.always
    simp only [SolverJobs.act] at ha
    split at ha <;> try cases ha
    exact this
  | hit =>
    simp only [SolverJobs.act] at ha
    split at ha
    · rename_i i d hp
      cases ha
      simp only [InvFF, hp] at h
      obtain ⟨rfl, k, rfl, hk, h⟩ := h
      exact ⟨rfl, _, List.take_prefix _ _, h, by simp, by simp⟩
    · cases ha
      unfold InvFF at h ⊢
      split
      all_goals rename_i hp; rw [hp] at h; dsimp only at h
      · exact h
      · exact h
      · obtain ⟨h0, t, h1, h2, h3, h4⟩ := h; exact ⟨h0, t, h1, h2, fun x => by simp [h3 x], h4⟩
      · obtain ⟨t, c, h1, h2⟩ := h; exact ⟨t, c, h1.mono, h2⟩
      · obtain ⟨t, c, d, h1, h2⟩ := h; exact ⟨t, c, d, h1.mono, h2⟩
      · obtain ⟨t, h1, h2, h3⟩ := h
        refine ⟨t, h1, h2, ?_⟩
        rcases h3 with h3 | ⟨c, h3, h4⟩
        · exact Or.inl ⟨h3.1, by simp [h3.2]⟩
        · exact Or.inr ⟨c, h3.mono, h4⟩
      · rcases h with h | ⟨t, c, h1, h2⟩
        · exact Or.inl ⟨h.1, by simp [h.2.1], h.2.2⟩
        · exact Or.inr ⟨t, c, h1.mono, h2⟩
      · exact h
  | launch =>
    simp only [SolverJobs.act] at ha
    split at ha <;> cases ha
    simp [InvFF, start]
  | openFile =>
    obtain ⟨ph, fl⟩ := j
    simp only [SolverJobs.act] at ha
    split at ha
    · obtain ⟨_, k, hk, _⟩ := h
      cases hk
    · cases ha
  | line =>
    obtain ⟨ph, fl⟩ := j
    simp only [SolverJobs.act] at ha
    split at ha
    · rename_i i k
      obtain ⟨rfl, k', hk, hl, hf⟩ := h
      cases hk
      dsimp only at hf
      subst hf
      split at ha
      · rename_i l hl'
        cases ha
        obtain ⟨hlt, hget⟩ := List.getElem?_eq_some_iff.1 hl'
        refine ⟨rfl, k + 1, rfl, hlt, ?_⟩
        simp only [Option.getD_some, Option.some.injEq]
        rw [← hget]
        exact List.take_append_getElem hlt
      · cases ha
    · cases ha
  | exit =>
    obtain ⟨ph, fl⟩ := j
    simp only [SolverJobs.act] at ha
    split at ha
    · obtain ⟨_, k, hk, _⟩ := h
      cases hk
    · rename_i i k
      obtain ⟨rfl, k', hk, hl, hf⟩ := h
      cases hk
      dsimp only at hf
      subst hf
      split at ha
      · cases ha
      · rename_i hlt
        cases ha
        have : (ffText W p).take k = ffText W p := List.take_of_length_le (by unfold ffText; omega)
        exact ⟨rfl, ffText W p, List.prefix_rfl, by rw [this], by simp, by simp⟩
    · cases ha
  | timeout =>
    obtain ⟨ph, fl⟩ := j
    simp only [SolverJobs.act] at ha
    cases ph <;> simp only [reduceCtorEq, Option.some.injEq] at ha
    subst ha
    obtain ⟨rfl, k', hk, hl, hf⟩ := h
    exact ⟨_, List.take_prefix _ _, hf, Or.inl ⟨rfl, by simp⟩⟩

theorem acts_ff : ∀ (as : List Act) {j : Job}, acts W .metricFF p ⟨.ready, f0⟩ as = some j → InvFF W p f0 as j := by
  intro as
  induction as using List.reverseRecOn with
  | nil => intro j h; simp only [acts, Option.some.injEq] at h; subst h; rfl
  | append_singleton as a ih =>
    intro j h
    obtain ⟨k, h1, h2⟩ := acts_snoc h
    exact (ih h1).act h2

/-! ### Fast Downward -/

/-- The file when the process has ended. -/
def left (f : Option Text) : Option Text → Option Text
  | none => f
  | some t => some t

/-- The file at every moment. -/
def AlwaysFD (W : World) (p : String) (f0 f : Option Text) : Prop :=
  f = f0 ∨ ∃ u, (f0 = some u ∨ (W.process p 0).text = some u) ∧ ∃ d, d <+: u ∧ f = some d

def InvFD (W : World) (p : String) (f0 : Option Text) (j : Job) : Prop :=
  match j.phase with
  | .ready => j.file = f0
  | .planning i none => i = 0 ∧ j.file = f0
  | .planning i (some k) => i = 0 ∧ ∃ t, (W.process p 0).text = some t ∧ k ≤ t.length ∧ j.file = some (t.take k)
  | .ended i _ => i = 0 ∧ j.file = left f0 (W.process p 0).text
  | .opening t => (W.process p 0).code = 0 ∧ ∃ u, left f0 (W.process p 0).text = some u ∧ j.file = some u ∧ t = u.dropLast
  | .rewriting r => (W.process p 0).code = 0 ∧ ∃ u d, left f0 (W.process p 0).text = some u ∧ j.file = some d ∧ d ++ r = u.dropLast
  | .unlinking _ => False
  | .returned o => fdAnswer f0 (W.process p 0) = some (o, j.file)
  | .raised => fdAnswer f0 (W.process p 0) = none ∧ j.file = none
  | .dead => AlwaysFD W p f0 j.file

theorem left_cases {f t : Option Text} {u : Text} (h : left f t = some u) : f = some u ∨ t = some u := by
  cases t with
  | none => exact Or.inl h
  | some x => exact Or.inr h

theorem fdAnswer_left {f0 : Option Text} {P : Process} : fdAnswer f0 P =
    if fdOutcome P.code = .ok then (match left f0 P.text with
      | none => none
      | some t => some (.ok, some t.dropLast))
    else some (fdOutcome P.code, left f0 P.text) := by
  obtain ⟨t, c, x, y⟩ := P
  unfold fdAnswer fdOutcome
  dsimp only
  cases t <;> dsimp only [left]
  all_goals
    split
    · cases f0 <;> simp
    · split
      · rename_i h; simp [h]
      · rename_i h; split
        · rename_i h2; simp [h, h2]
        · rename_i h2; simp [h, h2]

theorem always_left (f0 : Option Text) : AlwaysFD W p f0 (left f0 (W.process p 0).text) := by
  cases h : (W.process p 0).text with
  | none => exact Or.inl rfl
  | some t => exact Or.inr ⟨t, Or.inr h, t, List.prefix_rfl, rfl⟩

theorem InvFD.always {j : Job} (h : InvFD W p f0 j) : AlwaysFD W p f0 j.file := by
  unfold InvFD at h
  split at h
  · exact Or.inl h
  · exact Or.inl h.2
  · obtain ⟨_, t, h1, _, h2⟩ := h; exact Or.inr ⟨t, Or.inr h1, _, List.take_prefix _ _, h2⟩
  · rw [h.2]; exact always_left f0
  · obtain ⟨_, u, h1, h2, _⟩ := h; exact Or.inr ⟨u, left_cases h1, u, List.prefix_rfl, h2⟩
  · obtain ⟨_, u, d, h1, h2, h3⟩ := h
    exact Or.inr ⟨u, left_cases h1, d, List.IsPrefix.trans ⟨_, h3⟩ (List.dropLast_prefix u), h2⟩
  · exact h.elim
  · rw [fdAnswer_left] at h
    split at h
    · split at h
      · cases h
      · rename_i u hu
        simp only [Option.some.injEq, Prod.mk.injEq] at h
        exact Or.inr ⟨u, left_cases hu, _, List.dropLast_prefix u, h.2.symm⟩
    · simp only [Option.some.injEq, Prod.mk.injEq] at h
      rw [← h.2]; exact always_left f0
  · rw [fdAnswer_left] at h
    rw [h.2]
    split at h
    · split at h
      · rename_i hu
        cases ht : (W.process p 0).text with
        | none => rw [ht] at hu; exact Or.inl hu.symm
        | some t => rw [ht] at hu; cases hu
      · cases h.1
    · cases h.1
  · exact h

theorem fd_ok {c : Nat} : fdOutcome c = .ok ↔ c = 0 := by
  unfold fdOutcome
  split
  · simp_all
  · split
    · simp_all
    · split <;> simp_all

theorem InvFD.act {j j' : Job} {a : Act} (h : InvFD W p f0 j) (hn : a ≠ .hit) (ha : act W .fastDownward p j a = some j') :
    InvFD W p f0 j' := by
  cases a with
  | hit => exact absurd rfl hn
  | kill =>
    have := h.always
    simp only [SolverJobs.act] at ha
    split at ha <;> try cases ha
    exact this
  | launch =>
    simp only [SolverJobs.act] at ha
    split at ha <;> cases ha
    rename_i hr
    simp only [InvFD, hr] at h
    simp [InvFD, start, h]
  | timeout =>
    obtain ⟨ph, fl⟩ := j
    simp only [SolverJobs.act] at ha
    cases ph <;> simp at ha
  | openFile =>
    obtain ⟨ph, fl⟩ := j
    simp only [SolverJobs.act] at ha
    split at ha
    · obtain ⟨rfl, _⟩ := h
      split at ha <;> cases ha
      rename_i ht
      obtain ⟨t, ht⟩ := Option.isSome_iff_exists.1 ht
      exact ⟨rfl, t, ht, by simp, by simp⟩
    · cases ha
  | line =>
    obtain ⟨ph, fl⟩ := j
    simp only [SolverJobs.act] at ha
    split at ha
    · rename_i i k
      obtain ⟨rfl, t, ht, hl, hf⟩ := h
      dsimp only at hf
      subst hf
      rw [ht] at ha
      simp only [Option.getD_some] at ha
      split at ha
      · rename_i l hl'
        cases ha
        obtain ⟨hlt, hget⟩ := List.getElem?_eq_some_iff.1 hl'
        refine ⟨rfl, t, ht, hlt, ?_⟩
        rw [← hget]
        dsimp only
        rw [List.take_append_getElem hlt]
      · cases ha
    · cases ha
  | exit =>
    obtain ⟨ph, fl⟩ := j
    simp only [SolverJobs.act] at ha
    split at ha
    · obtain ⟨rfl, hf⟩ := h
      split at ha <;> cases ha
      rename_i ht
      refine ⟨rfl, ?_⟩
      have : (W.process p 0).text = none := by simpa using ht
      rw [this]; exact hf
    · obtain ⟨rfl, t, ht, hl, hf⟩ := h
      dsimp only at hf
      subst hf
      rw [ht] at ha
      simp only [Option.getD_some] at ha
      split at ha <;> cases ha
      rename_i k hk
      refine ⟨rfl, ?_⟩
      rw [ht]
      simp only [left, Option.some.injEq]
      exact List.take_of_length_le (by omega)
    · cases ha
  | go =>
    obtain ⟨ph, fl⟩ := j
    cases ph with
    | ended i b =>
      obtain ⟨rfl, hf⟩ := h
      dsimp only at hf
      subst hf
      simp only [SolverJobs.act, SolverJobs.go, Option.some.injEq] at ha
      subst ha
      unfold afterFD
      split
      · rename_i ho
        split
        · rename_i hl
          dsimp only at hl
          exact ⟨by rw [fdAnswer_left, if_pos ho, hl], rfl⟩
        · rename_i u hl
          dsimp only at hl
          exact ⟨fd_ok.1 ho, u, hl, hl, rfl⟩
      · rename_i ho
        show fdAnswer f0 (W.process p 0) = some (_, _)
        rw [fdAnswer_left, if_neg ho]
    | opening c =>
      obtain ⟨h1, u, h2, h3, h4⟩ := h
      simp only [SolverJobs.act, SolverJobs.go, Option.some.injEq] at ha
      subst ha
      exact ⟨h1, u, [], h2, rfl, by simpa using h4⟩
    | rewriting r =>
      obtain ⟨h1, u, d, h2, h3, h4⟩ := h
      dsimp only at h3
      subst h3
      cases r with
      | nil =>
        simp only [SolverJobs.act, SolverJobs.go, Option.some.injEq] at ha
        subst ha
        show fdAnswer f0 (W.process p 0) = some (_, _)
        rw [fdAnswer_left, if_pos (fd_ok.2 h1), h2]
        dsimp only
        rw [← h4]
        simp
      | cons l r =>
        simp only [SolverJobs.act, SolverJobs.go, Option.some.injEq] at ha
        subst ha
        exact ⟨h1, u, d ++ [l], h2, rfl, by simpa using h4⟩
    | unlinking o => exact h.elim
    | ready | planning | returned | raised | dead => simp [SolverJobs.act, SolverJobs.go] at ha

theorem acts_fd : ∀ (as : List Act) {j : Job}, Act.hit ∉ as → acts W .fastDownward p ⟨.ready, f0⟩ as = some j → InvFD W p f0 j := by
  intro as
  induction as using List.reverseRecOn with
  | nil => intro j _ h; simp only [acts, Option.some.injEq] at h; subst h; rfl
  | append_singleton as a ih =>
    intro j hn h
    obtain ⟨k, h1, h2⟩ := acts_snoc h
    simp only [List.mem_append, List.mem_singleton, not_or] at hn
    exact (ih hn.1 h1).act (fun x => hn.2 x.symm) h2

/-! ### ENHSP -/

/-- The file at every moment. -/
def AlwaysEN (W : World) (p : String) (f0 f : Option Text) : Prop :=
  f = f0 ∨ ∃ i, i ≤ 3 ∧ ∃ t, (W.process p i).text = some t ∧ ∃ d, d <+: t ∧ f = some d

def WeakEN (W : World) (p : String) (f0 : Option Text) (j : Job) : Prop :=
  AlwaysEN W p f0 j.file ∧
  match j.phase with
  | .planning i none => i ≤ 3
  | .planning i (some k) => i ≤ 3 ∧ ∃ t, (W.process p i).text = some t ∧ j.file = some (t.take k)
  | .ended i _ => i ≤ 3
  | .opening _ => False
  | .rewriting _ => False
  | .unlinking _ => False
  | .raised => False
  | _ => True

theorem WeakEN.act {j j' : Job} {a : Act} (h : WeakEN W p f0 j) (ha : act W .enhsp p j a = some j') : WeakEN W p f0 j' := by
  obtain ⟨ph, fl⟩ := j
  obtain ⟨h0, h⟩ := h
  dsimp only at h0 h
  cases a with
  | hit =>
    simp only [SolverJobs.act] at ha
    split at ha
    · rename_i i d
      cases ha
      cases d with
      | none => exact ⟨h0, h⟩
      | some k => exact ⟨h0, h.1⟩
    · cases ha; exact ⟨h0, h⟩
  | kill =>
    simp only [SolverJobs.act] at ha
    split at ha <;> cases ha <;> exact ⟨h0, trivial⟩
  | launch =>
    simp only [SolverJobs.act] at ha
    split at ha <;> cases ha
    exact ⟨by simpa [start] using h0, by simp [start]⟩
  | timeout =>
    simp only [SolverJobs.act] at ha
    cases ph <;> simp only [reduceCtorEq, Option.some.injEq] at ha
    subst ha
    exact ⟨h0, trivial⟩
  | openFile =>
    simp only [SolverJobs.act] at ha
    split at ha
    · split at ha <;> cases ha
      rename_i i ht
      obtain ⟨t, ht⟩ := Option.isSome_iff_exists.1 ht
      exact ⟨Or.inr ⟨i, h, t, ht, [], by simp, rfl⟩, h, t, ht, by simp⟩
    · cases ha
  | line =>
    simp only [SolverJobs.act] at ha
    split at ha
    · rename_i i k
      obtain ⟨hi, t, ht, hf⟩ := h
      subst hf
      rw [ht] at ha
      simp only [Option.getD_some] at ha
      split at ha
      · rename_i l hl'
        cases ha
        obtain ⟨hlt, hget⟩ := List.getElem?_eq_some_iff.1 hl'
        have e : t.take k ++ [l] = t.take (k + 1) := by rw [← hget, List.take_append_getElem hlt]
        refine ⟨Or.inr ⟨i, hi, t, ht, t.take (k + 1), List.take_prefix _ _, by dsimp only; rw [e]⟩, hi, t, ht, by dsimp only; rw [e]⟩
      · cases ha
    · cases ha
  | exit =>
    simp only [SolverJobs.act] at ha
    split at ha
    · split at ha <;> cases ha
      exact ⟨h0, h⟩
    · split at ha <;> cases ha
      exact ⟨h0, h.1⟩
    · cases ha
  | go =>
    cases ph with
    | ended i b =>
      simp only [SolverJobs.act, SolverJobs.go, Option.some.injEq, afterENHSP] at ha
      subst ha
      generalize enhspOutcome _ = r
      split
      · rename_i hx
        exact ⟨by simpa [start] using h0, by simp only [start, reduceCtorEq, ↓reduceIte]; omega⟩
      · exact ⟨h0, trivial⟩
    | opening | rewriting | unlinking => exact h.elim
    | ready | planning | returned | raised | dead => simp [SolverJobs.act, SolverJobs.go] at ha

/-- The first `i` processes say nothing that is known. -/
def Unknown (W : World) (p : String) (i : Nat) : Prop := i ≤ 3 ∧ ∀ i' < i, said (W.process p i').sentences = none

/-- The file after the first `i` processes. -/
def texts (W : World) (p : String) (f0 : Option Text) (i : Nat) : Option Text :=
  lastText f0 ((List.range i).map fun i' => (W.process p i').text)

theorem texts_succ (i : Nat) : texts W p f0 (i + 1) = left (texts W p f0 i) (W.process p i).text := by
  unfold texts lastText
  rw [List.range_succ, List.map_append, List.foldl_append]
  simp only [List.map_cons, List.map_nil, List.foldl_cons, List.foldl_nil]
  cases (W.process p i).text <;> rfl

def CalmEN (W : World) (p : String) (f0 : Option Text) (j : Job) : Prop :=
  match j.phase with
  | .ready => j.file = f0
  | .planning i none => Unknown W p i ∧ j.file = texts W p f0 i
  | .planning i (some k) => Unknown W p i ∧ ∃ t, (W.process p i).text = some t ∧ j.file = some (t.take k)
  | .ended i b => Unknown W p i ∧ b = false ∧ j.file = texts W p f0 (i + 1)
  | .opening _ => False
  | .rewriting _ => False
  | .unlinking _ => False
  | .raised => False
  | .returned o => ∃ i, Unknown W p i ∧ (i < 3 → said (W.process p i).sentences ≠ none) ∧
      o = (said (W.process p i).sentences).getD .solverError ∧ j.file = texts W p f0 (i + 1)
  | .dead => True

theorem enhsp_said (r : EnhspRun) : enhspOutcome r = ((said r).isSome, (said r).getD .solverError) := by
  obtain ⟨a, b, c, d, e, f⟩ := r
  revert a b c d e f
  decide

theorem CalmEN.act {j j' : Job} {a : Act} (h : CalmEN W p f0 j) (hn : a ≠ .hit) (hn' : a ≠ .timeout) (ha : act W .enhsp p j a = some j') :
    CalmEN W p f0 j' := by
  obtain ⟨ph, fl⟩ := j
  unfold CalmEN at h
  dsimp only at h
  cases a with
  | hit => exact absurd rfl hn
  | timeout => exact absurd rfl hn'
  | kill =>
    simp only [SolverJobs.act] at ha
    split at ha <;> cases ha
    trivial
  | launch =>
    simp only [SolverJobs.act] at ha
    split at ha <;> cases ha
    rename_i hr
    subst hr
    dsimp only at h
    subst h
    exact ⟨⟨by simp, by simp⟩, rfl⟩
  | openFile =>
    simp only [SolverJobs.act] at ha
    split at ha
    · split at ha <;> cases ha
      rename_i i ht
      obtain ⟨t, ht⟩ := Option.isSome_iff_exists.1 ht
      exact ⟨h.1, t, ht, by simp⟩
    · cases ha
  | line =>
    simp only [SolverJobs.act] at ha
    split at ha
    · rename_i i k
      obtain ⟨hi, t, ht, hf⟩ := h
      subst hf
      rw [ht] at ha
      simp only [Option.getD_some] at ha
      split at ha
      · rename_i l hl'
        cases ha
        obtain ⟨hlt, hget⟩ := List.getElem?_eq_some_iff.1 hl'
        have e : t.take k ++ [l] = t.take (k + 1) := by rw [← hget, List.take_append_getElem hlt]
        exact ⟨hi, t, ht, by dsimp only; rw [e]⟩
      · cases ha
    · cases ha
  | exit =>
    simp only [SolverJobs.act] at ha
    split at ha
    · split at ha <;> cases ha
      rename_i i ht
      have : (W.process p i).text = none := by simpa using ht
      exact ⟨h.1, rfl, by rw [texts_succ, this]; exact h.2⟩
    · rename_i i k
      split at ha <;> cases ha
      rename_i hk
      obtain ⟨hi, t, ht, hf⟩ := h
      rw [ht] at hk
      simp only [Option.getD_some] at hk
      refine ⟨hi, rfl, ?_⟩
      rw [texts_succ, ht]
      simp only [left]
      rw [hf, List.take_of_length_le (by omega)]
    · cases ha
  | go =>
    cases ph with
    | ended i b =>
      obtain ⟨hu, rfl, hf⟩ := h
      subst hf
      simp only [SolverJobs.act, SolverJobs.go, Option.some.injEq, afterENHSP, enhsp_said, Bool.false_eq_true, ↓reduceIte] at ha
      subst ha
      split
      · rename_i hx
        have hx1 : said (W.process p i).sentences = none := by simpa using hx.1
        refine ⟨⟨by have := hx.2; omega, fun i' hi' => ?_⟩, rfl⟩
        rcases Nat.lt_succ_iff_lt_or_eq.1 hi' with h1 | rfl
        · exact hu.2 i' h1
        · exact hx1
      · rename_i hx
        refine ⟨i, hu, fun hi hno => hx ⟨by simp [hno], hi⟩, rfl, rfl⟩
    | opening | rewriting | unlinking => exact h.elim
    | ready | planning | returned | raised | dead => simp [SolverJobs.act, SolverJobs.go] at ha

theorem acts_en_weak : ∀ (as : List Act) {j : Job}, acts W .enhsp p ⟨.ready, f0⟩ as = some j → WeakEN W p f0 j := by
  intro as
  induction as using List.reverseRecOn with
  | nil => intro j h; simp only [acts, Option.some.injEq] at h; subst h; exact ⟨Or.inl rfl, trivial⟩
  | append_singleton as a ih =>
    intro j h
    obtain ⟨k, h1, h2⟩ := acts_snoc h
    exact (ih h1).act h2

theorem acts_en : ∀ (as : List Act) {j : Job}, Act.hit ∉ as → Act.timeout ∉ as → acts W .enhsp p ⟨.ready, f0⟩ as = some j → CalmEN W p f0 j := by
  intro as
  induction as using List.reverseRecOn with
  | nil => intro j _ _ h; simp only [acts, Option.some.injEq] at h; subst h; rfl
  | append_singleton as a ih =>
    intro j hn hn' h
    obtain ⟨k, h1, h2⟩ := acts_snoc h
    simp only [List.mem_append, List.mem_singleton, not_or] at hn hn'
    exact (ih hn.1 hn'.1 h1).act (fun x => hn.2 x.symm) (fun x => hn'.2 x.symm) h2

/-! ### Every job ends -/

/-- The lines of a process. -/
def len (W : World) (p : String) (i : Nat) : Nat := ((W.process p i).text.getD []).length

/-- The acts of the processes from the `i`-th one on. -/
def cost (W : World) (p : String) (i : Nat) : Nat := ((List.range (4 - i)).map fun m => len W p (i + m) + 3).sum

theorem cost_succ {i : Nat} (h : i ≤ 3) : cost W p i = len W p i + 3 + cost W p (i + 1) := by
  unfold cost
  rw [show 4 - i = (4 - (i + 1)) + 1 by omega, List.range_succ_eq_map, List.map_cons, List.sum_cons, List.map_map]
  simp only [Nat.add_zero, Nat.add_left_cancel_iff]
  congr 1
  apply List.map_congr_left
  intro m _
  simp only [Function.comp]
  rw [show i + (m + 1) = i + 1 + m by omega]

/-- How much a job can still do; `R`: the lines of a rewritten file. -/
def rank (W : World) (p : String) (R : Nat) : Phase → Nat
  | .ready => cost W p 0 + R + 4
  | .planning i none => cost W p i + R + 3
  | .planning i (some k) => len W p i - k + 2 + cost W p (i + 1) + R + 3
  | .ended i _ => 1 + cost W p (i + 1) + R + 3
  | .opening t => t.length + 2
  | .rewriting r => r.length + 1
  | .unlinking _ => 1
  | .returned _ => 0
  | .raised => 0
  | .dead => 0

/-- What the measure needs to know. -/
def Tame (W : World) (s : Planner) (R : Nat) (j : Job) : Prop :=
  match j.phase with
  | .planning i none => i ≤ 3
  | .planning i (some _) => i ≤ 3
  | .ended _ _ => ∀ t, j.file = some t → (s = .metricFF → (W.plan t).length ≤ R) ∧ (s = .fastDownward → t.length ≤ R)
  | _ => True

theorem rank_act {R : Nat} {j j' : Job} {a : Act} (h : Tame W s R j) (ha : act W s p j a = some j') :
    rank W p R j'.phase + (if a = .hit then 0 else 1) ≤ rank W p R j.phase := by
  obtain ⟨ph, fl⟩ := j
  cases a with
  | launch =>
    simp only [SolverJobs.act] at ha
    split at ha <;> cases ha
    rename_i hr
    subst hr
    have := cost_succ (W := W) (p := p) (i := 0) (by omega)
    unfold start
    split <;> simp only [rank, reduceCtorEq, ↓reduceIte] <;> omega
  | openFile =>
    simp only [SolverJobs.act] at ha
    split at ha
    · split at ha <;> cases ha
      have := cost_succ (W := W) (p := p) h
      simp only [rank, reduceCtorEq, ↓reduceIte]; omega
    · cases ha
  | line =>
    simp only [SolverJobs.act] at ha
    split at ha
    · split at ha <;> cases ha
      rename_i hl
      obtain ⟨hlt, -⟩ := List.getElem?_eq_some_iff.1 hl
      simp only [rank, len, reduceCtorEq, ↓reduceIte]; omega
    · cases ha
  | exit =>
    simp only [SolverJobs.act] at ha
    split at ha
    · split at ha <;> cases ha
      have := cost_succ (W := W) (p := p) h
      simp only [rank, reduceCtorEq, ↓reduceIte]; omega
    · split at ha <;> cases ha
      simp only [rank, reduceCtorEq, ↓reduceIte]; omega
    · cases ha
  | timeout =>
    simp only [SolverJobs.act] at ha
    split at ha <;> cases ha
    all_goals
      rename_i d
      cases d <;> simp only [rank, reduceCtorEq, ↓reduceIte] <;> omega
  | hit =>
    simp only [SolverJobs.act] at ha
    split at ha
    · cases ha
      rename_i i d
      cases d with
      | none =>
        have := cost_succ (W := W) (p := p) h
        simp only [rank, ↓reduceIte]; omega
      | some k => simp only [rank, ↓reduceIte]; omega
    · cases ha; simp
  | kill =>
    simp only [SolverJobs.act] at ha
    cases ph with
    | returned | raised | dead => cases ha
    | planning i d => cases d <;> cases ha <;> simp only [rank, reduceCtorEq, ↓reduceIte] <;> omega
    | ready | ended | opening | rewriting | unlinking =>
      cases ha; simp only [rank, reduceCtorEq, ↓reduceIte]; omega
  | go =>
    cases ph with
    | ended i b =>
      simp only [SolverJobs.act, SolverJobs.go, Option.some.injEq] at ha
      subst ha
      cases s with
      | metricFF =>
        dsimp only
        unfold afterFF
        dsimp only
        cases fl with
        | none => simp only [rank, reduceCtorEq, ↓reduceIte]; omega
        | some t =>
          have := (h t rfl).1 rfl
          dsimp only
          split
          · simp only [rank, reduceCtorEq, ↓reduceIte]; omega
          · split <;> simp only [rank, reduceCtorEq, ↓reduceIte] <;> omega
      | fastDownward =>
        dsimp only
        unfold afterFD
        split
        · cases fl with
          | none => simp only [rank, reduceCtorEq, ↓reduceIte]; omega
          | some t =>
            have := (h t rfl).2 rfl
            simp only [rank, reduceCtorEq, ↓reduceIte, removeCost, List.length_dropLast]; omega
        · simp only [rank, reduceCtorEq, ↓reduceIte]; omega
      | enhsp =>
        dsimp only
        unfold afterENHSP
        dsimp only
        generalize enhspOutcome _ = r
        split
        · simp only [start, rank, reduceCtorEq, ↓reduceIte]; omega
        · simp only [rank, reduceCtorEq, ↓reduceIte]; omega
    | opening t =>
      simp only [SolverJobs.act, SolverJobs.go, Option.some.injEq] at ha
      subst ha
      simp only [rank, reduceCtorEq, ↓reduceIte]; omega
    | rewriting r =>
      cases r with
      | nil =>
        simp only [SolverJobs.act, SolverJobs.go, Option.some.injEq] at ha
        subst ha
        simp [rank]
      | cons l r =>
        simp only [SolverJobs.act, SolverJobs.go, Option.some.injEq] at ha
        subst ha
        simp [rank]
    | unlinking o =>
      simp only [SolverJobs.act, SolverJobs.go, Option.some.injEq] at ha
      subst ha
      simp [rank]
    | ready | planning | returned | raised | dead => simp [SolverJobs.act, SolverJobs.go] at ha

/-- The lines a rewritten file can have. -/
def room (W : World) (p : String) (f0 : Option Text) : Nat :=
  (((ffText W p).inits).map fun t => (W.plan t).length).sum + len W p 0 + (f0.getD []).length

theorem le_sum_of_mem' : ∀ {l : List Nat} {n : Nat}, n ∈ l → n ≤ l.sum
  | [], _, h => by cases h
  | m :: l, n, h => by
    rw [List.sum_cons]
    rcases List.mem_cons.1 h with rfl | h
    · omega
    · have := le_sum_of_mem' h; omega

theorem tame_ff {as : List Act} {j : Job} (h : InvFF W p f0 as j) : Tame W .metricFF (room W p f0) j := by
  obtain ⟨ph, fl⟩ := j
  cases ph with
  | planning i d =>
    have hi : i = 0 := h.1
    subst hi
    cases d <;> exact Nat.zero_le 3
  | ended i b =>
    obtain ⟨_, t, h1, h2, _⟩ := h
    intro t' ht'
    dsimp only at h2 ht'
    rw [h2] at ht'
    cases ht'
    refine ⟨fun _ => ?_, fun x => by cases x⟩
    have hm : (W.plan t).length ∈ ((ffText W p).inits).map fun t => (W.plan t).length :=
      List.mem_map.2 ⟨t, (List.mem_inits _ _).2 h1, rfl⟩
    have := le_sum_of_mem' hm
    unfold room; omega
  | ready | opening | rewriting | unlinking | returned | raised | dead => trivial

theorem tame_fd {j : Job} (h : InvFD W p f0 j) : Tame W .fastDownward (room W p f0) j := by
  obtain ⟨ph, fl⟩ := j
  cases ph with
  | planning i d =>
    cases d <;> (have hi : i = 0 := h.1; subst hi; exact Nat.zero_le 3)
  | ended i b =>
    intro t ht
    refine ⟨fun x => by (cases x), fun _ => ?_⟩
    have h2 : fl = _ := h.2
    dsimp only at ht
    rw [h2] at ht
    unfold room len
    rcases left_cases ht with e | e <;> rw [e] <;> simp only [Option.getD_some] <;> omega
  | ready | opening | rewriting | unlinking | returned | raised | dead => trivial

theorem tame_en {j : Job} (h : WeakEN W p f0 j) : Tame W .enhsp (room W p f0) j := by
  obtain ⟨ph, fl⟩ := j
  obtain ⟨_, h⟩ := h
  cases ph with
  | planning i d =>
    cases d with
    | none => exact h
    | some k => exact h.1
  | ended i b => intro t _; exact ⟨fun x => by (cases x), fun x => by (cases x)⟩
  | ready | opening | rewriting | unlinking | returned | raised | dead => trivial

theorem tame_acts {as : List Act} {j : Job} (hh : s = .fastDownward → Act.hit ∉ as) (h : acts W s p ⟨.ready, f0⟩ as = some j) :
    Tame W s (room W p f0) j := by
  cases s with
  | metricFF => exact tame_ff (acts_ff as h)
  | fastDownward => exact tame_fd (acts_fd as (hh rfl) h)
  | enhsp => exact tame_en (acts_en_weak as h)

theorem acts_bounded : ∀ (as : List Act) {j : Job}, (s = .fastDownward → Act.hit ∉ as) → acts W s p ⟨.ready, f0⟩ as = some j →
    (as.filter fun a => decide (a ≠ .hit)).length + rank W p (room W p f0) j.phase ≤ rank W p (room W p f0) .ready := by
  intro as
  induction as using List.reverseRecOn with
  | nil => intro j _ h; simp only [acts, Option.some.injEq] at h; subst h; simp
  | append_singleton as a ih =>
    intro j hn h
    obtain ⟨k, h1, h2⟩ := acts_snoc h
    have hn' : s = .fastDownward → Act.hit ∉ as := fun x y => hn x (by simp [y])
    have b := ih hn' h1
    have r := rank_act (tame_acts hn' h1) h2
    rw [List.filter_append, List.length_append]
    by_cases ha : a = .hit
    · subst ha
      rw [if_pos rfl] at r
      rw [List.filter_cons_of_neg (by simp), List.filter_nil, List.length_nil]
      omega
    · rw [if_neg ha] at r
      rw [List.filter_cons_of_pos (by simp [ha]), List.filter_nil, List.length_singleton]
      omega

/-- A job that has not ended can go on. -/
theorem can_act (j : Job) (h1 : ∀ o, j.phase ≠ .returned o) (h2 : j.phase ≠ .raised) (h3 : j.phase ≠ .dead) :
    ∃ a, a ≠ .kill ∧ a ≠ .timeout ∧ a ≠ .hit ∧ (act W s p j a).isSome := by
  obtain ⟨ph, fl⟩ := j
  cases ph with
  | ready => exact ⟨.launch, by simp, by simp, by simp, by simp [act]⟩
  | planning i d =>
    cases d with
    | none =>
      cases ht : (W.process p i).text with
      | none => exact ⟨.exit, by simp, by simp, by simp, by simp [act, ht]⟩
      | some t => exact ⟨.openFile, by simp, by simp, by simp, by simp [act, ht]⟩
    | some k =>
      by_cases hk : k < ((W.process p i).text.getD []).length
      · exact ⟨.line, by simp, by simp, by simp, by simp only [act, List.getElem?_eq_getElem hk]; rfl⟩
      · exact ⟨.exit, by simp, by simp, by simp, by simp [act, hk]⟩
  | ended i b => exact ⟨.go, by simp, by simp, by simp, by simp [act, go]⟩
  | opening t => exact ⟨.go, by simp, by simp, by simp, by simp [act, go]⟩
  | rewriting r => exact ⟨.go, by simp, by simp, by simp, by cases r <;> simp [act, go]⟩
  | unlinking o => exact ⟨.go, by simp, by simp, by simp, by simp [act, go]⟩
  | returned o => exact absurd rfl (h1 o)
  | raised => exact absurd rfl h2
  | dead => exact absurd rfl h3

/-- Nobody hits a Fast Downward process. -/
theorem run_no_hit : ∀ {es : List Event} {js js' : Jobs}, run W C js es = some js' → C.planner p = .fastDownward →
    Act.hit ∉ es.filterMap (seen C p)
  | [], _, _, _, _ => by simp
  | e :: es, js, js', h, hp => by
    simp only [run] at h
    cases h1 : step W C js e with
    | none => rw [h1] at h; cases h
    | some j1 =>
      rw [h1] at h
      have ih := run_no_hit (es := es) (js := j1) (js' := js') h hp
      intro hm
      rw [List.mem_filterMap] at hm ih
      obtain ⟨e', he', hs⟩ := hm
      rcases List.mem_cons.1 he' with rfl | he'
      · unfold step at h1
        split at h1
        · cases h1
        rename_i hne
        unfold seen at hs
        split at hs
        · exact hne (Option.some.inj hs)
        · split at hs
          · rename_i ht
            rw [ht.1] at h1
            rw [ht.2.1, hp] at h1
            have : act W .fastDownward e'.1 (js e'.1) .timeout = none := by
              unfold act; dsimp only; cases (js e'.1).phase <;> rfl
            rw [this] at h1
            cases h1
          · cases hs
      · exact ih ⟨e', he', hs⟩

/-- In a history nobody does `hit` himself. -/
theorem run_own : ∀ {es : List Event} {js js' : Jobs}, run W C js es = some js' → ∀ e ∈ es, e.2 ≠ .hit
  | [], _, _, _ => by simp
  | e :: es, js, js', h => by
    simp only [run] at h
    cases h1 : step W C js e with
    | none => rw [h1] at h; cases h
    | some j1 =>
      rw [h1] at h
      intro e' he'
      rcases List.mem_cons.1 he' with rfl | he'
      · unfold step at h1
        split at h1
        · cases h1
        · assumption
      · exact run_own (es := es) (js := j1) (js' := js') h e' he'

end SolverJobs
end Model

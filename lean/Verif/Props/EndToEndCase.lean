import Verif.Props.EndToEnd

/-! A concrete setting for C74: the lamp `?x` can be lit when it is plugged in and the battery is positive; lighting uses one unit. -/
namespace Props.Lamp
open Model Spec

def plugged : Lit := ⟨"plugged", ["?x"], true⟩
def lit : Lit := ⟨"lit", ["?x"], true⟩
def voc : Finset Lit := {plugged, plugged.neg, lit, lit.neg}
def between (pts : List Int) (x : Int) : Bool := pts.any (· ≤ x) && pts.any (x ≤ ·)

/-- The true domain. -/
def T : TrueDomain Call Int Int :=
  { name := Call.name, objs := Call.params, schema := fun _ => ⟨[("?x", ⟨"lamp", []⟩)], {plugged}, {lit}⟩,
    region := fun _ x => 0 < x, pt := fun _ x => x, upd := fun _ x => x - 1, goal := fun s => decide (⟨"lit", ["b"]⟩ ∈ s.1) }

def s0 : State := {⟨"plugged", ["a"]⟩, ⟨"plugged", ["b"]⟩}
def s1 : State := {⟨"plugged", ["a"]⟩, ⟨"plugged", ["b"]⟩, ⟨"lit", ["a"]⟩}
def s2 : State := {⟨"plugged", ["a"]⟩, ⟨"plugged", ["b"]⟩, ⟨"lit", ["a"]⟩, ⟨"lit", ["b"]⟩}
/-- An exploration and a trace: two successes, a failure for lack of a plug, a failure for lack of energy. -/
def lessons : List (Lesson Int) :=
  [.explored [(⟨(∅, 3), ⟨"light", ["a"]⟩, (∅, 3), false⟩, true), (⟨(s0, 5), ⟨"light", ["a"]⟩, (s1, 4), true⟩, true)],
   .trace [⟨(s1, 2), ⟨"light", ["b"]⟩, (s2, 1), true⟩, ⟨(s0, 0), ⟨"light", ["a"]⟩, (s0, 0), false⟩]]

theorem setting : Setting T between ["light"] (fun _ => voc) lessons where
  name := rfl
  objs := rfl
  nodup := by simp
  hull := by
    intro a pts h x hx
    simp only [between, Bool.and_eq_true, List.any_eq_true, decide_eq_true_eq] at hx
    obtain ⟨⟨y, hy, hyx⟩, _⟩ := hx
    exact lt_of_lt_of_le (h y hy) hyx
  voc := by intro a _; exact ⟨plugged, by decide +kernel, by decide +kernel⟩
  pre := by intro a; change ({plugged} : Finset Lit) ⊆ voc; decide +kernel
  eff := by intro a; change ({lit} : Finset Lit) ⊆ voc; decide +kernel
  consistent := by intro a; change ∀ l ∈ ({lit} : Finset Lit), l.neg ∉ ({lit} : Finset Lit); decide +kernel
  params := by
    intro a
    change ∀ l ∈ voc, ∀ x ∈ l.args, x ∈ ["?x"]
    decide +kernel
  distinct := by intro a; change ["?x"].Nodup; simp
  honest := by
    intro l hl t ht
    simp only [lessons, List.mem_cons, List.not_mem_nil, or_false] at hl
    have no : ∀ {s : State × Int} {c : Call}, ¬ (applicable {plugged} (T.ρ c) s.1 ∧ 0 < s.2) → T.env.step s c = none := by
      intro s c h
      cases hs : T.env.step s c with
      | none => rfl
      | some s' =>
        obtain ⟨h1, h2, _⟩ := env_step_some hs
        exact absurd ⟨h1, h2⟩ h
    rcases hl with rfl | rfl
    · change t ∈ [(⟨(∅, 3), ⟨"light", ["a"]⟩, (∅, 3), false⟩ : Try (State × Int) Call), ⟨(s0, 5), ⟨"light", ["a"]⟩, (s1, 4), true⟩] at ht
      simp only [List.mem_cons, List.not_mem_nil, or_false] at ht
      rcases ht with rfl | rfl
      · exact .inr ⟨rfl, no (by decide +kernel), rfl⟩
      · refine .inl ⟨rfl, ?_⟩
        have := env_step_of (T := T) (s := (s0, 5)) (c := ⟨"light", ["a"]⟩) (by decide +kernel) (by change (0 : Int) < 5; decide)
        rw [show T.env.step (s0, 5) ⟨"light", ["a"]⟩ = _ from this]
        decide +kernel
    · have ht' := (List.mem_filter.mp ht).1
      simp only [List.mem_cons, List.not_mem_nil, or_false] at ht'
      rcases ht' with rfl | rfl
      · refine .inl ⟨rfl, ?_⟩
        have := env_step_of (T := T) (s := (s1, 2)) (c := ⟨"light", ["b"]⟩) (by decide +kernel) (by change (0 : Int) < 2; decide)
        rw [show T.env.step (s1, 2) ⟨"light", ["b"]⟩ = _ from this]
        decide +kernel
      · exact .inr ⟨rfl, no (by decide +kernel), rfl⟩
  proper := by
    intro l hl t ht
    simp only [lessons, List.mem_cons, List.not_mem_nil, or_false] at hl
    rcases hl with rfl | rfl
    · change t ∈ [(⟨(∅, 3), ⟨"light", ["a"]⟩, (∅, 3), false⟩ : Try (State × Int) Call), ⟨(s0, 5), ⟨"light", ["a"]⟩, (s1, 4), true⟩] at ht
      simp only [List.mem_cons, List.not_mem_nil, or_false] at ht
      rcases ht with rfl | rfl <;> exact ⟨rfl, by simp [T]⟩
    · have ht' := (List.mem_filter.mp ht).1
      simp only [List.mem_cons, List.not_mem_nil, or_false] at ht'
      rcases ht' with rfl | rfl <;> exact ⟨rfl, by simp [T]⟩

/-- The safe model learned from the four attempts allows a plan of length one with a battery it has not seen, … -/
example : ((safeEnv between T.binding (learnAll between T.binding ["light"] (fun _ => voc) lessons) T.upd T.goal).step (s1, 4) ⟨"light", ["b"]⟩) =
    some (s2, 3) := by decide +kernel
/-- … and not with a battery outside the observed range. -/
example : ((safeEnv between T.binding (learnAll between T.binding ["light"] (fun _ => voc) lessons) T.upd T.goal).step (s1, 7) ⟨"light", ["b"]⟩) =
    none := by decide +kernel

/-- So the theorems say that the environment executes it. -/
example : ∃ trace, executePlan (fun _ => true) T.env (s1, 4) [⟨"light", ["b"]⟩] = .ok (trace, true, true) := by
  have h : Runs (safeEnv between T.binding (learnAll between T.binding ["light"] (fun _ => voc) lessons) T.upd T.goal) (s1, 4) [⟨"light", ["b"]⟩] (s2, 3) :=
    ⟨(s2, 3), by decide +kernel, rfl⟩
  obtain ⟨tr, e⟩ := C74_safe_plan_executes setting (upd := T.upd) (fun _ _ _ => rfl) (known := fun _ => true) (by
    intro c hc
    rw [List.mem_singleton] at hc
    subst hc
    exact ⟨⟨rfl, by simp [T]⟩, by simp, rfl⟩) h
  exact ⟨tr, e⟩

/-! ### Without predicates -/

/-- The same battery in a domain without predicates. -/
def T0 : TrueDomain Call Int Int :=
  { name := Call.name, objs := Call.params, schema := fun _ => ⟨[], ∅, ∅⟩,
    region := fun _ x => 0 < x, pt := fun _ x => x, upd := fun _ x => x - 1, goal := fun _ => false }

end Props.Lamp

namespace Props
open Model Spec

/-- **C74, a limit.** The vocabulary must not be empty. In a domain without predicates the safe model lets an action that
has never been tried be executed in every state, also where the environment refuses it. -/
theorem C74_limit_no_predicates : ∃ (T : TrueDomain Call Int Int) (s s' : State × Int) (c : Call), T.Proper c ∧
    (∀ a, (T.schema a).pre = ∅ ∧ (T.schema a).eff = ∅) ∧ (∀ a, HullSound Lamp.between (T.region a)) ∧
    (safeEnv Lamp.between T.binding (learnAll Lamp.between T.binding [c.name] (fun _ => ∅) []) T.upd T.goal).step s c = some s' ∧
    T.env.step s c = none := by
  refine ⟨Lamp.T0, (∅, 0), (∅, -1), ⟨"use", []⟩, ⟨rfl, by simp [Lamp.T0]⟩, fun a => ⟨rfl, rfl⟩, ?_, by decide +kernel, ?_⟩
  · intro a pts h x hx
    simp only [Lamp.between, Bool.and_eq_true, List.any_eq_true, decide_eq_true_eq] at hx
    obtain ⟨⟨y, hy, hyx⟩, _⟩ := hx
    exact lt_of_lt_of_le (h y hy) hyx
  · cases hs : Lamp.T0.env.step (∅, 0) ⟨"use", []⟩ with
    | none => rfl
    | some s' =>
      obtain ⟨_, h2, _⟩ := env_step_some hs
      exact absurd h2 (by change ¬ (0 : Int) < 0; decide)

end Props

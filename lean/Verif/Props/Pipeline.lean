import Verif.Model.Pipeline
import Verif.Props.TrajectoryFiles
import Verif.Props.Plans

/-! C132: from planners through files to correct plans. -/
namespace Props
namespace Pipeline
open Model Spec Spec.Plans Model.TrajectoryFiles Model.Pipeline Props.TrajectoryFiles

/-- The exporter exports only executions of the true domain, as texts from which the parser reads them; a text that
ends too early cannot be parsed, or nothing of importance (such as the last line break) is missing. -/
structure Faithful (D : Domain) (truth : String → Schema) (L : Library) : Prop where
  real : ∀ s p t, L.exporter s p = .exported t → ∃ o, L.parser s t = .ok o ∧
    ∀ c ∈ o, c.success = true → Explained truth c ∧ (c.call.params.Nodup → ∀ x ∈ c.call.params, x ∉ Sig.names D.consts)
  cut : ∀ s p t pre, L.exporter s p = .exported t → pre <+: t → (∃ e, L.parser s pre = .error e) ∨ L.parser s pre = L.parser s t

/-- What can happen to the files: planners run (and stop or crash at any point), the trajectories are created, the creation crashes at any point. -/
inductive Happens (L : Library) : Bool → Disk → Disk → Prop where
  | solve {d d' : Disk} : Solving d d' → Happens L false d d'
  | create (d : Disk) (solutions : List String) : Happens L false d (created L d solutions)
  | crash {d d' : Disk} (solutions : List String) : Crashed d (create (planOf L d) d solutions).1 d' → Happens L true d d'

/-- Any number of these, with the number of crashes. -/
inductive Later (L : Library) : Nat → Disk → Disk → Prop where
  | refl (d : Disk) : Later L 0 d d
  | step {n : Nat} {d d' d'' : Disk} {b : Bool} : Later L n d d' → Happens L b d' d'' → Later L (n + b.toNat) d d''

variable {L : Library} {D : Domain} {truth : String → Schema}

theorem create_writes {plan : String → TrajectoryFiles.Outcome} : ∀ {l : List String} {d : Disk} {w : Write}, w ∈ (create plan d l).1 →
    d w.path = none ∧ ∃ s, w.path = traj s ∧ plan s = .exported w.text := by
  intro l
  induction l with
  | nil => intro d w h; simp [create, loop] at h
  | cons s ss ih =>
    intro d w h
    have hstep : ∀ v ∈ (step plan d s).1, d v.path = none ∧ ∃ s, v.path = traj s ∧ plan s = .exported v.text := by
      intro v hv
      unfold step at hv
      split at hv
      · simp at hv
      · rename_i hn
        split at hv
        · rename_i t ht
          rw [List.mem_singleton.mp hv]
          exact ⟨by simpa using hn, s, rfl, ht⟩
        · simp at hv
        · simp at hv
    unfold create at h
    unfold loop at h
    split at h
    · exact hstep w h
    · dsimp only at h
      rcases List.mem_append.mp h with h | h
      · exact hstep w h
      · obtain ⟨h1, h2⟩ := ih h
        refine ⟨?_, h2⟩
        have grow : ∀ (ws : List Write) (d : Disk) (p : Path), apply d ws p = none → d p = none := by
          intro ws
          induction ws with
          | nil => intro d p h; exact h
          | cons v vs ih =>
            intro d p h
            rw [apply_cons] at h
            have := ih _ _ h
            unfold setFile at this
            split at this
            · cases this
            · exact this
        exact grow _ _ _ h1

theorem apply_get : ∀ {ws : List Write} {d : Disk} {p : Path} {x : Text}, apply d ws p = some x → d p = some x ∨ ∃ w ∈ ws, w.path = p ∧ w.text = x := by
  intro ws
  induction ws with
  | nil => intro d p x h; exact .inl h
  | cons w ws ih =>
    intro d p x h
    rw [apply_cons] at h
    rcases ih h with h | ⟨v, hv, h⟩
    · unfold setFile at h
      split at h
      · rename_i e
        cases h
        exact .inr ⟨w, List.mem_cons_self, e.symm, rfl⟩
      · exact .inl h
    · exact .inr ⟨v, List.mem_cons_of_mem _ hv, h⟩

theorem apply_other : ∀ {ws : List Write} {d : Disk} {p : Path}, (∀ w ∈ ws, w.path ≠ p) → apply d ws p = d p := by
  intro ws
  induction ws with
  | nil => intro d p _; rfl
  | cons w ws ih =>
    intro d p h
    rw [apply_cons, ih fun v hv => h v (List.mem_cons_of_mem _ hv)]
    unfold setFile
    rw [if_neg fun e => h w List.mem_cons_self e.symm]

/-- A file after a crash. -/
theorem crashed_get {d d' : Disk} {ws : List Write} (h : Crashed d ws d') {p : Path} {x : Text} (hx : d' p = some x) :
    d p = some x ∨ ∃ w ∈ ws, w.path = p ∧ x <+: w.text := by
  obtain ⟨k, rfl | ⟨w, pre, hw, hpre, rfl⟩⟩ := h
  · rcases apply_get hx with h | ⟨w, hw, h1, rfl⟩
    · exact .inl h
    · exact .inr ⟨w, List.mem_of_mem_take hw, h1, List.prefix_rfl⟩
  · unfold setFile at hx
    split at hx
    · rename_i e
      cases hx
      exact .inr ⟨w, List.mem_of_getElem? hw, e.symm, hpre⟩
    · rcases apply_get hx with h | ⟨v, hv, h1, rfl⟩
      · exact .inl h
      · exact .inr ⟨v, List.mem_of_mem_take hv, h1, List.prefix_rfl⟩

theorem crashed_other {d d' : Disk} {ws : List Write} (h : Crashed d ws d') {p : Path} (hp : ∀ w ∈ ws, w.path ≠ p) : d' p = d p := by
  obtain ⟨k, rfl | ⟨w, pre, hw, hpre, rfl⟩⟩ := h
  · exact apply_other fun w hw => hp w (List.mem_of_mem_take hw)
  · unfold setFile
    rw [if_neg fun e => hp w (List.mem_of_getElem? hw) e.symm]
    exact apply_other fun w hw => hp w (List.mem_of_mem_take hw)

/-- Every trajectory is a first part of one that was exported. -/
def Exported (L : Library) (d : Disk) : Prop := ∀ s x, d (traj s) = some x → ∃ p t, L.exporter s p = .exported t ∧ x <+: t

/-- Every trajectory is one that was exported. -/
def Complete (L : Library) (d : Disk) : Prop := ∀ s x, d (traj s) = some x → ∃ p, L.exporter s p = .exported x

theorem planOf_exported {d : Disk} {s : String} {t : Text} (h : planOf L d s = .exported t) : ∃ p, L.exporter s p = .exported t := by
  unfold planOf at h
  split at h
  · exact ⟨_, h⟩
  · cases h

theorem write_exported {d : Disk} {l : List String} {w : Write} (hw : w ∈ (create (planOf L d) d l).1) {s : String} (h : w.path = traj s) :
    ∃ p, L.exporter s p = .exported w.text := by
  obtain ⟨_, s', h1, h2⟩ := create_writes hw
  rw [h] at h1
  have : s = s' := by injection h1
  subst this
  exact planOf_exported h2

theorem happens_exported {b : Bool} {d d' : Disk} (h : Happens L b d d') (hd : Exported L d) : Exported L d' := by
  intro s x hx
  cases h with
  | solve hs => exact hd s x ((hs (traj s) (by simp [traj])).symm.trans hx)
  | create l =>
    rcases apply_get hx with h | ⟨w, hw, h1, rfl⟩
    · exact hd s x h
    · obtain ⟨p, hp⟩ := write_exported hw h1
      exact ⟨p, _, hp, List.prefix_rfl⟩
  | crash l hc =>
    rcases crashed_get hc hx with h | ⟨w, hw, h1, h2⟩
    · exact hd s x h
    · obtain ⟨p, hp⟩ := write_exported hw h1
      exact ⟨p, _, hp, h2⟩

theorem later_exported {n : Nat} {d d' : Disk} (h : Later L n d d') (hd : Exported L d) : Exported L d' := by
  induction h with
  | refl => exact hd
  | step _ hs ih => exact happens_exported hs (ih hd)

theorem later_complete {n : Nat} {d d' : Disk} (h : Later L n d d') (hn : n = 0) (hd : Complete L d) : Complete L d' := by
  induction h with
  | refl => exact hd
  | step _ hs ih =>
    cases hs with
    | solve hs' =>
      intro s x hx
      exact ih (by simpa using hn) hd s x ((hs' (traj s) (by simp [traj])).symm.trans hx)
    | create l =>
      intro s x hx
      rcases apply_get hx with h | ⟨w, hw, h1, rfl⟩
      · exact ih (by simpa using hn) hd s x h
      · exact write_exported hw h1
    | crash l hc => simp at hn

theorem later_kept {n : Nat} {d d' : Disk} (h : Later L n d d') {s : String} {x : Text} (hx : d (traj s) = some x) : d' (traj s) = some x := by
  induction h with
  | refl => exact hx
  | step _ hs ih =>
    have key : ∀ {l : List String} {d : Disk}, d (traj s) = some x → ∀ w ∈ (create (planOf L d) d l).1, w.path ≠ traj s := by
      intro l d hd w hw e
      obtain ⟨h1, _⟩ := create_writes hw
      rw [e, hd] at h1
      cases h1
    have ih := ih hx
    cases hs with
    | solve hs => exact (hs (traj s) (by simp [traj])).trans ih
    | create l => exact (apply_other (key ih)).trans ih
    | crash l hc => exact (crashed_other hc (key ih)).trans ih

theorem collect_mem {d : Disk} : ∀ {names : List String} {obs : List (List Component)}, collect L d names = .ok obs →
    ∀ o ∈ obs, ∃ s t, d (traj s) = some t ∧ L.parser s t = .ok o := by
  intro names
  induction names with
  | nil => intro obs h; cases h; simp
  | cons s ss ih =>
    intro obs h o ho
    unfold collect at h
    split at h
    · exact ih h o ho
    · rename_i t ht
      split at h
      · cases h
      · rename_i o' ho'
        split at h
        · cases h
        · rename_i os hos
          cases h
          rcases List.mem_cons.mp ho with rfl | ho
          · exact ⟨s, t, ht, ho'⟩
          · exact ih hos o ho

/-- The observations are good data for the learner. -/
theorem collect_good (hF : Faithful D truth L) {d : Disk} (hd : Exported L d) {names : List String} {obs : List (List Component)}
    (h : collect L d names = .ok obs) : GoodData D truth obs := by
  have key : ∀ c ∈ obs.flatten, c.success = true → Explained truth c ∧ (c.call.params.Nodup → ∀ x ∈ c.call.params, x ∉ Sig.names D.consts) := by
    intro c hc hs
    obtain ⟨o, ho, hc⟩ := List.mem_flatten.mp hc
    obtain ⟨s, x, hx, hp⟩ := collect_mem h o ho
    obtain ⟨p, t, he, hpre⟩ := hd s x hx
    rcases hF.cut s p t x he hpre with ⟨err, h1⟩ | h1
    · rw [hp] at h1
      cases h1
    · obtain ⟨o', h2, h3⟩ := hF.real s p t he
      rw [← h1, hp] at h2
      cases h2
      exact h3 c hc hs
  exact ⟨fun c hc hs => (key c hc hs).1, fun c hc hs hn => (key c hc hs).2 hn⟩

/-- **C132, correct plans.** From a directory without trajectories, whatever the planners write into the solution files, and however often and wherever runs of the
planners and of the trajectory creator crash: if the observations can be read and SAM returns, a plan with distinct objects that solves a problem in the
learned domain solves it in the true domain. -/
theorem C132_plans_correct (hF : Faithful D truth L) (hD : WFDomain D) (hT : WFTruth D truth) {n : Nat} {d0 d : Disk} (h0 : ∀ s, d0 (traj s) = none)
    (h : Later L n d0 d) {names : List String} {obs : List (List Component)} (hc : collect L d names = .ok obs) {inj : Bool} {L' : Learner}
    {rep : List (String × Status)} (hl : (Learner.init D .noRemove inj).learn obs = .ok (L', rep)) (P : Problem) {plan : List Call} (hd : Distinct D.consts plan)
    (hs : (returned L'.dom).Solves P plan) : (real D truth).Solves P plan :=
  Plans.C117_plans_correct hD hT (collect_good hF (later_exported h fun s x hx => by rw [h0] at hx; cases hx) hc) hl P hd hs

/-- **C132, no crash.** Without a crash of the trajectory creator all observations can be read, whatever the planners did. -/
theorem C132_readable (hF : Faithful D truth L) {d0 d : Disk} (h0 : ∀ s, d0 (traj s) = none) (h : Later L 0 d0 d) (names : List String) :
    ∃ obs, collect L d names = .ok obs := by
  have hcp : Complete L d := later_complete h rfl fun s x hx => by rw [h0] at hx; cases hx
  induction names with
  | nil => exact ⟨[], rfl⟩
  | cons s ss ih =>
    obtain ⟨obs, ho⟩ := ih
    cases hx : d (traj s) with
    | none => exact ⟨obs, by unfold collect; rw [show d ⟨.work, s, .trajectory⟩ = none from hx]; exact ho⟩
    | some x =>
      obtain ⟨p, hp⟩ := hcp s x hx
      obtain ⟨o, ho', _⟩ := hF.real s p x hp
      refine ⟨o :: obs, ?_⟩
      unfold collect
      rw [show d ⟨.work, s, .trajectory⟩ = some x from hx]
      dsimp only
      rw [ho', ho]

/-- **C132, a broken file.** A trajectory file that cannot be parsed is kept by everything that happens later, and the observations of the directory can never be read
again until somebody deletes it. -/
theorem C132_broken {d d' : Disk} {n : Nat} {s : String} {x : Text} {e : Err} (hbad : L.parser s x = .error e)
    (hx : d (traj s) = some x) (h : Later L n d d') {names : List String} (hs : s ∈ names) : ∃ e, collect L d' names = .error e := by
  have hx' := later_kept h hx
  induction names with
  | nil => simp at hs
  | cons a as ih =>
    unfold collect
    by_cases ha : a = s
    · subst ha
      rw [show d' ⟨.work, a, .trajectory⟩ = some x from hx']
      dsimp only
      rw [hbad]
      exact ⟨_, rfl⟩
    · obtain ⟨e', h'⟩ := ih ((List.mem_cons.mp hs).resolve_left fun h => ha h.symm)
      split
      · exact ⟨_, h'⟩
      · split
        · exact ⟨_, rfl⟩
        · rw [h']
          exact ⟨_, rfl⟩


end Pipeline
end Props

namespace Props.Pipeline.Case
open Model Spec Spec.Plans Model.TrajectoryFiles Model.Pipeline Props.TrajectoryFiles Props.Pipeline Props.Plans.Case Props.Limits

/-- A library in which the plan "ab" of the training problem has a trajectory. -/
def lib : Library where
  exporter s p := if s = "t" then (if p = ['a', 'b'] then .exported ['(', ')', '\n'] else .refused) else .refused
  parser s x := if s = "t" ∧ (x = ['(', ')', '\n'] ∨ x = ['(', ')']) then .ok train else .error .valueError

theorem faithful : Faithful D truth lib := by
  have key : ∀ {s p t}, lib.exporter s p = .exported t → s = "t" ∧ t = ['(', ')', '\n'] := by
    intro s p t h
    simp only [lib] at h
    split at h
    · split at h
      · cases h; exact ⟨by assumption, rfl⟩
      · cases h
    · cases h
  refine ⟨?_, ?_⟩
  · intro s p t h
    obtain ⟨rfl, rfl⟩ := key h
    refine ⟨train, by simp [lib], fun c hc hs => ?_⟩
    exact ⟨good.2.2.1 c (by simpa using hc) hs, fun hn => good.2.2.2 c (by simpa using hc) hs hn⟩
  · intro s p t pre h hp
    obtain ⟨rfl, rfl⟩ := key h
    by_cases e : pre = ['(', ')', '\n'] ∨ pre = ['(', ')']
    · right; simp [lib, e]
    · left; exact ⟨.valueError, by simp [lib, e]⟩

/-- Nothing. -/
def empty : Disk := fun _ => none
/-- The plan. -/
def solved : Disk := setFile empty ⟨.work, "t", .plan⟩ ['a', 'b']

theorem solving : Solving empty solved := by
  intro p hp
  unfold solved setFile
  rw [if_neg]
  rintro rfl
  exact hp rfl

/-- A planner solves the problem, the creator crashes before it writes, and is run again. -/
theorem history : Later lib 1 empty (created lib solved ["t"]) := by
  have h1 : Later lib 0 empty solved := .step (.refl _) (.solve solving)
  have h2 : Later lib 1 empty solved := .step h1 (.crash ["t"] ⟨0, .inl rfl⟩)
  exact .step h2 (.create _ _)

theorem history0 : Later lib 0 empty (created lib solved ["t"]) := .step (.step (.refl _) (.solve solving)) (.create _ _)

/-- The hypotheses of the three theorems; in the last the creator crashes after one character. -/
example : Faithful D truth lib ∧ Later lib 1 empty (created lib solved ["t"]) ∧ Later lib 0 empty (created lib solved ["t"]) ∧
    collect lib (created lib solved ["t"]) ["s", "t"] = .ok [train] ∧
    (∃ L' rep, (Learner.init D).learn [train] = .ok (L', rep) ∧ (returned L'.dom).Solves prob plan ∧ (real D truth).Solves prob plan) ∧
    ∃ d : Disk, Later lib 1 empty d ∧ d (traj "t") = some ['('] ∧ lib.parser "t" ['('] = .error .valueError := by
  have hcol : collect lib (created lib solved ["t"]) ["s", "t"] = .ok [train] := by rfl
  obtain ⟨hD, hT, hG⟩ := good
  obtain ⟨rep, hr⟩ := runLearn_eq (D := D) (p := .noRemove) (i := true) (obs := [train]) (by decide) (by decide)
  have hd : Distinct D.consts plan := by intro c hc; simp [plan] at hc; rcases hc with rfl | rfl <;> simp [D, dom, Sig.names]
  have hs := solves _ rfl
  refine ⟨faithful, history, history0, hcol, ⟨_, rep, hr, hs, C132_plans_correct faithful hD hT (fun _ => rfl) history hcol hr prob hd hs⟩, ?_⟩
  refine ⟨setFile solved (traj "t") ['('], ?_, by simp [setFile], by simp [lib]⟩
  exact .step (.step (.refl _) (.solve solving)) (.crash ["t"] ⟨0, .inr ⟨⟨traj "t", ['(', ')', '\n']⟩, ['('], by rfl, by decide, rfl⟩⟩)

end Props.Pipeline.Case

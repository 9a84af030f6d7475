import Verif.Props.IncNumSam
import Verif.Props.NumSamCase
import Verif.Props.OnlineNumericCase

/-! A concrete case for C111: the data of `NumSamCase`, with a library whose regression finds constant columns, and limits. -/
namespace Props
namespace IncNumSam
namespace Case
open Spec Model Model.IncNumSam World NumWorld

noncomputable def cfg : NumCfg ℚ := { NumWorld.cfg with lib := OnlineCase.lib }

def preOf (l u : ℚ) : List (NCond ℚ) := [⟨.ge, .var "(fuel ?o)", .num l⟩, ⟨.le, .var "(fuel ?o)", .num u⟩]

theorem run (policy : Policy) (hp : policy = .noRemove ∨ policy = .soft) :
    ∃ N' info, (IncLearner.init D policy).learn cfg obs = .ok (N', info) ∧ N'.base.dom.names = ["move"] ∧
      (N'.num "move").pre = preOf 3 5 ∧ (N'.num "move").eff = [⟨.decrease, "(fuel ?o)", .num 1⟩] ∧ info = [("move", .ok)] := by
  have h : (match (IncLearner.init D policy).learn cfg obs with
    | .ok (N', info) => decide (N'.base.dom.names = ["move"] ∧ (N'.num "move").pre = preOf 3 5 ∧
      (N'.num "move").eff = [⟨.decrease, "(fuel ?o)", .num 1⟩] ∧ info = [("move", .ok)])
    | .error _ => false) = true := by rcases hp with rfl | rfl <;> decide +kernel
  revert h
  cases (IncLearner.init D policy).learn cfg obs with
  | error e => intro h; exact absurd h (by simp)
  | ok r => intro h; exact ⟨r.1, r.2, rfl, of_decide_eq_true h⟩

theorem row_eq {c : NumComponent ℚ} {q : ℚ} (h : prevRow cfg D "move" c ["(fuel ?o)"] = q) : prevRow cfg D "move" c = OnlineCase.row q := by
  funext m
  by_cases hm : m = OnlineCase.col
  · rw [hm, OnlineCase.row_col]; exact h
  · rw [OnlineCase.row_other q hm]
    unfold prevRow frameRow
    rw [if_neg]
    have : prevColumns cfg D "move" = [["(fuel ?o)"]] := cols_eq
    rw [this]
    simpa using hm

theorem points_eq : points cfg D "move" obs = [OnlineCase.row 5, OnlineCase.row 3, OnlineCase.row 3] := by
  have hu : usableN obs.flatten "move" = [n1, n2, n4] := rfl
  unfold points
  rw [hu]
  simp only [List.map_cons, List.map_nil]
  rw [row_eq (c := n1) (q := 5) (by decide +kernel), row_eq (c := n2) (q := 3) (by decide +kernel), row_eq (c := n4) (q := 3) (by decide +kernel)]

theorem setup : IncSetup cfg.lib cfg.digits polyExp (prevColumns cfg D "move") (distinctRows (prevColumns cfg D "move") [] (points cfg D "move" obs)) := by
  have e : distinctRows (prevColumns cfg D "move") [] (points cfg D "move" obs) =
      distinctRows (createMonomials OnlineCase.fs 0) [] (successPoints OnlineCase.fs 0 OnlineCase.history) := by
    rw [points_eq, OnlineCase.points_eq, OnlineCase.cols_eq, show prevColumns cfg D "move" = [OnlineCase.col] from cols_eq, OnlineCase.distinct_eq]
    have h : ¬ agree [OnlineCase.col] (OnlineCase.row 5) (OnlineCase.row 3) = true := by
      simp only [agree, List.all_cons, List.all_nil, Bool.and_true, decide_eq_true_eq, OnlineCase.row_col]
      norm_num
    simp [distinctRows, OnlineCase.row_col]
  rw [e]
  exact OnlineCase.inc

/-- C111 applies with the default policy: between 3 and 5 units, and then one unit less. -/
example {N' : IncLearner ℚ} {info} (h : (IncLearner.init D).learn cfg obs = .ok (N', info)) (x : String → ℚ)
    (hx : ∀ q ∈ (N'.num "move").pre, q.holds x) :
    1 ≤ monoVal x ["(fuel ?o)"] ∧ applyNumeric (N'.num "move").eff x "(fuel ?o)" = 1 * monoVal x ["(fuel ?o)"] + 0 + -1 := by
  obtain ⟨N, i, h', hn, hp, he, _⟩ := run .soft (.inr rfl)
  rw [h'] at h
  simp only [Except.ok.injEq, Prod.mk.injEq] at h
  obtain ⟨rfl, rfl⟩ := h
  have := C111_safe wfD wfT good (by simp [cfg, NumWorld.cfg]) rfl rfl (by decide) (guess_contract _) h' (by rw [hn]; simp) textOK
      ⟨_, scope_iff.mpr rfl⟩ explained (rel := none) rfl convex setup printable (by rw [he]; decide) x hx
  exact ⟨this.1, this.2.1 _ (scope_iff.mpr rfl)⟩

/-- A state with 4 units, which was never observed, is accepted; one with 6 is not. -/
example {N' : IncLearner ℚ} {info} (h : (IncLearner.init D).learn cfg obs = .ok (N', info)) :
    (∀ q ∈ (N'.num "move").pre, q.holds fun _ => 4) ∧ ¬ InHull (prevColumns cfg D "move") (points cfg D "move" obs) (monoVal fun _ => 6) := by
  obtain ⟨N, i, h', hn, hp, he, _⟩ := run .soft (.inr rfl)
  rw [h'] at h
  simp only [Except.ok.injEq, Prod.mk.injEq] at h
  obtain ⟨rfl, rfl⟩ := h
  refine ⟨?_, fun hh => ?_⟩
  · rw [hp]
    intro q hq
    simp only [preOf, List.mem_cons, List.not_mem_nil, or_false] at hq
    rcases hq with rfl | rfl
    · show (3 : ℚ) ≤ 4; norm_num
    · show (4 : ℚ) ≤ 5; norm_num
  · have := (C111_precondition_is_hull wfD wfT good (by simp [cfg, NumWorld.cfg]) rfl h' (by rw [hn]; simp) textOK
      ⟨_, scope_iff.mpr rfl⟩ explained (by simp [relevantOf, cfg, NumWorld.cfg]) setup _).mpr hh
    rw [hp] at this
    have h6 : (6 : ℚ) ≤ 5 := this ⟨.le, .var "(fuel ?o)", .num 5⟩ (by simp [preOf])
    norm_num at h6

/-- N-SAM and the incremental learner return `move` for the same data, so C111 compares them. -/
example : (match (IncLearner.init D .noRemove).learn cfg obs, (NumLearner.init D .noRemove).learn cfg obs with
    | .ok (N', _), .ok (M', _) => decide ("move" ∈ N'.base.dom.names ∧ "move" ∈ M'.base.dom.names ∧ (N'.num "move").eff = (M'.num "move").eff)
    | _, _ => false) = true := by decide +kernel

/-! ### Limits -/

def loadDecl : PredDecl := ⟨"load", [("?o", tObj)]⟩

/-- Two functions, and Qhull raises. -/
noncomputable def failing : NumCfg ℚ :=
  { NumWorld.cfg with
    lib := { OnlineCase.lib with norm := fun v => ∑ i, |v i| }
    fns := [fuelDecl, loadDecl]
    txt := fun f => if f.name = "fuel" then "(fuel ?o)" else "(load ?o)" }

def at2 (c : Component) (fuel load : ℚ) : NumComponent ℚ :=
  ⟨c, [(fuelAt "b", fuel), (⟨"load", ["b"]⟩, load)], [(fuelAt "b", fuel - 1), (⟨"load", ["b"]⟩, load)]⟩

def plane : List (List (NumComponent ℚ)) := [[at2 c1 1 1], [at2 c2 2 1], [at2 c2 1 2]]

/-- Limit of C111: if Qhull raises for one action, N-SAM returns a report that says so; the incremental learner ends with the exception. -/
theorem C111_limit_hull_error :
    (match (IncLearner.init D .noRemove).learn failing plane with
      | .ok _ => false
      | .error e => decide (e = .hull)) = true ∧
    (match (NumLearner.init D .noRemove).learn failing plane with
      | .ok (_, info) => decide (info = [("move", .convexHullNotFound)])
      | .error _ => false) = true := by
  constructor <;> decide +kernel

end Case
end IncNumSam
end Props

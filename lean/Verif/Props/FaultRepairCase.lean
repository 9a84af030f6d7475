import Verif.Props.FaultRepair
import Mathlib.Algebra.Order.Ring.Rat

/-! Concrete cases and limits for C98, C99. -/
namespace Props
namespace Fault
namespace Case
open Model Model.Fault

/-- `f` adds `k` to the fluent, `g` multiplies it by `m`. -/
def mach (k m : ℚ) : Machine (FState ℚ) where
  names := ["f", "g"]
  apply c s := if c.name = "f" then .ok ⟨s.preds, s.fluents.map fun p => (p.1, p.2 + k)⟩
    else .ok ⟨s.preds, s.fluents.map fun p => (p.1, m * p.2)⟩

def start : FState ℚ := ⟨[("on", {"(on a)"})], [("(x)", 0)]⟩
def cf : Call := ⟨"f", []⟩
def cg : Call := ⟨"g", []⟩

def blamed (r : Except Err (List (Comp (FState ℚ)) × List (Comp (FState ℚ)) × Option String)) : Option String × Nat :=
  match r with
  | .ok r => (r.2.2, r.2.1.length)
  | .error _ => (some "error", 0)

/-- A fault of one unit is found at once. -/
example : blamed (observeLoop (mach 1 2) (mach 2 2) start start [cg, cf, cg]) = (some "f", 2) := by decide +kernel

/-- **C98, limit.** A difference below one is not seen at the faulty action, and the next action, which
is the same in both domains, is blamed. -/
theorem C98_limit_small_difference :
    (∀ c s, c.name ≠ "f" → (mach (3/2) 2).apply c s = (mach 1 2).apply c s) ∧
    blamed (observeLoop (mach 1 2) (mach (3/2) 2) start start [cf, cg]) = (some "g", 1) := by
  refine ⟨fun c s h => ?_, by decide +kernel⟩
  unfold mach
  simp [h]

/-- A domain whose action also makes `off` true, in which `off` was no predicate of the state. -/
def machOff (b : Bool) : Machine (FState ℚ) where
  names := ["f"]
  apply _ s := .ok ⟨if b then s.preds ++ [("off", {"(off a)"})] else s.preds, s.fluents⟩

/-- **C98, limit.** Facts of predicates that are not in the valid state are not compared. -/
theorem C98_limit_extra_facts :
    blamed (observeLoop (machOff false) (machOff true) start start [cf]) = (none, 0) ∧
    (machOff true).apply cf start ≠ (machOff false).apply cf start := by
  refine ⟨by decide +kernel, ?_⟩
  intro h
  have h := Except.ok.inj h
  have := congrArg (fun s => s.preds.length) h
  revert this
  decide +kernel

theorem mach_full {k m : ℤ} (c : Call) (s s' : FState ℚ) (hs : Full ["on"] ["(x)"] s) (h : (mach k m).apply c s = .ok s') : Full ["on"] ["(x)"] s' := by
  obtain ⟨h1, h2, h3⟩ := hs
  unfold mach at h
  simp only at h
  split at h
  all_goals
    have h := (Except.ok.inj h).symm
    subst h
    refine ⟨h1, ?_, ?_⟩
    · rw [List.map_map]; exact h2
    · intro p hp
      obtain ⟨q, hq, rfl⟩ := List.mem_map.mp hp
      obtain ⟨z, hz⟩ := h3 q hq
      first
        | (refine ⟨z + k, ?_⟩; simp [hz]; done)
        | (refine ⟨m * z, ?_⟩; simp [hz]; done)

/-- The hypotheses of `C98_locates` are met by a fault of one unit. -/
example {plan : List Call} {vo fo : List (Comp (FState ℚ))} {n : Option String}
    (h : observeLoop (mach 1 2) (mach 2 2) start start plan = .ok (vo, fo, n)) :
    (n = some "f" ∧ ∃ c ∈ plan, c.name = "f") ∨ (n = none ∧ fo = [] ∧ Steps (mach 2 2) start plan vo) := by
  refine C98_locates (P := ["on"]) (Fl := ["(x)"]) (by decide) (by decide) ?_ ?_ ?_ ?_ h
  · intro c s hc; unfold mach; simp [hc]
  · exact fun c s s' hs h => mach_full (k := 1) (m := 2) c s s' hs (by simpa using h)
  · exact fun c s s' hs h => mach_full (k := 2) (m := 2) c s s' hs (by simpa using h)
  · exact ⟨rfl, rfl, fun p hp => ⟨0, by simp [start] at hp; subst hp; simp⟩⟩

def okLog : Log := ⟨true, false, false, []⟩
def failLog : Log := ⟨false, false, true, ["(g a)\n".toList]⟩

def summary (r : Except Err (Run ℚ)) : Option (List (String × Verdict) × Option String × List Nat × List Nat) :=
  match r with
  | .ok r => some (r.verdicts, r.name, r.valid.map List.length, r.faulty.map List.length)
  | .error _ => none

/-- Three plans: one differs in `f`, one is not applicable at `g`, one is not reported. -/
example : summary (executePlans (mach 1 2) (mach 2 2) ["p1", "p2"]
    [⟨"p1", okLog, start, [cf, cg]⟩, ⟨"p2", failLog, start, []⟩, ⟨"p3", okLog, start, [cf]⟩] false) =
    some ([("p1", .stateDifference), ("p2", .stateDifference)], some "g", [1], [1]) := by decide +kernel

/-- C99: without a fault `ValueError`; after a repair the observations come back empty. -/
example : (match executePlans (mach 1 2) (mach 1 2) ["p1"] [⟨"p1", okLog, start, [cf, cg]⟩] false with
    | .error e => decide (e = .valueError)
    | .ok _ => false) = true := by decide +kernel
example : (match observePlan (mach 1 2) (mach 1 2) ⟨"p1", okLog, start, [cf, cg]⟩ with
    | .ok o => decide (o.2 = none)
    | .error _ => false) = true := by decide +kernel
example : summary (executePlans (mach 1 2) (mach 1 2) ["p1"] [⟨"p1", okLog, start, [cf, cg]⟩] true) =
    some ([("p1", .ok)], none, [0], [0]) := by decide +kernel

/-- **C99, limit.** The failed action is not found when an object has a hyphen or the action has no
parameters: `AttributeError`. -/
theorem C99_limit_locator :
    planApplicable ⟨false, false, true, ["(drive truck-1 depot)".toList]⟩ = .error .attributeError ∧
    planApplicable ⟨false, false, true, ["(refuel)".toList]⟩ = .error .attributeError ∧
    planApplicable ⟨false, false, true, ["(drive truck1 depot)".toList]⟩ = .ok (false, some "drive") := by
  decide +kernel

end Case
end Fault
end Props

import Verif.Props.FaultRepairModel
import Verif.Props.NumSamCase

/-! A concrete case for C100: `move` of the numeric world is repaired. -/
namespace NumWorld
open Model Model.Fault Spec Props World

/-- The model file: the true boolean parts. -/
def model : Domain := { D with act := fun a => { D.act a with pre := (truth a).pre, eff := (truth a).eff } }

/-- A faulty domain: `move` has no preconditions and gives back fuel. -/
def broken : NumDomain ℚ := ⟨{ model with act := fun a => { model.act a with pre := ∅ } }, fun _ => ⟨[], [⟨.increase, "(fuel ?o)", .num 7⟩]⟩⟩


theorem repair_runs : ∃ R info, repairModel cfg model broken obs "move" = .ok (R, info) ∧
    (R.num "move").pre = [⟨.ge, .var "(fuel ?o)", .num 3⟩, ⟨.le, .var "(fuel ?o)", .num 5⟩] ∧
    (R.num "move").eff = [⟨.decrease, "(fuel ?o)", .num 1⟩] ∧ (R.dom.act "move").eff = (truth "move").eff ∧
    (R.dom.act "paint").pre = ∅ ∧ info = [("move", .ok)] := by
  have h : (match repairModel cfg model broken obs "move" with
    | .ok (R, info) => decide (
      (R.num "move").pre = [⟨.ge, .var "(fuel ?o)", .num 3⟩, ⟨.le, .var "(fuel ?o)", .num 5⟩] ∧
      (R.num "move").eff = [⟨.decrease, "(fuel ?o)", .num 1⟩] ∧ (R.dom.act "move").eff = (truth "move").eff ∧
      (R.dom.act "paint").pre = ∅ ∧ info = [("move", .ok)])
    | .error _ => false) = true := by decide +kernel
  revert h
  cases repairModel cfg model broken obs "move" with
  | error e => intro h; exact absurd h (by simp)
  | ok r => intro h; exact ⟨r.1, r.2, rfl, of_decide_eq_true h⟩

/-- C100 applies. -/
example {R : NumDomain ℚ} {info} (h : repairModel cfg model broken obs "move" = .ok (R, info)) (x : String → ℚ)
    (hx : ∀ q ∈ (R.num "move").pre, q.holds x) : 1 ≤ monoVal x ["(fuel ?o)"] := by
  obtain ⟨R', i, h', hp, he, _⟩ := repair_runs
  rw [h'] at h
  simp only [Except.ok.injEq, Prod.mk.injEq] at h
  obtain ⟨rfl, rfl⟩ := h
  have hT : WFTruth model truth := ⟨wfT.params, wfT.wf⟩
  have hG : GoodData model truth (obs.map fun o => o.map NumComponent.comp) := ⟨good.explained, good.noConst⟩
  have := Props.Fault.C100_repaired_safe (faulty := broken) (D := model) (f := "move") wfD.names (wfD.sigs "move" (by decide)) hT hG rfl rfl (by simp [cfg]) rfl rfl
    (by decide) (guess_contract _) h' textOK ⟨_, scope_iff.mpr rfl⟩ explained (rel := none) rfl convex (Or.inl setup) printable (by rw [he]; decide)
  exact (this.2.2.1 x hx).1

/-- An action without observations cannot be repaired. -/
example : (match repairModel cfg model broken obs "paint" with
    | .error e => decide (e = .py .keyError)
    | .ok _ => false) = true := by decide +kernel

end NumWorld

import Verif.Model.PlanMinerRun

/-! What a job that runs PlanMiner is meant to return, and which files it is meant to use. -/
namespace Spec
namespace Mining
open Model.PlanMinerRun
open Model.Results (Name)
open Model.WorkingDir (Abs Path)
open Jobs (Text)

/-- The answer for a process that wrote the given texts, one after the other: without any, the domain without actions and the learning time -1; else the
domain in the last text, or the domain without actions if that is no domain, and the time the process took. -/
def Answer {Dom : Type} (parse : Text → Option Dom) (empty : Dom) (texts : List Text) (elapsed : Nat) (r : Result Dom) : Prop :=
  (texts = [] → r.domain = empty ∧ r.time = -1) ∧
  ∀ t, texts.getLast? = some t → r.time = elapsed ∧
    ((∃ d, parse t = some d ∧ r.domain = d) ∨ (parse t = none ∧ r.domain = empty))

/-- The files the job means, seen from the directory in which it was started. -/
def meant (S : Dirs) (out : Name) (exists_ : Bool) (cwd : Abs) : List Abs :=
  [(S.workdir.child "plan_miner_trajectories.pts".toList).at cwd, (S.miner.child (out ++ ".pddl".toList)).at cwd] ++
  (if exists_ then [(S.miner.child (out ++ ".pddl".toList)).at cwd, (S.workdir.child S.minerDomain).at cwd, (S.test.child S.domain).at cwd]
   else [(S.workdir.child S.minerDomain).at cwd]) ++
  [(S.test.child S.domain).at cwd, ((S.working.child "results_directory".toList).child "domains_backup".toList).at cwd]

end Mining
end Spec

import Verif.Model.Triplets

/-! Model of the job that runs the experiment on pieces of the trajectories for one fold:
`experiments/concurrent_execution/parallel_multi_agent_experiment_runner_with_triplets.py:48-102`. The files of the domains, solving, and the exported
tables are in `Model/Jobs.lean`, `Model/Validator.lean`, `Model/Results.lean`; here are the models that the rounds learn. -/
namespace Model
namespace Triplets

/-- parallel_multi_agent_experiment_runner_with_triplets.py:20-24, 60-62, 83-85: transitions per piece and the bound of the rounds, by domain name. -/
def sizes (domain : String) : Nat × Nat := if domain = "rover" ∨ domain = "grid_overcooked" then (10, 101) else (5, 21)

/-- parallel_multi_agent_experiment_runner_with_triplets.py:59-80: the training set of the single-agent baseline; the statistics of the dataset are
exported before any round, and raise when no piece has a transition of several agents. -/
def samTraining (n : Nat) (joint : List (Obs JointComponent)) : Except Err (List (List Component)) := do
  let pieces ← chunks n joint
  let bs ← pieces.mapM fun o => baseline o.comps
  let _ ← datasetRatio bs
  .ok (bs.map Baseline.comps)

/-- parallel_multi_agent_experiment_runner_with_triplets.py:86-96 with `sam_learning`: each round `range(1, bound)` learns with a fresh learner from a copy
of the partial domain. An exception ends the job. -/
def samRounds (D : Domain) (n bound : Nat) (joint : List (Obs JointComponent)) : Except Err (List (Learner × List (String × Status))) := do
  let training ← samTraining n joint
  (rounds training bound).mapM fun obs => (Learner.init D).learn obs

/-- parallel_multi_agent_experiment_runner_with_triplets.py:86-88, 97-98 with `ma_sam`: the rounds learn from the joint observations themselves. -/
def maRounds (ord : Finset Lit → List Lit) (D : Domain) (n bound : Nat) (joint : List (Obs JointComponent)) :
    Except Err (List (MaLearner × List (String × Status))) := do
  let pieces ← chunks n joint
  (rounds (pieces.map Obs.comps) bound).mapM fun obs => (MaLearner.init D).learn ord obs

end Triplets
end Model

import Verif.Model.Validator
import Verif.Model.Results
import Verif.Model.Sam
import Verif.Model.OnlineDomain
import Verif.Spec.Jobs

/-! Model of the evaluation of an online learner: `experiments/concurrent_execution/planning_with_online_learning.py:83-181, 293-316` with the parts of
`validators/safe_domain_validator.py` that touch files. The planners and VAL are functions of the files they read; what the domains are is left open (`D`). -/
namespace Model
namespace OnlineEvaluation
open Spec
open Spec.Jobs (Planner)
open Results (Name Alg num)

/-- The programs that are started: the outcome of a planner on a domain and a problem; the solution file of the problem after it, given the one before;
VAL on the reference domain, a problem and its solution file; VAL on a tested domain and the expert's plan; and the semantic measures of a domain. -/
structure Tools (D P S : Type) where
  outcome : D → Planner → String → Outcome
  solution : D → Planner → String → Option P → Option P
  val : String → Option P → ValLog
  expert : D → String → ValLog
  measure : D → Except Err S

/-- The solution files of the test directory, by the stem. -/
abbrev Solutions (P : Type) := String → Option P

variable {D P S : Type}

/-- safe_domain_validator.py:292-314: the portfolio on one problem; the first planner that claims a plan ends the loop, and VAL reads the solution file. -/
def ask (T : Tools D P S) (d : D) (t : String) : List Planner → SolvingStats → Solutions P → Option Outcome →
    Except Err (SolvingStats ⊕ Option Outcome) × Solutions P
  | [], _, f, report => (.ok (.inr report), f)
  | p :: ps, s, f, _ =>
    let g := Function.update f t (T.solution d p t (f t))
    if T.outcome d p t = .ok then (((validateSolution ⟨t, [], T.expert d t⟩ (T.val t (g t)) s).map .inl), g)
    else ask T d t ps s g (some (T.outcome d p t))

/-- safe_domain_validator.py:288-328: one problem. -/
def problem (T : Tools D P S) (d : D) (portfolio : List Planner) (t : String) (s : SolvingStats) (f : Solutions P) :
    Except Err SolvingStats × Solutions P :=
  match ask T d t portfolio s f none with
  | (.error e, g) => (.error e, g)
  | (.ok (.inl s'), g) => (.ok s', g)
  | (.ok (.inr none), g) => (.error .keyError, g)
  | (.ok (.inr (some o)), g) =>
    (match s.bump (.out o) t with
      | .error e => .error e
      | .ok s' => validateExpert ⟨t, [], T.expert d t⟩ s', g)

/-- safe_domain_validator.py:286-328: the problems in the order of the glob. -/
def problems (T : Tools D P S) (d : D) (portfolio : List Planner) : List String → SolvingStats → Solutions P → Except Err SolvingStats × Solutions P
  | [], s, f => (.ok s, f)
  | t :: ts, s, f =>
    match problem T d portfolio t s f with
    | (.error e, g) => (.error e, g)
    | (.ok s', g) => problems T d portfolio ts s' g

/-- safe_domain_validator.py:109-113 `_clear_plans`, planning_with_online_learning.py:142-143: every `*.solution` file is deleted. -/
def cleared : Solutions P := fun _ => none

/-- safe_domain_validator.py:253-349 `validate_domain` with the solution files: the row, and the files afterwards. -/
def validate (T : Tools D P S) (d : D) (portfolio : List Planner) (used : Used) (ts : List String) (f : Solutions P) :
    Except Err SolvingRow × Solutions P :=
  match problems T d portfolio ts SolvingStats.init f with
  | (.error e, g) => (.error e, g)
  | (.ok s, _) => (.ok ⟨s, used.len, numTriplets (some used), percentSolved s, percentExpert s⟩, cleared)

/-- The content of a result file: a list of rows with the policy they are labelled with. -/
inductive Result (S : Type) where
  | solving (rows : List (Policy × SolvingRow))
  | semantic (rows : List (Policy × S))

/-- The files: the names in the training directory, the learned domains in it, the solution files of the test directory, the results. -/
structure Files (D P S : Type) where
  train : Finset Name
  domains : Name → Option D
  sols : Solutions P
  results : Name → Option (Result S)

/-- What does not change during the job: the name of the domain in its file, the prefix of the problems, the test problems in the order of the glob, the
order in which the glob lists the trajectories, and their numbers of operator lines. -/
structure Setup where
  domain : Name
  pre : Name
  tests : List String
  order : Finset Name → List Name
  lines : Name → Nat

/-- online_utilities.py:77 the file of an exported domain. -/
def domainFile (dom : Name) (safe : Bool) : Name :=
  dom ++ '_' :: (if safe then "safe".toList else "optimistic".toList) ++ "_learned_domain.pddl".toList

/-- online_utilities.py:68-82 `export_learned_domain`. -/
def Files.put (F : Files D P S) (dom : Name) (safe : Bool) (d : D) : Files D P S :=
  { F with train := insert (domainFile dom safe) F.train
           domains := Function.update F.domains (domainFile dom safe) (some d) }

/-- The glob `f"{prefix}*{suffix}"`; the star matches any text, also the empty one. -/
def globMatch (pre suffix n : Name) : Bool := pre.isPrefixOf n && suffix.isSuffixOf n && decide (pre.length + suffix.length ≤ n.length)

/-- planning_with_online_learning.py:126, 166: `num_training_episodes`. -/
def episodes (E : Setup) (F : Files D P S) : Nat := (F.train.filter fun n => globMatch E.pre ".pddl".toList n).card

/-- planning_with_online_learning.py:134, 148: `used_observations`, the paths of the trajectories in the training directory. -/
def usedPaths (E : Setup) (F : Files D P S) : Used :=
  .paths ((E.order (F.train.filter fun n => globMatch E.pre ".trajectory".toList n)).map E.lines)

/-- The file with a name is replaced. -/
def Files.write (F : Files D P S) (n : Name) (r : Result S) : Files D P S := { F with results := Function.update F.results n (some r) }

/-- planning_with_online_learning.py:158-180 `validate_online_model`. -/
def semantic (T : Tools D P S) (E : Setup) (alg : Alg) (fold : Nat) (F : Files D P S) : Files D P S × Option Err :=
  match F.domains (domainFile E.domain true), F.domains (domainFile E.domain false) with
  | some d1, some d2 =>
    match T.measure d1 with
    | .error e => (F, some e)
    | .ok m1 =>
      match T.measure d2 with
      | .error e => (F, some e)
      | .ok m2 =>
        (F.write (Results.fileName E.domain .semantic alg fold (some (episodes E F))) (.semantic [(.noRemove, m1), (.hard, m2)]), none)
  | _, _ => (F, none)

/-- planning_with_online_learning.py:117-156 `validate_test_set_solving_rates`; the portfolio is of lines 138, 152. -/
def solving (T : Tools D P S) (E : Setup) (alg : Alg) (fold : Nat) (F : Files D P S) : Files D P S × Option Err :=
  match F.domains (domainFile E.domain true), F.domains (domainFile E.domain false) with
  | some d1, some d2 =>
    match validate T d1 [.metricFF, .enhsp] (usedPaths E F) E.tests F.sols with
    | (.error e, g) => ({ F with sols := g }, some e)
    | (.ok r1, _) =>
      match validate T d2 [.metricFF, .enhsp] (usedPaths E F) E.tests cleared with
      | (.error e, g) => ({ F with sols := g }, some e)
      | (.ok r2, g) =>
        ({ F with sols := g }.write (Results.fileName E.domain .solving alg fold (some (episodes E F)))
          (.solving [(.noRemove, r1), (.hard, r2)]), none)
  | _, _ => (F, none)

/-- planning_with_online_learning.py:83-115, 293-316 `main` after learning: `safe` and `opt` are what the two constructions return or raise. -/
def job (T : Tools D P S) (E : Setup) (alg : Alg) (fold : Nat) (safe opt : Except NumErr D) (F : Files D P S) : Files D P S × Option NumErr :=
  if alg ≠ .noamLearning ∧ alg ≠ .goalOrientedExplorer then (F, none)
  else
    match safe with
    | .error e => (F, some e)
    | .ok d1 =>
      match opt with
      | .error e => (F.put E.domain true d1, some e)
      | .ok d2 =>
        match semantic T E alg fold ((F.put E.domain true d1).put E.domain false d2) with
        | (G, some e) => (G, some (.py e))
        | (G, none) =>
          match solving T E alg fold G with
          | (H, some e) => (H, some (.py e))
          | (H, none) => (H, none)

end OnlineEvaluation
end Model

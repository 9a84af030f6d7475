# Formal model of argaman-aloni/sam_learning in Lean 4

## Method

* `lean/Verif/Py/*`      – the few Python/itertools primitives the code uses (`permutations`, `combinations`, `product`, dict, ...), with exact characterisations.
* `lean/Verif/Model/*`   – the code, function by function; each definition cites `/repo` file and lines; exceptions are values (`Except Err`).
* `lean/Verif/Spec/*`    – small specification vocabulary that does **not** mention the model (STRIPS semantics, true action models, propositional valuations, ...).
* `lean/Verif/Lemmas/*`  – helper lemmas.
* `lean/Verif/Props/*`   – the property theorems only, each with a concrete non-vacuity `example` beside it.

## Trusted base

* Lean 4.33.0 kernel; axioms at most `propext`, `Classical.choice`, `Quot.sound` (checked with `#print axioms`); no axioms of ours, no compiled-code tactics.
* Reading of the code: the code was never run. The external package `pddl_plus_parser` 3.16.3 is not in the sandbox; its classes are modelled from their use in /repo and its tests:
  - `Predicate` / `GroundedPredicate` = name, ordered argument list, sign. Equality/hash = equality of these three. (Types are a function of the argument within one action, so are not part of equality.)
  - `signature` / `object_mapping` = ordered dict; a dict comprehension with a repeated key collapses it.
  - `untyped_representation` = `(name a b)` or `(not (name a b))`.
  - `PDDLType.is_sub_type` = walk up the parent chain comparing names.
  - `Precondition.add_condition/remove_condition` on literals = set insert/remove.
  - `State.state_predicates` = finite set of true ground atoms (closed world).
* Python `set` iteration order is unspecified; sets are `Finset`, so every theorem is for all orders.
* Logging, timing, plotting are not modelled; file I/O only where the property is about files (k-fold splits: a file system of directories and names).
* Floats are elements of an arbitrary linearly ordered field with floor (`[Field K] [LinearOrder K] [IsStrictOrderedRing K] [FloorRing K]`; examples use `ℚ`). Rounding done *by the code* (`round(x, d)`, printing with `d` digits) is modelled; machine rounding is not.
* Numeric libraries appear as parameters constrained by a contract (Spec/Hull, Spec/Svm, Spec/…): Qhull (`QhullContract`: the returned half-spaces are exactly the hull of the points, failure only for degenerate input), `LinearRegression` (`RegContract`: score 1 iff an exact fit exists and then the coefficients fit), `numpy.linalg.norm` (`NormContract`), `LinearSVC` (`SvmContract`: separates separable data). For each contract a concrete library that provably meets it is given, so no theorem is vacuous.
* The text of numeric expressions is modelled by expression trees (`NExp`); the hypothesis `Printable d k` says a number survives printing with `d` digits.
* `pddl_plus_parser` operations that are not in /repo and whose behaviour on corner cases we could not read are parameters with stated meaning: `Precondition.add_condition` on compound conditions (`AddOK`), `Operator.apply` on inapplicable actions, VAL.
* `networkx.connected_components` is modelled by breadth-first closure; scikit-learn's `KFold.split` by its documented contract (every index exactly once).
* Random choices (`random.choices`, `random.shuffle`, ...) are arguments of the model; the theorems quantify over all of them.
* Termination: Python `while`/recursion without a structural bound is modelled with fuel; theorems are stated for all fuel or show sufficient fuel exists.

## The pinned commit does not import

`sam_learning/core/predicates_matcher.py:171` contains `type=lifted_signature.keys()[]`, a Python syntax error (and `PDDLObject` is not imported). The assigned variable is never used. We model the module with this one dead statement deleted; every other line is modelled as it is. Likewise `learners/esam.py` passes arguments its callees do not accept (lines 128, 153-158), see the findings.

## Plan per property

| id | modelled | how it is proved |
|----|----------|------------------|
| C01, C02, C03, C04 | whole `SAMLearner.learn_action_model` pipeline: snapshot, matcher, precondition/effect updates, unobserved handling, policy | invariant over the fold of components relating learned literals to the set of consistent observations; safety as corollary |
| C05, C06, C08 | same | closed form of the learned model (intersection / union over usable transitions), then set extensionality |
| C07 | `_handle_unobserved_actions`, lifted vocabulary | vocabulary contains complementary pair; counterexample when vocabulary is empty or policy is hard |
| C09, C10, C11 | policy, inequality, report functions | direct + invariant |
| C12 | same model | closed form of the state after a list of calls, by induction over the calls; counterexamples for equality without exceptions |
| C13 | same model | proofs of the safe part; machine-checked counterexamples for the rest |
| C14-C20, C45 | matcher, vocabulary, snapshot, matching utils | characterisation of itertools.permutations/product |
| C21, C22 | `LiteralCNF`, `MultiAgentSAM` | invariant over operations; counterexamples (last snapshot, repeated action, constants) |
| C23-C29 | logical_expression_operations, dependency_set, conditional_sam | semantics of CNF under valuations; char-list model of strings for C24, C25 |
| C46-C50 | `ConditionalSAM.learn_action_model` end to end | invariant over observations: dependency sets keep the true antecedents; refutations where the code is unsafe |
| C30-C33, C51 | `OnlineDiscreteModelLearner` as state machine | invariant over transition lists |
| C52, C53 | `SemiOnlineLearningAlgorithm` attribution of failures | invariant over events; numeric model as a parameter (`HullSound`) |
| C34, C35 | `PriorityQueue` with the random choice as an argument | refinement to a multiset |
| C36 | `EpisodeInfoRecord` counters | invariant |
| C37 | `BFSFeatureSelector` | combinatorics + invariant |
| C38, C39, C54 | MA-SAM+ grouping and macro parser | equivalence closure, list induction, reduction to MA-SAM safety |
| C40-C43 | numeric utilities | algebra |
| C44 | fold index logic and file system | list algebra |
| C55-C57, C70 | `ConvexHullLearner` incl. dependencies, Gram-Schmidt projection, margin | linear algebra over an ordered field, Qhull by contract |
| C58, C59 | `LinearRegressionLearner` | affine algebra, regression by contract |
| C60-C63 | `NumericFunctionMatcher`, `NumericFluentStateStorage`, `NumericSAMLearner` | composition of C01 with C55, C58 |
| C64-C69 | `/repo/statistics/*` | counting |
| C71-C75 | `IPCAgent`, exploration loops of semi-online learning and NOAM, solver driver | executions of an abstract environment (`Spec.Env`), induction over the loop |
| C76, C77 | `IncrementalConvexHullLearner` | invariant over `add_new_point`, equality with the batch learner |
| C78 | `IncrementalSVMLearner` | loop invariant, SVM by contract |
| C79 | `OnlineNumericModelLearner` | composition of C76, C78, C58 |
| C80-C84 | `UniversallyConditionalSAM.learn_action_model` end to end | reduction to conditional SAM over the action with one more parameter, once for each additional object |
| C85 | `ConditionalSAM` | exact meaning of the restrictive conditions in observed states; refutations |
| C86-C89 | `DomainValidator` | statistics after each problem = statistics plus the problem's verdict; fold; history induction |
| C90 | `solvers/*.py` | case analysis over arbitrary process results, retry recursion |
| C91-C95 | `ESAMLearner` and `minimize_parameters_equality_dict` | invariant over components (exact clauses), formulas as sets of clauses, disjoint-set invariant; counterexamples by kernel evaluation |
| C96 | `RandomWalkTrajectoriesCreator.create_random_plan` with coins and shuffles as arguments | induction on the number of steps |
| C97 | `insert_dummy_actions_to_plan` as mutated and returned plan | induction on the plan and on its reverse |
| C98-C99 | `FaultRepair` observation and execution; `Operator.apply` and VAL's log as parameters | induction on the plan, fold over the plans; counterexamples by kernel evaluation |
| C100 | `repair_model` on top of the N-SAM model | the SAM invariant started from the true action, and the numeric part of C62 |
| C101-C103 | pieces of observations, single-agent baseline, iteration lists | list induction; C01, C02, C05, C06 for the learned models |
| C104 | names and tables of the result files, runs as writes to a directory, the collectors | unique decomposition of names at the last underscores; folds over writes; mapM over the grid |
| C105 | glob, string order, derived columns, averaging | order lemmas for string comparison; permutation and counting arguments; a pigeonhole for more than ten folds |
| C106 | regular expression, strip, split and the counters over characters | induction over the text |
| C107 | the runner's loop over the folds with the state of validator, statistics manager and semantic calculator, and the result directory | invariant over the finished folds |
| C108 | the loop over the actions with both dictionaries of learners | structure of the loop, then C30, C32, C33, C79 |
| C109 | true domain and plans over ground states in Spec/Hybrid.lean; the constructed domain of C108 | C30 and C33 for the successes alone, C79 for hull, effects and targets, induction on the plan |
| C110 | the dictionaries of learners by action name, the learners of C30 and C79 themselves, lessons as traces or explorations | invariant: what each action was taught, preserved by every transition and elimination; then C109; the safe models depend on the successes only |
| C111 | the learner with the incremental storage, its loop and model creation, with the exceptions of Qhull | simulation between the incremental learner and N-SAM on the same observations; the storage is a fold over the usable observations; then C76 and the numeric core of C62 |
| C112 | whole runs: exported domains, executed plans, explorations, trajectory files and training, with the concrete learners | invariant of the run (lessons are truthful, attempts are kept), then C110 at the moment of planning and C71 for the execution |
| C113 | all functions of the generator, random draws as arguments | case analysis of the kinds, induction along the right spine of the trees, comparison with the model of the localisation (C98) |
| C114 | directories as maps from names to sets of files, jobs as command lines, argparse as accepted/required options | injectivity of the names (digits contain no underscore), induction on splits, versions, iterations |
| C115 | disk as a map from files to texts, runs as series of writes that depend on the disk, crashes as first parts of the series | every solution touches only its own files (induction on the loop, for runs and for crashes), then induction on histories |
| C116 | the texts as lists of characters, the lines as specification | induction on the observations, numbers consist of digits; the states by the snapshot of C01-C03's model |
| C117 | plans as lists of calls over the STRIPS semantics of Spec; planners and VAL by a hypothesis | induction on the plan from C01-C03, C13, C22; the validator by C86-C88 |
| C118 | ground states with a value for each ground fluent; a call sees its functions | C62 per step, C55/C70 for observed states, induction on the plan |
| C119 | each job a small-step program over shared files, histories of steps, kills and submissions; the report as a pure function of the original files | invariant: what a job will still report equals the report, own files disjoint (C104, C114), frame; termination by structural induction |
| C120 | the process with its working directory and the list of programs it starts | induction over the portfolio and the test set |
| C121 | the plan file as text, sets with an arbitrary iteration order, the true domain executing call after call | token round trip (C39), commuting effects, induction over order and plan |
| C122 | two runs of the learner on nested data, and the rounds of the triplets job over the joint trajectories | closed forms (C06) for observed and unobserved actions, safety (C01, C02), induction over plans |
| C123 | two learners on the same joint data; MA-SAM on nested data | closed form of the preconditions by induction over the transitions; invariant that clauses of a solo action are unit clauses; exactness (C02, C22); induction over plans |
| C124 | the evaluation directories as maps from names to contents, on top of the fold directories of C114 | invariants of the two copy loops and of the loop over folds; composition with C114 |
| C125 | the runs of N-SAM on two sets of trajectories and of incremental N-SAM; plan semantics of Spec/Plans | condition of a returned action is the hull of its observations; hulls grow with the data; effects are exact (C62) in both domains; incremental by C111 |
| C126 | plan semantics of Spec/CondPlans over the returned LearnedAction/UniAction and the true schemas | step by step from C46/C48 and C83/C84, recorded plans from C85; validation row as in C117 |
| C127 | machine with jobs, processes, output files and a clock; events; `step`/`run` | invariant over all lists of events, for each job; concrete schedules for the interference |
| C128 | the model of C80-C84 | each added universal precondition comes from one literal with several possible antecedents; the observed transition, extended by each quantified object, satisfies its restrictive condition; effects: C84 pointwise |
| C129 | solution files, training directory and result files as maps; planners and VAL as functions of the domain, the problem and the solution file | the loop over problems and planners refines the validator of C86-C89 on distinct stems; the safe row by C110 and the row of a validation in which all claimed plans are correct |
| C130 | the two folders as a map, the problem and the plan as values changed between the exports; joint transitions of a true domain with the dummy actions | a simulation: states agree on the other predicates; the dummy predicate follows the plan, by C97 |
| C131 | script and cluster as a transition system with fair and unfair events; an invariant per place of the script | induction over the events; two concrete executions for the limits |
| C132 | any interleaving of planners, creator and crashes as an inductive relation on disks; exporter and parser as arguments | invariant "every trajectory file is a prefix of an exported text"; then C117 |
| C133 | group by episode, centred rolling mean, cumulative layers | counting over the rows, sums over windows |
| C134 | curves by size with mean and sample variance; plots that can raise; the collector as a sequence of steps | characterisation of when each plot raises; composition with C104 |
| C135 | rank of the matrix of the features with a column of ones; conditions for constant and dependent columns | rank-nullity, strong induction over the order of the columns, composition with C58 |
| C136 | transition system of the jobs, with the files written line by line | each job sees only its view of the history; invariants of one job by induction over its acts; a measure bounds its acts |
| C137 | the proxy as a rewriting of literals, the domain as a fold over the models, the closures with their late-bound variables | bindings compose with the merge; preconditions from the invariant of C93, effects from the soundness of its clauses; induction over the stored proxies |
| C138 | the enumeration with sorted lists, the compiled expression, the transformer on formulas | sublists of the sorted conjunctions determine the disjunctions; valuations; mutual induction for the text |
| C139 | candidates = well-formed action models that explain the usable transitions | soundness and completeness of both literal sets (C01, C04) for each candidate, and C03 makes the result itself a candidate |
| C140 | the models of C55, C62, C76, C111 | the convex hull of finitely many points is the intersection of the half spaces that contain them (Farkas lemma, proved by induction on the points), combined with C139 for the boolean part |
| C141 | the class LiteralCNF as in C21 | positive clauses: the assignment with everything that is not excluded except one pair agrees with the reports unless the pair is a unit clause |
| C142 | SAM as in C01 | version-space reading of C139: preconditions only shrink between the true ones and the vocabulary; a new effect is a precondition that goes away; the next domain explains the transition just seen |
| C143 | the learner as in C30 | the two tests are exact (C30, C31), so an unpredicted attempt removes an explanation; an unpredicted success removes a literal from the safe precondition |
| C144 | SAM as in C01; the sample as a product measure | a trajectory that is not handled contradicts a literal that no training trajectory contradicts (C139); union bound over W, independence of the samples |
| C145 | the hull learner as in C55 | hull membership (C55, C70) is monotone in the rows; halfspaces (C140) for one function |
| C146 | SAM as in C144, the hull learner as in C145; product measures of Mathlib | leave-one-out bounds (C144, C145) and exchangeability of independent samples; Markov; quantiles of a real random variable (Lemmas.PacLine) for the exponential bound; a separating halfspace for each point of the parabola |
| C147 | effect learning as in C58 | the affine fit of C58 agrees on affine combinations; a wrongly predicted row is no combination of the others, so such rows are linearly independent with a one in front; exchangeability (C146) |
| C148 | N-SAM as in C62 | C140 (accepts iff no consistent model objects) gives a contradicted literal or inequality; leave-one-out count for literals (C144), and inequalities in one variable of the same sign exclude each other; exchangeability (C146) |
| C149 | incremental N-SAM as in C111 | C139 and C140 give a contradicted literal or inequality; the counting and the quantile argument are those of C148 |
| C150 | MA-SAM as in C22 | an error refutes a literal that the others do not (C22 and the form of the learned preconditions); the counting and the quantile argument are those of C137 |

## Modelled / not modelled, by file

| file | modelled |
|------|----------|
| sam_learning/learners/sam_learning.py | all (C01-C13) |
| sam_learning/core/{predicates_matcher, matching_utils, vocabulary_creator, environment_snapshot}.py | all |
| sam_learning/core/propositional_operations/* | all |
| sam_learning/learners/multi_agent_sam.py, ma_sam_plus.py | all |
| sam_learning/learners/conditional_sam.py | all |
| sam_learning/learners/numeric_sam.py | all (N-SAM and the polynomial variant) |
| sam_learning/core/numeric_learning/* | all but the disjunctive preconditions of the hull learner (never called) and `display_*` |
| sam_learning/core/online_learning/* | all; informative_states_learner 103-214 |
| sam_learning/learners/semi_online_learning_algorithm.py, noam_algorithm.py | all but export to files |
| sam_learning/core/online_learning_agents/ipc_agent.py | all |
| utilities/{macro_actions_parser, k_fold_split, distributed_k_fold_split}.py | all |
| statistics/* | all but CSV writing |
| sam_learning/learners/universaly_conditional_sam.py | all; whether iterating over a precondition descends into universal ones is a parameter (`deep`) |
| validators/safe_domain_validator.py, solvers/*.py | statistics and outcome reading; not the processes, not CSV writing |
| sam_learning/learners/esam.py | all but the encoders/decoders of proxy actions (unreachable: registering the first one raises, C95); also the algorithm with the two ill-formed calls repaired (`handleFixed`), marked as not the pinned code |
| trajectory_creators/random_walk_trajectories_creator.py | 17, 36-172; not the export of files |
| trajectory_creators/ma_common_functions.py | 45-107 |
| fault_detection/fault_repair.py | all; operators, VAL's log and the order of the glob are parameters |
| experiments/concurrent_execution/parallel_basic_experiment_runner.py 126-156, parallel_multi_agent_experiment_runner.py 49-95, 228-231, ..._with_triplets.py 68-98 | Model/Triplets.lean |
| experiments/cluster_scripts/common.py 121-130 | Model/Triplets.lean; `int(size * 0.8)` as exact arithmetic (compared with Python floats for all sizes below 200000: equal) |
| experiments/concurrent_execution/{distributed,multi_agent_distributed,numeric_distributed}_results_collector.py; names in safe_domain_validator.py 354-358, semantic_performance_calculator.py 317-321, learning_statistics_manager.py 220-237, numeric_performance_calculator.py 126-130 | Model/Results.lean; not: plots; csv quoting |
| experiments/concurrent_execution/online_learning_results_collector.py | Model/OnlineResults.lean; not: plots, lines 60-75 (the same code as 78-94 with other names) |
| utilities/joint_action_counter.py | Model/JointCounter.lean; not: argument parsing, printing |
| experiments/basic_experiment_runner.py 136-220 | Model/CrossVal.lean; learning, solving and evaluating are parameters |
| sam_learning/core/online_learning/online_utilities.py | Model/OnlineDomain.lean, Model/Training.lean; not: export to a file, create_plan_actions, requirements |
| `Model/OnlineTraining.lean` | `semi_online_learning_algorithm.py:110-167, 204-246, 312-331, 420-448` with the concrete discrete and numeric learners |
| `Model/IncNumSam.lean` | `incremental_numeric_sam.py`, `numeric_fluent_learner_algorithm.py` with `incremental=True` |
| `Model/Session.lean` | `semi_online_learning_algorithm.py:333-568`, `noam_algorithm.py:244-415, 492-576`: runs over series of problems |
| `Model/FaultGenerator.lean` | `fault_detection/fault_generator.py`, `defect_types.py` (the random numbers are arguments) |
| `Model/Cluster.lean` | `utilities/distributed_k_fold_split.py`, `folder_creation_for_parallel_execution.py:83-93`, `experiments/cluster_scripts/{common,numeric_experiments_sbatch_runner,multi_agent_experiments_sbatch_runner}.py`, argument parsers of the parallel runners |
| `Model/TrajectoryFiles.lean` | `trajectory_creators/experiments_trajectories_creator.py:40-58`, `ma_shorted_experiments_trajectories_creator.py:25-105` (parsers and exporters are arguments) |
| `Model/PlanMiner.lean` | `trajectory_creators/plan_miner_trajectories_creator.py:59-130` |
| experiments/concurrent_execution/parallel_basic_experiment_runner.py, parallel_multi_agent_experiment_runner.py (iteration jobs) | Model/Jobs |
| validators/validator_script_data.py, solvers/* (working directory) | Model/WorkingDir |
| validators/safe_domain_validator.py (`adapt_solution_file`) | Model/MacroPlans |
| experiments/concurrent_execution/parallel_multi_agent_experiment_runner_with_triplets.py (rounds of a fold) | Model/TripletsJob |
| experiments/concurrent_execution/folder_creation_for_parallel_execution.py (evaluation data) | Model/Evaluation |
| `Model/PlanMinerRun.lean` | `parallel_numeric_experiment_runner.py:89-199` (jobs, processes, output files under all schedules; paths after the change of directory) |
| `Model/OnlineEvaluation.lean` | `planning_with_online_learning.py:83-181, 293-316` (evaluation of the safe and of the optimistic domain, with the files), `safe_domain_validator.py:253-349` with solution files |
| `Model/MaDatasets.lean` | trajectory_creators/ma_experiments_trajectories_creator.py: create_domain_trajectories (C130) |
| `Model/Submission.lean` | experiments/cluster_scripts/common.py:35-67, 160-270 and the loops of the runners (C131) |
| `Model/Pipeline.lean` | experiments/experiments_dataset_generator.py:59-73, trajectory_creators/experiments_trajectories_creator.py:40-58, experiments/basic_experiment_runner.py:119-134 (C132) |
| `Model/Plots.lean` | experiments/plotting/plot_online_learning_results.py, plot_nsam_results.py, plot_nsam_solo_results.py, plot_masam_results.py without colours and axes; experiments/concurrent_execution/numeric_distributed_results_collector.py:37-45 with its plots (C133, C134) |
| `Model/Certificate.lean` | linear_regression_learner.py:66-84, 303-334, numeric_utils.py:26-37, 186-258 (flag and extra conditions; rref pivots = rank) (C135) |
| `Model/SolverJobs.lean` | sbatching_fast_downward_solver.py:56-87, sbatching_solver.py:56-89, sbatching_solver_metric_ff.py:10-43, solve_problem and the process handling of the three solvers at the level of file writes (C136) |
| `Model/EsamProxy.lean` | esam.py:31-35, 56-71, 199-326, 341-367, 456-466: proxy actions and the translation of calls (C137) |
| `Model/Dnf.lean` | logical_expression_operations.py:33-60, 95-124, 199-245 (C138) |
| rest of solvers/*, experiments/*, plotting | not modelled: processes, the cluster scheduler, colours and axes, plot_conditional_sam_results.py |

## Findings (machine-checked where a theorem is named)

The model follows the code including its defects. What it shows:

SAM. Policy *hard* makes learned effects unsafe; unobserved action applicable when there is no literal over its parameters (C07); learning in two calls differs from one (C12); calls binding a parameter to a constant or two parameters to one object break safety (C13); the report never says OK (C11).

MA-SAM. Only the last snapshot of a joint action feeds the preconditions; the same action twice in a joint action; constants mutated into parameters; report omits removed unsafe actions; an all-nop joint action uses a stale snapshot; a repeated pair in a clause keeps a recorded non-effect (C21, C22).

Logic. Regular expression crashes on hyphenated arguments; names starting with `not` are misread; empty clause dropped (C23-C25).

Conditional SAM. Recursive precondition iteration misses restrictions (C48, restriction 1); restrictive effects overwritten (C29, C48-2); single-candidate unobserved literal (C48-3); success flag and duplicate objects ignored (C50); report always NOT SAFE, learning twice raises KeyError (C49).

Online discrete. Duplicate clauses may be appended; positive observations do not rerun unit propagation; empty clauses skipped in the optimistic model; counter of unknown failures overcounts (C52). Constants break the online learners.

Recorder / BFS. Counter key clashes, file label off by one, trajectory not cleared, KeyError leaves the step in the trajectory (C36); ValueError from the third observation on (C37_stuck).

Macro actions. Parameterless actions dropped when decoding, incomparable types, group name collisions, KeyError for constants (C39); C54_shared_parameter_unsafe, C54_collapsed_parameters; inequality preconditions not carried to the macro; macro name may equal an existing action.

Numeric. Coefficients below the printed precision dropped (C40), empty expression, fluent named "dummy", eliminated variable reintroduced (C43), dependency y = x/3 excludes its own observations (C56), positive margin unsafe (C57), scale-down by k<1 divides (C58_limit_scale_down), KeyError for a fluent unassigned before / ValueError for all-constant features (C59), missing nullary function KeyError (C60), `add_new_point` deduplication loses a point and data reset (C61 limits), N-SAM drops inequality preconditions (C62_limit_inequalities_dropped), AttributeError for actions without numeric functions (C63_limit_no_functions), observations closer than the tolerance make the action unsafe (C70_close_points_not_safe, C76_limit_close).

K-fold. Leftover directories leak test data, stale folds kept, directory name of the distributed version differs, unsorted glob, `n_split=0` ValueError (C44).

Statistics. Learned-empty preconditions have precision 0, action added twice counted twice, recall 0 when nothing is possible, semantic effects computed on the learned next state; MA: complete states compared and blame shared, combined export ValueError; MSE 0 for never-applicable or unlearned actions, repeated key overwrites MSE, numeric statistics never filled (C64-C69).

Exploration. Failure counter never reset (C72), unsuccessful rounds counted as steps, initial goal not noticed, starvation compares an episode step with a global counter (C73_limit_always_starved), success in the dead-end fallback not learned (C73_limit_success_not_learned), last frontier action executed even if uninformative. Solver driver: empty plan IndexError (C75_limit_empty_plan), first solver claiming success stops the others (C75_limit_second_solver_ignored), a plan whose last action fails while the goal holds counts as solved; negative goals never reached; stale fluent values.

Incremental hull. Membership ignores constant and dependent fluents (C77_limit_dependencies), so the real test does not meet the assumption `HullSound` of C74; tolerance; AttributeError on reset without a hull; a single relevant fluent uses the first column; the standard-base flag is never reset; QhullError escapes `add_new_point`; a point lacking a column can be lost.

SVM. A non-separable failure may give a plane that rejects successes; headers misaligned when a column has missing values; boundary failures accepted; at most 100 failures used (C78).

Universal conditional SAM. An action missing from `universals_map` (empty by default) raises KeyError (C80); a constant may be taken for the additional object; the test at line 177 compares a literal with action names and is never true; literals nested in added disjunctions are taken for preconditions, so an antecedent may be emptied and the returned action contradict an observed transition (C83_needs_condition); universal preconditions after the first come out empty (C84_needs_one_precondition) and empty ones are added too; an unlisted type drops an observed effect (C84_needs_listed_type); learning skips objects bound to parameters and objects of subtypes, to which the learned `forall` applies. Conditional SAM may reject a state it was observed in (C85_observed_state_rejected).

ESAM. Every component raises TypeError (C91): `create_triplet_snapshot` gets an unknown keyword, and `add_new_action` passes three arguments to `handle_effects`. Repaired, it is SAM on distinct objects (C94), but more than one proxy raises KeyError, repeated objects give spurious or lost effects, failed components are learned from (C95); `cannot_be_effects` holds grounded literals, so it forgets only literals without parameters; merging parameters ignores sign and type and loses arguments (C92); `encode`/`decode` look up tables that are never filled.

Validation. A rejected plan of the first planner that claims one hides a valid plan of a later planner (first_claim_decides); a problem whose VAL log has no known sentence is counted nowhere (C87); an empty portfolio raises KeyError; `used_observations=None`, the default, raises TypeError after the whole run (no_observations_raises); with files, transitions of the first file only (C89_triplets_first_path); solved problems are listed by file name, unsolved ones by stem (C86_counts).

Trajectory creation. A random walk may record an applicable action as changing nothing (C96_limit_false_step), a false observation for learners that trust it; an empty set of grounded actions raises IndexError. `insert_dummy_actions_to_plan` returns a list without the joint actions that were not drawn (C97_limit_returned); its callers use the mutated argument instead; with a dummy goal and no idle agent the goal is unreachable.

Fault repair. Differences below one are tolerated and accumulate until an innocent action is blamed (C98_limit_small_difference); facts of predicates absent from the valid state are not compared (C98_limit_extra_facts); the verdict `not_applicable` is always overwritten by `state_difference` (C99_execution); the last plan with a fault decides which action is blamed; objects with hyphens or actions without parameters raise AttributeError (C99_limit_locator); a log without known sentences TypeError; the repair learns from a domain that already contains the true action (no partial parsing), so its boolean effects do not depend on the observations (C100_repaired_safe).

Experiments. Up to n-1 transitions per observation are lost (C101_pieces); with hop 100 iterations up to 90 are run even with fewer trajectories, and below 9 trajectories the small iterations exceed the training set too (C103_fits_iff); a joint action in which nobody acts raises IndexError in the baseline (C102_defined_iff); the dataset statistics divide by the number of concurrent transitions (C102_ratio_raises).

Result files. Without an iteration the semantic statistics are written to `..._{fold}__semantic_performance.csv` and collected from `..._{fold}_semantic_performance.csv`: collecting the multi-agent statistics always raises FileNotFoundError before the syntactic statistics are written (C104_multi_agent_raises). Triplet files do not depend on the iteration but are read once per iteration, so every row is counted that many times (C104_triplets_repeated). The numeric collector for triplets reads the syntactic files of the trajectories (numeric_distributed_results_collector.py:53).

Online results. The fold column is the position of the file in alphabetical order: with eleven or more folds, fold 10 is labelled 2 (C105_labels); in the collected test set statistics every file, also of the same fold, gets its own label (C105_solving_labels); an episode whose optimistic plan was inapplicable but which reached the goal counts both as optimistic success and as not applicable (C105_verdicts); `aggregated_success` and `aggregated_success_solver` are always equal (C105_columns).

Cross validation. A new semantic calculator is made for every fold and only the last one is exported as the combined file, so the combined semantic performance has the last fold only; `numeric_learning_stats` is never filled, so the joint file of the statistics manager has a header and no rows, and the merged action statistics are never exported; semantic files are numbered fold + 1, the others fold (C107_complete).

Unobserved actions online. `construct_safe_action_model` keeps every action of the domain. An action that never succeeded has no numeric precondition (`construct_safe_linear_inequalities` returns an empty conjunction without data) and is excluded only by its discrete precondition, the whole vocabulary with all negations. In a domain without predicates that match the action it is applicable everywhere in the safe model (C74_limit_no_predicates).

Construction of the online domains. One action whose numeric model raises `NotSafeActionError` (an effect that is not affine in the observed fluents, a failure that no hyperplane separates) leaves no domain for any action (C108_raises); none of the callers in semi_online_learning_algorithm.py, noam_algorithm.py and planning_with_online_learning.py catches it.

**C111.** In N-SAM an exception of Qhull only removes the action concerned; in incremental N-SAM it leaves `learn_action_model`, so one action whose points Qhull rejects prevents learning all others. The incremental learner also ignores the relevant fluents for preconditions, and its default policy for negative preconditions (soft) differs from that of N-SAM, with which the boolean part is not safe (C09).

**C112.** In NOAM the transitions of the random fallback (`super()._select_action_and_execute`) are executed with `integrate_in_models=False` and no trajectory is exported, so what the fallback observes is never learned, although it is recorded in the statistics.

**C113.** `alter_action_numeric_precondition_value` decreases only for `>=` and only when the right side ends in a function: a number always grows (`node.value + alter_by` ignores `should_decrease`), and for `>` the value grows too; the resulting condition is stricter, so the domain is not unsafe although the documentation says so. `alter_action_numeric_precondition` leaves equalities as they are: the generated domain is then the original.

**C114.** (a) A first creation names the triplets directory `fold_F_A_triplets_N` (train) and `fold_F_A_triplets_N_triplets` (test), while the triplets jobs read `fold_F_A_triplets`: only a second creation, from the saved settings, produces it. (b) A creation from saved settings ignores the requested iterations. (c) `--ignore_internal_iterations`, passed by the online sbatch runner, is not an option of the folder script. (d) The sample configuration compares version 19, which the numeric runner's `learning_algorithms_map` lacks (`KeyError`), and has the entry `solver_type`, which the job script does not know. (e) `num_folds` is not passed to the folder script, which always makes 5 splits.

**C115.** A trajectory file that a crash left incomplete counts as existing and is never replaced; the multi-agent creator has the same gap for the vanilla trajectory only. If the vanilla attempt of a solution is refused, every run writes its enhanced files anew, with other random numbers.

**C116.** Only the first component's previous state is written: in an observation whose components do not follow one another (for instance one with filtered components) the file shows transitions that never happened. `upper()` identifies names that differ only in case. An existing (also an incomplete) `.pts` file is kept, although the fold has other trajectories.

**C117.** Without distinct objects it is false: a plan that binds two parameters of a type and of its subtype to one object solves a problem in the learned but not in the true domain (`C117_repeated_objects_unsafe`). With `soft` and `hard` it is false if the true action has negative preconditions (`C117_soft_unsafe`): the rows of the validator then show *not applicable* plans although the learner is SAM.

Finding (C119): `MetricFFSolver` and `ENHSPSolver` handle a timeout with `pkill -f`, which kills the planners of all jobs on the machine: the other jobs then report `solver_error` or other outcomes for problems they solve alone. `_export_domain_and_backup` names the backup after the number of observations, so iterations whose training directories hold equally many trajectories overwrite each other's backup.

Finding (C120): `FastDownwardSolver.solve_problem` returns to the original working directory only after a success, and `MetricFFSolver.solve_problem` never: with a relative working directory, or with the default `./fast-downward` and `./metric-ff`, later problems raise `FileNotFoundError`.

Finding (C121): `adapt_solution_file` writes the actions of a macro in the iteration order of a set of strings, but they are meant to happen at once. If one of them destroys a precondition of another, the same plan is accepted or rejected by VAL depending on PYTHONHASHSEED.

Findings (C122): the triplets job of the SAM baseline exports the dataset statistics before the first round, and so raises ZeroDivisionError when agents always act alone, the very data the baseline can use completely. The number of rounds is fixed (20 or 100), so once the pieces are used up the rounds learn, solve and export the same model again.

Finding (C123): MA-SAM's learning curve is not monotone and does not dominate the SAM baseline even on good data: a joint transition that leaves open which agent caused an effect makes it drop an action altogether, although the domain learned before (with the stronger preconditions) was safe.

Finding (C124): `remove_created_directories` clears `train` and `test` but not `performance_evaluation_trajectories`; after a new split the evaluation directory of a fold still holds old test problems that are now training problems, so the reported precision and recall include training data.

More training data can make N-SAM return fewer actions: when Qhull fails on the larger set of points the action is dropped (C125_limit_lost).

A plan found with a domain of conditional SAM can be valid there and miss its goal in the true domain (C126_needs_settled).

PlanMiner jobs disturb each other: when one job times out, `pkill -f ./bin/PlanMiner` ends the processes of every job on the machine; the others report a failure (learning time -1, no actions) or a truncated model although their own process was fine (C127_other_job_fails). A job that times out can itself return an unfinished model as a success (C127_timeout_answer).

Universal conditional SAM can reject the states in which it observed the action: universal preconditions are learned from objects that are not in the call and have exactly the type, yet quantify over the objects of the call and over subtypes (C128_needs_other_objects, C128_needs_exact_types).

The number of trajectories in the statistics of the online learners is the number of trajectory files in the training directory, which the online learners never read or write; and a domain whose name begins with the prefix of the problems is counted as two training problems in the names of the result files (C129_domains_counted).

With the dummy predicate in the goal and no idle agent at any step, the enhanced data set has a problem that its plan does not solve (C130_goal_missed): `insert_dummy_actions_to_plan` returns silently. The regular trajectories are made with the problem that already has the dummy goal.

`validate_job_running` passes a list with `shell=True`, so `squeue` runs without `--job` and lists the jobs of everybody; the test is `str(sid) in result`, so a job 123 of another user makes the script wait for the ended job 12 (C131_waits), and an error of `squeue` counts as the end of the job (C131_queue_fails). The runs are not submitted with a dependency on the folder jobs, so they start also after a failed creation.

`create_domain_trajectories` skips a problem whose trajectory file exists, also if the file is the rest of a crash; `collect_observations` then raises for the whole directory (C132_broken).

An episode that was solved although the optimistic model was not applicable is in two layers of the plot: the stack exceeds 1 and the axis cuts the top layer (C133).

plot_results raises IndexError, KeyError or ValueError unless the algorithms apart from incremental_nsam are exactly numeric_sam, naive_nsam and plan_miner; collect_numeric_statistics then never writes the combined syntactic and numeric files. The legend of the multi-agent plot is fixed text, and wrong if one of its three algorithms is missing while three others are present (C134).

Factors between columns are rounded to the printed digits: with g a third of f the returned condition (= g (* 0.3333 f)) is false in every observed state. No learner uses the flag or the conditions: numeric_sam.py:94-106 keeps uncertified effects, which may be wrong outside the observations (C135).

The solver scripts put configuration["timeout"] into the arguments, which common.py:226 joins as texts: a number in the configuration raises TypeError before the first job; sbatching_trajectory_creation.py:46 always raises it, since an argument is a Path; cluster_parallel_solving_config.json has none of the keys the solver scripts read at the top level (C136).

Even with the registration of encoders repaired, decode and encode give no usable call: both closures read the action that line 326 removes, both see the variables of the last proxy only, decode unpacks parameter names character by character, and a call with repeated objects is encoded as an empty call; proxies drop the inequality preconditions; a constant in a literal raises KeyError; a proxy replaces an action that happens to have its name (C137).

minimize_dnf_clauses raises a parser error when the expression simplifies to True or False, and keeps atoms whose negation is assumed (C138).

Transitions with repeated objects carry information that the learner discards: C139_repeated_objects_unused.

MA-SAM returns or drops an action depending on the order in which the agents of a joint action are listed (C141_order_of_agents).

{"id": "C01", "title": "SAM safety: learned preconditions are sufficient", "statement": "If all observed successful transitions were produced by some true STRIPS action model, then whenever an action of the domain returned by learn_action_model is applicable (its learned literals hold) in a state under an injective binding of its parameters, the true action is applicable in that state under the same binding.", "quantifier": "every true model, every list of trajectories consistent with it, every action, every state and every injective binding (domains without constants, default negative-precondition policy)", "why_tests_cant": "the guarantee ranges over all unseen states and all trajectory sets; tests compare a learned domain against a handful of benchmark states", "anchors": ["sam_learning/learners/sam_learning.py:SAMLearner.learn_action_model", "sam_learning/learners/sam_learning.py:_add_new_action_preconditions", "sam_learning/learners/sam_learning.py:_update_action_preconditions"]}
{"id": "C02", "title": "SAM safety: learned effects predict the true successor", "statement": "Under the same hypotheses as C01, whenever the learned action is applicable in a state under an injective binding, applying the learned effects gives exactly the successor state of the true action.", "quantifier": "every true model, consistent trajectory list, action, state, injective binding", "why_tests_cant": "requires comparing two transition functions on all states", "anchors": ["sam_learning/learners/sam_learning.py:_handle_action_effects", "sam_learning/learners/sam_learning.py:add_new_action", "sam_learning/learners/sam_learning.py:update_action", "sam_learning/core/matching_utils.py:extract_discrete_effects"]}
{"id": "C03", "title": "Learned model reproduces every observation", "statement": "Every successful observed transition without duplicated parameters is applicable in the returned (default policy) model and the model maps its pre-state to its observed post-state restricted to the atoms the action can mention.", "quantifier": "every list of trajectories, every transition in it, whatever comes before or after it", "why_tests_cant": "depends on arbitrary histories of later updates never invalidating earlier observations", "anchors": ["sam_learning/learners/sam_learning.py:learn_action_model", "sam_learning/learners/sam_learning.py:handle_single_trajectory_component"]}
{"id": "C04", "title": "No spurious effects", "statement": "Every literal the learner returns as an effect of an action is an effect of the true action (domains without constants); with constants this can fail.", "quantifier": "every true model and every list of consistent trajectories", "why_tests_cant": "a spurious effect may need a particular binding and a particular state to be introduced", "anchors": ["sam_learning/learners/sam_learning.py:_handle_action_effects", "sam_learning/learners/sam_learning.py:_handle_consts_in_effects", "sam_learning/core/predicates_matcher.py:PredicatesMatcher.match_predicate_to_action_literals"]}
{"id": "C05", "title": "Order and repetition of observations do not matter", "statement": "Learning from any reordering, regrouping or duplication of the same set of successful transitions yields the same preconditions and effects for every action: in every domain without constants, and in a domain with constants whenever the transitions are real and no call with distinct objects binds a parameter to a constant. Otherwise, with constants, the order matters.", "quantifier": "every list of transitions and every list with the same set of members", "why_tests_cant": "factorially many schedules of the same observations", "anchors": ["sam_learning/learners/sam_learning.py:learn_action_model", "sam_learning/learners/sam_learning.py:handle_single_trajectory_component"]}
{"id": "C06", "title": "Monotone learning", "statement": "Observing more transitions after an action was first observed can only remove preconditions and inequality preconditions (every domain, default and hard policy) and can only add effects for that action (every domain without constants; with constants, whenever the transitions are real and no call with distinct objects binds a parameter to a constant). With a call that binds a parameter to a constant an effect can disappear again.", "quantifier": "every prefix/extension pair of observation histories", "why_tests_cant": "requires all continuations of a history", "anchors": ["sam_learning/learners/sam_learning.py:_update_action_preconditions", "sam_learning/learners/sam_learning.py:update_action"]}
{"id": "C07", "title": "Unobserved actions are never applicable", "statement": "With the default policy, an action that never occurred in a usable transition is returned with preconditions no state satisfies (so the planner can never use it).", "quantifier": "every domain, observation list, unobserved action, state and binding", "why_tests_cant": "must hold for all states", "anchors": ["sam_learning/learners/sam_learning.py:_handle_unobserved_actions", "sam_learning/core/vocabulary_creator.py:VocabularyCreator.create_lifted_vocabulary"]}
{"id": "C08", "title": "Failed and duplicated-parameter transitions are ignored", "statement": "A transition marked unsuccessful leaves the learner unchanged, and a transition whose call repeats an object changes neither preconditions literals nor effects nor the set of observed actions.", "quantifier": "every learner state and every such transition", "why_tests_cant": "all learner states reachable by any history", "anchors": ["sam_learning/learners/sam_learning.py:learn_action_model", "sam_learning/learners/sam_learning.py:_verify_parameter_duplication"]}
{"id": "C09", "title": "Negative-precondition policy", "statement": "hard leaves no negative literal precondition in any action; soft removes exactly the negative literals whose atom is a positive effect; no_remove changes nothing; positive preconditions and effects are never touched by any policy.", "quantifier": "every domain and policy", "why_tests_cant": "set-valued post-condition over all possible learned actions", "anchors": ["sam_learning/learners/sam_learning.py:remove_negative_preconditions", "sam_learning/learners/sam_learning.py:handle_negative_preconditions_policy", "utilities/util_types.py:NegativePreconditionPolicy"]}
{"id": "C10", "title": "Inequality preconditions are exact", "statement": "After learning, the pair of parameters (in signature order) is an inequality precondition iff the two parameters have the same type and no observed successful call bound them to one object.", "quantifier": "every action, pair of parameters and list of observations", "why_tests_cant": "depends on the whole history", "anchors": ["sam_learning/learners/sam_learning.py:deduce_initial_inequality_preconditions", "sam_learning/learners/sam_learning.py:_verify_parameter_duplication"]}
{"id": "C11", "title": "Learning report classifies every action exactly once", "statement": "The report gives every action of the returned domain exactly one status, and the status is UNOBSERVED iff the action was never observed.", "quantifier": "every domain and history", "why_tests_cant": "all histories", "anchors": ["sam_learning/learners/sam_learning.py:_construct_learning_report"]}
{"id": "C12", "title": "Learning in several calls", "statement": "Calling learn_action_model several times on one learner, on batches of real transitions, gives a model that is still safe. In domains without constants, for any number of batches: the calls succeed exactly when one call on all batches does; effects and report are those of learning from all batches at once, and so are the preconditions of each action that the first batch observes or that no batch observes, under every negative precondition policy. The two exceptions are exact: an action first observed by a later batch has the preconditions of learning at once without that first observation (if it is the only one, the action can never be applied), and the inequality preconditions are those learned from the last batch alone, because each call puts all of them back.", "quantifier": "every domain without constants (safety: every domain), policy, list of batches and action", "why_tests_cant": "all splits and all batches", "anchors": ["sam_learning/learners/sam_learning.py:_complete_possibly_missing_actions", "sam_learning/learners/sam_learning.py:_handle_unobserved_actions", "sam_learning/learners/sam_learning.py:learn_action_model"]}
{"id": "C13", "title": "Safety limits: non-injective bindings and constants", "statement": "The safety guarantee extends to bindings that map two parameters to one object and to domains with constants whenever the learned preconditions (including inequalities) allow them.", "quantifier": "every binding allowed by the learned preconditions", "why_tests_cant": "needs adversarial combination of model, history and binding", "anchors": ["sam_learning/learners/sam_learning.py:_verify_parameter_duplication", "sam_learning/learners/sam_learning.py:_handle_consts_in_effects"]}
{"id": "C14", "title": "Lifting is exact", "statement": "The literals returned for a grounded literal over distinct objects and an action call of the right length are exactly the lifted literals over the action's parameters and the constants (without repeated parameters) that ground back to it under the call, each once; with an additional quantified parameter, exactly those over the parameters and that variable.", "quantifier": "every grounded literal with distinct arguments, call of the right length and signature without repeated names", "why_tests_cant": "all arities and all calls", "anchors": ["sam_learning/core/predicates_matcher.py:match_predicate_to_action_literals", "sam_learning/core/matching_utils.py:create_signature_permutations"]}
{"id": "C15", "title": "Injective match", "statement": "For a call without repeated objects and without constants among them, a grounded literal over distinct objects of the call (or constants) has exactly one lifted match, so the injective match is found; a literal mentioning any other object has none; and the injective match is returned exactly when the lifted match is unique.", "quantifier": "every call of the right length and grounded literal with distinct arguments", "why_tests_cant": "all arities", "anchors": ["sam_learning/core/predicates_matcher.py:get_injective_match"]}
{"id": "C16", "title": "Grounded vocabulary is exact", "statement": "The grounded vocabulary contains exactly the atoms of declared predicates over distinct observed objects/constants whose types conform.", "quantifier": "every domain and object list", "why_tests_cant": "all domains", "anchors": ["sam_learning/core/vocabulary_creator.py:create_grounded_predicate_vocabulary", "sam_learning/core/vocabulary_creator.py:_validate_type_matching"]}
{"id": "C17", "title": "Lifted vocabulary is exact and sign-symmetric", "statement": "The lifted vocabulary contains a literal iff it is well typed over distinct parameters/constants, and it contains a literal iff it contains its negation; with a mandatory parameter it contains exactly those mentioning it.", "quantifier": "every domain and signature", "why_tests_cant": "all domains", "anchors": ["sam_learning/core/vocabulary_creator.py:create_lifted_vocabulary"]}
{"id": "C18", "title": "Snapshot is a complete consistent valuation", "statement": "For each vocabulary atom the state snapshot contains exactly one of the atom and its negation, the atom iff it is true in the state, and nothing else.", "quantifier": "every state and object list", "why_tests_cant": "all states", "anchors": ["sam_learning/core/environment_snapshot.py:create_discrete_state_snapshot"]}
{"id": "C19", "title": "Extracted effects explain the transition", "statement": "The add and delete effects extracted from two snapshots over the same vocabulary are disjoint, minimal, and applying them to the previous snapshot yields the next snapshot.", "quantifier": "every pair of states", "why_tests_cant": "all pairs of states", "anchors": ["sam_learning/core/matching_utils.py:extract_discrete_effects", "sam_learning/core/matching_utils.py:extract_not_effects"]}
{"id": "C20", "title": "Grounded action vocabulary is exact", "statement": "The grounded action vocabulary contains exactly the type-correct calls of each action over the objects and constants.", "quantifier": "every domain and object set", "why_tests_cant": "all domains", "anchors": ["sam_learning/core/vocabulary_creator.py:create_grounded_actions_vocabulary"]}
{"id": "C21", "title": "CNF bookkeeping keeps the truth", "statement": "If every recorded possible joint effect really contains a true (action, effect) pair and every recorded non-effect is truly not an effect, then after any sequence of operations every stored clause still contains a true pair, and no clause mentions a recorded non-effect of clauses without repetition.", "quantifier": "every sequence of add_not_effect/add_possible_effect operations", "why_tests_cant": "all histories", "anchors": ["sam_learning/core/propositional_operations/literals_cnf.py:LiteralCNF.add_not_effect", "sam_learning/core/propositional_operations/literals_cnf.py:LiteralCNF.add_possible_effect"]}
{"id": "C22", "title": "MA-SAM safety", "statement": "An action that MA-SAM declares safe is returned with preconditions and effects that predict the true single-agent action in every state where it is applicable.", "quantifier": "every true model and every list of joint observations", "why_tests_cant": "all joint histories and states", "anchors": ["sam_learning/learners/multi_agent_sam.py:MultiAgentSAM.learn_combined_action_model", "sam_learning/core/propositional_operations/literals_cnf.py:LiteralCNF.is_action_safe", "sam_learning/core/propositional_operations/literals_cnf.py:LiteralCNF.extract_action_effects"]}
{"id": "C23", "title": "CNF minimisation preserves meaning", "statement": "Minimising non-empty CNF clauses under assumptions gives clauses with the same truth value in every valuation satisfying the assumptions; if it raises, no such valuation satisfies the clauses. An empty clause is dropped, and texts whose arguments contain a hyphen crash it.", "quantifier": "every list of non-empty clauses, assumption set and valuation; for literal texts: argument names without hyphen, predicate names not starting with 'not'", "why_tests_cant": "all valuations", "anchors": ["sam_learning/core/propositional_operations/logical_expression_operations.py:minimize_cnf_clauses", "sam_learning/core/propositional_operations/logical_expression_operations.py:check_complementary_literals"]}
{"id": "C24", "title": "Literal flipping is an involution", "statement": "Flipping the sign of a literal string twice gives it back and flipping gives the string of the opposite literal, for every literal string a predicate whose name does not start with 'not' can print; for a name starting with 'not' it does not.", "quantifier": "every predicate name and argument list", "why_tests_cant": "all names, including those starting with 'not'", "anchors": ["sam_learning/core/propositional_operations/logical_expression_operations.py:_flip_single_predicate"]}
{"id": "C25", "title": "Literal text round-trip", "statement": "Parsing the printed form of a literal over an action's signature gives back the literal's name, arguments in order and sign.", "quantifier": "every literal", "why_tests_cant": "all names and arities", "anchors": ["sam_learning/core/propositional_operations/discrete_utilities.py:extract_predicate_data"]}
{"id": "C26", "title": "Dependency sets never lose the true antecedents", "statement": "If a conditional effect with a conjunctive antecedent of bounded size explains all observations, its antecedent set is never removed from the candidates of its result by any sequence of observations.", "quantifier": "every true conditional effect and every history, where the observed transitions are real (produced by the true actions, also those flagged as failed) and their calls have distinct objects that are not constants; true actions: well typed, antecedents within the bound, one antecedent per result literal, no contradictory results", "why_tests_cant": "all histories", "anchors": ["sam_learning/core/propositional_operations/dependency_set.py:DependencySet.remove_dependencies", "sam_learning/learners/conditional_sam.py:ConditionalSAM._remove_not_antecedents"]}
{"id": "C27", "title": "Antecedent candidates are all bounded non-empty subsets", "statement": "Initialisation gives every result literal exactly the non-empty subsets of size at most the bound as candidates.", "quantifier": "every literal set and bound", "why_tests_cant": "all sizes", "anchors": ["sam_learning/core/propositional_operations/dependency_set.py:DependencySet.initialize_dependencies", "sam_learning/core/propositional_operations/logical_expression_operations.py:create_cnf_combination"]}
{"id": "C28", "title": "Restrictive preconditions are safe", "statement": "Whenever the restrictive precondition built for an unsafe result literal holds in a state together with the action's preconditions, the result literal's value after the action is determined: either it already holds, or no candidate antecedent holds, or (for an observed effect) all candidate antecedents hold.", "quantifier": "every dependency set with non-empty candidates, precondition set and state; the external add_condition conjoins (or disjoins) a condition as documented", "why_tests_cant": "all states", "anchors": ["sam_learning/core/propositional_operations/dependency_set.py:DependencySet.construct_restrictive_preconditions"]}
{"id": "C29", "title": "Conditional SAM keeps every learned conditional effect", "statement": "Every conditional effect constructed for an observed result literal of an action is part of the returned action.", "quantifier": "every history", "why_tests_cant": "all combinations of safe and unsafe literals", "anchors": ["sam_learning/learners/conditional_sam.py:_verify_and_construct_safe_conditional_effects"]}
{"id": "C30", "title": "Online discrete learner: safe model is safe", "statement": "After any sequence of successful and failed transitions of an action with conjunctive preconditions, a state accepted by the safe model satisfies the true preconditions.", "quantifier": "every history explainable by some conjunctive precondition over the vocabulary, and every state", "why_tests_cant": "all histories", "anchors": ["sam_learning/core/online_learning/online_discrete_models_learner.py:OnlineDiscreteModelLearner.is_state_in_safe_model", "sam_learning/core/online_learning/online_discrete_models_learner.py:get_safe_model"]}
{"id": "C31", "title": "Online discrete learner: inapplicability is sound", "statement": "If the learner says a state is not applicable then the true action is not applicable in it; every recorded clause contains a true precondition.", "quantifier": "every history and state", "why_tests_cant": "all histories", "anchors": ["sam_learning/core/online_learning/online_discrete_models_learner.py:is_state_not_applicable_in_safe_discrete_model", "sam_learning/core/online_learning/online_discrete_models_learner.py:_add_negative_pre_state_observation", "sam_learning/core/online_learning/online_discrete_models_learner.py:_apply_unit_propagation"]}
{"id": "C32", "title": "Online discrete learner: optimistic model admits everything the true action admits", "statement": "Any state satisfying the true preconditions satisfies the optimistic precondition.", "quantifier": "every history explainable by some conjunctive precondition and every state; the external add_condition behaves as documented", "why_tests_cant": "all histories", "anchors": ["sam_learning/core/online_learning/online_discrete_models_learner.py:get_optimistic_model"]}
{"id": "C33", "title": "Online discrete learner: effects bracket the truth", "statement": "must-be effects are true effects, and every true effect in the vocabulary is in the optimistic effects once a success was observed.", "quantifier": "every history", "why_tests_cant": "all histories", "anchors": ["sam_learning/core/online_learning/online_discrete_models_learner.py:_add_positive_post_state_observation"]}
{"id": "C34", "title": "Priority queue order", "statement": "get_item/get_queue_item_data return an item whose (two-decimal) priority is maximal among the stored ones, whatever the random tie-break.", "quantifier": "every history of operations and every random choice", "why_tests_cant": "all interleavings and random outcomes", "anchors": ["sam_learning/core/online_learning/priority_queue.py:PriorityQueue"]}
{"id": "C35", "title": "Priority queue conserves items", "statement": "The multiset of stored items is exactly insertions minus removals, len reports its size, and retrieval fails exactly on the empty queue.", "quantifier": "every history of operations", "why_tests_cant": "all histories", "anchors": ["sam_learning/core/online_learning/priority_queue.py:PriorityQueue"]}
{"id": "C36", "title": "Episode accounting", "statement": "In every reachable state sum_successful_actions/sum_failed_actions equal the sums of the per-action counters of the current episode, their total equals the number of steps recorded in the episode, and the success history equals the total successes over all episodes.", "quantifier": "every history of record/end-episode calls, with action names that yield distinct counter names", "why_tests_cant": "all histories", "anchors": ["sam_learning/core/online_learning/episode_info_recorder.py:EpisodeInfoRecord"]}
{"id": "C37", "title": "BFS feature selection explores by size", "statement": "The open list enumerates every subset of the monomials exactly once in non-decreasing size, and the selected features only move forward.", "quantifier": "every monomial list and observation history", "why_tests_cant": "all histories", "anchors": ["sam_learning/core/online_learning/bfs_feature_selection.py:BFSFeatureSelector"]}
{"id": "C38", "title": "Macro parameter groups are the connected components", "statement": "Combining parameter groups yields a partition in which two parameters share a group iff they are linked by a chain of overlapping groups.", "quantifier": "every list of groups", "why_tests_cant": "all chains", "anchors": ["sam_learning/learners/ma_sam_plus.py:combine_groupings"]}
{"id": "C39", "title": "Macro plan steps decode to the constituent actions", "statement": "Decoding a grounded macro action gives, for each constituent action, its call with each parameter bound to the object of the macro parameter it is mapped to, in signature order.", "quantifier": "every mapping and call", "why_tests_cant": "all mappings", "anchors": ["utilities/macro_actions_parser.py:MacroActionParser.extract_actions_from_macro_action", "utilities/macro_actions_parser.py:MacroActionParser.generate_macro_mappings", "utilities/macro_actions_parser.py:MacroActionParser.generate_macro_action_signature"]}
{"id": "C40", "title": "Linear expression printing preserves value", "statement": "The nested-addition expression built from a list of terms evaluates to the sum of the terms. Prettifying a number changes it by less than the printed precision, only towards zero and only to an integer.", "quantifier": "every term list and valuation, in exact arithmetic; exact for coefficients that survive printing with the given number of digits, with an error bound for all others", "why_tests_cant": "all lengths", "anchors": ["sam_learning/core/numeric_learning/numeric_utils.py:construct_linear_equation_string", "sam_learning/core/numeric_learning/numeric_utils.py:construct_multiplication_strings"]}
{"id": "C41", "title": "Circular assignments become equivalent increase/decrease", "statement": "The increase/decrease effect built from an assignment's coefficients leaves the assigned fluent with exactly the assigned value.", "quantifier": "every coefficient map and state (exact arithmetic, coefficients that survive printing, the assigned fluent among the features)", "why_tests_cant": "all real values", "anchors": ["sam_learning/core/numeric_learning/numeric_utils.py:construct_non_circular_assignment"]}
{"id": "C42", "title": "Monomials are complete", "statement": "The monomials of degree d are exactly the sorted non-empty multisets of fluents of size at most d (degree 1: squares excluded), and grounding multiplies the fluent values.", "quantifier": "every fluent list and degree", "why_tests_cant": "all degrees", "anchors": ["sam_learning/core/numeric_learning/numeric_utils.py:create_monomials", "sam_learning/core/numeric_learning/numeric_utils.py:create_grounded_monomials"]}
{"id": "C43", "title": "Equality reduction keeps the region", "statement": "Eliminating a variable from hull inequalities with the equalities of the complementary basis does not change the set of points on the affine subspace that satisfy them.", "quantifier": "every matrix and every point of the subspace (exact arithmetic)", "why_tests_cant": "all points", "anchors": ["sam_learning/core/numeric_learning/numeric_utils.py:reduce_complementary_conditions_from_convex_hull"]}
{"id": "C44", "title": "Cross-validation folds are disjoint and cover", "statement": "In every fold no training trajectory's problem is in the test set and train plus test is the whole sample.", "quantifier": "every number of items and folds, every sampling", "why_tests_cant": "all samplings", "anchors": ["utilities/k_fold_split.py:KFoldSplit.create_k_fold", "utilities/distributed_k_fold_split.py:DistributedKFoldSplit.create_fold_from_scratch"]}
{"id": "C45", "title": "Lifting a whole snapshot is exact", "statement": "For a call of distinct non-constant objects, the lifted literals the learner attributes to an observed state are exactly the well-typed literals over parameters and constants that are true there, and the lifted literals it takes for effects of a transition are exactly those that became true.", "quantifier": "all domains, signatures, calls, pairs of states and literals", "why_tests_cant": "the vocabulary, the states and the permutations of arguments are unbounded", "anchors": ["sam_learning/core/environment_snapshot.py: create_triplet_snapshot", "sam_learning/core/predicates_matcher.py: get_possible_literal_matches", "sam_learning/core/matching_utils.py: extract_discrete_effects"]}
{"id": "C46", "title": "Conditional SAM: learned preconditions are sufficient", "statement": "In every state in which an action returned by the conditional-effects learner is applicable, the true preconditions hold.", "quantifier": "every domain, true model with conditional effects, observation list, call and state, where the observed transitions are real (produced by the true actions, also those flagged as failed) and their calls have distinct objects that are not constants; true actions: well typed, antecedents within the bound, one antecedent per result literal, no contradictory results", "why_tests_cant": "all histories and states", "anchors": ["sam_learning/learners/conditional_sam.py:ConditionalSAM.learn_action_model"]}
{"id": "C47", "title": "Conditional SAM: no spurious effects", "statement": "Every effect, conditional or not, of a returned action that fires in a state satisfying its preconditions is an effect the true action has in that state.", "quantifier": "every domain, true model, observation list, call and state, where the observed transitions are real (produced by the true actions, also those flagged as failed) and their calls have distinct objects that are not constants; true actions: well typed, antecedents within the bound, one antecedent per result literal, no contradictory results", "why_tests_cant": "all histories and states", "anchors": ["sam_learning/learners/conditional_sam.py:ConditionalSAM._verify_and_construct_safe_conditional_effects", "sam_learning/learners/conditional_sam.py:ConditionalSAM._construct_restrictive_effect"]}
{"id": "C48", "title": "Conditional SAM: the predicted next state is the true one", "statement": "Wherever a returned action is applicable, its next state is the next state of the true action.", "quantifier": "every domain, true model, observation list, injective call and state, where the observed transitions are real (produced by the true actions, also those flagged as failed) and their calls have distinct objects that are not constants; true actions: well typed, antecedents within the bound, one antecedent per result literal, no contradictory results", "why_tests_cant": "all histories and states", "anchors": ["sam_learning/learners/conditional_sam.py:ConditionalSAM.verify_single_possible_conditional_effect", "sam_learning/core/propositional_operations/dependency_set.py:DependencySet.construct_restrictive_preconditions"]}
{"id": "C49", "title": "Conditional SAM: returned actions and report", "statement": "Learning succeeds exactly when every call names an action of the domain; the returned actions are exactly those observed, their literal preconditions are the literals true before every observed call, and the report lists each of them.", "quantifier": "every domain and observation list (for the contents of the returned actions: real transitions of calls with distinct objects that are not constants)", "why_tests_cant": "all histories", "anchors": ["sam_learning/learners/conditional_sam.py:ConditionalSAM.construct_safe_actions", "sam_learning/learners/conditional_sam.py:ConditionalSAM.handle_single_trajectory_component"]}
{"id": "C50", "title": "Conditional SAM: failed attempts and repeated objects", "statement": "The result does not depend on the success flags of the observations; hence failed attempts, and also calls with repeated objects, can make the returned model unsafe.", "quantifier": "every observation list", "why_tests_cant": "all histories", "anchors": ["sam_learning/learners/conditional_sam.py:ConditionalSAM.learn_action_model"]}
{"id": "C51", "title": "Online discrete learner: verdicts are never withdrawn", "statement": "While the attempts remain explainable by some conjunctive precondition, a state once declared applicable (or not applicable) by the online learner stays so after any further attempts, and every past attempt is recognised with the outcome it had.", "quantifier": "every history, continuation and state", "why_tests_cant": "all histories and continuations", "anchors": ["sam_learning/core/online_learning/online_discrete_models_learner.py:OnlineDiscreteModelLearner.is_state_in_safe_model", "sam_learning/core/online_learning/online_discrete_models_learner.py:OnlineDiscreteModelLearner.add_transition_data"]}
{"id": "C52", "title": "Semi-online learning: failure attribution is sound and loses nothing", "statement": "When an attempt fails for an unknown reason (discrete or numeric), the attempts later kept as discrete (numeric) failures really violated the discrete (numeric) part of the true precondition, every failure is stored exactly once as discrete, numeric or undecided, and an elimination pass leaves undecided exactly those neither model can decide.", "quantifier": "every interleaving of attempts and elimination passes, every true precondition, every sound numeric model", "why_tests_cant": "all interleavings", "anchors": ["sam_learning/learners/semi_online_learning_algorithm.py:SemiOnlineNumericAMLearner._eliminate_undecided_observations", "sam_learning/learners/semi_online_learning_algorithm.py:SemiOnlineNumericAMLearner._handle_execution_failure"]}
{"id": "C53", "title": "A sample declared uninformative has a known outcome", "statement": "If the informative-states learner declares a state-action pair uninformative, then its real outcome is already determined by the observations; a pair declared applicable is applicable.", "quantifier": "every history, state and true precondition, every sound numeric model", "why_tests_cant": "all histories and states", "anchors": ["sam_learning/core/online_learning/informative_states_learner.py:InformationStatesLearner.is_sample_informative"]}
{"id": "C54", "title": "MA-SAM+ macro actions stand for their joint action", "statement": "For every multi-agent data set of a domain, each macro action that learn_combined_action_model_with_macro_actions adds to the returned domain is safe: whenever its preconditions hold under a binding, every constituent action called with the bound objects is truly applicable, every effect of the macro is a true effect of one of them, and the state predicted by the macro is the one reached by executing all constituents at once. The single actions returned are those of MA-SAM.", "quantifier": "all domains, joint observations, orders of iteration, bindings and states", "why_tests_cant": "Macros depend on the whole history of ambiguous joint effects and on every binding and state they may be used in.", "anchors": ["sam_learning/learners/ma_sam_plus.py: MASAMPlus.learn_combined_action_model_with_macro_actions", "sam_learning/core/propositional_operations/literals_cnf.py: extract_macro_action_effects, extract_macro_action_preconditions, is_clause_consistent", "utilities/macro_actions_parser.py: MacroActionParser"]}
{"id": "C55", "title": "The learned numeric precondition is the convex hull of the observations", "statement": "When construct_safe_linear_inequalities returns a precondition, a numeric state satisfies it exactly when the values of the (relevant) fluents are a convex combination of the observed points. Hence it implies every convex real precondition that held in all observations, it is true in every observed state, and it only gets weaker with more observations.", "quantifier": "every data set, every subset of relevant fluents, every state, every convex real precondition; exact arithmetic, Qhull and the regression by contract, facets that survive printing, data separated by more than the tolerance", "why_tests_cant": "the claim is about all points of a continuous space and about unknown true preconditions", "anchors": ["sam_learning/core/numeric_learning/convex_hull_learner.py:ConvexHullLearner.construct_safe_linear_inequalities", "sam_learning/core/numeric_learning/numeric_utils.py:remove_complex_linear_dependencies, extended_gram_schmidt, construct_pddl_inequality_scheme"]}
{"id": "C56", "title": "Rounding moves the facets of the learned precondition only by the printed precision", "statement": "For arbitrary (not exactly printable) facets, a state accepted by the written inequalities violates no facet of the computed hull by more than 10^-d (1 + 3/2 sum |x_i|), and a state inside every facet by that much is accepted.", "quantifier": "every hull, every precision, every state", "why_tests_cant": "the error bound ranges over all states and facets", "anchors": ["sam_learning/core/numeric_learning/convex_hull_learner.py:_execute_convex_hull", "sam_learning/core/numeric_learning/numeric_utils.py:prettify_coefficients, construct_multiplication_strings"]}
{"id": "C57", "title": "The epsilon margin enlarges the precondition by at most the margin", "statement": "With a margin epsilon >= 0 the accepted region contains the convex hull of the observations and is contained in the hull scaled by 1+epsilon around one of its points; with epsilon = 0 it is exactly the hull.", "quantifier": "every set of points, every margin, every state; exact arithmetic, Qhull by contract, facets that survive printing", "why_tests_cant": "continuous state space and all data sets", "anchors": ["sam_learning/core/numeric_learning/convex_hull_learner.py:_epsilon_approximate_hull"]}
{"id": "C58", "title": "Learned numeric effects are exact where the precondition allows", "statement": "If the next value of a fluent is, in all observations of an action, an affine function of the used feature columns, and the learner returns effects none of which is a scale-down, then in every state whose columns are a convex combination of the observed ones the learned effects give the fluent exactly that value; whatever the truth, they reproduce every observation; other fluents are unchanged.", "quantifier": "every data set, every subset of used columns, every library meeting the regression contract, every state in the hull; exact arithmetic, coefficients that survive printing", "why_tests_cant": "all data sets (including dependent and constant columns) and a continuum of states", "anchors": ["sam_learning/core/numeric_learning/linear_regression_learner.py:construct_assignment_equations,_solve_linear_equations"]}
{"id": "C59", "title": "An exact affine effect is never missed", "statement": "If the next value of every used fluent is an affine function of the used columns, effect learning succeeds: the action is not given up as unsafe and no exception is raised, although constant columns and columns proportional to others are dropped from the regression.", "quantifier": "every data set and every affine dynamics; exact arithmetic, the regression by contract", "why_tests_cant": "all data sets and all dependency patterns between columns", "anchors": ["sam_learning/core/numeric_learning/linear_regression_learner.py:construct_assignment_equations", "sam_learning/core/numeric_learning/numeric_utils.py:detect_linear_dependent_features,filter_constant_features"]}
{"id": "C60", "title": "Numeric functions are lifted to parameters exactly", "statement": "The value recorded for a lifted numeric function of an action (over its parameters and the constants) is v exactly when the function's grounding by the call has the value v in the state; matching fails only when a function without parameters has no value; the columns of an action are exactly the well-typed functions over parameters and constants with distinct arguments.", "quantifier": "every domain of functions, every action signature, every call (including repeated objects), every numeric state", "why_tests_cant": "all signatures, calls and states", "anchors": ["sam_learning/core/numeric_learning/numeric_function_matcher.py:match_state_functions", "sam_learning/core/vocabulary_creator.py:create_lifted_functions_vocabulary", "sam_learning/core/environment_snapshot.py:create_numeric_state_snapshot"]}
{"id": "C61", "title": "N-SAM stores every numeric observation exactly", "statement": "After processing observations in which every function of an action has a value, the regression data of the action has one row for each usable transition and the hull data one row for each distinct point, over exactly the monomials of the functions of the action; each entry is the product of the values the functions had in the observed state (before) and their value after.", "quantifier": "every domain, every list of observations explained by true actions, every degree, action and monomial", "why_tests_cant": "all histories of observations", "anchors": ["sam_learning/learners/numeric_sam.py:NumericSAMLearner.learn_action_model", "sam_learning/core/numeric_learning/numeric_fluent_learner_algorithm.py:NumericFluentStateStorage", "sam_learning/core/numeric_learning/convex_hull_learner.py:add_new_point", "sam_learning/core/numeric_learning/linear_regression_learner.py:add_new_observation"]}
{"id": "C62", "title": "N-SAM is safe", "statement": "If the data is explained by true actions whose numeric preconditions are convex and whose numeric effects are affine in the used monomials, then wherever a returned action is applicable (boolean and numeric preconditions) so is the true one, the learned effects give every function exactly its true next value and change nothing else, and for injective substitutions the boolean successor is the true one.", "quantifier": "every domain, true action model, list of observations, returned action, state, valuation and substitution", "why_tests_cant": "all observations and all (infinitely many) numeric states", "anchors": ["sam_learning/learners/numeric_sam.py:NumericSAMLearner.learn_action_model", "sam_learning/core/numeric_learning/numeric_fluent_learner_algorithm.py:NumericFluentStateStorage", "sam_learning/learners/numeric_sam.py:_create_safe_action_model"]}
{"id": "C63", "title": "N-SAM returns exactly the actions reported as OK", "statement": "The learned model contains exactly the actions whose reported status is OK; exactly the actions with a successful observation without repeated objects are reported, with one status each; another status means no convex hull or no effect was found, and the latter never happens when the true effects are affine. If relevant fluents are given but not for an observed action, learning raises.", "quantifier": "every domain and list of observations on which learning ends without an exception", "why_tests_cant": "all histories of observations", "anchors": ["sam_learning/learners/numeric_sam.py:NumericSAMLearner.learn_action_model", "sam_learning/core/numeric_learning/numeric_fluent_learner_algorithm.py:NumericFluentStateStorage", "sam_learning/learners/numeric_sam.py:_create_safe_action_model"]}
{"id": "C64", "title": "Syntactic evaluation computes precision, recall and F1", "statement": "For every action added to the syntactic calculator the exported precision, recall and F1 are those of its learned preconditions and effects against the true ones, all between 0 and 1, F1 is 1 exactly when both agree; the model-wide values are those of all literals of all added actions. The models of SAM always get preconditions recall 1 and effects precision 1 (0 if nothing was learned).", "quantifier": "every list of learned and true actions with distinct names", "why_tests_cant": "all pairs of action models, in any order of insertion", "anchors": ["statistics/discrete_precision_recall_calculator.py:PrecisionRecallCalculator"]}
{"id": "C65", "title": "Semantic precondition metrics", "statement": "The semantic precision (recall) of the preconditions of an action is the share of the tested executions accepted by the learned (true) model that the true (learned) model accepts; a safe model gets precision 1, and its recall only grows when its preconditions are weakened safely.", "quantifier": "every test set, learned and true applicability", "why_tests_cant": "all test sets and all pairs of models", "anchors": ["statistics/semantic_performance_calculator.py:calculate_preconditions_semantic_performance", "statistics/semantic_performance_calculator.py:_calculate_precision_recall"]}
{"id": "C66", "title": "Semantic effect metrics", "statement": "For learned actions without wrong effects, the semantic precision of the effects is 1 and the recall is the share of the really changed literals that the learned effects explain (when both actions are executed). Learned effects beyond the true ones are never penalised, and if inapplicable actions raise, an action that disables itself is never measured; the evaluation fails exactly when a tested learned action is not in the true domain.", "quantifier": "every pair of domains over the same language and every test set", "why_tests_cant": "all pairs of models and all test states", "anchors": ["statistics/semantic_performance_calculator.py:_calculate_effects_difference_rate", "statistics/semantic_performance_calculator.py:calculate_effects_semantic_performance"]}
{"id": "C67", "title": "Semantic metrics of joint actions and their export", "statement": "In the multi-agent evaluation every action is judged by the facts common, wrongly predicted and missed in the states after the measured joint actions in which it occurs; actions that always occur together get equal values; an exact model gets precision 1 and recall 1 unless all states are empty. The combined multi-agent export fails with a ValueError whenever there is a row to write; the base and the numeric exports never do. The base export has a value under every column, the numeric one too in rows with a numeric error; in rows without one exactly the two numeric columns are empty.", "quantifier": "every test set of joint actions, every learned successor function, every list of rows", "why_tests_cant": "all test sets and joint actions", "anchors": ["statistics/ma_performance_calculator.py:calculate_effects_semantic_performance", "statistics/ma_performance_calculator.py:export_combined_semantic_performance"]}
{"id": "C68", "title": "Numeric effect error", "statement": "The numeric error of a test is the mean squared difference of the predicted fluents (0 exactly when all agree, also 0 when one of the actions is not applicable, a million on division by zero); an action is reported with the mean over its tests; an evaluation under a new number of trajectories and policy completes exactly its own rows.", "quantifier": "every test set, learned and true outcomes, and every earlier list of rows", "why_tests_cant": "all values of fluents and all histories of evaluations", "anchors": ["statistics/numeric_performance_calculator.py:calculate_effects_mse", "statistics/numeric_performance_calculator.py:calculate_performance"]}
{"id": "C69", "title": "The statistics manager loses and duplicates nothing", "statement": "Each call of add_to_action_stats adds one row per action of the true domain, in order, that depends on that action alone; in every history of additions and clears the merged rows followed by the current ones are all rows ever added; the appearance counts are the numbers of occurrences of the actions.", "quantifier": "every history of operations, all observations and learned domains", "why_tests_cant": "all histories", "anchors": ["statistics/learning_statistics_manager.py:add_to_action_stats", "statistics/learning_statistics_manager.py:clear_statistics", "statistics/learning_statistics_manager.py:_update_action_appearances"]}
{"id": "C70", "title": "Observations in a smaller space", "statement": "When the observed values lie in a smaller space (a line, a plane) and no equation between columns was found, the learned numeric precondition (bounds along the space plus equations of the space) is still true in a state exactly when the fluents there are a convex combination of the observed values; observations that all agree up to the tolerance make the action unsafe.", "quantifier": "every number of fluents and observations, every data set, every state; exact arithmetic, Qhull and the norm by contract, numbers that survive printing, well separated data", "why_tests_cant": "all data sets and all states", "anchors": ["sam_learning/core/numeric_learning/convex_hull_learner.py:_create_convex_hull_linear_inequalities", "sam_learning/core/numeric_learning/numeric_utils.py:extended_gram_schmidt", "sam_learning/core/numeric_learning/numeric_utils.py:construct_projected_variable_strings", "sam_learning/core/numeric_learning/numeric_utils.py:divide_span_by_common_denominator"]}
{"id": "C71", "title": "Executing a plan tells the truth", "statement": "execute_plan returns a trace that is a path of the environment from the initial state along a prefix of the plan; the plan is reported applicable exactly when it can be executed, and otherwise the trace ends with the first failing action; the goal verdict is the goal test on the last state, which is exact for positive goals whose functions the state assigns, whatever was tested before. Plans over known actions raise nothing.", "quantifier": "all environments, plans, initial states, goals and histories of goal tests", "why_tests_cant": "unbounded plans and histories", "anchors": ["sam_learning/core/online_learning_agents/ipc_agent.py:observe", "sam_learning/core/online_learning_agents/ipc_agent.py:execute_plan", "sam_learning/core/online_learning_agents/ipc_agent.py:goal_reached"]}
{"id": "C72", "title": "Semi-online exploration episodes", "statement": "An exploration episode of the semi-online learner records a path of the environment from the initial to the last state, tries only environment actions without repeated objects, has at most the given number of successes and boundedly many failures; its verdict is sound and the episode ends only at a goal, at the step bound, at the failure bound or in a dead end.", "quantifier": "all environments, random orders, bounds and learner states", "why_tests_cant": "all schedules of random choices", "anchors": ["sam_learning/learners/semi_online_learning_algorithm.py:explore_to_refine_models", "sam_learning/learners/semi_online_learning_algorithm.py:_select_action_and_execute", "sam_learning/learners/semi_online_learning_algorithm.py:sort_ground_actions_based_on_success_rate"]}
{"id": "C73", "title": "NOAM exploration episodes", "statement": "The same for the NOAM explorers with any selection from the frontier: the number of steps reported at the goal is the number of successes, the goal is noticed the first time it is met, a dead end is reported only when no action is applicable. The NOAM selection takes a starved action, or the first informative one and passes over uninformative ones only; the goal-oriented explorers learn from every success. Limits: when the global counter has passed the episode bound by 1000 every action counts as starved and the informative selection is never used; a success of the fallback is not learned.", "quantifier": "all environments, random orders, selections, bounds and learner states", "why_tests_cant": "all schedules of random choices", "anchors": ["sam_learning/learners/noam_algorithm.py:explore_to_refine_models", "sam_learning/learners/noam_algorithm.py:_select_action_and_execute"]}
{"id": "C74", "title": "Plans of the online safe model never fail", "statement": "When every action's vocabulary has a predicate: after any history of explorations and executed plans in the true environment, every step allowed by construct_safe_action_model is a step of the environment with the same discrete result, every plan of that model is executed without failure to the same state when the learned numeric effects are right, and try_to_solve_problem does not raise its error for an inapplicable safe plan. Limit: without predicates, the safe model allows an action that was never executed in every state.", "quantifier": "all true domains with conjunctive discrete preconditions and convex-like numeric regions, all histories of lessons, all plans", "why_tests_cant": "all histories", "anchors": ["sam_learning/core/online_learning/online_utilities.py:construct_safe_action_model", "sam_learning/learners/semi_online_learning_algorithm.py:train_models_using_trace", "sam_learning/learners/noam_algorithm.py:try_to_solve_problem"]}
{"id": "C75", "title": "Reported solutions are real", "statement": "Whatever the solvers answer, a problem is reported as solved, by any of the drivers, only when a path of the environment from the initial state to a goal state was executed, and the reported length is the length of that path.", "quantifier": "all environments, solver answers and explorations", "why_tests_cant": "all solver behaviours", "anchors": ["sam_learning/learners/semi_online_learning_algorithm.py:_use_solvers_to_solve_problem", "sam_learning/learners/semi_online_learning_algorithm.py:try_to_solve_problems", "sam_learning/learners/noam_algorithm.py:try_to_solve_problem"]}
{"id": "C76", "title": "Incremental hull equals the hull of all observations", "statement": "The numeric precondition that the incremental convex hull learner writes after any series of observations with all fluents (added one by one, in any order, with repetitions) is true in a state exactly when the fluents' values are a convex combination of the observed values; so it agrees with the batch learner, does not depend on the order, and only grows.", "quantifier": "all series of observations, all numbers of fluents, all states", "why_tests_cant": "all orders and prefixes of observations; the learner keeps cached bases and hulls that must stay right at each step", "anchors": ["sam_learning/core/online_learning/incremental_convex_hull_learner.py:add_new_point", "sam_learning/core/online_learning/incremental_convex_hull_learner.py:_calculate_basis_and_hull", "sam_learning/core/online_learning/incremental_convex_hull_learner.py:construct_safe_linear_inequalities"]}
{"id": "C77", "title": "Membership test of the incremental hull", "statement": "After any series of observations, the membership test gives an answer; it is true exactly for observed points and for points whose values of the affinely independent fluents are in the hull of the observations up to the tolerance. Every point of the exact hull, and every state that satisfies the written precondition, passes. Constant and dependent fluents are ignored by the test, so it can accept states the precondition rejects. A copy of the learner equals the original.", "quantifier": "all series of observations and points", "why_tests_cant": "all points and all histories", "anchors": ["sam_learning/core/online_learning/incremental_convex_hull_learner.py:is_point_in_convex_hull", "sam_learning/core/online_learning/incremental_convex_hull_learner.py:copy", "sam_learning/core/online_learning/incremental_convex_hull_learner.py:reset", "sam_learning/core/online_learning/online_numeric_models_learner.py:is_state_in_safe_model"]}
{"id": "C78", "title": "Optimistic numeric precondition from successes and failures", "statement": "The optimistic numeric precondition learned from labelled observations has at most one condition per failed attempt and at most 100, and is empty while nothing failed or nothing succeeded. If each failed state can be separated from the successful ones, learning does not raise, every successful state (and every convex combination of them) satisfies it, and a failed state that still satisfies it meets a condition with equality (at most 100 failures). Without separability a successful state may be rejected; with a column missing in some observation, coefficients are written before the wrong fluent.", "quantifier": "all series of labelled observations, all states", "why_tests_cant": "all data sets; the classifier is trained in a loop on changing data", "anchors": ["sam_learning/core/online_learning/incremental_svm_learner.py:add_new_point", "sam_learning/core/online_learning/incremental_svm_learner.py:construct_linear_inequalities"]}
{"id": "C79", "title": "Online numeric action learner", "statement": "After any history of attempts at an action, the safe numeric model depends only on the successful attempts; its precondition is true exactly in the states whose monomial values are a convex combination of those before successful attempts, so it accepts all successful states and rejects each failed state that is separable from them; it implies the optimistic precondition; both models have the same effects, and if a fluent's next value is an affine function of the monomials the learned effect gives exactly that value in every state satisfying the safe precondition; such states pass the membership test.", "quantifier": "all histories of attempts, all states, all polynomial degrees", "why_tests_cant": "all histories and states", "anchors": ["sam_learning/core/online_learning/online_numeric_models_learner.py:add_transition_data", "sam_learning/core/online_learning/online_numeric_models_learner.py:get_safe_model", "sam_learning/core/online_learning/online_numeric_models_learner.py:get_optimistic_model", "sam_learning/core/online_learning/online_numeric_models_learner.py:is_state_in_safe_model"]}
{"id": "C80", "title": "Universal conditional SAM: when learning returns", "statement": "learn_action_model of the universal learner returns exactly if every called action is in the domain and in the map of universal types, and every changed literal among the objects of the call and of the listed types has at most one object outside the call, of a type of the domain other than object. On transitions of actions with conditional and universal effects this holds as soon as every called action is listed with types of the domain other than object; an action missing from the map raises KeyError.", "quantifier": "all domains, maps of types, observations", "why_tests_cant": "all observations and all unseen combinations of objects", "anchors": ["sam_learning/learners/universaly_conditional_sam.py:learn_action_model", "sam_learning/learners/universaly_conditional_sam.py:handle_single_trajectory_component"]}
{"id": "C81", "title": "Universal conditional SAM extends conditional SAM", "statement": "Everything the universal learner returns beside the universal effects and universal preconditions (literal preconditions, inequalities, added conditions, plain and conditional effects, report) equals what ConditionalSAM returns on the same transitions.", "quantifier": "all observations", "why_tests_cant": "equality of two programs on all inputs", "anchors": ["sam_learning/learners/universaly_conditional_sam.py:UniversallyConditionalSAM", "sam_learning/learners/conditional_sam.py:ConditionalSAM"]}
{"id": "C82", "title": "Universal effects are exactly what the data support", "statement": "The returned action has one universal effect per learned type, over a variable that is no parameter. Bound to an object it makes a literal about the object true exactly if the literal was seen to become true for an object of the type outside the call and all antecedents that the data leave possible hold (and the literal is not in the precondition). A true antecedent stays possible unless it contains a literal of the precondition.", "quantifier": "all observations, states, objects", "why_tests_cant": "all histories and states", "anchors": ["sam_learning/learners/universaly_conditional_sam.py:_construct_universal_effects_from_dependency_set", "sam_learning/learners/universaly_conditional_sam.py:_remove_existing_previous_state_quantified_dependencies", "sam_learning/learners/universaly_conditional_sam.py:_remove_non_existing_previous_state_quantified_dependencies"]}
{"id": "C83", "title": "Universal conditional SAM is safe", "statement": "Wherever the returned action is applicable the true action is, and everything it makes true, for the parameters and for every quantified object, is made true by the true action, in every world with any further objects; provided no literal nested in the added disjunctions occurs in a true antecedent (in particular if no literal over the parameters is ambiguous). Without the proviso it fails: the returned action can contradict an observed transition.", "quantifier": "all observations, worlds, states", "why_tests_cant": "all states of all worlds, including unseen objects", "anchors": ["sam_learning/learners/universaly_conditional_sam.py:construct_safe_actions"]}
{"id": "C84", "title": "Universal conditional SAM predicts the next state", "statement": "In every world in which the returned action is applicable it leads to the state the true action leads to. (Proved under restrictions on ambiguity and coverage, each shown necessary.) A universal precondition is only added for a literal with several possible antecedents.", "quantifier": "all observations, worlds, states", "why_tests_cant": "all states of all worlds", "anchors": ["sam_learning/learners/universaly_conditional_sam.py:_construct_restrictive_preconditions", "sam_learning/learners/universaly_conditional_sam.py:construct_safe_actions"]}
{"id": "C85", "title": "Conditional SAM reproduces its observations", "statement": "The action returned by ConditionalSAM is applicable in every state in which it was observed and leads to the observed next state. (Proved if at most one literal is ambiguous and no observed effect is ambiguous beside a determined one; both restrictions necessary.)", "quantifier": "all observations", "why_tests_cant": "all histories", "anchors": ["sam_learning/learners/conditional_sam.py:construct_safe_actions"]}
{"id": "C86", "title": "A validation row counts verdicts", "statement": "validate_domain returns iff observations were given and every test problem gets a known planner outcome. Then each outcome counter is the number of problems with that verdict, and the problem list beside it names them in order; a problem is 'ok' iff the first planner of the portfolio that claimed a plan wrote one VAL accepts against the reference domain.", "quantifier": "all test sets, portfolios, planner answers and VAL logs", "why_tests_cant": "planner and VAL behaviour is arbitrary and the test set unbounded", "anchors": ["validators/safe_domain_validator.py:DomainValidator.validate_domain", "validators/safe_domain_validator.py:DomainValidator._validate_solution_content"]}
{"id": "C87", "title": "Every test problem is counted once", "statement": "The six outcome counters plus the problems whose VAL log contains no known sentence add up to the number of problems; each problem no planner claimed to solve, and no other, is checked once against the expert plan.", "quantifier": "all test sets, portfolios, planner answers and VAL logs", "why_tests_cant": "sum over an unbounded test set", "anchors": ["validators/safe_domain_validator.py:DomainValidator.validate_domain", "validators/safe_domain_validator.py:DomainValidator._validate_against_expert_plan"]}
{"id": "C88", "title": "Validation percentages are shares", "statement": "Each outcome percentage is 100 times the counter over the judged problems; they add up to 100 when a problem was judged and are 0 otherwise; the same for the two expert percentages over the unsolved problems.", "quantifier": "all test sets", "why_tests_cant": "all counters", "anchors": ["validators/safe_domain_validator.py:DomainValidator._calculate_solving_percentages", "validators/safe_domain_validator.py:DomainValidator._calculate_expert_validation_statistics"]}
{"id": "C89", "title": "No validation row is lost", "statement": "Over every history of validate_domain and clear_statistics calls, the aggregated rows followed by the current ones are the rows of the calls that returned, in order; the current ones are those since the last clearing. The reported transition count is the total over parsed observations.", "quantifier": "all histories of calls", "why_tests_cant": "all histories", "anchors": ["validators/safe_domain_validator.py:DomainValidator.clear_statistics", "validators/safe_domain_validator.py:DomainValidator.validate_domain", "validators/safe_domain_validator.py:DomainValidator._extract_num_triplets"]}
{"id": "C90", "title": "Planner processes are read and retried as documented", "statement": "ENHSP and execute_solver of Fast Downward start at most four processes and answer with the first that is not an unknown error; Metric-FF leaves a solution file iff it answers ok, iff the process ended in time with status ok; Fast Downward removes exactly the cost line; no wrapper answers an outcome the validator does not know.", "quantifier": "all process results", "why_tests_cant": "all sequences of process results", "anchors": ["solvers/enhsp_solver.py:ENHSPSolver.solve_problem", "solvers/fast_downward_solver.py:FastDownwardSolver", "solvers/metric_ff_solver.py:MetricFFSolver._run_metric_ff_process"]}
{"id": "C91", "title": "The extended SAM learner cannot learn from any data", "statement": "ESAMLearner.learn_action_model raises TypeError as soon as the observations contain one component (handle_single_trajectory_component passes an unknown keyword), whatever the learner's state; without components it returns, every action is reported as unobserved, has no effects and requires every well-typed literal over its parameters.", "quantifier": "every learner state, every list of observations, every well-formed domain and policy", "why_tests_cant": "The failure is claimed for every data set and every learner state, not for the few a test would call.", "anchors": ["sam_learning/learners/esam.py: handle_single_trajectory_component, add_new_action, learn_action_model", "sam_learning/core/environment_snapshot.py: create_triplet_snapshot"]}
{"id": "C92", "title": "Parameter groups of a proxy action", "statement": "minimize_parameters_equality_dict gives every parameter of the action one representative, itself a parameter and its own representative; two parameters share it exactly when a chain of shared positions of one predicate links them, none of them in an unselected literal; parameters of unselected literals keep themselves; an empty assignment gives an empty dictionary. The sign of the literals and the types are ignored, the representative need not be the first parameter, and rewriting a literal whose parameters were merged loses an argument or, for a constant, raises KeyError.", "quantifier": "every parameter list and every assignment whose literals of one predicate have one arity", "why_tests_cant": "The merging is a union-find over arbitrarily many parameters and literals; tests cover a few hand-made assignments.", "anchors": ["sam_learning/learners/esam.py: minimize_parameters_equality_dict, modify_predicate_signature"]}
{"id": "C93", "title": "ESAM clauses are satisfied by the true effects", "statement": "With the two ill-formed calls repaired, every clause the extended learner records from real transitions, also from calls that repeat an object, contains a true effect of the action; the true effects among the variables satisfy the formula; and if no other variable is refuted by a learned precondition, the effects learned are exactly those, all other variables becoming preconditions.", "quantifier": "every well-formed domain and true model, every history of real transitions, every policy", "why_tests_cant": "Histories are unbounded and repeated objects make clauses ambiguous in unboundedly many ways.", "anchors": ["sam_learning/learners/esam.py: _get_is_eff_clause_for_predicate, handle_effects, build_cnf_formulas, construct_safe_actions"]}
{"id": "C94", "title": "On distinct objects ESAM is SAM, and safe", "statement": "With the repaired calls, on real data whose calls bind distinct non-constant objects the extended learner always returns; each observed action has the effects SAM learns and the preconditions SAM learns with all negative ones removed (policy hard) or none (soft and no_remove alike); with a policy other than hard every applicable learned action is applicable in truth, with the same successor for distinct objects.", "quantifier": "every well-formed domain and true model, every such data set, policy, action, substitution and state", "why_tests_cant": "Equality of two learners and safety are claims over all data sets and all states.", "anchors": ["sam_learning/learners/esam.py: learn_action_model, construct_safe_actions", "sam_learning/learners/sam_learning.py: learn_action_model"]}
{"id": "C95", "title": "When ESAM decides, and what repeated objects do", "statement": "With the repaired calls, learn_action_model returns exactly when every observed action has one non-contradictory model of its formula; two or more raise KeyError (the encoder table is empty), none raises ValueError. On real data with a repeated object the model may have a spurious effect or lose a true one, the default policy may raise KeyError, and components flagged as failed are learned from and can drop a true precondition.", "quantifier": "every well-formed domain, policy and data set; the negative parts by counterexample", "why_tests_cant": "The equivalence ranges over all data sets; the counterexamples refute universally quantified safety claims.", "anchors": ["sam_learning/learners/esam.py: construct_safe_actions, is_proxy_contradiction, handle_lifted_action_instances"]}
{"id": "C96", "title": "A random walk is a chain of recorded transitions", "statement": "create_random_plan over a non-empty set of grounded actions always returns; it has at most MAX_STEPS_PER_EPISODE steps, starts in the initial state and every step starts where the previous one ended; each step is a true transition of an applicable action, or leaves the state unchanged and names an inapplicable action (or an applicable one, when all grounded actions are applicable there); it ends early only where no action is applicable; the plan lists exactly the actions of the triplets. The actions walked over are exactly the type-correct calls whose numeric fluents are assigned initially. With no grounded action the first step raises IndexError.", "quantifier": "all domains of operators, initial states, sequences of coins, shuffles and step bounds", "why_tests_cant": "The walk is driven by random draws; a test sees a few draws.", "anchors": ["trajectory_creators/random_walk_trajectories_creator.py: RandomWalkTrajectoriesCreator.create_random_plan, _select_inapplicable_action, _select_applicable_action, create_all_grounded_actions"]}
{"id": "C97", "title": "Inserting dummy actions preserves the plan and establishes the dummy goal", "statement": "insert_dummy_actions_to_plan, with a name per agent, always returns; the plan object it was given keeps its length, and each joint action is kept or has exactly one idle agent's entry replaced by a dummy action naming that agent; without a dummy goal the last joint action is kept and exactly the drawn joint actions with an idle agent are changed; with a dummy goal and some idle agent anywhere in a plan without dummy actions, the dummy predicate holds after the plan, whatever it was before; with no idle agent the plan is unchanged. The returned list is a sublist of the changed plan that omits the joint actions that were not drawn.", "quantifier": "all multi-agent plans, agent lists and random draws", "why_tests_cant": "The draws are random, and plans are of any length and number of agents.", "anchors": ["trajectory_creators/ma_common_functions.py: insert_dummy_actions_to_plan, _find_empty_action_index"]}
{"id": "C98", "title": "Fault localisation blames the first action whose result differs", "statement": "When a plan is observed, the valid observation is the execution of the plan in the model; the faulty observation is exactly the transitions of the execution in the other domain whose resulting states differ (in the facts of a predicate of the valid state, or by at least one in a fluent), and the reported name is the action of the first of them. If the domains differ only in one action, all predicates and fluents occur in the states and values are integral, only that action can be reported, and if none is reported both executions coincide; equal executions are never reported.", "quantifier": "all pairs of domains, initial states and plans", "why_tests_cant": "Faults, plans and states are unbounded; a test fixes one fault and one plan.", "anchors": ["fault_detection/fault_repair.py: FaultRepair._validate_applied_action, _generate_grounded_operators, _observe_single_plan"]}
{"id": "C99", "title": "Executing plans on the agent: verdicts, blamed action, filtered observations", "statement": "execute_plans_on_agent observes exactly the reported plans; a plan's verdict is ok if no action is blamed, otherwise state_difference (also when the plan is not applicable); the blamed action is that of the last plan with a fault; both returned lists have one entry per executed plan, restricted to the transitions of the blamed action; ValueError is raised exactly when nothing is blamed and the domain is not said to be repaired. Plans whose VAL log has no known sentence raise TypeError, and failed plans whose action is not matched by the regular expression AttributeError.", "quantifier": "all sets of plans, reports, logs and domains", "why_tests_cant": "It concerns every combination of plans and logs.", "anchors": ["fault_detection/fault_repair.py: FaultRepair.execute_plans_on_agent, _filter_redundant_observations, _is_plan_applicable, FAULTY_ACTION_LOCATOR_REGEX"]}
{"id": "C100", "title": "Repairing replaces exactly the blamed action, by a safe one", "statement": "repair_model changes no action of the faulty domain except the blamed one. If the observations come from the true actions, the model file states the true boolean parts, and the numeric part is learnable (convex precondition, affine effects), the repaired action has exactly the true boolean effects, its preconditions imply the true ones, its numeric effects give the true values, and all its observed states meet its boolean preconditions. It raises KeyError if N-SAM does not return the action, in particular if it was never observed.", "quantifier": "all domains, faults and observations", "why_tests_cant": "Safety ranges over all states and all data.", "anchors": ["fault_detection/fault_repair.py: FaultRepair.repair_model", "sam_learning/learners/numeric_sam.py: NumericSAMLearner.learn_action_model"]}
{"id": "C101", "title": "Training on pieces of equal size", "statement": "create_transitions_based_training_set cuts every observation into consecutive pieces of exactly the given number of transitions, with the objects of their observation, in order, losing exactly the last length mod n transitions of each observation. SAM learns from the pieces what it learns from the observations without those; every point of the learning curve over pieces of real trajectories is a safe model, and along the curve preconditions shrink and effects grow for the observed actions. Size 0 raises.", "quantifier": "all observations, all piece sizes, all points of the curve", "why_tests_cant": "It ranges over all observations, sizes and learned models.", "anchors": ["experiments/concurrent_execution/parallel_basic_experiment_runner.py: create_transitions_based_training_set"]}
{"id": "C102", "title": "The single-agent baseline of the multi-agent experiments", "statement": "_filter_baseline_single_agent_trajectory yields exactly the transitions in which one agent acts: leading concurrent transitions are dropped, every later concurrent transition is replaced by a copy of the most recent single-agent one, and the two counters count the two kinds. It raises IndexError exactly when in some transition nobody acts. The copies change nothing: SAM learns the model of the single-agent transitions, which is safe for the true actions whatever the concurrent transitions are. The dataset statistics raise exactly when there is no concurrent transition.", "quantifier": "all joint observations, all true domains, all states", "why_tests_cant": "It ranges over all observations and all states.", "anchors": ["experiments/concurrent_execution/parallel_multi_agent_experiment_runner.py: _filter_baseline_single_agent_trajectory, _export_dataset_statistics", "experiments/concurrent_execution/parallel_multi_agent_experiment_runner_with_triplets.py"]}
{"id": "C103", "title": "The list of experiment iterations", "statement": "create_internal_iterations_list is strictly increasing, starts with 1 and consists of 1..9 and 10, 10+hop, ... up to the number of training trajectories, or, for hop 100, of 1, 10, 20, ..., 90 and the hundreds. All iterations fit the training set exactly when it has at least 9 (hop 100: 90) trajectories. Hop 0 raises. The rounds over pieces learn from the first 1, 2, ... pieces.", "quantifier": "all sizes and hops", "why_tests_cant": "It ranges over all configurations.", "anchors": ["experiments/cluster_scripts/common.py: create_internal_iterations_list", "experiments/concurrent_execution/parallel_multi_agent_experiment_runner_with_triplets.py"]}
{"id": "C104", "title": "Result files are distinct and collected completely", "statement": "The files written by the runs of an experiment have names that determine the kind of statistics, the algorithm, the fold and the iteration. A collector raises exactly when a file of its grid is missing; otherwise the combined file consists of the rows of all files in the order fold, iteration, algorithm, unchanged behind the number of the fold, and the files of the runs are untouched. Limits: over triplets every row appears once per iteration; the semantic statistics over triplets are looked for under a name no run writes, so the multi-agent collector always ends with an exception and never writes the syntactic statistics.", "quantifier": "all domain names, algorithms, folds, iterations, contents and sets of finished runs", "why_tests_cant": "It ranges over all experiment configurations and all contents of the result directory.", "anchors": ["experiments/concurrent_execution/distributed_results_collector.py", "experiments/concurrent_execution/multi_agent_distributed_results_collector.py", "experiments/concurrent_execution/numeric_distributed_results_collector.py", "validators/safe_domain_validator.py: write_statistics", "statistics/semantic_performance_calculator.py: export_semantic_performance", "statistics/learning_statistics_manager.py", "statistics/numeric_performance_calculator.py: export_numeric_learning_performance"]}
{"id": "C105", "title": "Collected statistics of the online experiments", "statement": "The unified statistics contain every row of every fold of the algorithm once, whatever other algorithms wrote; success means that the goal was reached or one of the models solved the problem, and the two success columns are equal. The averaged table has, per episode number and algorithm, the share of folds that succeeded among the folds that have the episode. No file raises. Limits: the fold label is the alphabetical position of the file, equal to the fold for every fold exactly with at most ten folds; the four verdicts overlap exactly when an inapplicable optimistic plan comes with a success; files of the test set are labelled one fold each.", "quantifier": "all statistics files, numbers of folds, episodes and outcomes", "why_tests_cant": "It ranges over all contents and numbers of files.", "anchors": ["experiments/concurrent_execution/online_learning_results_collector.py", "experiments/concurrent_execution/planning_with_online_learning.py: learn_model_online"]}
{"id": "C106", "title": "The rate of joint actions of a single agent", "statement": "On every line with a joint action the counter finds exactly the actions of the agents, in order; an action is a nop exactly when its first word is nop or it is no-op or noop, in any case; a file's counts are the number of joint actions and of those in which exactly one agent acts; the printed rate is their quotient over all files, 0 without joint actions.", "quantifier": "all files, all joint actions, all white space", "why_tests_cant": "It ranges over all texts.", "anchors": ["utilities/joint_action_counter.py: is_nop_token, analyze_file, main"]}
{"id": "C107", "title": "Result files of the cross validation", "statement": "When every fold finishes, every fold has its own action, solving and semantic statistics file with exactly its own rows, and the joint solving file has the rows of all folds in order. If a fold raises, the run raises, the folds before it have complete files, and neither that fold, nor a later one, nor any joint file has been written. Limits: the combined semantic file has only the rows of the last fold; the joint numeric file never has a row; the semantic files are numbered from 1 and the others from 0; without folds the run raises; a row that does not fit the columns of the combined file (multi agent rows) makes the run raise after all folds.", "quantifier": "all numbers of folds, all rows, all points of failure", "why_tests_cant": "It ranges over all histories of folds and all crash points.", "anchors": ["experiments/basic_experiment_runner.py: run_cross_validation, learn_model_offline", "validators/safe_domain_validator.py: clear_statistics, write_complete_joint_statistics", "statistics/learning_statistics_manager.py: clear_statistics, write_complete_joint_statistics"]}
{"id": "C108", "title": "The domains constructed by the online learners", "statement": "construct_safe_action_model and construct_optimistic_action_model return a domain with exactly the actions of the given one, each made of the models of its own learners. An action of the safe domain accepts a state exactly when every discrete precondition that explains the attempts holds and the safe numeric conditions hold; of the optimistic domain, when some such precondition and the optimistic numeric conditions hold. When the failures can be separated from the successes, every state accepted by the safe action is accepted by the optimistic one, with the same numeric effects and no fewer discrete effects, and the optimistic one accepts every state where the true precondition holds with values in the hull of the successes. Limit: the construction is all or nothing; it raises exactly when the numeric model of some action raises, with the exception of the first one.", "quantifier": "all domains, histories, states and values", "why_tests_cant": "It ranges over all histories and all states.", "anchors": ["sam_learning/core/online_learning/online_utilities.py: construct_safe_action_model, construct_optimistic_action_model"]}
{"id": "C109", "title": "Plans of the safe online domain are correct", "statement": "Let the successful attempts at every action be produced by a true domain whose discrete preconditions and effects are literals of the vocabulary, whose numeric preconditions are convex and whose numeric effects are affine in the monomials. Then every plan of the domain returned by construct_safe_action_model, from any state, is executable in the true domain and leads to the same state: the same atoms and the same value of every fluent. Nothing is assumed about failed attempts, so it does not matter to which cause the online algorithm attributed them.", "quantifier": "all true domains, all histories of attempts, all states and all plans", "why_tests_cant": "It ranges over all histories, states and plans of any length.", "anchors": ["sam_learning/core/online_learning/online_utilities.py: construct_safe_action_model", "sam_learning/core/online_learning/online_discrete_models_learner.py: get_safe_model", "sam_learning/core/online_learning/online_numeric_models_learner.py: get_safe_model"]}
{"id": "C110", "title": "From lessons to safe plans", "statement": "Let the learners of all actions be initialised and trained with any number of traces and explorations, in any order, whose successful transitions were produced by a true domain (convex numeric preconditions, affine numeric effects). If nothing raises, the learners of each action know exactly the successes that were shown for it, in order (calls with duplicate objects in a trace are skipped), and only failures that were shown for it; every plan of the safe domain is then executable in the true domain and leads to the same state. Moreover the safe domain is a function of the successes alone: two trainings that show the same successes of every action in the same order give equal safe domains, whatever the failures, their classification, the undecided ones and the division into lessons.", "quantifier": "all true domains, all series of traces and explorations with any failures, all states and all plans", "why_tests_cant": "It ranges over all training histories, states and plans of any length.", "anchors": ["sam_learning/learners/semi_online_learning_algorithm.py: initialize_learning_algorithms, _add_transition_data, _handle_execution_failure, _eliminate_undecided_observations, train_models_using_trace", "sam_learning/core/online_learning/online_utilities.py: construct_safe_action_model"]}
{"id": "C111", "title": "Incremental N-SAM", "statement": "Let incremental N-SAM learn from observations of true actions (convex numeric preconditions, affine numeric effects). The numeric precondition of every returned action accepts exactly the states whose monomials are a convex combination of the observed ones (also when relevant fluents are named, unless none is); wherever it holds the true numeric precondition holds, the learned effects give each function of the action its true next value and change nothing else, and under the policy that keeps all preconditions the boolean part is safe too. An action that N-SAM also returns for the same observations has the same boolean parts and numeric effects and numeric preconditions that accept the same states. The returned actions are exactly those reported as ok, and each observed action has one status.", "quantifier": "all domains, true actions, observation lists, orders and repetitions, all states and substitutions", "why_tests_cant": "It ranges over all observation series and all states.", "anchors": ["sam_learning/learners/incremental_numeric_sam.py: IncrementalNumericSAMLearner", "sam_learning/learners/numeric_sam.py: learn_action_model, _create_safe_action_model", "sam_learning/core/numeric_learning/numeric_fluent_learner_algorithm.py: NumericFluentStateStorage"]}
{"id": "C112", "title": "Runs over series of problems", "statement": "Let an online learner (semi-online, NOAM, its informative and optimistic variants) be given any series of problems of the true domain, whatever its solvers answer and whatever its random choices are. At every moment its learners are the result of lessons which only show what the true domain did, with calls without repeated objects, and no attempt that is to be learned from gets lost: it was shown to the learners or, in the semi-online learner, waits in a trajectory file. If at the next problem the solvers are sound on the exported safe domain and one reports a plan, that plan is executed completely in the true environment, every action succeeds, the goal is reached and the problem is recorded as solved by the safe model; the run never ends with 'The goal should have been reached when used the safe action model!'.", "quantifier": "all true domains, series of problems, solver answers, random choices and histories", "why_tests_cant": "It ranges over all series of problems, all solver answers and all random choices.", "anchors": ["sam_learning/learners/semi_online_learning_algorithm.py: try_to_solve_problems, _use_solvers_to_solve_problem, _construct_model_and_solve_problem, _read_trajectories_and_train_models, explore_to_refine_models", "sam_learning/learners/noam_algorithm.py: try_to_solve_problem, apply_exploration_policy, _explore_and_terminate_episode"]}
{"id": "C113", "title": "What the fault generator injects", "statement": "generate_faulty_domain changes exactly one action of the model domain (the named one, if any) by exactly one fault of the requested kind and shows everything else unchanged; on a parsed domain it returns exactly when the action has something of that kind. Turning a numeric condition round leaves only the equality states accepted by both versions, but an equality is not changed at all. Changing a value moves the right side by exactly the drawn amount: upper bounds and lower bounds >= that end in a function become weaker, whereas a lower bound >= that ends in a number, and every >, becomes stronger, so that the domain is not made unsafe. Removing a condition never makes the action stricter. Changing an effect built from sums and differences makes the fluent wrong by exactly the drawn amount in every state, and the comparison of fault_repair always notices it.", "quantifier": "all domains, defect types, action names, random draws and states", "why_tests_cant": "The tests patch the random functions and look at single trees; the claims are about every tree, draw and state.", "anchors": ["fault_detection/fault_generator.py: FaultGenerator.generate_faulty_domain, alter_action_numeric_precondition, _alter_numeric_expression, alter_action_numeric_precondition_value, alter_action_numeric_effect, remove_predicate_from_action, remove_numeric_precondition", "fault_detection/fault_repair.py: _validate_applied_action"]}
{"id": "C114", "title": "Fold directories and cluster jobs", "statement": "The first creation of the fold directories gives every fold, algorithm and iteration n its own training directory with exactly the domain and the first n training trajectories of the fold (with their problems) and a test directory with exactly the test problems of the fold, and none for other folds, algorithms and iterations. A later creation reproduces these from the saved settings, whatever sample, splits and iterations it is called with. The sbatch runners submit exactly one job (more only if the queue does not show it) per fold, compared version and iteration; if the entries of the experiment suit the script, every job starts and finds the data of its own fold. The directories the jobs over triplets read do not exist after a first creation; after a creation from saved settings they hold the trajectories of the largest iteration. A compared version without a name ends the submission after the jobs of the earlier versions of fold 0; an unknown entry ends every job; an entry learning_algorithm overrides all compared versions. The folder job never starts for the online experiments.", "quantifier": "all samples, splits, algorithms, iterations, experiment entries, numbers of folds and of resubmissions", "why_tests_cant": "The tests look at one small directory and never at the cluster scripts; the names must be injective in fold, algorithm, iteration and suffix and agree between three programs.", "anchors": ["utilities/distributed_k_fold_split.py: DistributedKFoldSplit.create_directories_content, create_fold_from_scratch, create_k_fold", "experiments/concurrent_execution/folder_creation_for_parallel_execution.py: FoldsCreator", "experiments/cluster_scripts/common.py: create_execution_arguments, setup_experiments_folds_job", "experiments/cluster_scripts/numeric_experiments_sbatch_runner.py: main", "experiments/cluster_scripts/multi_agent_experiments_sbatch_runner.py: main", "experiments/concurrent_execution/parallel_multi_agent_experiment_runner_with_triplets.py: main"]}
{"id": "C115", "title": "Trajectory files under crashes and repeated runs", "statement": "A complete run of the trajectory creator leaves existing trajectories as they are, gives every other solution exactly the trajectory of its plan (none if the plan is refused) and changes nothing else; a second run writes nothing; a run stopped between two files can be continued to the same result. Whatever the sequence of runs and crashes, every trajectory is as at the start or exactly that of its plan, except for at most one solution per crash, whose file is a first part of the trajectory; such a file is kept by all later runs. An unforeseen exception ends the run; later runs in this order end there too. Multi-agent creator, from empty data sets: where the vanilla trajectory of a solution exists, the enhanced files are complete and of one attempt and the vanilla files are complete except for at most one per crash; a crash before the vanilla trajectory is repaired by the next complete run.", "quantifier": "all plans, disks, orders of the solution files, numbers of runs and crash points (also within a file)", "why_tests_cant": "Tests run the creators once on a small directory; the claims are about every history of runs and every crash point.", "anchors": ["trajectory_creators/experiments_trajectories_creator.py: ExperimentTrajectoriesCreator.create_domain_trajectories", "trajectory_creators/ma_shorted_experiments_trajectories_creator.py: MATrajectoriesCreator._create_multi_agent_trajectory, create_domain_trajectories"]}
{"id": "C116", "title": "The trajectory file for PlanMiner", "statement": "create_plan_miner_trajectories writes, per observation, a header, one line per action with the numbers of the states before and after it, and one line per state: the one before the first action and the one after each action (n+1 states for n actions; state k is the state before action k if the components follow one another). The file is unambiguous: a reader gets back the actions and states of every observation. A state line has every typed ground atom of the domain exactly once, plain if true and within not if false, and all functions. An existing file is never changed.", "quantifier": "all observations (any number of trajectories, actions, objects, functions) whose texts are single lines", "why_tests_cant": "The test looks at the file of one domain; the numbering, completeness and unambiguity must hold for all observations.", "anchors": ["trajectory_creators/plan_miner_trajectories_creator.py: PlanMinerTrajectoriesCreator.create_complete_state, create_plan_miner_trajectories"]}
{"id": "C117", "title": "Plans found with the learned domain", "statement": "A plan (of any length, over any objects, also never seen ones) that solves a problem in the domain SAM returned solves it in the true domain, if no call of it repeats an object or uses a constant; if the parameters of each action have one type, there are no constants and no observed call repeats an object, every plan accepted by the learned domain (with its inequalities) does. So when a planner that only claims plans of the learned domain is validated against the true domain, no problem counts as not applicable or as goal not achieved, ok counts every claimed plan, and ok, no solution, timeout and solver error cover the test set. The plan of every training trajectory is a plan of the learned domain, with every policy, so it never counts as a not validated expert plan. The same holds for MA-SAM under the hypotheses of C22, and for the policy soft if the true preconditions are positive.", "quantifier": "all domains, true action models, training sets, problems (init, goal), plans, portfolios and test sets", "why_tests_cant": "Tests look at the learned preconditions and effects of some domains; that every plan of any length is right needs induction over plans.", "anchors": ["sam_learning/learners/sam_learning.py: SAMLearner.learn_action_model", "sam_learning/learners/multi_agent_sam.py: MultiAgentSAM.learn_combined_action_model", "validators/safe_domain_validator.py: DomainValidator.validate_domain"]}
{"id": "C118", "title": "Plans found with the domain N-SAM returned", "statement": "Under the hypotheses of C62 (true numeric preconditions convex and true numeric effects affine in the used monomials, numeric libraries as their contracts say) a plan with distinct objects of any length, over objects and values that need not have been observed, that solves a numeric planning problem in the domain N-SAM returned solves it in the true domain, through the same states. Every observed transition of a returned action in which only the functions of the action change is a step of the returned domain, so training plans whose actions were all returned are plans of the returned domain. Validated against the true domain, no claimed plan counts as not applicable or as goal not achieved.", "quantifier": "all domains, true numeric action models, training sets, problems, plans and test sets; exact arithmetic", "why_tests_cant": "Tests check the text of learned actions; plans of all lengths over a continuum of numeric states need induction.", "anchors": ["sam_learning/learners/numeric_sam.py: NumericSAMLearner.learn_action_model", "validators/safe_domain_validator.py: DomainValidator.validate_domain"]}
{"id": "C119", "title": "Jobs of an experiment at the same time, killed and submitted again", "statement": "The jobs of a parallel experiment with pairwise different algorithm, fold or iteration can run at the same time on one working directory in every interleaving of their file accesses, be killed at any point (also in the middle of writing a file) and be submitted again: training, evaluation, domain and problem files are never changed; a job that finished has written exactly the result files it writes when it runs alone on the original files, so the order does not matter, and has removed the plans it made; a job that raised an exception would have raised it alone; at every moment a result file is as it was before or a beginning of its text. Every job ends, and after any crash submitting the job again suffices to get its results. Needed: no numeric planner times out in a job that shares its machine with another, since a timeout kills the planner of the other job and changes its results; no job runs twice at the same time, since one copy removes the plans of the other. A killed job leaves a truncated file, and backups of different iterations may overwrite each other. Two jobs write their backup of the learned domain to the same file exactly if they have the same algorithm and fold and the same number of observations.", "quantifier": "all numbers of jobs, training and test directories, learners, deterministic planners and validators, all interleavings, kills and resubmissions", "why_tests_cant": "The tests run no two experiment jobs together and kill none; interleavings and crash points are unbounded.", "anchors": ["experiments/concurrent_execution/parallel_basic_experiment_runner.py: ParallelExperimentRunner.run_fold_iteration, learn_model_offline, validate_learned_domain", "experiments/concurrent_execution/parallel_multi_agent_experiment_runner.py: run_experiment", "validators/safe_domain_validator.py: DomainValidator.validate_domain, _clear_plans, write_statistics", "solvers/metric_ff_solver.py: MetricFFSolver.solve_problem", "solvers/enhsp_solver.py: ENHSPSolver.solve_problem"]}
{"id": "C120", "title": "Working directory while a learned domain is validated", "statement": "Planners and VAL are started after a change of the working directory, and a planner that fails (Fast Downward) or any run (Metric-FF) leaves the process in another directory. When the directories of the tools, of the experiment and of the test set are absolute paths, this does not matter: every program is started on exactly the files it is meant to work on, in the right order, and nothing is raised. With relative paths it does: with Fast Downward the first problem that is not solved ends the validation with FileNotFoundError after the problems before it were validated correctly; with the default directory ./fast-downward the problem after it raises; with the default ./metric-ff the second problem raises whatever the planners answer; and with Metric-FF relative problem paths are read below the directory of Metric-FF.", "quantifier": "all test sets, portfolios, answers of the planners, initial working directories and directory trees", "why_tests_cant": "The tests use absolute paths and mock or skip the planners; the answers of the planners over a test set are unbounded.", "anchors": ["validators/safe_domain_validator.py: DomainValidator.validate_domain, _validate_solution_content", "validators/validator_script_data.py: run_validate_script", "solvers/fast_downward_solver.py: FastDownwardSolver.solve_problem", "solvers/metric_ff_solver.py: MetricFFSolver.solve_problem", "solvers/enhsp_solver.py: ENHSPSolver.solve_problem"]}
{"id": "C121", "title": "Plans with macro actions, decoded and validated", "statement": "Whatever order Python iterates over sets in, adapt_solution_file turns the file of a plan of the MA-SAM+ domain into a file with the decoded plan: calls of single actions stay, each call of a macro becomes calls of all its actions with the objects the macro was called with, in some order; it returns exactly when every line has a word. Where all actions of a macro are applicable and their effects consistent, their calls can be executed in an order exactly when no action destroys a precondition of a later one, with the result of executing them at once. So if, besides the hypotheses of C54, no action of a called macro destroys a precondition of another, every decoding of a plan that solves a problem in the returned domain solves it in the true domain, and validation counts no claimed plan as not applicable or as goal not achieved. Otherwise the verdict depends on the order: one plan file is decoded to a valid or to an invalid plan.", "quantifier": "all multi-agent data sets as in C54, plans of any length, problems, objects and iteration orders of sets", "why_tests_cant": "The tests decode single lines; plans, data sets and the iteration order of sets (randomised per process) are unbounded.", "anchors": ["validators/safe_domain_validator.py: DomainValidator.adapt_solution_file, validate_domain", "utilities/macro_actions_parser.py: MacroActionParser.extract_actions_from_macro_action", "sam_learning/learners/ma_sam_plus.py: MASAMPlus.construct_safe_macro_actions, learn_combined_action_model_with_macro_actions"]}
{"id": "C122", "title": "The learning curve of an experiment", "statement": "If every training transition is real, more data never hurt SAM: a plan with distinct objects that solves a problem in the domain learned from some transitions solves it in the domain learned from any larger set of transitions, and in the true domain; on every test data set the semantic precision of the preconditions is 1 and their recall does not sink; the syntactic recall of the preconditions is 1, and neither their precision nor the recall of the effects sinks. In the job that cuts joint trajectories into pieces, round i learns from exactly the transitions of the first i pieces in which exactly one agent acts, so all of this holds between any two rounds; after all pieces are used the remaining rounds repeat the same model. The job returns exactly when some piece has a transition in which several agents act, none has one in which nobody acts, and the solo actions are actions of the domain.", "quantifier": "all domains, true schemas, training sets, pairs of rounds, piece sizes, plans of any length, problems, test data", "why_tests_cant": "A learning curve compares all training sets and all plans; the tests compare single domains with literals.", "anchors": ["experiments/concurrent_execution/parallel_multi_agent_experiment_runner_with_triplets.py: MultiAgentTripletsBasedExperimentRunner.run_action_triplets_experiment", "sam_learning/learners/sam_learning.py: SAMLearner.learn_action_model", "statistics/semantic_performance_calculator.py, statistics/learning_statistics_manager.py"]}
{"id": "C123", "title": "MA-SAM against the single-agent baseline and on more data", "statement": "MA-SAM's preconditions of an action are exactly the well-typed literals that held before each of its executions in joint actions without repeated objects, whoever else acted; an action that only ever acts alone is always returned. On good joint data a plan that solves a problem in the domain the single-agent baseline learned from the same joint trajectories, or in the domain MA-SAM learned from a part of them, solves it in the domain MA-SAM returns for all of them, provided MA-SAM returns the actions of the plan. Without that proviso it fails on good data: one more joint transition can make MA-SAM drop an action, losing plans it had and plans the baseline keeps. The job that learns with MA-SAM from pieces of the joint trajectories makes the configured number of rounds, each from the first pieces in order; so both comparisons hold between its rounds, and between its rounds and those of the baseline's job.", "quantifier": "all domains without constants, true schemas, joint data sets (good ones as in C22 for the plans), iteration orders of sets, plans of any length, problems", "why_tests_cant": "Comparing two learners or two data sets ranges over all data sets and plans; the tests look at single domains.", "anchors": ["sam_learning/learners/multi_agent_sam.py: MultiAgentSAM.learn_combined_action_model, handle_multi_agent_trajectory_component, update_single_agent_executed_action, update_multiple_executed_actions, construct_safe_actions", "experiments/concurrent_execution/parallel_multi_agent_experiment_runner.py: _filter_baseline_single_agent_trajectory"]}
{"id": "C124", "title": "The evaluation data of a fold are its test problems and nothing it learned from", "statement": "After the fold directories and then the evaluation data have been created for the first time, the calculators of every job of a fold read exactly: each test problem of the fold with the prefix, with its trajectory from the working directory and, if requested, with a random walk on it (unless the test set has a problem with the walk's name). These problems and trajectories are in no training directory of the fold, for no algorithm and iteration. Creating again from the saved settings, for whatever algorithms, requested iterations and random choices, changes nothing. But old evaluation data are never removed: when the folds are made anew, a problem that was a test problem before and is a training problem now is still evaluated on. If 1 is not among the iterations the creation fails and jobs read no observations; a missing solution or trajectory file ends the creation.", "quantifier": "all samples, splits, algorithms, iterations, directory orders, random walks, earlier contents of the evaluation directories", "why_tests_cant": "It ranges over all samples, splits, earlier directory contents, orders and random choices; the repository has no test of it.", "anchors": ["experiments/concurrent_execution/folder_creation_for_parallel_execution.py: FoldsCreator.create_random_performance_evaluation_trajectories", "trajectory_creators/random_walk_trajectories_creator.py: create_domain_trajectories", "statistics/utils.py: init_semantic_performance_calculator", "utilities/distributed_k_fold_split.py: DistributedKFoldSplit"]}
{"id": "C125", "title": "More observations keep the plans of N-SAM; plans of incremental N-SAM are correct", "statement": "If N-SAM is given more observations and an action is returned both times, its new boolean preconditions are among the old ones, its new numeric condition accepts every state the old one accepted, and every step with distinct objects of the old domain is a step of the new one, with the same successor; so a plan found with the old domain still solves the problem in the new one, provided its actions are all still returned (an action can be lost with more data, when Qhull fails on the new points). Every plan with distinct objects that solves a problem in the domain incremental N-SAM returned (no negative preconditions removed) solves it in the true domain. Where both learners return the actions of a plan and no fluents are named as relevant, the plan solves a problem in the one domain exactly when it does in the other.", "quantifier": "for all domains and truths, sets of trajectories, the first contained in the second, settings with exact numeric conditions, numeric libraries that meet their contracts on the data, problems, plans of any length with distinct objects", "why_tests_cant": "the observed and unobserved states, problems and plans are unbounded; a test compares a few plans on a few fixed training sets", "anchors": ["sam_learning/learners/numeric_sam.py: NumericSAMLearner.learn_action_model", "sam_learning/learners/incremental_numeric_sam.py: IncrementalNumericSAMLearner", "sam_learning/core/numeric_learning/convex_hull_learner.py", "sam_learning/core/numeric_learning/incremental_convex_hull_learner.py"]}
{"id": "C126", "title": "Plans found with domains of conditional and universal conditional SAM", "statement": "Call an action settled if the data leave at most one of its literals with several possible antecedents, no effect seen to happen has several while another has exactly one, and every true result was seen to become true or never seen to become false. A plan with distinct objects of settled actions that solves a problem in the domain returned by conditional SAM solves it in the true domain, and the plan of a recorded trajectory leads to its last state in both. Without any restriction the first call of such a plan is applicable in the true domain and has no effect the true action does not have, but a plan can miss its goal. If all returned actions are settled, a validation reports no plan as inapplicable or as missing its goal and exactly the claimed problems as solved. The same holds for universal conditional SAM, in worlds of any objects, for plans of calls with objects of exactly the types of the parameters, when no literal over the parameters is ambiguous, all true results (also about additional objects) are settled, the returned action quantifies over the types affected, and at most one universal precondition was added (or iteration does not descend into them).", "quantifier": "for all domains, true actions with conditional (and universal) effects of bounded antecedents, sets of real transitions, iteration orders, problems, worlds, plans of any length", "why_tests_cant": "states, worlds and plans are unbounded and most states of a plan were never observed; a test runs a planner on a few problems", "anchors": ["sam_learning/learners/conditional_sam.py: ConditionalSAM.learn_action_model", "sam_learning/learners/universaly_conditional_sam.py: UniversallyConditionalSAM.learn_action_model", "experiments/conditional_effects_experiment_runner.py", "validators/safe_domain_validator.py: DomainValidator.validate_domain"]}
{"id": "C127", "title": "Jobs that run PlanMiner on one machine", "statement": "Whatever the order of events on a machine with any number of PlanMiner jobs, a job that has returned answers for some initial part of what its own process writes, never for another job: the domain in its last output, the domain without actions if that text is no domain, or the domain without actions with learning time -1 if nothing was written. If no job of the machine times out after it has started, it answers for the complete output; so a missing or different domain (or time -1) for a process that would have written one means that some job timed out. A timeout ends the PlanMiner processes of all jobs of the machine. A job that times out itself can return an unfinished model as if it had finished, with a time of at least the timeout. A job that has started can always still return. With absolute paths the job opens the files it means; with a relative directory of PlanMiner it never finds the output, and with a relative working directory it looks for its files in the wrong place. The output of a job that has returned is no longer in the directory of PlanMiner; the timeout is half an hour.", "quantifier": "for all numbers of jobs, outputs of their processes, and lists of events (starts, writes, exits, timeouts, returns, time passing)", "why_tests_cant": "there are infinitely many schedules; the tests never start PlanMiner, and interference needs two jobs on one machine and a timeout of 30 minutes", "anchors": ["experiments/concurrent_execution/parallel_numeric_experiment_runner.py: SingleIterationNSAMExperimentRunner._run_plan_miner_process, _apply_plan_miner, _handle_plan_miner_failure, _create_learned_domain_for_evaluation"]}
{"id": "C128", "title": "Universal conditional SAM on its own observations", "statement": "The action returned by universal conditional SAM accepts every state in which it was observed, if (1) no literal over the parameters is ambiguous, (2) at most one universal precondition was added, or iterating over preconditions does not descend into universal ones, (3) in that observation the objects over which it quantifies have exactly the quantified types and are not objects of the call. If moreover (4) everything that changed is about objects of the call and of types over which it quantifies, it leads to the observed next state. None of the four conditions can be dropped: without each of them there are real observations whose states are rejected, or whose transitions are not reproduced, by the action learned from them.", "quantifier": "for all domains without constants, true actions with conditional and universal effects, lists of observations of any length with any numbers of objects, iteration orders of sets, and both ways of iterating over preconditions; every transition of the observations", "why_tests_cant": "the tests compare one learned domain with an expected text; whether the learner rejects its own data depends on which combinations of literals held for which objects", "anchors": ["sam_learning/learners/universaly_conditional_sam.py: UniversallyConditionalSAM.learn_action_model, _verify_and_construct_safe_universal_effects, _construct_restrictive_preconditions"]}
{"id": "C129", "title": "The evaluation of an online learning run", "statement": "When the job that runs noam_learning or goal_oriented_explorer on a fold ends without an exception, the safe and the optimistic domain are in two different files of the training directory, no solution file is left in the test directory, and the results directory has exactly two new files, for this algorithm and fold, each with two rows: first the safe domain labelled no_remove, then the optimistic domain labelled hard. Each row counts the verdicts of the plans found with its own domain: no plan of the safe domain is attributed to the optimistic one, and plans left from earlier runs do not matter if planners write the plans they claim. If moreover the lessons are transitions of the true domain and planners and VAL do their work, the safe row has no inapplicable plan and no plan that misses the goal. A run that raises leaves no solving statistics; the other online algorithms leave no result at all. Both rows report the number of trajectory files in the training directory, whatever was explored; the number in the file names is the number of training problems unless the name of the domain begins with the prefix of the problems.", "quantifier": "for all training sets, lessons, learned domains, outcomes of planners and of the plan validator, test sets, contents of the directories before the run, and points at which something raises", "why_tests_cant": "the tests never run the job: it needs planners; the claims are about every outcome of them, every test set, and what was in the directories before", "anchors": ["experiments/concurrent_execution/planning_with_online_learning.py: PIL.construct_domains_for_evaluation, validate_test_set_solving_rates, validate_online_model, main", "validators/safe_domain_validator.py: DomainValidator.validate_domain, _clear_plans, write_statistics", "sam_learning/core/online_learning/online_utilities.py: export_learned_domain"]}
{"id": "C130", "title": "The regular and the enhanced multi-agent data set", "statement": "When the creation of the two data sets ends without an exception, each problem has a problem, a plan and a trajectory in the regular folder and in the enhanced one: the regular ones are the combined problem, the plan as converted and its execution; the enhanced ones have the dummy goal if the coin said so, the plan with dummy actions in places of idle agents, and the execution of that plan. No file of another problem is touched, and earlier files do not matter. If the dummy actions have no preconditions and only set or delete the dummy predicate and no other action uses it, then the plan with dummy actions can be executed whenever the regular plan can, so the creation does not fail because of it; both trajectories have one state per joint action, agree in every state on all atoms other than the dummy predicate, and the agents that act in the regular plan do the same in the enhanced one. A regular plan that reaches its goal gives an enhanced plan that reaches its own, provided that some agent is idle at some step if the dummy predicate is in the goal; if none is, the enhanced plan misses its goal.", "quantifier": "for all true domains with the dummy actions, problems, plans with any number of joint actions and agents, random numbers, and contents of the folders before", "why_tests_cant": "there is no test of this script; the random numbers decide which joint actions are changed, and the claim is about all of them and all plans", "anchors": ["trajectory_creators/ma_experiments_trajectories_creator.py: MAExperimentTrajectoriesCreator.create_domain_trajectories", "trajectory_creators/ma_common_functions.py: insert_dummy_predicate_to_goal, insert_dummy_actions_to_plan"]}
{"id": "C131", "title": "Submission scripts and the queue of the cluster", "statement": "If squeue always lists the ids of the jobs that have not ended, a failing sbatch has not accepted the job, and no other program touches temp.sbatch, then in every interleaving of the submission script with the cluster: no run is on the cluster before every job that creates folders has ended; of the jobs submitted for the same fold, version and iteration at most one has not ended, although a run that the queue does not show is submitted again; nothing else is submitted; and when the script ends normally every folder job and every run has been submitted. The wait for the folders ends with the first round in which no id is shown, but not while the digits of an id occur anywhere in the listing, which is that of all users. The folder jobs may have failed. If squeue fails, runs are submitted while the folders are being created; if two scripts share a directory, one can submit the work of the other instead of its own and end normally.", "quantifier": "for all experiments, lists of runs, ids, interleavings of script and cluster, refusals by sbatch, texts printed by squeue, and numbers of rounds", "why_tests_cant": "the scripts need a cluster and have no tests; the claims are about every interleaving of the script with jobs that start and end at any time", "anchors": ["experiments/cluster_scripts/common.py: write_sbatch_and_submit_job, validate_job_running, create_all_experiments_folders, submit_job, submit_job_and_validate_execution", "experiments/cluster_scripts/numeric_experiments_sbatch_runner.py: main", "experiments/cluster_scripts/multi_agent_experiments_sbatch_runner.py: main"]}
{"id": "C132", "title": "From planners through trajectory files to correct plans", "statement": "Assume that the library exports only executions of the true domain as trajectories, reads them back, and that a trajectory text that ends too early either cannot be parsed or means the same. Then, from a directory without trajectory files, whatever the planners write into the solution files, and however often and wherever runs of the planners and of the trajectory creator are repeated, stop or crash in the middle of a write: if the observations can be read and SAM returns, every plan with distinct objects that solves a problem in the learned domain solves it in the true domain. If the creator never crashes, the observations can be read, whatever the planners did. But a file that a crash has left unparsable is kept by all later runs, and the observations of the directory can never be read again.", "quantifier": "for all libraries with this property, domains, files, finite sequences of solving, creation and crashes, observation names, problems and plans", "why_tests_cant": "the claim ranges over all crash points, all plans the planners may leave in the directory, and all problems", "anchors": ["experiments/experiments_dataset_generator.py: DatasetGenerator.generate_dataset", "trajectory_creators/experiments_trajectories_creator.py: ExperimentTrajectoriesCreator.create_domain_trajectories", "experiments/basic_experiment_runner.py: OfflineBasicExperimentRunner.collect_observations", "sam_learning/learners/sam_learning.py: SAMLearner.learn_action_model"]}
{"id": "C133", "title": "The plot of the online experiments shows what was measured", "statement": "The height of a layer at an episode is the mean, over the episodes at most two before and two after it, of the share of the rows in which the outcome of the layer occurred; it lies between 0 and 1 and does not depend on the order of the rows. It is 0 exactly if the outcome occurred in none of these rows and 1 exactly if in all. Every episode of the table is shown, once, in ascending order. In a table unified by the online collector, the four layers, each drawn on top of the ones below, together have the height 1 plus the smoothed share of the episodes that succeeded although the optimistic model was not applicable; so they fill the plot exactly if there is no such episode nearby.", "quantifier": "for all tables of results, all episodes and all orders of the rows", "why_tests_cant": "the claims range over all tables of results", "anchors": ["experiments/plotting/plot_online_learning_results.py: plot_online_learning_statistics"]}
{"id": "C134", "title": "The plots of the offline experiments and the collectors that draw them", "statement": "A curve has exactly one point for every number of trajectories with a row of the algorithm, in ascending order, at the mean percentage of these rows, whatever their order; with percentages between 0 and 100 the point lies in its band and the band in this range, and there is no band exactly for a single row. Rows that are repeated once per iteration leave the means but make the bands strictly narrower. The numeric plot is drawn exactly if the algorithms in the file, apart from the incremental one, are the three it knows, and then its legend is right; the multi-agent plot is drawn exactly with at least three algorithms, and its legend is right exactly if the three it names are among them. When all runs have written their files, collecting the numeric statistics succeeds exactly if the algorithms, apart from the incremental one, are these three; otherwise it raises and the combined syntactic and numeric files are never written.", "quantifier": "for all tables, algorithms, orders of the rows, configurations and complete grids of runs", "why_tests_cant": "the claims range over all tables and configurations", "anchors": ["experiments/plotting/plot_nsam_results.py: plot_results", "experiments/plotting/plot_nsam_solo_results.py: plot_solo_results", "experiments/plotting/plot_masam_results.py: plot_solving_results", "experiments/concurrent_execution/numeric_distributed_results_collector.py: collect_numeric_statistics"]}
{"id": "C135", "title": "The certificate of the numeric effects", "statement": "The call that constructs the numeric effects also returns a flag and conditions. The flag is true exactly if there is a feature (a used column that varies over the observations and is not a multiple, by more than one hundredth, of an earlier one that varies) and no affine function of the features that is not the zero function vanishes in all observed states; then there are more observations than features. If it is true then, as long as the factors between columns have at most as many decimal digits as are printed: the returned conditions are true in all observed states; any two affine functions of the used columns that agree in all observations agree in every state in which the conditions are true, also outside the hull of the observations; and there the learned effects give each fluent the value of any affine function that gives all observed values.", "quantifier": "for all observations, columns, selections of relevant fluents, regression libraries that meet their contract, and states", "why_tests_cant": "the claims range over all data sets and all states outside the observed ones", "anchors": ["sam_learning/core/numeric_learning/linear_regression_learner.py: LinearRegressionLearner.construct_assignment_equations, _validate_legal_equations", "sam_learning/core/numeric_learning/numeric_utils.py: get_num_independent_equations, filter_constant_features, detect_linear_dependent_features"]}
{"id": "C136", "title": "Solver jobs at the same time on one directory", "statement": "A submission script starts one solver job for every problem file with the prefix and no other. The jobs run at the same time in every interleaving, write their solution files line by line, run out of time and can be killed at any moment. The solution file of a problem and the answer for it depend only on its own job and on timeouts of jobs with the same planner on the same machine (none for Fast Downward). At every moment the file is as before, absent, or a first part of the output of the planner for this very problem or of the plan in it. Metric-FF: an answer other than ok leaves no file; ok leaves the plan in the output, the whole output if no other job timed out or the parser finds no plan in a cut output. Fast Downward: the answer is that of the return code, after success the plan without its last line, otherwise the file as the process left it. ENHSP, if nothing timed out: the answer of the first of at most four processes that says something known. Every job ends. A file from before the job survives a failure of Fast Downward and ENHSP; a killed job can leave a log or an empty file; a Metric-FF process killed by the timeout of another job can be answered ok with part of the plan.", "quantifier": "for all problems, planners, outputs, machines, earlier files, interleavings, timeouts and crash points", "why_tests_cant": "the claims range over all interleavings of the jobs and all moments at which one is killed", "anchors": ["experiments/cluster_scripts/sbatching_fast_downward_solver.py: main", "experiments/cluster_scripts/sbatching_solver.py: main", "experiments/cluster_scripts/sbatching_solver_metric_ff.py: main", "solvers/metric_ff_solver.py: MetricFFSolver.solve_problem, _run_metric_ff_process", "solvers/fast_downward_solver.py: FastDownwardSolver.solve_problem, _remove_cost_from_file", "solvers/enhsp_solver.py: ENHSPSolver.solve_problem, _run_enhsp_process"]}
{"id": "C137", "title": "Proxy actions of the extended learner", "statement": "construct_proxy_action returns exactly when every argument of every literal has a representative and all representatives are parameters of the action. The proxy has each representative once as a parameter, with the type it has in the action, and no inequalities. If no literal has two merged arguments, the proxy under a binding is applicable where the action and the literals that were not selected are, with merged parameters bound alike, and adds and deletes the selected literals under that binding; a literal with two merged arguments loses an argument. A proxy whose selected literals are all, after merging, true effects is safe: where it is applicable the true action is and both lead to the same state; in particular the proxy that merges every clause into one literal. Proxies of other models need not be safe. The i-th proxy is stored under name_i, replacing an action of that name, the action itself is removed, all other actions stay. Once stored, decode raises KeyError for every call (and ValueError or KeyError even if the action were still there); encode raises KeyError for a call with as many different objects as parameters and gives an empty call for each proxy otherwise.", "quantifier": "for all actions, literals, signature mappings, learned states, bindings, states, domains and calls", "why_tests_cant": "safety of a proxy ranges over all bindings and states; the translation of calls over all domains and calls", "anchors": ["sam_learning/learners/esam.py: ExtendedSamLearner.construct_proxy_action, handle_lifted_action_instances, encode, decode, modify_predicate_signature, minimize_parameters_equality_dict"]}
{"id": "C138", "title": "Disjunctive antecedents", "statement": "create_dnf_combinations returns every disjunction of at least two non-empty conjunctions over the antecedents in which no literal occurs twice and which has at most the given number of literals, with conjunctions and literals in increasing order, each exactly once and nothing else, sorted by number of literals, number of conjunctions and text. minimize_dnf_clauses returns the text of a formula that has the same truth value as the given expression under every valuation that satisfies the assumptions, and raises only if the expression has the same value under all of them. Atoms that are assumed do not occur in what is simplified; the atom of a negative assumption does, and a predicate whose name begins with not is taken for a negative literal.", "quantifier": "for all sets of antecedents, bounds, iteration orders of sets, expressions, assumptions and valuations", "why_tests_cant": "completeness of the enumeration and equivalence of formulas range over all literals and valuations", "anchors": ["sam_learning/core/propositional_operations/logical_expression_operations.py: create_dnf_combinations, minimize_dnf_clauses, LogicalExpressionTransformer"]}
{"id": "C139", "title": "The learned domain is the most permissive safe one", "statement": "Call an action model a candidate if it is well formed over the given partial domain and every successful transition whose call has distinct objects is one of its transitions. If there is a candidate, the domain that SAMLearner.learn_action_model returns is one; a literal is a learned precondition exactly if some candidate has it, and a learned effect exactly if all candidates have it. So a call is accepted in a state exactly if every candidate accepts it there, the predicted state is then that of every candidate, the literals that can still be effects are the learned effects and the learned preconditions whose negation is not one, and any model with this safety guarantee accepts no call with different objects that the learned domain refuses, and predicts the same state.", "quantifier": "for all partial domains, lists of observations that some action model explains, candidates, actions, bindings, states and rival models", "why_tests_cant": "optimality compares with all action models that explain the observations, which no test enumerates", "anchors": ["sam_learning/learners/sam_learning.py: SAMLearner.learn_action_model, SAMLearner.handle_single_trajectory_component, SAMLearner.add_new_action, SAMLearner.update_action, SAMLearner.handle_negative_preconditions_policy"]}
{"id": "C140", "title": "The learned numeric preconditions are the most permissive safe ones", "statement": "The numeric precondition of an action that N-SAM or incremental N-SAM returns is true in a state exactly if every linear inequality over the used monomials that held before all usable observations of the action holds there. So a state is accepted by an action N-SAM returns exactly if it is accepted by all candidates: all action models that explain the boolean parts of the transitions, with all conjunctions of linear inequalities that held before all usable observations.", "quantifier": "for all domains, observations, degrees, relevant fluents, states, bindings, linear inequalities and candidate action models; the external libraries keep their contracts and numbers survive printing", "why_tests_cant": "optimality compares with all linear preconditions consistent with the data", "anchors": ["sam_learning/learners/numeric_sam.py: NumericSAMLearner.learn_action_model", "sam_learning/core/numeric_learning/convex_hull_learner.py: ConvexHullLearner.construct_safe_linear_inequalities", "sam_learning/core/online_learning/incremental_convex_hull_learner.py: IncrementalConvexHullLearner"]}
{"id": "C141", "title": "The clauses decide exactly what the reports decide", "statement": "After any series of add_not_effect and add_possible_effect calls on a LiteralCNF with which some assignment of effects to actions agrees, extract_action_effects returns exactly the effects outside the given preconditions that all such assignments contain; a pair is a recorded non-effect exactly if none contains it; and, if no report mentions an action twice, is_action_safe is true exactly if all such assignments agree on every literal reported as a possible effect of the action outside the given preconditions. What MA-SAM reports is not all that the data say: it depends on the order of the agents in a joint action, and an action whose effects the data settle can be dropped in one order and returned in the other.", "quantifier": "for all series of reports, assignments, actions and sets of preconditions", "why_tests_cant": "ranges over all report histories and all assignments that agree with them", "anchors": ["sam_learning/core/propositional_operations/literals_cnf.py: LiteralCNF.add_not_effect, LiteralCNF.add_possible_effect, LiteralCNF.is_action_safe, LiteralCNF.extract_action_effects", "sam_learning/learners/multi_agent_sam.py: MultiAgentSAM.update_multiple_executed_actions"]}
{"id": "C142", "title": "SAM converges and errs a bounded number of times", "statement": "Let SAMLearner.learn_action_model be run from scratch on longer and longer data of one true domain. What it returns for an action changes at most as often as there are literals over the parameters of the action (of the right types) that are not true preconditions, and from some point on not at all; and of the transitions with distinct objects that come one after another, at most that many are refused or mispredicted by the domain learned from the earlier ones. The bound is attained.", "quantifier": "for all domains, true action models, infinite streams of their transitions, actions and any number of mistakes", "why_tests_cant": "ranges over infinite streams of data; a bound that holds however long the learner runs", "anchors": ["sam_learning/learners/sam_learning.py: SAMLearner.learn_action_model, SAMLearner.update_action, SAMLearner.add_new_action, SAMLearner.handle_effects"]}
{"id": "C143", "title": "The discrete online learner is surprised a bounded number of times", "statement": "Over any series of attempts at an action that a conjunctive precondition over the vocabulary explains, fewer than 2^|vocabulary| attempts are made in states that, by the earlier attempts, are neither in the safe model nor known to be inapplicable; of these at most |vocabulary| - |precondition| succeed. In an endless series the outcome of every attempt is, from some point on, predicted correctly before it is made. Both bounds are attained.", "quantifier": "for all vocabularies, true preconditions and finite or infinite series of attempts", "why_tests_cant": "ranges over infinite series of attempts; a bound that holds however long the agent explores", "anchors": ["sam_learning/core/online_learning/online_discrete_models_learner.py: OnlineDiscreteModelLearner.add_transition_data, OnlineDiscreteModelLearner.is_state_in_safe_model, OnlineDiscreteModelLearner.is_state_not_applicable_in_safe_discrete_model"]}
{"id": "C144", "title": "SAM generalises from a sample of trajectories", "statement": "Let W be the pairs of an action and a well typed literal over its parameters that is not one of its true preconditions. Of any n trajectories of the true domain, at most |W| contain a transition (with distinct objects) that the domain SAMLearner.learn_action_model returns for the other n - 1 trajectories refuses or mispredicts. If trajectories are drawn independently from any distribution, the probability that the domain learned from m of them fails on a further one with probability more than eps is at most |W| (1 - eps/|W|)^m; so (|W|/eps) ln(|W|/delta) trajectories suffice for failure probability at most eps with confidence 1 - delta. If the trajectories are those of plans of random problems, the learned domain then admits the plan of a further problem with probability at least 1 - eps.", "quantifier": "for all domains, true action models, probability distributions on trajectories, sample sizes, eps and delta", "why_tests_cant": "a statement about all distributions and sample sizes; no finite number of experiments settles it", "anchors": ["sam_learning/learners/sam_learning.py: SAMLearner.learn_action_model, SAMLearner.update_action, SAMLearner.add_new_action"]}
{"id": "C145", "title": "Which observations the numeric preconditions learned from the others refuse", "statement": "Among any observations of an action, those that the linear inequalities construct_safe_linear_inequalities learns from the other observations refuse are vertices: they belong to every set of observations that has the same hull as all of them. For an action with a single numeric function at most two observations are refused, however many there are.", "quantifier": "for all series of observations, all columns and relevant functions, all results of the external libraries within their contracts (any results for a single function)", "why_tests_cant": "ranges over all data sets of any size", "anchors": ["sam_learning/core/numeric_learning/convex_hull_learner.py: ConvexHullLearner.construct_safe_linear_inequalities, ConvexHullLearner._construct_single_dimension_inequalities"]}
{"id": "C146", "title": "The average error of what is learned from random data", "statement": "Let trajectories of the true domain be drawn independently from any distribution. The domain learn_action_model returns for m of them fails to accept and predict a further one with probability at most |W|/(m+1), |W| being the number of well typed literals over the parameters of the actions that are no true preconditions; the probability that it errs with probability at least e is at most |W|/((m+1)e). For an action with a single numeric function, whatever the distribution of its values, the linear inequalities learned from m states refuse a further one with probability at most 2/(m+1), the probability that they refuse a further one with probability more than e is at most 2(1-e/2)^m, and m >= (2/e) ln(2/d) observations give, with probability at least 1-d, inequalities that accept a further state with probability at least 1-e. With two numeric functions there is no such bound: of the observations (i, i^2), however many, each is refused by the inequalities learned from the others.", "quantifier": "for all domains, true models, policies, distributions, sample sizes, e and d; for all real valued distributions and any results of the external libraries (one function), for all numbers of observations and results of the libraries within their contracts (two functions)", "why_tests_cant": "ranges over all distributions and is about probabilities, not single runs", "anchors": ["sam_learning/learners/sam_learning.py: SAMLearner.learn_action_model", "sam_learning/core/numeric_learning/convex_hull_learner.py: ConvexHullLearner.construct_safe_linear_inequalities"]}
{"id": "C147", "title": "How many observations the learned numeric effects predict wrongly", "statement": "Let the next values of the numeric functions of an action be affine functions of its k used columns, and let construct_assignment_equations succeed with no scale-down. The effects it returns give the true next value in every state whose columns are an affine combination of the observed ones, inside their convex hull or not. Of any number of observations at most k+1 are predicted wrongly by the effects learned from the others; if the effects are learned again after each observation of an endless sequence, at most k+1 of them are ever predicted wrongly; and of independent observations from any distribution, the effects learned from m predict a further one wrongly with probability at most (k+1)/(m+1).", "quantifier": "for all series of observations of any length, all numbers of columns and relevant functions, all true affine functions, all distributions, all results of the regression library within its contract", "why_tests_cant": "ranges over all data sets of any size, endless sequences and all distributions", "anchors": ["sam_learning/core/numeric_learning/linear_regression_learner.py: LinearRegressionLearner.construct_assignment_equations, LinearRegressionLearner._solve_regression_problem"]}
{"id": "C148", "title": "Which trajectories the actions N-SAM learns from the others refuse", "statement": "Consider NumericSAM and an action with a single numeric function (one used column). Of any number of trajectories of the true domain at most |W|+2 contain a successful execution, with distinct objects, that the action learned from the other trajectories, if it is returned, refuses, because its boolean or its numeric precondition is false; |W| is the number of well typed literals that are no true preconditions. Hence of independent trajectories from any distribution, the action learned from m refuses an execution in a further one with probability at most (|W|+2)/(m+1). With B = |W|+2, the probability that it is returned and refuses an execution in a further trajectory with probability more than e is at most B(1-e/B)^m, so m >= (B/e) ln(B/d) trajectories make it at most d. For any number of functions a refused execution contradicts either such a literal or a linear inequality that held before every training execution.", "quantifier": "for all domains, true models, series of trajectories of any length, sample sizes, distributions, and results of the external libraries within their contracts", "why_tests_cant": "ranges over all data sets of any size and all distributions", "anchors": ["sam_learning/learners/numeric_sam.py: NumericSAMLearner.learn_action_model", "sam_learning/core/numeric_learning/convex_hull_learner.py: ConvexHullLearner.construct_safe_linear_inequalities", "sam_learning/learners/sam_learning.py: SAMLearner.learn_action_model"]}
{"id": "C149", "title": "Which trajectories the actions incremental N-SAM learns from the others refuse", "statement": "Consider the incremental numeric SAM learner and an action with a single numeric function. Of any number of trajectories of the true domain at most B = |W|+2 contain a successful execution, with distinct objects, that the action learned from the other trajectories, if it is returned, refuses, because its boolean or its numeric precondition is false; |W| is the number of well typed literals that are no true preconditions. If trajectories are drawn independently from any distribution, the probability that the action is returned for m of them and refuses an execution in a further one with probability more than e is at most B(1-e/B)^m, so m >= (B/e) ln(B/d) trajectories make it at most d. For any number of functions a refused execution contradicts either such a literal or a linear inequality that held before every training execution.", "quantifier": "for all domains, true models, series of trajectories of any length, sample sizes, distributions, and results of the external libraries within their contracts", "why_tests_cant": "ranges over all data sets of any size and all distributions", "anchors": ["sam_learning/learners/incremental_numeric_sam.py: IncrementalNumericSAMLearner", "sam_learning/core/online_learning/incremental_convex_hull_learner.py: IncrementalConvexHullLearner", "sam_learning/learners/sam_learning.py: SAMLearner.learn_action_model"]}
{"id": "C150", "title": "MA-SAM generalises from a sample of joint trajectories", "statement": "Within the limits of C22 (real joint transitions, at most one call per action, a last call that covers the visible effects of a joint action, no constants): of any number of joint trajectories at most |W| contain, in a joint action without repeated objects, the execution of an action that MA-SAM returns when it learns from the other trajectories and whose learned version refuses the state before (its precondition or an inequality is false) or predicts other effects than the action has; |W| is the number of well typed literals that are no true preconditions. If joint trajectories are drawn independently from any distribution, the probability that the domain learned from m of them errs so on a further one with probability more than e is at most |W|(1-e/|W|)^m, so m >= (|W|/e) ln(|W|/d) trajectories make it at most d.", "quantifier": "for all domains, true models, series of joint trajectories of any length, sample sizes, distributions and enumeration orders of sets", "why_tests_cant": "ranges over all data sets of any size and all distributions", "anchors": ["sam_learning/learners/multi_agent_sam.py: MultiAgentSAM.learn_combined_action_model", "sam_learning/learners/multi_agent_sam.py: MultiAgentSAM.handle_multi_agent_trajectory_component"]}

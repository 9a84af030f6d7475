import json,sys
P=[]
def p(id,title,statement,quant,why,anchors):
    P.append(dict(id=id,title=title,statement=statement,quantifier=quant,why_tests_cant=why,anchors=anchors))
S="sam_learning/learners/sam_learning.py"
p("C01","SAM safety: learned preconditions are sufficient",
 "If all observed successful transitions were produced by some true STRIPS action model, then whenever an action of the domain returned by learn_action_model is applicable (its learned literals hold) in a state under an injective binding of its parameters, the true action is applicable in that state under the same binding.",
 "every true model, every list of trajectories consistent with it, every action, every state and every injective binding (domains without constants, default negative-precondition policy)",
 "the guarantee ranges over all unseen states and all trajectory sets; tests compare a learned domain against a handful of benchmark states",
 [S+":SAMLearner.learn_action_model",S+":_add_new_action_preconditions",S+":_update_action_preconditions"])
p("C02","SAM safety: learned effects predict the true successor",
 "Under the same hypotheses as C01, whenever the learned action is applicable in a state under an injective binding, applying the learned effects gives exactly the successor state of the true action.",
 "every true model, consistent trajectory list, action, state, injective binding",
 "requires comparing two transition functions on all states",
 [S+":_handle_action_effects",S+":add_new_action",S+":update_action","sam_learning/core/matching_utils.py:extract_discrete_effects"])
p("C03","Learned model reproduces every observation",
 "Every successful observed transition without duplicated parameters is applicable in the returned (default policy) model and the model maps its pre-state to its observed post-state restricted to the atoms the action can mention.",
 "every list of trajectories, every transition in it, whatever comes before or after it",
 "depends on arbitrary histories of later updates never invalidating earlier observations",
 [S+":learn_action_model",S+":handle_single_trajectory_component"])
p("C04","No spurious effects",
 "Every literal the learner returns as an effect of an action is an effect of the true action (domains without constants); with constants this can fail.",
 "every true model and every list of consistent trajectories",
 "a spurious effect may need a particular binding and a particular state to be introduced",
 [S+":_handle_action_effects",S+":_handle_consts_in_effects","sam_learning/core/predicates_matcher.py:PredicatesMatcher.match_predicate_to_action_literals"])
p("C05","Order and repetition of observations do not matter",
 "Learning from any reordering, regrouping or duplication of the same set of successful transitions yields the same preconditions and effects for every action (domains without constants).",
 "every list of transitions and every list with the same set of members",
 "factorially many schedules of the same observations",
 [S+":learn_action_model",S+":handle_single_trajectory_component"])
p("C06","Monotone learning",
 "Observing more transitions after an action was first observed can only remove preconditions and can only add effects for that action.",
 "every prefix/extension pair of observation histories",
 "requires all continuations of a history",
 [S+":_update_action_preconditions",S+":update_action"])
p("C07","Unobserved actions are never applicable",
 "With the default policy, an action that never occurred in a usable transition is returned with preconditions no state satisfies (so the planner can never use it).",
 "every domain, observation list, unobserved action, state and binding",
 "must hold for all states",
 [S+":_handle_unobserved_actions","sam_learning/core/vocabulary_creator.py:VocabularyCreator.create_lifted_vocabulary"])
p("C08","Failed and duplicated-parameter transitions are ignored",
 "A transition marked unsuccessful leaves the learner unchanged, and a transition whose call repeats an object changes neither preconditions literals nor effects nor the set of observed actions.",
 "every learner state and every such transition",
 "all learner states reachable by any history",
 [S+":learn_action_model",S+":_verify_parameter_duplication"])
p("C09","Negative-precondition policy",
 "hard leaves no negative literal precondition in any action; soft removes exactly the negative literals whose atom is a positive effect; no_remove changes nothing; positive preconditions and effects are never touched by any policy.",
 "every domain and policy",
 "set-valued post-condition over all possible learned actions",
 [S+":remove_negative_preconditions",S+":handle_negative_preconditions_policy","utilities/util_types.py:NegativePreconditionPolicy"])
p("C10","Inequality preconditions are exact",
 "After learning, the pair of parameters (in signature order) is an inequality precondition iff the two parameters have the same type and no observed successful call bound them to one object.",
 "every action, pair of parameters and list of observations",
 "depends on the whole history",
 [S+":deduce_initial_inequality_preconditions",S+":_verify_parameter_duplication"])
p("C11","Learning report classifies every action exactly once",
 "The report gives every action of the returned domain exactly one status, and the status is UNOBSERVED iff the action was never observed.",
 "every domain and history",
 "all histories",
 [S+":_construct_learning_report"])
p("C12","Learning in several calls",
 "Calling learn_action_model on one batch of trajectories and then on a second batch gives a model that is still safe and equals learning from both batches at once.",
 "every split of an observation list",
 "all splits and all batches",
 [S+":_complete_possibly_missing_actions",S+":_handle_unobserved_actions",S+":learn_action_model"])
p("C13","Safety limits: non-injective bindings and constants",
 "The safety guarantee extends to bindings that map two parameters to one object and to domains with constants whenever the learned preconditions (including inequalities) allow them.",
 "every binding allowed by the learned preconditions",
 "needs adversarial combination of model, history and binding",
 [S+":_verify_parameter_duplication",S+":_handle_consts_in_effects"])
M="sam_learning/core/predicates_matcher.py"
p("C14","Lifting is exact",
 "The literals returned for a grounded literal and an action call are exactly the lifted literals over the action's parameters (without repeated parameters) that ground back to it under the call.",
 "every grounded literal, call and action signature",
 "all arities and all calls",
 [M+":match_predicate_to_action_literals","sam_learning/core/matching_utils.py:create_signature_permutations"])
p("C15","Injective match",
 "For a call without repeated objects, and no constants, a grounded literal over the call's objects has exactly one lifted match, so the injective match is found; a literal mentioning any other object has none.",
 "every injective call and grounded literal",
 "all arities",
 [M+":get_injective_match"])
V="sam_learning/core/vocabulary_creator.py"
p("C16","Grounded vocabulary is exact",
 "The grounded vocabulary contains exactly the atoms of declared predicates over distinct observed objects/constants whose types conform.",
 "every domain and object list","all domains",[V+":create_grounded_predicate_vocabulary",V+":_validate_type_matching"])
p("C17","Lifted vocabulary is exact and sign-symmetric",
 "The lifted vocabulary contains a literal iff it is well typed over distinct parameters/constants, and it contains a literal iff it contains its negation; with a mandatory parameter it contains exactly those mentioning it.",
 "every domain and signature","all domains",[V+":create_lifted_vocabulary"])
p("C18","Snapshot is a complete consistent valuation",
 "For each vocabulary atom the state snapshot contains exactly one of the atom and its negation, the atom iff it is true in the state, and nothing else.",
 "every state and object list","all states",["sam_learning/core/environment_snapshot.py:create_discrete_state_snapshot"])
p("C19","Extracted effects explain the transition",
 "The add and delete effects extracted from two snapshots over the same vocabulary are disjoint, minimal, and applying them to the previous snapshot yields the next snapshot.",
 "every pair of states","all pairs of states",["sam_learning/core/matching_utils.py:extract_discrete_effects","sam_learning/core/matching_utils.py:extract_not_effects"])
p("C20","Grounded action vocabulary is exact",
 "The grounded action vocabulary contains exactly the type-correct calls of each action over the objects and constants.",
 "every domain and object set","all domains",[V+":create_grounded_actions_vocabulary"])
L="sam_learning/core/propositional_operations/literals_cnf.py"
p("C21","CNF bookkeeping keeps the truth",
 "If every recorded possible joint effect really contains a true (action, effect) pair and every recorded non-effect is truly not an effect, then after any sequence of operations every stored clause still contains a true pair, and no clause mentions a recorded non-effect of clauses without repetition.",
 "every sequence of add_not_effect/add_possible_effect operations","all histories",[L+":LiteralCNF.add_not_effect",L+":LiteralCNF.add_possible_effect"])
p("C22","MA-SAM safety",
 "An action that MA-SAM declares safe is returned with preconditions and effects that predict the true single-agent action in every state where it is applicable.",
 "every true model and every list of joint observations","all joint histories and states",["sam_learning/learners/multi_agent_sam.py:MultiAgentSAM.learn_combined_action_model",L+":LiteralCNF.is_action_safe",L+":LiteralCNF.extract_action_effects"])
O="sam_learning/core/propositional_operations/logical_expression_operations.py"
p("C23","CNF minimisation preserves meaning",
 "Minimising CNF clauses under assumptions gives clauses with the same truth value in every valuation satisfying the assumptions; if it raises, no such valuation satisfies the clauses.",
 "every clause list, assumption set and valuation","all valuations",[O+":minimize_cnf_clauses",O+":check_complementary_literals"])
p("C24","Literal flipping is an involution",
 "Flipping the sign of a literal string twice gives it back and flipping changes its truth value, for every literal string a predicate can print.",
 "every predicate name and argument list","all names, including those starting with 'not'",[O+":_flip_single_predicate"])
p("C25","Literal text round-trip",
 "Parsing the printed form of a literal over an action's signature gives back the literal's name, arguments in order and sign.",
 "every literal","all names and arities",["sam_learning/core/propositional_operations/discrete_utilities.py:extract_predicate_data"])
D="sam_learning/core/propositional_operations/dependency_set.py"
p("C26","Dependency sets never lose the true antecedents",
 "If a conditional effect with a conjunctive antecedent of bounded size explains all observations, its antecedent set is never removed from the candidates of its result by any sequence of observations.",
 "every true conditional effect and every history","all histories",[D+":DependencySet.remove_dependencies","sam_learning/learners/conditional_sam.py:ConditionalSAM._remove_not_antecedents"])
p("C27","Antecedent candidates are all bounded non-empty subsets",
 "Initialisation gives every result literal exactly the non-empty subsets of size at most the bound as candidates.",
 "every literal set and bound","all sizes",[D+":DependencySet.initialize_dependencies",O+":create_cnf_combination"])
p("C28","Restrictive preconditions are safe",
 "Whenever the restrictive precondition built for an unsafe result literal holds in a state together with the action's preconditions, the result literal's value after the action is determined: either it already holds, or no candidate antecedent holds, or (for an observed effect) all candidate antecedents hold.",
 "every dependency set, precondition set and state","all states",[D+":DependencySet.construct_restrictive_preconditions"])
p("C29","Conditional SAM keeps every learned conditional effect",
 "Every conditional effect constructed for an observed result literal of an action is part of the returned action.",
 "every history","all combinations of safe and unsafe literals",["sam_learning/learners/conditional_sam.py:_verify_and_construct_safe_conditional_effects"])
N="sam_learning/core/online_learning/online_discrete_models_learner.py"
p("C30","Online discrete learner: safe model is safe",
 "After any sequence of successful and failed transitions of an action with conjunctive preconditions, a state accepted by the safe model satisfies the true preconditions.",
 "every history and state","all histories",[N+":OnlineDiscreteModelLearner.is_state_in_safe_model",N+":get_safe_model"])
p("C31","Online discrete learner: inapplicability is sound",
 "If the learner says a state is not applicable then the true action is not applicable in it; every recorded clause contains a true precondition.",
 "every history and state","all histories",[N+":is_state_not_applicable_in_safe_discrete_model",N+":_add_negative_pre_state_observation",N+":_apply_unit_propagation"])
p("C32","Online discrete learner: optimistic model admits everything the true action admits",
 "Any state satisfying the true preconditions satisfies the optimistic precondition.",
 "every history and state","all histories",[N+":get_optimistic_model"])
p("C33","Online discrete learner: effects bracket the truth",
 "must-be effects are true effects, and every true effect in the vocabulary is in the optimistic effects once a success was observed.",
 "every history","all histories",[N+":_add_positive_post_state_observation"])
Q="sam_learning/core/online_learning/priority_queue.py:PriorityQueue"
p("C34","Priority queue order",
 "get_item/get_queue_item_data return an item whose (two-decimal) priority is maximal among the stored ones, whatever the random tie-break.",
 "every history of operations and every random choice","all interleavings and random outcomes",[Q])
p("C35","Priority queue conserves items",
 "The multiset of stored items is exactly insertions minus removals, len reports its size, and retrieval fails exactly on the empty queue.",
 "every history of operations","all histories",[Q])
R="sam_learning/core/online_learning/episode_info_recorder.py:EpisodeInfoRecord"
p("C36","Episode accounting",
 "In every reachable state sum_successful_actions/sum_failed_actions equal the sums of the per-action counters of the current episode, their total equals the number of steps recorded in the episode, and the success history equals the total successes over all episodes.",
 "every history of record/end-episode calls","all histories",[R])
p("C37","BFS feature selection explores by size",
 "The open list enumerates every subset of the monomials exactly once in non-decreasing size, and the selected features only move forward.",
 "every monomial list and observation history","all histories",["sam_learning/core/online_learning/bfs_feature_selection.py:BFSFeatureSelector"])
U="utilities/macro_actions_parser.py:MacroActionParser"
p("C38","Macro parameter groups are the connected components",
 "Combining parameter groups yields a partition in which two parameters share a group iff they are linked by a chain of overlapping groups.",
 "every list of groups","all chains",["sam_learning/learners/ma_sam_plus.py:combine_groupings"])
p("C39","Macro plan steps decode to the constituent actions",
 "Decoding a grounded macro action gives, for each constituent action, its call with each parameter bound to the object of the macro parameter it is mapped to, in signature order.",
 "every mapping and call","all mappings",[U+".extract_actions_from_macro_action",U+".generate_macro_mappings",U+".generate_macro_action_signature"])
X="sam_learning/core/numeric_learning/numeric_utils.py"
p("C40","Linear expression printing preserves value",
 "The nested-addition expression built from a list of terms evaluates to the sum of the terms.",
 "every term list and valuation","all lengths",[X+":construct_linear_equation_string",X+":construct_multiplication_strings"])
p("C41","Circular assignments become equivalent increase/decrease",
 "The increase/decrease effect built from an assignment's coefficients leaves the assigned fluent with exactly the assigned value.",
 "every coefficient map and state (exact arithmetic)","all real values",[X+":construct_non_circular_assignment"])
p("C42","Monomials are complete",
 "The monomials of degree d are exactly the sorted non-empty multisets of fluents of size at most d (degree 1: squares excluded), and grounding multiplies the fluent values.",
 "every fluent list and degree","all degrees",[X+":create_monomials",X+":create_grounded_monomials"])
p("C43","Equality reduction keeps the region",
 "Eliminating a variable from hull inequalities with the equalities of the complementary basis does not change the set of points on the affine subspace that satisfy them.",
 "every matrix and every point of the subspace (exact arithmetic)","all points",[X+":reduce_complementary_conditions_from_convex_hull"])
p("C44","Cross-validation folds are disjoint and cover",
 "In every fold no training trajectory's problem is in the test set and train plus test is the whole sample.",
 "every number of items and folds, every sampling","all samplings",["utilities/k_fold_split.py:KFoldSplit.create_k_fold","utilities/distributed_k_fold_split.py:DistributedKFoldSplit.create_fold_from_scratch"])
for x in P: print(json.dumps(x))

{
 "claims": [
  {
   "property": "C01",
   "status": "proved",
   "theorems": [
    "Props.C01_preconditions_sufficient",
    "Props.C01_positive_preconditions_any_policy",
    "Props.C01_constant_call_unsafe",
    "Props.C01_soft_policy_unsafe"
   ],
   "note": "Default policy; calls that bind a parameter to a constant excluded (GoodData.noConst) - the last two theorems are kernel-checked counterexamples showing both restrictions are necessary."
  },
  {
   "property": "C02",
   "status": "proved",
   "theorems": [
    "Props.C02_effects_exact",
    "Props.C02_effects_exact_soft",
    "Props.C02_hard_policy_unsafe"
   ],
   "note": "Default and soft policy; counterexample for hard."
  },
  {
   "property": "C03",
   "status": "proved",
   "theorems": [
    "Props.C03_reproduces_observations"
   ],
   "note": ""
  },
  {
   "property": "C04",
   "status": "proved",
   "theorems": [
    "Props.C04_no_spurious_effects",
    "Props.C04_constant_call_spurious"
   ],
   "note": "Proved for calls not binding parameters to constants; the second theorem is the counterexample otherwise."
  },
  {
   "property": "C05",
   "status": "proved",
   "theorems": [
    "Props.C05_order_irrelevant",
    "Props.C05_success_irrelevant",
    "Props.C05_constants_order_matters",
    "Props.C05_order_irrelevant_constants"
   ],
   "note": "Any data without constants; real data that binds no parameter to a constant in general; counterexample otherwise."
  },
  {
   "property": "C06",
   "status": "proved",
   "theorems": [
    "Props.C06_monotone",
    "Props.C06_preconditions_shrink",
    "Props.C06_monotone_constants",
    "Props.C06_constant_call_effects_shrink"
   ],
   "note": "Any data without constants; with constants the preconditions part for any data and everything for real data that binds no parameter to a constant; counterexample otherwise."
  },
  {
   "property": "C07",
   "status": "proved",
   "theorems": [
    "Props.C07_unobserved_never_applicable",
    "Props.C07_empty_vocabulary_applicable",
    "Props.C07_hard_policy_applicable"
   ],
   "note": "Needs one well-typed literal over the parameters and the default policy; both shown necessary."
  },
  {
   "property": "C08",
   "status": "proved",
   "theorems": [
    "Props.C08_failures_ignored",
    "Props.C08_duplicates_ignored"
   ],
   "note": ""
  },
  {
   "property": "C09",
   "status": "proved",
   "theorems": [
    "Props.C09_policy_exact"
   ],
   "note": ""
  },
  {
   "property": "C10",
   "status": "proved",
   "theorems": [
    "Props.C10_inequalities_exact",
    "Props.C10_option_off"
   ],
   "note": ""
  },
  {
   "property": "C11",
   "status": "proved",
   "theorems": [
    "Props.C11_report_exact"
   ],
   "note": "Finding: this learner never reports OK."
  },
  {
   "property": "C12",
   "status": "proved",
   "theorems": [
    "Props.C12_many_calls_safe",
    "Props.C12_calls_succeed_iff",
    "Props.C12_calls_equal",
    "Props.C12_calls_late",
    "Props.C12_calls_lost",
    "Props.C12_calls_inequalities",
    "Props.C12_two_calls_not_one",
    "Props.C12_inequalities_not_one"
   ],
   "note": "C12_calls_late and C12_calls_lost for the policy that keeps negative preconditions. Equality with learning at once without exceptions is false: C12_two_calls_not_one, C12_inequalities_not_one."
  },
  {
   "property": "C13",
   "status": "partial",
   "theorems": [
    "Props.C13_inequalities_suffice_partial",
    "Props.C13_noninjective_safe_partial",
    "Props.C13_duplicate_call_unsafe",
    "Props.C13_subtype_unsafe",
    "Props.C01_constant_call_unsafe"
   ],
   "note": "False of the code in general (counterexamples); proved for every binding that separates the pairs the learned inequalities cannot speak about (different types, pairs a successful call bound to one object, constants)."
  },
  {
   "property": "C14",
   "status": "proved",
   "theorems": [
    "Props.C14_matches_exact",
    "Props.C14_matches_nodup",
    "Props.C14_matches_exact_extra"
   ],
   "note": ""
  },
  {
   "property": "C15",
   "status": "proved",
   "theorems": [
    "Props.C15_injective_match",
    "Props.C15_foreign_object",
    "Props.C15_returned_iff_unique"
   ],
   "note": ""
  },
  {
   "property": "C16",
   "status": "proved",
   "theorems": [
    "Props.C16_grounded_vocabulary"
   ],
   "note": ""
  },
  {
   "property": "C17",
   "status": "proved",
   "theorems": [
    "Props.C17_lifted_vocabulary"
   ],
   "note": ""
  },
  {
   "property": "C18",
   "status": "proved",
   "theorems": [
    "Props.C18_snapshot"
   ],
   "note": ""
  },
  {
   "property": "C19",
   "status": "proved",
   "theorems": [
    "Props.C19_effects_explain",
    "Props.C19_not_effects"
   ],
   "note": ""
  },
  {
   "property": "C20",
   "status": "proved",
   "theorems": [
    "Props.C20_grounded_actions"
   ],
   "note": ""
  },
  {
   "property": "C21",
   "status": "proved",
   "theorems": [
    "Props.C21_not_effects_exact",
    "Props.C21_clauses_exact",
    "Props.C21_extracted_effects_true",
    "Props.C21_safe_action_decided",
    "Props.C21_repeated_pair_survives"
   ],
   "note": "Clauses without repeated pairs; the last theorem shows the restriction is necessary."
  },
  {
   "property": "C22",
   "status": "partial",
   "theorems": [
    "Props.C22_returned_actions_safe_partial",
    "Props.C22_single_agent_safe_partial",
    "Props.C22_no_spurious_effects_partial",
    "Props.C22_uncovered_unsafe",
    "Props.C22_repeated_action_unsafe",
    "Props.C22_constants_unsafe",
    "Props.C22_constants_crash"
   ],
   "note": "False of the code in general (three kernel-checked unsafe runs and a crash); proved for domains without constants when joint actions do not repeat an action and the last one covers the visible effects."
  },
  {
   "property": "C23",
   "status": "proved",
   "theorems": [
    "Props.C23_minimise",
    "Props.C23_minimise_literals",
    "Props.C23_empty_clause",
    "Props.C23_hyphen_crash",
    "Props.C23_negate"
   ],
   "note": "Non-empty clauses of literals whose argument names have no hyphen and whose predicate name does not start with not; both restrictions shown necessary (empty clause dropped; AttributeError on hyphenated arguments)."
  },
  {
   "property": "C24",
   "status": "proved",
   "theorems": [
    "Props.C24_flip",
    "Props.C24_flip_negative",
    "Props.C24_not_prefix"
   ],
   "note": "Names starting with not excluded; counterexample proved."
  },
  {
   "property": "C25",
   "status": "proved",
   "theorems": [
    "Props.C25_roundtrip",
    "Props.C25_unknown_argument",
    "Props.C25_show_injective",
    "Props.C25_named_not",
    "Props.C25_repeated_argument"
   ],
   "note": "Distinct arguments, predicate not named not; counterexamples proved."
  },
  {
   "property": "C26",
   "status": "proved",
   "theorems": [
    "Props.C26_true_antecedent_kept",
    "Props.C26_candidates_exact"
   ],
   "note": "Also the exact set of candidates after every history."
  },
  {
   "property": "C27",
   "status": "proved",
   "theorems": [
    "Props.C27_candidates",
    "Props.C27_removal",
    "Props.C27_preconditions"
   ],
   "note": ""
  },
  {
   "property": "C28",
   "status": "proved",
   "theorems": [
    "Props.C28_restrictive_exact"
   ],
   "note": "Exact characterisation; add_condition is a parameter with an assumed meaning (AddOK)."
  },
  {
   "property": "C29",
   "status": "partial",
   "theorems": [
    "Props.C29_determined_effect_returned_partial",
    "Props.C29_restrictive_effect_lost"
   ],
   "note": "The claim as stated is false of the code: effects of ambiguous literals are overwritten (second theorem); proved for determined literals."
  },
  {
   "property": "C30",
   "status": "proved",
   "theorems": [
    "Props.C30_safe_exact",
    "Props.C30_safe_precondition"
   ],
   "note": ""
  },
  {
   "property": "C31",
   "status": "proved",
   "theorems": [
    "Props.C31_not_applicable_exact",
    "Props.C31_clauses"
   ],
   "note": ""
  },
  {
   "property": "C32",
   "status": "proved",
   "theorems": [
    "Props.C32_optimistic_exact"
   ],
   "note": "add_condition is a parameter with an assumed meaning (AddOK)."
  },
  {
   "property": "C33",
   "status": "proved",
   "theorems": [
    "Props.C33_safe_effects",
    "Props.C33_optimistic_effects",
    "Props.C33_safe_next_state"
   ],
   "note": ""
  },
  {
   "property": "C34",
   "status": "proved",
   "theorems": [
    "Props.C34_C35_refines_bag",
    "Props.C34_positive_weight"
   ],
   "note": "Rational weights instead of floats; the random draw is an arbitrary argument."
  },
  {
   "property": "C35",
   "status": "proved",
   "theorems": [
    "Props.C34_C35_refines_bag",
    "Props.C35_conserves"
   ],
   "note": ""
  },
  {
   "property": "C36",
   "status": "proved",
   "theorems": [
    "Props.C36_accounting",
    "Props.C36_trajectory",
    "Props.C36_paths",
    "Props.C36_unknown_action",
    "Props.C36_needs_distinct_keys",
    "Props.C36_file_label",
    "Props.C36_keys"
   ],
   "note": "Action names whose counters have distinct keys: so if the names differ and none begins with failed_due_to_ or unknown_failed_ (C36_keys); shown necessary."
  },
  {
   "property": "C37",
   "status": "proved",
   "theorems": [
    "Props.C37_enumeration",
    "Props.C37_forward",
    "Props.C37_intended",
    "Props.C37_stuck"
   ],
   "note": "Finding: the comparison of observations raises from the third distinct observation on (C37_stuck), so the selection never passes the second set; C37_intended is about the comparison repaired."
  },
  {
   "property": "C38",
   "status": "proved",
   "theorems": [
    "Props.C38_components"
   ],
   "note": ""
  },
  {
   "property": "C39",
   "status": "proved",
   "theorems": [
    "Props.C39_binding",
    "Props.C39_decode",
    "Props.C39_types",
    "Props.C39_parameterless_dropped",
    "Props.C39_name_collision",
    "Props.C39_incomparable_types"
   ],
   "note": "Findings: parameterless actions are dropped, group names may collide, incomparable types."
  },
  {
   "property": "C40",
   "status": "proved",
   "theorems": [
    "Props.C40_nested_sum",
    "Props.C40_linear_expression_exact",
    "Props.C40_affine_expression_exact",
    "Props.C40_linear_expression_error",
    "Props.C40_expression_wellFormed",
    "Props.C40_limit_rounding",
    "Props.C40_limit_empty",
    "Props.C40_limit_dummy",
    "Props.C40_prettify"
   ],
   "note": "Exact for coefficients that survive printing; a general error bound otherwise. Text is modelled by expression trees, floats by an ordered field."
  },
  {
   "property": "C41",
   "status": "proved",
   "theorems": [
    "Props.C41_non_circular_exact",
    "Props.C41_non_circular_defined"
   ],
   "note": "Exact arithmetic, coefficients that survive printing."
  },
  {
   "property": "C42",
   "status": "proved",
   "theorems": [
    "Props.C42_monomials_complete",
    "Props.C42_monomials_distinct",
    "Props.C42_polynomial_value",
    "Props.C42_grounding"
   ],
   "note": ""
  },
  {
   "property": "C43",
   "status": "proved",
   "theorems": [
    "Props.C43_reduction_keeps_region",
    "Props.C43_eliminates",
    "Props.C43_limit_reintroduced"
   ],
   "note": ""
  },
  {
   "property": "C44",
   "status": "proved",
   "theorems": [
    "Props.C44_sample_size",
    "Props.C44_folds_exact",
    "Props.C44_disjoint_and_cover",
    "Props.C44_tested_once",
    "Props.C44_replay",
    "Props.C44_distributed",
    "Props.C44_limit_leftover_leaks",
    "Props.C44_limit_stale_folds"
   ],
   "note": "scikit-learn splits are a parameter with their documented contract (every index once). Limits: leftovers of an abandoned run, stale folds."
  },
  {
   "property": "C45",
   "status": "proved",
   "theorems": [
    "Props.C45_lifted_snapshot"
   ],
   "note": ""
  },
  {
   "property": "C46",
   "status": "proved",
   "theorems": [
    "Props.C46_applicable"
   ],
   "note": ""
  },
  {
   "property": "C47",
   "status": "proved",
   "theorems": [
    "Props.C47_no_spurious_effect"
   ],
   "note": ""
  },
  {
   "property": "C48",
   "status": "partial",
   "theorems": [
    "Props.C48_exact_partial",
    "Props.C48_needs_restriction_1",
    "Props.C48_needs_restriction_2",
    "Props.C48_needs_restriction_3"
   ],
   "note": "False of the code in general (three refutations); proved under the three restrictions the refutations call for."
  },
  {
   "property": "C49",
   "status": "proved",
   "theorems": [
    "Props.C49_total",
    "Props.C49_returned"
   ],
   "note": ""
  },
  {
   "property": "C50",
   "status": "proved",
   "theorems": [
    "Props.C50_success_flag_ignored",
    "Props.C50_failed_attempt_unsafe",
    "Props.C50_repeated_object_unsafe"
   ],
   "note": ""
  },
  {
   "property": "C51",
   "status": "proved",
   "theorems": [
    "Props.C51_monotone",
    "Props.C51_past_attempts"
   ],
   "note": ""
  },
  {
   "property": "C52",
   "status": "proved",
   "theorems": [
    "Props.C52_attribution_sound",
    "Props.C52_discrete_verdicts",
    "Props.C52_conservation",
    "Props.C52_elimination_complete",
    "Props.C52_unknown_overcounted"
   ],
   "note": "The numeric model is a parameter assumed sound (HullSound). Finding: the counter of unknown failures overcounts."
  },
  {
   "property": "C53",
   "status": "proved",
   "theorems": [
    "Props.C53_uninformative_determined",
    "Props.C53_applicable_sound"
   ],
   "note": "Same assumption on the numeric model."
  },
  {
   "property": "C54",
   "status": "partial",
   "theorems": [
    "Props.C54_macro_sound_partial",
    "Props.C54_macro_exact_partial",
    "Props.C54_macro_groups",
    "Props.C54_macro_names",
    "Props.C54_macros_reported",
    "Props.C54_single_actions",
    "Props.C54_macros_returned",
    "Props.C54_shared_parameter_unsafe",
    "Props.C54_collapsed_parameters"
   ],
   "note": "Proved on good joint data (as C22) without constants, for calls in which no constituent gets an object twice; the exact outcome for groups whose actions share no parameter names. Refuted otherwise (two refutations)."
  },
  {
   "property": "C55",
   "status": "proved",
   "theorems": [
    "Props.C55_precondition_is_hull",
    "Props.C55_safe_for_convex",
    "Props.C55_accepts_observations",
    "Props.C55_monotone"
   ],
   "note": "Exact arithmetic; Qhull and LinearRegression by their contracts; numbers that survive printing; data separated by more than the Gram-Schmidt tolerance (then the projection branch is unreachable)."
  },
  {
   "property": "C56",
   "status": "proved",
   "theorems": [
    "Props.C56_rounding_bounded",
    "Props.C56_dependency_excludes_observation"
   ],
   "note": ""
  },
  {
   "property": "C57",
   "status": "proved",
   "theorems": [
    "Props.C57_margin_region",
    "Props.C57_zero_margin",
    "Props.C57_margin_unsafe"
   ],
   "note": ""
  },
  {
   "property": "C58",
   "status": "proved",
   "theorems": [
    "Props.C58_effects_exact",
    "Props.C58_reproduces_observations",
    "Props.C58_frame",
    "Props.C58_limit_scale_down",
    "Props.C58_limit_small_coefficient"
   ],
   "note": "Exact arithmetic; LinearRegression by its contract; coefficients that survive printing; scale-down effects are excluded because they are wrong (C58_limit_scale_down)."
  },
  {
   "property": "C59",
   "status": "proved",
   "theorems": [
    "Props.C59_effects_found",
    "Props.C59_limit_unassigned",
    "Props.C59_limit_no_features"
   ],
   "note": "Exact arithmetic; LinearRegression by its contract (score one iff exact fit, best fit found)."
  },
  {
   "property": "C60",
   "status": "proved",
   "theorems": [
    "Props.C60_matches_exact",
    "Props.C60_defined",
    "Props.C60_vocabulary",
    "Props.C60_limit_missing_nullary"
   ],
   "note": ""
  },
  {
   "property": "C61",
   "status": "proved",
   "theorems": [
    "Props.C61_storage",
    "NumWorld.C61_limit_lost_point",
    "NumWorld.C61_limit_data_reset"
   ],
   "note": ""
  },
  {
   "property": "C62",
   "status": "proved",
   "theorems": [
    "Props.C62_numeric_model_safe",
    "Props.C62_limit_inequalities_dropped",
    "NumWorld.ineq_contrast",
    "NumWorld.move_safe"
   ],
   "note": "Exact arithmetic; Qhull and regression by contract; coefficients and facets that survive printing; full-rank or projected hull branch; scale-down effects excluded (C58_limit_scale_down)."
  },
  {
   "property": "C63",
   "status": "proved",
   "theorems": [
    "Props.C63_returned_actions",
    "Props.C63_effects_found",
    "NumWorld.C63_limit_no_functions",
    "Props.C63_missing_fluents"
   ],
   "note": ""
  },
  {
   "property": "C64",
   "status": "proved",
   "theorems": [
    "Props.C64_report",
    "Props.C64_perfect_iff",
    "Props.C64_domain",
    "Props.C64_sam",
    "Props.C64_limit_empty_learned",
    "Props.C64_limit_added_twice"
   ],
   "note": "Floats as rationals; untyped representations compared as literals."
  },
  {
   "property": "C65",
   "status": "proved",
   "theorems": [
    "Props.C65_preconditions_metric",
    "Props.C65_bounds",
    "Props.C65_safe",
    "Props.C65_recall_monotone",
    "Props.C65_order",
    "Props.C65_sam",
    "Props.C65_limit_nothing_possible"
   ],
   "note": "VAL is a parameter."
  },
  {
   "property": "C66",
   "status": "proved",
   "theorems": [
    "Props.C66_missing_effects_measured",
    "Props.C66_spurious_effects_invisible",
    "Props.C66_self_disabling_unmeasured",
    "Props.C66_foreign_action",
    "Props.EffCase.C66_limit_self_disabling"
   ],
   "note": "The behaviour of Operator.apply on inapplicable actions is a parameter with three values."
  },
  {
   "property": "C67",
   "status": "proved",
   "theorems": [
    "Props.C67_joint_metric",
    "Props.C67_shared_blame",
    "Props.C67_exact_model",
    "Props.C67_export",
    "Props.C67_export_columns"
   ],
   "note": "The joint successor under the learned model is a parameter."
  },
  {
   "property": "C68",
   "status": "proved",
   "theorems": [
    "Props.C68_error_of_a_run",
    "Props.C68_zero_iff",
    "Props.C68_mean_error",
    "Props.C68_rows_completed",
    "Props.C68_limit_same_key",
    "Props.C68_limit_never_applicable"
   ],
   "note": "The outcomes of the operators are parameters."
  },
  {
   "property": "C69",
   "status": "proved",
   "theorems": [
    "Props.C69_rows",
    "Props.C69_row_fields",
    "Props.C69_history",
    "Props.C69_appearances"
   ],
   "note": ""
  },
  {
   "property": "C70",
   "status": "proved",
   "theorems": [
    "Props.C70_projected_precondition_is_hull",
    "Props.C70_close_points_not_safe"
   ],
   "note": "Exact arithmetic; Qhull and the norm by contract; basis, equations and facets that survive printing; well separated data; fewer fluents than 10^digits."
  },
  {
   "property": "C71",
   "status": "proved",
   "theorems": [
    "Props.C71_execute_plan",
    "Props.C71_no_exception",
    "Props.C71_applicable_iff",
    "Props.C71_goal_exact",
    "Props.C71_limit_negative_goal",
    "Props.C71_limit_stale_value"
   ],
   "note": "Operator.apply is a parameter of the environment."
  },
  {
   "property": "C72",
   "status": "proved",
   "theorems": [
    "Props.C72_semi_episode",
    "Props.C72_semi_verdict",
    "Props.C72_limit_counter_not_reset",
    "Props.C72_limit_initial_goal"
   ],
   "note": ""
  },
  {
   "property": "C73",
   "status": "proved",
   "theorems": [
    "Props.C73_noam_episode",
    "Props.C73_noam_verdict",
    "Props.C73_explorations_truthful",
    "Props.C73_selection",
    "Props.C73_selectors",
    "Props.C73_limit_always_starved",
    "Props.C73_recorded_steps",
    "Props.C73_goal_oriented_learns_all",
    "Props.C73_limit_success_not_learned",
    "Props.C73_window"
   ],
   "note": ""
  },
  {
   "property": "C74",
   "status": "proved",
   "theorems": [
    "Props.C74_actions_apart",
    "Props.C74_safe_step",
    "Props.C74_safe_plan",
    "Props.C74_safe_plan_executes",
    "Props.C74_no_unsafe_error",
    "Props.C74_lessons_honest",
    "Props.C74_limit_no_predicates"
   ],
   "note": "Numeric part by contract: sound hull test, right learned effects inside the hull. The vocabulary of every action must have a predicate; the limit theorem shows that the claim fails without."
  },
  {
   "property": "C75",
   "status": "proved",
   "theorems": [
    "Props.C75_solved_truthful",
    "Props.C75_drivers_truthful",
    "Props.C75_explores_after_both",
    "Props.C75_credit",
    "Props.C75_unsafe_plan_raises",
    "Props.C75_no_solver",
    "Props.C75_limit_empty_plan",
    "Props.C75_limit_second_solver_ignored"
   ],
   "note": ""
  },
  {
   "property": "C76",
   "status": "proved",
   "theorems": [
    "Props.C76_data",
    "Props.C76_incremental_is_hull",
    "Props.C76_same_as_batch",
    "Props.C76_order",
    "Props.C76_monotone",
    "Props.C76_limit_close"
   ],
   "note": "Under the contracts of Qhull, regression and norm, numbers that survive printing, and separated data, as for C55; no margin (epsilon = 0)."
  },
  {
   "property": "C77",
   "status": "proved",
   "theorems": [
    "Props.C77_membership",
    "Props.C77_accepts_hull",
    "Props.C77_precondition_passes",
    "Props.C77_copy",
    "Props.C77_limit_tolerance",
    "Props.C77_limit_dependencies",
    "Props.C77_limit_reset",
    "Props.C77_limit_lost_point",
    "Props.C77_limit_relevant",
    "Props.C77_missing_column",
    "Props.C77_copy_empty",
    "Props.C77_reset",
    "Props.C77_dropped_column"
   ],
   "note": "Same assumptions as C76; the limits are concrete runs."
  },
  {
   "property": "C78",
   "status": "proved",
   "theorems": [
    "Props.C78_size",
    "Props.C78_empty",
    "Props.C78_successes_pass",
    "Props.C78_failures",
    "Props.C78_failures_rejected",
    "Props.C78_no_exception",
    "Props.SvmCase.C78_limit_success_rejected",
    "Props.SvmCase.C78_limit_columns"
   ],
   "note": "SVM by contract: it separates separable data."
  },
  {
   "property": "C79",
   "status": "proved",
   "theorems": [
    "Props.C79_safe_ignores_failures",
    "Props.C79_safe_precondition",
    "Props.C79_successes_accepted",
    "Props.C79_failures_rejected",
    "Props.C79_safe_implies_optimistic",
    "Props.C79_same_effects",
    "Props.C79_safe_effects",
    "Props.C79_targets",
    "Props.C79_membership"
   ],
   "note": "Contracts and separated data as for C55, C58, C76, C78."
  },
  {
   "property": "C80",
   "status": "proved",
   "theorems": [
    "Props.C80_returns_iff",
    "Props.C80_real_data_returns",
    "Props.C80_unlisted_raises"
   ],
   "note": "No constants; calls of distinct objects of exactly the types of the parameters."
  },
  {
   "property": "C81",
   "status": "proved",
   "theorems": [
    "Props.C81_same_as_conditional_sam"
   ],
   "note": ""
  },
  {
   "property": "C82",
   "status": "proved",
   "theorems": [
    "Props.C82_universal_effects",
    "Props.C82_true_antecedent_possible"
   ],
   "note": ""
  },
  {
   "property": "C83",
   "status": "proved",
   "theorems": [
    "Props.C83_applicable",
    "Props.C83_no_spurious_effect",
    "Props.C83_no_spurious_effect_unambiguous",
    "Props.UniCase.C83_needs_condition"
   ],
   "note": "Condition on nested literals shown necessary by the last theorem."
  },
  {
   "property": "C84",
   "status": "partial",
   "theorems": [
    "Props.C84_exact_partial",
    "Props.C84_added_preconditions",
    "Props.UniCase.C84_needs_one_precondition",
    "Props.UniCase.C84_needs_listed_type"
   ],
   "note": "False of the code in general; proved under (1) no ambiguous literal over the parameters, (2) at most one universal precondition, (3) results seen or never undone, (4) covered types."
  },
  {
   "property": "C85",
   "status": "partial",
   "theorems": [
    "Props.C85_observed_states_accepted_partial",
    "Props.C85_observed_transitions_reproduced_partial",
    "Props.C85_observed_state_rejected",
    "Props.C85_observed_transition_not_reproduced"
   ],
   "note": "False of the code in general: an observed state may be rejected, an observed transition not reproduced."
  },
  {
   "property": "C86",
   "status": "proved",
   "theorems": [
    "Props.C86_returns_iff",
    "Props.C86_counts",
    "Props.C86_ok_iff",
    "Props.first_claim_decides",
    "Props.empty_portfolio_raises",
    "Props.no_observations_raises"
   ],
   "note": "Processes, VAL and the glob are parameters."
  },
  {
   "property": "C87",
   "status": "proved",
   "theorems": [
    "Props.C87_partition",
    "Props.C87_expert"
   ],
   "note": ""
  },
  {
   "property": "C88",
   "status": "proved",
   "theorems": [
    "Props.C88_percentages",
    "Props.C88_expert_percentages"
   ],
   "note": "Rationals for Python floats."
  },
  {
   "property": "C89",
   "status": "proved",
   "theorems": [
    "Props.C89_history",
    "Props.C89_current",
    "Props.C89_triplets",
    "Props.C89_triplets_first_path"
   ],
   "note": "Given files instead of observations, only the first file is counted (C89_triplets_first_path)."
  },
  {
   "property": "C90",
   "status": "proved",
   "theorems": [
    "Props.C90_enhsp",
    "Props.C90_fast_downward",
    "Props.C90_answers",
    "Props.C90_metric_ff",
    "Props.C90_fast_downward_plan",
    "Props.C90_enhsp_outcome",
    "Props.C90_fast_downward_code"
   ],
   "note": "Which sentences occur in a process output is a parameter."
  },
  {
   "property": "C91",
   "status": "proved",
   "theorems": [
    "Props.C91_always_raises",
    "Props.C91_empty_returns"
   ],
   "note": ""
  },
  {
   "property": "C92",
   "status": "proved",
   "theorems": [
    "Props.C92_groups",
    "Props.C92_representative",
    "Props.C92_unselected_kept",
    "Props.C92_empty",
    "Props.C92_representative_not_first",
    "Props.C92_rewrite_drops",
    "Props.C92_rewrite_constant",
    "Props.C92_pair"
   ],
   "note": "scipy DisjointSet modelled by its root map."
  },
  {
   "property": "C93",
   "status": "proved",
   "theorems": [
    "Props.C93_clauses_sound",
    "Props.C93_truth_is_model",
    "Props.C93_effects_exact"
   ],
   "note": "About the algorithm with the two ill-formed calls repaired (C91); nnf by the meaning of its functions on formulas without negation."
  },
  {
   "property": "C94",
   "status": "proved",
   "theorems": [
    "Props.C94_equals_sam",
    "Props.C94_safe"
   ],
   "note": "As C93. Inequality preconditions are not part of the comparison."
  },
  {
   "property": "C95",
   "status": "proved",
   "theorems": [
    "Props.C95_returns_iff",
    "Props.C95_two_proxies",
    "Props.C95_no_proxy",
    "Props.C95_spurious_effect",
    "Props.C95_lost_effect",
    "Props.C95_hard_raises",
    "Props.C95_failed_component_unsafe"
   ],
   "note": "As C93."
  },
  {
   "property": "C96",
   "status": "proved",
   "theorems": [
    "Props.Walk.C96_random_walk",
    "Props.Walk.C96_no_actions",
    "Props.Walk.C96_limit_false_step",
    "Props.Walk.C96_legal_actions"
   ],
   "note": "Randomness and operators are parameters."
  },
  {
   "property": "C97",
   "status": "proved",
   "theorems": [
    "Props.Dummy.C97_insertion",
    "Props.Dummy.C97_drawn",
    "Props.Dummy.C97_limit_returned"
   ],
   "note": "Randomness is a parameter."
  },
  {
   "property": "C98",
   "status": "proved",
   "theorems": [
    "Props.Fault.C98_observation",
    "Props.Fault.C98_locates",
    "Props.Fault.C98_no_false_alarm",
    "Props.Fault.validate_iff",
    "Props.Fault.Case.C98_limit_small_difference",
    "Props.Fault.Case.C98_limit_extra_facts"
   ],
   "note": "Operator.apply is a parameter. Without the conditions an innocent action may be blamed (limits)."
  },
  {
   "property": "C99",
   "status": "proved",
   "theorems": [
    "Props.Fault.C99_execution",
    "Props.Fault.C99_no_fault",
    "Props.Fault.C99_log",
    "Props.Fault.Case.C99_limit_locator",
    "Props.Fault.C99_locate_iff",
    "Props.Fault.C99_outcome"
   ],
   "note": "VAL and the glob are parameters; \\w on ASCII."
  },
  {
   "property": "C100",
   "status": "proved",
   "theorems": [
    "Props.Fault.C100_only_that_action",
    "Props.Fault.C100_unlearned",
    "Props.Fault.C100_repaired_safe"
   ],
   "note": "Numeric contracts as in C62, full-rank or projected branch; domains with numeric functions."
  },
  {
   "property": "C101",
   "status": "proved",
   "theorems": [
    "Props.Triplets.C101_pieces",
    "Props.Triplets.C101_zero_raises",
    "Props.Triplets.C101_same_model",
    "Props.Triplets.C101_curve_safe",
    "Props.Triplets.C101_curve_monotone"
   ],
   "note": "Negative sizes not modelled. Safety under the hypotheses of C01 and C02."
  },
  {
   "property": "C102",
   "status": "proved",
   "theorems": [
    "Props.Triplets.C102_defined_iff",
    "Props.Triplets.C102_exact",
    "Props.Triplets.C102_members",
    "Props.Triplets.C102_same_model",
    "Props.Triplets.C102_safe",
    "Props.Triplets.C102_ratio_raises"
   ],
   "note": "Same model for domains without constants."
  },
  {
   "property": "C103",
   "status": "proved",
   "theorems": [
    "Props.Triplets.C103_exact",
    "Props.Triplets.C103_fits_iff",
    "Props.Triplets.C103_zero_raises",
    "Props.Triplets.C103_rounds"
   ],
   "note": "int(size * 0.8) in exact arithmetic."
  },
  {
   "property": "C104",
   "status": "proved",
   "theorems": [
    "Props.Results.C104_names_distinct",
    "Props.Results.C104_same_names",
    "Props.Results.C104_missing_raises",
    "Props.Results.C104_collects",
    "Props.Results.C104_runs_kept",
    "Props.Results.C104_numeric_complete",
    "Props.Results.C104_triplets_repeated",
    "Props.Results.C104_semantic_triplets_missing",
    "Props.Results.C104_multi_agent_raises"
   ],
   "note": "csv assumed to read back what it wrote; the columns are assumed distinct and different from fold."
  },
  {
   "property": "C105",
   "status": "proved",
   "theorems": [
    "Props.OnlineResults.C105_columns",
    "Props.OnlineResults.C105_verdicts",
    "Props.OnlineResults.C105_glob",
    "Props.OnlineResults.C105_rows",
    "Props.OnlineResults.C105_labels",
    "Props.OnlineResults.C105_mean",
    "Props.OnlineResults.C105_solving_labels"
   ],
   "note": "Only the columns the collector uses are modelled; plots are not. The table is stated for one algorithm."
  },
  {
   "property": "C106",
   "status": "proved",
   "theorems": [
    "Props.Joint.C106_actions",
    "Props.Joint.C106_nop",
    "Props.Joint.C106_counts",
    "Props.Joint.C106_rate"
   ],
   "note": "White space and case of ASCII; lines as the planner writes them (white space between the actions, no brackets within them); rounding of the printed number not modelled."
  },
  {
   "property": "C107",
   "status": "proved",
   "theorems": [
    "Props.CrossVal.C107_complete",
    "Props.CrossVal.C107_crash",
    "Props.CrossVal.C107_no_folds",
    "Props.CrossVal.C107_combined_raises"
   ],
   "note": "Learning, solving and evaluation of a fold are parameters that return rows or raise; the results directory is empty at the start."
  },
  {
   "property": "C108",
   "status": "proved",
   "theorems": [
    "Props.OnlineDomain.C108_actions",
    "Props.OnlineDomain.C108_raises",
    "Props.OnlineDomain.C108_missing",
    "Props.OnlineDomain.C108_optimistic",
    "Props.OnlineDomain.C108_safe",
    "Props.OnlineDomain.C108_order",
    "Props.OnlineDomain.C108_true_accepted"
   ],
   "note": "Numeric libraries by the contracts of C76, C78 and C79; Precondition.add_condition by the contract AddOK; requirements of the domain not modelled."
  },
  {
   "property": "C109",
   "status": "proved",
   "theorems": [
    "Props.OnlineSafety.C109_step",
    "Props.OnlineSafety.C109_plan"
   ],
   "note": "Numeric libraries by the contracts of C76 and C79 in exact arithmetic; no learned scale-down effect; the exact hull (plain); substitutions injective on the vocabulary; an action without successes has some predicate with its negation in its vocabulary."
  },
  {
   "property": "C110",
   "status": "proved",
   "theorems": [
    "Props.OnlineTraining.C110_learned",
    "Props.OnlineTraining.C110_plan",
    "Props.OnlineTraining.C110_failures"
   ],
   "note": "Numeric libraries by the contracts of C76 and C79 on the successes, in exact arithmetic; no learned scale-down effect; the exact hull (plain). The matching of the lifted functions is a parameter that gives every function of the action its value (C60)."
  },
  {
   "property": "C111",
   "status": "proved",
   "theorems": [
    "Props.IncNumSam.C111_precondition_is_hull",
    "Props.IncNumSam.C111_safe",
    "Props.IncNumSam.C111_same_as_batch",
    "Props.IncNumSam.C111_returned_actions",
    "Props.IncNumSam.Case.C111_limit_hull_error"
   ],
   "note": "Same contracts as C62 and C76 (exact arithmetic, printable coefficients, plain hull, no learned scale-down). An exception of Qhull while an observation is added ends the call (C111_limit_hull_error), so nothing is claimed then."
  },
  {
   "property": "C112",
   "status": "proved",
   "theorems": [
    "Props.Session.C112_semi_faithful",
    "Props.Session.C112_noam_faithful",
    "Props.Session.C112_semi_safe",
    "Props.Session.C112_noam_safe"
   ],
   "note": "With the contracts of C110 for the numeric libraries on what was observed, calls without repeated objects in the plans, and trajectory files that are parsed as they were exported. Nothing is claimed about runs that end with an exception of Qhull or of the model construction."
  },
  {
   "property": "C113",
   "status": "proved",
   "theorems": [
    "Props.FaultGen.C113_one_fault",
    "Props.FaultGen.C113_returns",
    "Props.FaultGen.C113_sign",
    "Props.FaultGen.C113_value",
    "Props.FaultGen.C113_removed",
    "Props.FaultGen.C113_effect",
    "Props.FaultGen.C113_detected"
   ],
   "note": "Values and effects: the way to the rightmost leaf goes through sums (sums and differences for effects); outside the amount can vanish (example with a product by 0). Exact arithmetic. The attributes numeric_preconditions and positive_preconditions are those the file uses; the pinned parser version renamed them."
  },
  {
   "property": "C114",
   "status": "proved",
   "theorems": [
    "Props.Cluster.C114_first",
    "Props.Cluster.C114_again",
    "Props.Cluster.C114_submitted",
    "Props.Cluster.C114_unknown_version",
    "Props.Cluster.C114_submitted_multi",
    "Props.Cluster.C114_job",
    "Props.Cluster.C114_override",
    "Props.Cluster.C114_unknown_entry",
    "Props.Cluster.C114_triplets_job",
    "Props.Cluster.C114_folders_job"
   ],
   "note": "Files are named by stems and all copied files exist; abbreviated options of argparse are not modelled; what the queue shows is an argument (number of resubmissions)."
  },
  {
   "property": "C115",
   "status": "proved",
   "theorems": [
    "Props.TrajectoryFiles.C115_complete",
    "Props.TrajectoryFiles.C115_rerun",
    "Props.TrajectoryFiles.C115_resume",
    "Props.TrajectoryFiles.C115_history",
    "Props.TrajectoryFiles.C115_kept",
    "Props.TrajectoryFiles.C115_failed",
    "Props.TrajectoryFiles.C115_ma_history",
    "Props.TrajectoryFiles.C115_ma_complete"
   ],
   "note": "What the library makes of a problem and a plan (text, refusal, other exception) is an argument; the random numbers of the multi-agent creator may differ in every run. A crash leaves some files written and of the next one any first part."
  },
  {
   "property": "C116",
   "status": "proved",
   "theorems": [
    "Props.PlanMiner.C116_lines",
    "Props.PlanMiner.C116_states",
    "Props.PlanMiner.C116_state",
    "Props.PlanMiner.C116_read",
    "Props.PlanMiner.C116_existing"
   ],
   "note": "How the library writes atoms, functions and calls is an argument. The conversion of the domain (parameter names) is library code and not modelled. upper() on ASCII."
  },
  {
   "property": "C117",
   "status": "proved",
   "theorems": [
    "Props.Plans.C117_plans_correct",
    "Props.Plans.C117_all_plans_correct",
    "Props.Plans.C117_soft_plans_correct",
    "Props.Plans.C117_recorded_plans",
    "Props.Plans.C117_validation",
    "Props.Plans.C117_expert_plans",
    "Props.Plans.C117_multi_agent_plans",
    "Props.Plans.C117_multi_agent_validation",
    "Props.Plans.C117_repeated_objects_unsafe",
    "Props.Plans.C117_soft_unsafe"
   ],
   "note": "The planners and VAL are arguments; the hypothesis Evaluated says what is assumed of them."
  },
  {
   "property": "C118",
   "status": "proved",
   "theorems": [
    "Props.NumPlans.C118_step",
    "Props.NumPlans.C118_plans_correct",
    "Props.NumPlans.C118_observed_step",
    "Props.NumPlans.C118_recorded_plans",
    "Props.NumPlans.C118_validation"
   ],
   "note": "Planners and VAL are arguments (hypothesis Evaluated). Exact arithmetic as in C62."
  },
  {
   "property": "C119",
   "status": "proved",
   "theorems": [
    "Props.Jobs.C119_inputs_unchanged",
    "Props.Jobs.C119_finished",
    "Props.Jobs.C119_raised",
    "Props.Jobs.C119_files",
    "Props.Jobs.C119_schedule_independent",
    "Props.Jobs.C119_ends",
    "Props.Jobs.C119_recovers",
    "Props.Jobs.Case.C119_killed_truncates",
    "Props.Jobs.Case.C119_same_job_unsafe",
    "Props.Jobs.Case.C119_shared_machine_unsafe",
    "Props.Jobs.Case.C119_backups_collide",
    "Props.Jobs.C119_cleared",
    "Props.Jobs.C119_undisturbed",
    "Props.Jobs.C119_backup_names"
   ],
   "note": "Learners, planners, VAL and the calculators are functions of the files they read; PlanMiner and the triplets experiments are not modelled. A write proceeds character by character."
  },
  {
   "property": "C120",
   "status": "proved",
   "theorems": [
    "Props.WorkingDir.C120_absolute",
    "Props.WorkingDir.C120_relative_aborts",
    "Props.WorkingDir.C120_default_fast_downward",
    "Props.WorkingDir.C120_default_metric_ff",
    "Props.WorkingDir.C120_relative_metric_ff"
   ],
   "note": "Paths have no .. and no links; whether a planner solves a problem is given; ENHSP is one attempt."
  },
  {
   "property": "C121",
   "status": "proved",
   "theorems": [
    "Props.MacroPlans.C121_decoded_file",
    "Props.MacroPlans.C121_order_iff",
    "Props.MacroPlans.C121_plans_correct",
    "Props.MacroPlans.C121_validation",
    "Props.MacroPlans.C121_blank_line",
    "Props.MacroPlans.Case.C121_order_matters"
   ],
   "note": "Hypotheses of C54 (good joint data, no constants, no shared parameter names within a macro, effects with arguments) and: macro names are pairwise different and not action names, actions have parameters (else decoding drops them, C39). Planners and VAL are arguments."
  },
  {
   "property": "C122",
   "status": "proved",
   "theorems": [
    "Props.Curve.C122_plans_kept",
    "Props.Curve.C122_semantic",
    "Props.Curve.C122_syntactic",
    "Props.Curve.C122_rounds",
    "Props.Curve.C122_curve",
    "Props.Curve.C122_returns_iff",
    "Props.Curve.C122_job_sizes"
   ],
   "note": "Real data: each transition is explained by the true schema and has no constants as objects when its objects are distinct. The planner and VAL are arguments."
  },
  {
   "property": "C123",
   "status": "proved",
   "theorems": [
    "Props.MaCurve.C123_preconditions",
    "Props.MaCurve.C123_alone_returned",
    "Props.MaCurve.C123_dominates_baseline",
    "Props.MaCurve.C123_plans_kept",
    "Props.MaCurve.Case.C123_curve_can_sink",
    "Props.MaCurve.C123_job_rounds",
    "Props.MaCurve.C123_job_curve",
    "Props.MaCurve.C123_job_baseline"
   ],
   "note": "Good joint data as in C22 (distinct actions per joint action, the last call covers the visible effects); C123_preconditions needs only calls of the right length, C123_alone_returned nothing."
  },
  {
   "property": "C124",
   "status": "proved",
   "theorems": [
    "Props.Evaluation.C124_data",
    "Props.Evaluation.C124_separate",
    "Props.Evaluation.C124_again",
    "Props.Evaluation.C124_stale",
    "Props.Evaluation.C124_iteration_one",
    "Props.Evaluation.C124_missing_file"
   ],
   "note": "File contents are abstract; the walks succeed where data are claimed; the domain file name does not begin with the prefix; with internal iterations."
  },
  {
   "property": "C125",
   "status": "proved",
   "theorems": [
    "Props.NumCurve.C125_conditions",
    "Props.NumCurve.C125_step",
    "Props.NumCurve.C125_plans_kept",
    "Props.NumCurve.C125_incremental_step",
    "Props.NumCurve.C125_incremental_plans_correct",
    "Props.NumCurve.C125_same_steps",
    "Props.NumCurve.C125_same_plans",
    "Props.NumCurve.Case.C125_limit_lost"
   ],
   "note": "Same hypotheses as C62/C118 (Fits) and C111 (FitsInc) for the actions returned; the condition that the actions are still returned is needed (C125_limit_lost)."
  },
  {
   "property": "C126",
   "status": "proved",
   "theorems": [
    "Props.CondPlans.C126_plans_correct",
    "Props.CondPlans.C126_first_call",
    "Props.CondPlans.C126_recorded_plans",
    "Props.CondPlans.C126_validation",
    "Props.CondPlans.C126_universal_plans_correct",
    "Props.CondPlans.C126_universal_validation",
    "Props.CondPlans.Case.C126_needs_settled"
   ],
   "note": "Restrictions (settled actions) are those of C48/C84, each shown necessary there; C126_needs_settled gives a plan that fails."
  },
  {
   "property": "C127",
   "status": "proved",
   "theorems": [
    "Props.PlanMinerRun.C127_own_output",
    "Props.PlanMinerRun.C127_undisturbed",
    "Props.PlanMinerRun.C127_failure_cause",
    "Props.PlanMinerRun.C127_timeout_ends_all",
    "Props.PlanMinerRun.C127_timeout_answer",
    "Props.PlanMinerRun.C127_can_return",
    "Props.PlanMinerRun.C127_absolute",
    "Props.PlanMinerRun.C127_relative_miner",
    "Props.PlanMinerRun.C127_relative_workdir",
    "Props.PlanMinerRun.Case.C127_other_job_fails",
    "Props.PlanMinerRun.C127_output_moved"
   ],
   "note": "Output names (with a uuid) are assumed distinct; a kill is immediate; PlanMiner is given by the successive contents of its output file."
  },
  {
   "property": "C128",
   "status": "proved",
   "theorems": [
    "Props.UniReplay.C128_observed_states_accepted",
    "Props.UniReplay.C128_observed_transitions_reproduced",
    "Props.UniReplay.C128_needs_other_objects",
    "Props.UniReplay.C128_needs_exact_types",
    "Props.UniReplay.C128_needs_unambiguous",
    "Props.UniReplay.C128_needs_one_precondition",
    "Props.UniReplay.C128_needs_listed_types"
   ],
   "note": "Condition (3) shows an asymmetry of the code: universal preconditions are learned from objects of exactly the type outside the call, but quantify over all objects of the type and its subtypes, those of the call included."
  },
  {
   "property": "C129",
   "status": "proved",
   "theorems": [
    "Props.OnlineEvaluation.C129_row",
    "Props.OnlineEvaluation.C129_files",
    "Props.OnlineEvaluation.C129_raises",
    "Props.OnlineEvaluation.C129_fresh",
    "Props.OnlineEvaluation.C129_labels",
    "Props.OnlineEvaluation.C129_domains_counted",
    "Props.OnlineEvaluation.C129_safe_row"
   ],
   "note": "The lessons are those of C110; the semantic measures of a domain are opaque here (C65 and following)."
  },
  {
   "property": "C130",
   "status": "proved",
   "theorems": [
    "Props.MaDatasets.C130_files",
    "Props.MaDatasets.C130_states",
    "Props.MaDatasets.C130_goals",
    "Props.MaDatasets.C130_goal_missed",
    "Props.MaDatasets.C130_executable",
    "Props.MaDatasets.C130_succeeds"
   ],
   "note": "Combining problems, reading plans and executing them are the library (arguments); that it executes plans as real joint transitions is a hypothesis (Executes). The export of the two domains is left out; the dummy actions in them are taken from tests/examples/driverlog_combined_domain.pddl:52-62."
  },
  {
   "property": "C131",
   "status": "proved",
   "theorems": [
    "Props.Submission.C131_order",
    "Props.Submission.C131_once",
    "Props.Submission.C131_all",
    "Props.Submission.C131_wait_ends",
    "Props.Submission.C131_waits",
    "Props.Submission.C131_numeric_plan",
    "Props.Submission.Case.C131_queue_fails",
    "Props.Submission.Case.C131_file_shared",
    "Props.Submission.C131_multi_plan"
   ],
   "note": "Slurm is an event system: a job is pending, running or ended. Sleeping and printing are left out. That the runs are pairwise different is a hypothesis, shown for the numeric runner by C131_numeric_plan and for the multi-agent runner by C131_multi_plan."
  },
  {
   "property": "C132",
   "status": "proved",
   "theorems": [
    "Props.Pipeline.C132_plans_correct",
    "Props.Pipeline.C132_readable",
    "Props.Pipeline.C132_broken"
   ],
   "note": "Composition of the models of the trajectory creator (C115), of the collection of observations and of SAM (C117). The exporter and the parser are arguments; the hypothesis about them is stated as Faithful."
  },
  {
   "property": "C133",
   "status": "proved",
   "theorems": [
    "Props.Plots.C133_average",
    "Props.Plots.C133_range",
    "Props.Plots.C133_stack",
    "Props.Plots.C133_order"
   ],
   "note": "Means are exact rationals; colours and axes are not modelled."
  },
  {
   "property": "C134",
   "status": "proved",
   "theorems": [
    "Props.SolvingPlots.C134_points",
    "Props.SolvingPlots.C134_band",
    "Props.SolvingPlots.C134_repeated",
    "Props.SolvingPlots.C134_nsam",
    "Props.SolvingPlots.C134_solo",
    "Props.SolvingPlots.C134_masam",
    "Props.SolvingPlots.C134_numeric_collector",
    "Props.SolvingPlots.C134_legend_texts_distinct"
   ],
   "note": "pd.read_csv is an argument; the collector theorem assumes that it reads the name of the algorithm a run has written (Reads)."
  },
  {
   "property": "C135",
   "status": "proved",
   "theorems": [
    "Props.Certificate.C135_flag",
    "Props.Certificate.C135_observations",
    "Props.Certificate.C135_conditions",
    "Props.Certificate.C135_unique",
    "Props.Certificate.C135_exact",
    "Props.Certificate.Case.C135_limit_rounding",
    "Props.Certificate.Case.C135_limit_uncertified",
    "Props.Certificate.Case.C135_limit_small_factor"
   ],
   "note": "Arithmetic is exact; the number of pivots of the reduced row echelon form is the rank. Effects of kind scale-down are excluded in C135_exact (see C58)."
  },
  {
   "property": "C136",
   "status": "proved",
   "theorems": [
    "Props.SolverJobs.C136_noninterference",
    "Props.SolverJobs.C136_moment_metric_ff",
    "Props.SolverJobs.C136_moment_fast_downward",
    "Props.SolverJobs.C136_moment_enhsp",
    "Props.SolverJobs.C136_metric_ff",
    "Props.SolverJobs.C136_metric_ff_clean",
    "Props.SolverJobs.C136_metric_ff_ok",
    "Props.SolverJobs.C136_fast_downward",
    "Props.SolverJobs.C136_enhsp",
    "Props.SolverJobs.C136_ends",
    "Props.SolverJobs.C136_submitted",
    "Props.SolverJobsCase.C136_cut_plan",
    "Props.SolverJobsCase.C136_stale",
    "Props.SolverJobsCase.C136_killed"
   ],
   "note": "The planners and MetricFFParser are arguments. Directories exist and are writable; SAS files have uuid names and are left out; only solver jobs of the scripts count for pkill."
  },
  {
   "property": "C137",
   "status": "proved",
   "theorems": [
    "Props.EsamProxy.C137_construct_iff",
    "Props.EsamProxy.C137_signature",
    "Props.EsamProxy.C137_call",
    "Props.EsamProxy.C137_argument_lost",
    "Props.EsamProxy.C137_safe",
    "Props.EsamProxy.C137_merged_safe",
    "Props.EsamProxy.C137_stored",
    "Props.EsamProxy.C137_decode_raises",
    "Props.EsamProxy.C137_decode_unpacks",
    "Props.EsamProxy.C137_encode",
    "Props.EsamProxy.Case.C137_proxy_unsafe",
    "Props.EsamProxy.Case.C137_name_taken"
   ],
   "note": "Line 322 is read as if self.encoders[action_name] were a list (in the pinned commit it raises KeyError, C95); everything else is the code of the file. Safety is for policies other than hard and for true preconditions whose arguments are different objects in the observed calls."
  },
  {
   "property": "C138",
   "status": "proved",
   "theorems": [
    "Props.Dnf.C138_combinations",
    "Props.Dnf.C138_order",
    "Props.Dnf.C138_minimise",
    "Props.Dnf.C138_raises",
    "Props.Dnf.C138_symbols",
    "Props.Dnf.C138_negative_assumption",
    "Props.Dnf.C138_not_prefix"
   ],
   "note": "sympy (simplify_logic, printing) and the Lark parser are one argument that gives a constant or a formula with the value of the expression (contract Simplifies, met by simplifies_plain). Literals of expressions are printed literals whose predicate names do not begin with not."
  },
  {
   "property": "C139",
   "status": "proved",
   "theorems": [
    "Props.SamOptimal.C139_learned_is_candidate",
    "Props.SamOptimal.C139_preconditions",
    "Props.SamOptimal.C139_effects",
    "Props.SamOptimal.C139_possible_effects",
    "Props.SamOptimal.C139_accepts_iff",
    "Props.SamOptimal.C139_most_permissive",
    "Props.SamOptimal.C139_safe",
    "Props.SamOptimal.C139_repeated_objects_unused"
   ],
   "note": "Default policy (negative preconditions kept). Transitions with repeated objects are not part of the candidate condition because the learner ignores them; C139_repeated_objects_unused is a case where a repeated-object transition would exclude a candidate. Objects of calls are not constants of the domain."
  },
  {
   "property": "C140",
   "status": "proved",
   "theorems": [
    "Props.NumOptimal.C140_batch",
    "Props.NumOptimal.C140_incremental",
    "Props.NumOptimal.C140_numeric_precondition_exact",
    "Props.NumOptimal.C140_incremental_precondition_exact",
    "Props.NumOptimal.C140_accepts_iff"
   ],
   "note": "Same contracts as C55, C70, C76, C111 (exact arithmetic, qhull and the fit of linear dependencies as arguments). Uses a proof of the Farkas lemma over ordered fields."
  },
  {
   "property": "C141",
   "status": "proved",
   "theorems": [
    "Props.CnfExact.C141_units_are_certain",
    "Props.CnfExact.C141_excluded",
    "Props.CnfExact.C141_extracted_effects",
    "Props.CnfExact.C141_safe_iff_determined",
    "Props.CnfExact.C141_unsafe_is_ambiguous",
    "Props.CnfExact.C141_needs_distinct_actions",
    "Props.CnfExact.C141_order_of_agents"
   ],
   "note": "Reports do not repeat a pair (as in C21). C141_needs_distinct_actions: with an action twice in a report is_action_safe is true for an open effect. C141_order_of_agents: MA-SAM itself is not exact."
  },
  {
   "property": "C142",
   "status": "proved",
   "theorems": [
    "Props.SamConverge.C142_changes",
    "Props.SamConverge.C142_converges",
    "Props.SamConverge.C142_mistakes",
    "Props.SamConverge.C142_bound_attained"
   ],
   "note": "Every policy for negative preconditions; no parameter bound to a constant (as in C01, C139)."
  },
  {
   "property": "C143",
   "status": "proved",
   "theorems": [
    "Props.OnlineBound.C143_open_attempts",
    "Props.OnlineBound.C143_open_successes",
    "Props.OnlineBound.C143_eventually_predicted",
    "Props.OnlineBound.C143_bounds_attained"
   ],
   "note": ""
  },
  {
   "property": "C144",
   "status": "proved",
   "theorems": [
    "Props.SamPac.C144_leave_one_out",
    "Props.SamPac.C144_error_bound",
    "Props.SamPac.C144_pac",
    "Props.SamPac.C144_solves"
   ],
   "note": "Every policy for negative preconditions; no parameter bound to a constant. The distribution is any probability measure; the sample is the product measure."
  },
  {
   "property": "C145",
   "status": "proved",
   "theorems": [
    "Props.NumGeneral.C145_refused_are_vertices",
    "Props.NumGeneral.C145_single_function"
   ],
   "note": "Exact arithmetic and the contracts of C55/C70; the case of a single function needs no contract."
  },
  {
   "property": "C146",
   "status": "proved",
   "theorems": [
    "Props.SamMean.C146_mean_error",
    "Props.SamMean.C146_markov",
    "Props.SamMean.C146_numeric_mean",
    "Props.SamMean.C146_numeric_pac",
    "Props.SamMean.C146_parabola",
    "Props.SamMean.C146_two_functions",
    "Props.SamMean.C146_numeric_error"
   ],
   "note": "Calls with distinct objects, as C144. Numeric part: exact real arithmetic; for two functions the contracts of C55/C70, and the hypotheses are shown to be met for two observations."
  },
  {
   "property": "C147",
   "status": "proved",
   "theorems": [
    "Props.NumEffectsGeneral.C147_exact_on_affine",
    "Props.NumEffectsGeneral.C147_leave_one_out",
    "Props.NumEffectsGeneral.C147_mistake_bound",
    "Props.NumEffectsGeneral.C147_mean_error"
   ],
   "note": "Exact arithmetic and the regression contract of C58, coefficients that survive printing; the probability bound is for distributions for which being wrong is an event (all on countable spaces)."
  },
  {
   "property": "C148",
   "status": "proved",
   "theorems": [
    "Props.NumSamGeneral.C148_leave_one_out",
    "Props.NumSamGeneral.C148_mean_error",
    "Props.NumSamGeneral.refused_cases",
    "Props.NumSamGeneral.C148_error_bound",
    "Props.NumSamGeneral.C148_pac"
   ],
   "note": "Setting of C62/C140: exact arithmetic, library contracts, calls with distinct objects. The probability bound is for distributions for which being refused is an event (all on countable spaces)."
  },
  {
   "property": "C149",
   "status": "proved",
   "theorems": [
    "Props.IncSamGeneral.C149_leave_one_out",
    "Props.IncSamGeneral.C149_error_bound",
    "Props.IncSamGeneral.C149_pac",
    "Props.IncSamGeneral.refused_cases"
   ],
   "note": "Setting of C111/C140: exact arithmetic, library contracts, calls with distinct objects; every set of trajectories is an event."
  },
  {
   "property": "C150",
   "status": "proved",
   "theorems": [
    "Props.MaGeneral.C150_leave_one_out",
    "Props.MaGeneral.C150_error_bound",
    "Props.MaGeneral.C150_pac",
    "Props.MaGeneral.errs_shows"
   ],
   "note": "Setting of C22: good joint data without constants. Whether an action is returned is not covered: C123_curve_can_sink shows that more data may drop one. Every set of trajectories is an event."
  }
 ]
}
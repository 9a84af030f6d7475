c('C01','proved','Props.C01_preconditions_sufficient Props.C01_positive_preconditions_any_policy Props.C01_constant_call_unsafe Props.C01_soft_policy_unsafe','Default policy; calls that bind a parameter to a constant excluded (GoodData.noConst) - the last two theorems are kernel-checked counterexamples showing both restrictions are necessary.')
c('C02','proved','Props.C02_effects_exact Props.C02_effects_exact_soft Props.C02_hard_policy_unsafe','Default and soft policy; counterexample for hard.')
c('C03','proved','Props.C03_reproduces_observations','')
c('C04','proved','Props.C04_no_spurious_effects Props.C04_constant_call_spurious','Proved for calls not binding parameters to constants; the second theorem is the counterexample otherwise.')
c('C05','proved','Props.C05_order_irrelevant Props.C05_success_irrelevant Props.C05_constants_order_matters Props.C05_order_irrelevant_constants','Any data without constants; real data that binds no parameter to a constant in general; counterexample otherwise.')
c('C06','proved','Props.C06_monotone Props.C06_preconditions_shrink Props.C06_monotone_constants Props.C06_constant_call_effects_shrink','Any data without constants; with constants the preconditions part for any data and everything for real data that binds no parameter to a constant; counterexample otherwise.')
c('C07','proved','Props.C07_unobserved_never_applicable Props.C07_empty_vocabulary_applicable Props.C07_hard_policy_applicable','Needs one well-typed literal over the parameters and the default policy; both shown necessary.')
c('C08','proved','Props.C08_failures_ignored Props.C08_duplicates_ignored','')
c('C09','proved','Props.C09_policy_exact','')
c('C10','proved','Props.C10_inequalities_exact Props.C10_option_off','')
c('C11','proved','Props.C11_report_exact','Finding: this learner never reports OK.')
c('C12','proved','Props.C12_many_calls_safe Props.C12_calls_succeed_iff Props.C12_calls_equal Props.C12_calls_late Props.C12_calls_lost Props.C12_calls_inequalities Props.C12_two_calls_not_one Props.C12_inequalities_not_one','C12_calls_late and C12_calls_lost for the policy that keeps negative preconditions. Equality with learning at once without exceptions is false: C12_two_calls_not_one, C12_inequalities_not_one.')
c('C13','partial','Props.C13_inequalities_suffice_partial Props.C13_noninjective_safe_partial Props.C13_duplicate_call_unsafe Props.C13_subtype_unsafe Props.C01_constant_call_unsafe','False of the code in general (counterexamples); proved for every binding that separates the pairs the learned inequalities cannot speak about (different types, pairs a successful call bound to one object, constants).')
c('C14','proved','Props.C14_matches_exact Props.C14_matches_nodup Props.C14_matches_exact_extra','')
c('C15','proved','Props.C15_injective_match Props.C15_foreign_object Props.C15_returned_iff_unique','')
c('C16','proved','Props.C16_grounded_vocabulary','')
c('C17','proved','Props.C17_lifted_vocabulary','')
c('C18','proved','Props.C18_snapshot','')
c('C19','proved','Props.C19_effects_explain Props.C19_not_effects','')
c('C20','proved','Props.C20_grounded_actions','')
c('C45','proved','Props.C45_lifted_snapshot','')
c('C21','proved','Props.C21_not_effects_exact Props.C21_clauses_exact Props.C21_extracted_effects_true Props.C21_safe_action_decided Props.C21_repeated_pair_survives','Clauses without repeated pairs; the last theorem shows the restriction is necessary.')
c('C22','partial','Props.C22_returned_actions_safe_partial Props.C22_single_agent_safe_partial Props.C22_no_spurious_effects_partial Props.C22_uncovered_unsafe Props.C22_repeated_action_unsafe Props.C22_constants_unsafe Props.C22_constants_crash','False of the code in general (three kernel-checked unsafe runs and a crash); proved for domains without constants when joint actions do not repeat an action and the last one covers the visible effects.')
c('C23','proved','Props.C23_minimise Props.C23_minimise_literals Props.C23_empty_clause Props.C23_hyphen_crash Props.C23_negate','Non-empty clauses of literals whose argument names have no hyphen and whose predicate name does not start with not; both restrictions shown necessary (empty clause dropped; AttributeError on hyphenated arguments).')
c('C24','proved','Props.C24_flip Props.C24_flip_negative Props.C24_not_prefix','Names starting with not excluded; counterexample proved.')
c('C25','proved','Props.C25_roundtrip Props.C25_unknown_argument Props.C25_show_injective Props.C25_named_not Props.C25_repeated_argument','Distinct arguments, predicate not named not; counterexamples proved.')
c('C27','proved','Props.C27_candidates Props.C27_removal Props.C27_preconditions','')
c('C28','proved','Props.C28_restrictive_exact','Exact characterisation; add_condition is a parameter with an assumed meaning (AddOK).')

c('C26','proved','Props.C26_true_antecedent_kept Props.C26_candidates_exact','Also the exact set of candidates after every history.')
c('C29','partial','Props.C29_determined_effect_returned_partial Props.C29_restrictive_effect_lost','The claim as stated is false of the code: effects of ambiguous literals are overwritten (second theorem); proved for determined literals.')
c('C46','proved','Props.C46_applicable','')
c('C47','proved','Props.C47_no_spurious_effect','')
c('C48','partial','Props.C48_exact_partial Props.C48_needs_restriction_1 Props.C48_needs_restriction_2 Props.C48_needs_restriction_3','False of the code in general (three refutations); proved under the three restrictions the refutations call for.')
c('C49','proved','Props.C49_total Props.C49_returned','')
c('C50','proved','Props.C50_success_flag_ignored Props.C50_failed_attempt_unsafe Props.C50_repeated_object_unsafe','')

c('C30','proved','Props.C30_safe_exact Props.C30_safe_precondition','')
c('C31','proved','Props.C31_not_applicable_exact Props.C31_clauses','')
c('C32','proved','Props.C32_optimistic_exact','add_condition is a parameter with an assumed meaning (AddOK).')
c('C33','proved','Props.C33_safe_effects Props.C33_optimistic_effects Props.C33_safe_next_state','')
c('C34','proved','Props.C34_C35_refines_bag Props.C34_positive_weight','Rational weights instead of floats; the random draw is an arbitrary argument.')
c('C35','proved','Props.C34_C35_refines_bag Props.C35_conserves','')
c('C36','proved','Props.C36_accounting Props.C36_trajectory Props.C36_paths Props.C36_unknown_action Props.C36_needs_distinct_keys Props.C36_file_label Props.C36_keys','Action names whose counters have distinct keys: so if the names differ and none begins with failed_due_to_ or unknown_failed_ (C36_keys); shown necessary.')
c('C51','proved','Props.C51_monotone Props.C51_past_attempts','')
c('C52','proved','Props.C52_attribution_sound Props.C52_discrete_verdicts Props.C52_conservation Props.C52_elimination_complete Props.C52_unknown_overcounted','The numeric model is a parameter assumed sound (HullSound). Finding: the counter of unknown failures overcounts.')
c('C53','proved','Props.C53_uninformative_determined Props.C53_applicable_sound','Same assumption on the numeric model.')
c('C37','proved','Props.C37_enumeration Props.C37_forward Props.C37_intended Props.C37_stuck','Finding: the comparison of observations raises from the third distinct observation on (C37_stuck), so the selection never passes the second set; C37_intended is about the comparison repaired.')
c('C38','proved','Props.C38_components','')
c('C39','proved','Props.C39_binding Props.C39_decode Props.C39_types Props.C39_parameterless_dropped Props.C39_name_collision Props.C39_incomparable_types','Findings: parameterless actions are dropped, group names may collide, incomparable types.')
c('C54','partial','Props.C54_macro_sound_partial Props.C54_macro_exact_partial Props.C54_macro_groups Props.C54_macro_names Props.C54_macros_reported Props.C54_single_actions Props.C54_macros_returned Props.C54_shared_parameter_unsafe Props.C54_collapsed_parameters','Proved on good joint data (as C22) without constants, for calls in which no constituent gets an object twice; the exact outcome for groups whose actions share no parameter names. Refuted otherwise (two refutations).')
c('C40','proved','Props.C40_nested_sum Props.C40_linear_expression_exact Props.C40_affine_expression_exact Props.C40_linear_expression_error Props.C40_expression_wellFormed Props.C40_limit_rounding Props.C40_limit_empty Props.C40_limit_dummy Props.C40_prettify','Exact for coefficients that survive printing; a general error bound otherwise. Text is modelled by expression trees, floats by an ordered field.')
c('C41','proved','Props.C41_non_circular_exact Props.C41_non_circular_defined','Exact arithmetic, coefficients that survive printing.')
c('C42','proved','Props.C42_monomials_complete Props.C42_monomials_distinct Props.C42_polynomial_value Props.C42_grounding','')
c('C43','proved','Props.C43_reduction_keeps_region Props.C43_eliminates Props.C43_limit_reintroduced','')
c('C44','proved','Props.C44_sample_size Props.C44_folds_exact Props.C44_disjoint_and_cover Props.C44_tested_once Props.C44_replay Props.C44_distributed Props.C44_limit_leftover_leaks Props.C44_limit_stale_folds','scikit-learn splits are a parameter with their documented contract (every index once). Limits: leftovers of an abandoned run, stale folds.')
c('C55','proved','Props.C55_precondition_is_hull Props.C55_safe_for_convex Props.C55_accepts_observations Props.C55_monotone','Exact arithmetic; Qhull and LinearRegression by their contracts; numbers that survive printing; data separated by more than the Gram-Schmidt tolerance (then the projection branch is unreachable).')
c('C56','proved','Props.C56_rounding_bounded Props.C56_dependency_excludes_observation','')
c('C57','proved','Props.C57_margin_region Props.C57_zero_margin Props.C57_margin_unsafe','')
c('C58','proved','Props.C58_effects_exact Props.C58_reproduces_observations Props.C58_frame Props.C58_limit_scale_down Props.C58_limit_small_coefficient','Exact arithmetic; LinearRegression by its contract; coefficients that survive printing; scale-down effects are excluded because they are wrong (C58_limit_scale_down).')
c('C59','proved','Props.C59_effects_found Props.C59_limit_unassigned Props.C59_limit_no_features','Exact arithmetic; LinearRegression by its contract (score one iff exact fit, best fit found).')
c('C60','proved','Props.C60_matches_exact Props.C60_defined Props.C60_vocabulary Props.C60_limit_missing_nullary','')
c('C61','proved','Props.C61_storage NumWorld.C61_limit_lost_point NumWorld.C61_limit_data_reset','')
c('C62','proved','Props.C62_numeric_model_safe Props.C62_limit_inequalities_dropped NumWorld.ineq_contrast NumWorld.move_safe','Exact arithmetic; Qhull and regression by contract; coefficients and facets that survive printing; full-rank or projected hull branch; scale-down effects excluded (C58_limit_scale_down).')
c('C63','proved','Props.C63_returned_actions Props.C63_effects_found NumWorld.C63_limit_no_functions Props.C63_missing_fluents','')
c('C64','proved','Props.C64_report Props.C64_perfect_iff Props.C64_domain Props.C64_sam Props.C64_limit_empty_learned Props.C64_limit_added_twice','Floats as rationals; untyped representations compared as literals.')
c('C65','proved','Props.C65_preconditions_metric Props.C65_bounds Props.C65_safe Props.C65_recall_monotone Props.C65_order Props.C65_sam Props.C65_limit_nothing_possible','VAL is a parameter.')
c('C66','proved','Props.C66_missing_effects_measured Props.C66_spurious_effects_invisible Props.C66_self_disabling_unmeasured Props.C66_foreign_action Props.EffCase.C66_limit_self_disabling','The behaviour of Operator.apply on inapplicable actions is a parameter with three values.')
c('C67','proved','Props.C67_joint_metric Props.C67_shared_blame Props.C67_exact_model Props.C67_export Props.C67_export_columns','The joint successor under the learned model is a parameter.')
c('C68','proved','Props.C68_error_of_a_run Props.C68_zero_iff Props.C68_mean_error Props.C68_rows_completed Props.C68_limit_same_key Props.C68_limit_never_applicable','The outcomes of the operators are parameters.')
c('C69','proved','Props.C69_rows Props.C69_row_fields Props.C69_history Props.C69_appearances','')
c('C70','proved','Props.C70_projected_precondition_is_hull Props.C70_close_points_not_safe','Exact arithmetic; Qhull and the norm by contract; basis, equations and facets that survive printing; well separated data; fewer fluents than 10^digits.')
c('C71','proved','Props.C71_execute_plan Props.C71_no_exception Props.C71_applicable_iff Props.C71_goal_exact Props.C71_limit_negative_goal Props.C71_limit_stale_value','Operator.apply is a parameter of the environment.')
c('C72','proved','Props.C72_semi_episode Props.C72_semi_verdict Props.C72_limit_counter_not_reset Props.C72_limit_initial_goal','')
c('C73','proved','Props.C73_noam_episode Props.C73_noam_verdict Props.C73_explorations_truthful Props.C73_selection Props.C73_selectors Props.C73_limit_always_starved Props.C73_recorded_steps Props.C73_goal_oriented_learns_all Props.C73_limit_success_not_learned Props.C73_window','')
c('C74','proved','Props.C74_actions_apart Props.C74_safe_step Props.C74_safe_plan Props.C74_safe_plan_executes Props.C74_no_unsafe_error Props.C74_lessons_honest Props.C74_limit_no_predicates','Numeric part by contract: sound hull test, right learned effects inside the hull. The vocabulary of every action must have a predicate; the limit theorem shows that the claim fails without.')
c('C75','proved','Props.C75_solved_truthful Props.C75_drivers_truthful Props.C75_explores_after_both Props.C75_credit Props.C75_unsafe_plan_raises Props.C75_no_solver Props.C75_limit_empty_plan Props.C75_limit_second_solver_ignored','')
c('C76','proved','Props.C76_data Props.C76_incremental_is_hull Props.C76_same_as_batch Props.C76_order Props.C76_monotone Props.C76_limit_close','Under the contracts of Qhull, regression and norm, numbers that survive printing, and separated data, as for C55; no margin (epsilon = 0).')
c('C77','proved','Props.C77_membership Props.C77_accepts_hull Props.C77_precondition_passes Props.C77_copy Props.C77_limit_tolerance Props.C77_limit_dependencies Props.C77_limit_reset Props.C77_limit_lost_point Props.C77_limit_relevant Props.C77_missing_column Props.C77_copy_empty Props.C77_reset Props.C77_dropped_column','Same assumptions as C76; the limits are concrete runs.')
c('C78','proved','Props.C78_size Props.C78_empty Props.C78_successes_pass Props.C78_failures Props.C78_failures_rejected Props.C78_no_exception Props.SvmCase.C78_limit_success_rejected Props.SvmCase.C78_limit_columns','SVM by contract: it separates separable data.')
c('C79','proved','Props.C79_safe_ignores_failures Props.C79_safe_precondition Props.C79_successes_accepted Props.C79_failures_rejected Props.C79_safe_implies_optimistic Props.C79_same_effects Props.C79_safe_effects Props.C79_targets Props.C79_membership','Contracts and separated data as for C55, C58, C76, C78.')
c('C80','proved','Props.C80_returns_iff Props.C80_real_data_returns Props.C80_unlisted_raises','No constants; calls of distinct objects of exactly the types of the parameters.')
c('C81','proved','Props.C81_same_as_conditional_sam','')
c('C82','proved','Props.C82_universal_effects Props.C82_true_antecedent_possible','')
c('C83','proved','Props.C83_applicable Props.C83_no_spurious_effect Props.C83_no_spurious_effect_unambiguous Props.UniCase.C83_needs_condition','Condition on nested literals shown necessary by the last theorem.')
c('C84','partial','Props.C84_exact_partial Props.C84_added_preconditions Props.UniCase.C84_needs_one_precondition Props.UniCase.C84_needs_listed_type','False of the code in general; proved under (1) no ambiguous literal over the parameters, (2) at most one universal precondition, (3) results seen or never undone, (4) covered types.')
c('C85','partial','Props.C85_observed_states_accepted_partial Props.C85_observed_transitions_reproduced_partial Props.C85_observed_state_rejected Props.C85_observed_transition_not_reproduced','False of the code in general: an observed state may be rejected, an observed transition not reproduced.')
c('C86','proved','Props.C86_returns_iff Props.C86_counts Props.C86_ok_iff Props.first_claim_decides Props.empty_portfolio_raises Props.no_observations_raises','Processes, VAL and the glob are parameters.')
c('C87','proved','Props.C87_partition Props.C87_expert','')
c('C88','proved','Props.C88_percentages Props.C88_expert_percentages','Rationals for Python floats.')
c('C89','proved','Props.C89_history Props.C89_current Props.C89_triplets Props.C89_triplets_first_path','Given files instead of observations, only the first file is counted (C89_triplets_first_path).')
c('C90','proved','Props.C90_enhsp Props.C90_fast_downward Props.C90_answers Props.C90_metric_ff Props.C90_fast_downward_plan Props.C90_enhsp_outcome Props.C90_fast_downward_code','Which sentences occur in a process output is a parameter.')
c('C91','proved','Props.C91_always_raises Props.C91_empty_returns','')
c('C92','proved','Props.C92_groups Props.C92_representative Props.C92_unselected_kept Props.C92_empty Props.C92_representative_not_first Props.C92_rewrite_drops Props.C92_rewrite_constant Props.C92_pair','scipy DisjointSet modelled by its root map.')
c('C93','proved','Props.C93_clauses_sound Props.C93_truth_is_model Props.C93_effects_exact','About the algorithm with the two ill-formed calls repaired (C91); nnf by the meaning of its functions on formulas without negation.')
c('C94','proved','Props.C94_equals_sam Props.C94_safe','As C93. Inequality preconditions are not part of the comparison.')
c('C95','proved','Props.C95_returns_iff Props.C95_two_proxies Props.C95_no_proxy Props.C95_spurious_effect Props.C95_lost_effect Props.C95_hard_raises Props.C95_failed_component_unsafe','As C93.')
c('C96','proved','Props.Walk.C96_random_walk Props.Walk.C96_no_actions Props.Walk.C96_limit_false_step Props.Walk.C96_legal_actions','Randomness and operators are parameters.')
c('C97','proved','Props.Dummy.C97_insertion Props.Dummy.C97_drawn Props.Dummy.C97_limit_returned','Randomness is a parameter.')
c('C98','proved','Props.Fault.C98_observation Props.Fault.C98_locates Props.Fault.C98_no_false_alarm Props.Fault.validate_iff Props.Fault.Case.C98_limit_small_difference Props.Fault.Case.C98_limit_extra_facts','Operator.apply is a parameter. Without the conditions an innocent action may be blamed (limits).')
c('C99','proved','Props.Fault.C99_execution Props.Fault.C99_no_fault Props.Fault.C99_log Props.Fault.Case.C99_limit_locator Props.Fault.C99_locate_iff Props.Fault.C99_outcome','VAL and the glob are parameters; \\w on ASCII.')
c('C100','proved','Props.Fault.C100_only_that_action Props.Fault.C100_unlearned Props.Fault.C100_repaired_safe','Numeric contracts as in C62, full-rank or projected branch; domains with numeric functions.')
c('C101','proved','Props.Triplets.C101_pieces Props.Triplets.C101_zero_raises Props.Triplets.C101_same_model Props.Triplets.C101_curve_safe Props.Triplets.C101_curve_monotone','Negative sizes not modelled. Safety under the hypotheses of C01 and C02.')
c('C102','proved','Props.Triplets.C102_defined_iff Props.Triplets.C102_exact Props.Triplets.C102_members Props.Triplets.C102_same_model Props.Triplets.C102_safe Props.Triplets.C102_ratio_raises','Same model for domains without constants.')
c('C103','proved','Props.Triplets.C103_exact Props.Triplets.C103_fits_iff Props.Triplets.C103_zero_raises Props.Triplets.C103_rounds','int(size * 0.8) in exact arithmetic.')
c('C104','proved','Props.Results.C104_names_distinct Props.Results.C104_same_names Props.Results.C104_missing_raises Props.Results.C104_collects Props.Results.C104_runs_kept Props.Results.C104_numeric_complete Props.Results.C104_triplets_repeated Props.Results.C104_semantic_triplets_missing Props.Results.C104_multi_agent_raises','csv assumed to read back what it wrote; the columns are assumed distinct and different from fold.')
c('C105','proved','Props.OnlineResults.C105_columns Props.OnlineResults.C105_verdicts Props.OnlineResults.C105_glob Props.OnlineResults.C105_rows Props.OnlineResults.C105_labels Props.OnlineResults.C105_mean Props.OnlineResults.C105_solving_labels','Only the columns the collector uses are modelled; plots are not. The table is stated for one algorithm.')
c('C106','proved','Props.Joint.C106_actions Props.Joint.C106_nop Props.Joint.C106_counts Props.Joint.C106_rate','White space and case of ASCII; lines as the planner writes them (white space between the actions, no brackets within them); rounding of the printed number not modelled.')
c('C107','proved','Props.CrossVal.C107_complete Props.CrossVal.C107_crash Props.CrossVal.C107_no_folds Props.CrossVal.C107_combined_raises','Learning, solving and evaluation of a fold are parameters that return rows or raise; the results directory is empty at the start.')
c('C108','proved','Props.OnlineDomain.C108_actions Props.OnlineDomain.C108_raises Props.OnlineDomain.C108_missing Props.OnlineDomain.C108_optimistic Props.OnlineDomain.C108_safe Props.OnlineDomain.C108_order Props.OnlineDomain.C108_true_accepted','Numeric libraries by the contracts of C76, C78 and C79; Precondition.add_condition by the contract AddOK; requirements of the domain not modelled.')
c('C109','proved','Props.OnlineSafety.C109_step Props.OnlineSafety.C109_plan','Numeric libraries by the contracts of C76 and C79 in exact arithmetic; no learned scale-down effect; the exact hull (plain); substitutions injective on the vocabulary; an action without successes has some predicate with its negation in its vocabulary.')
c('C110','proved','Props.OnlineTraining.C110_learned Props.OnlineTraining.C110_plan Props.OnlineTraining.C110_failures','Numeric libraries by the contracts of C76 and C79 on the successes, in exact arithmetic; no learned scale-down effect; the exact hull (plain). The matching of the lifted functions is a parameter that gives every function of the action its value (C60).')
c('C111','proved','Props.IncNumSam.C111_precondition_is_hull Props.IncNumSam.C111_safe Props.IncNumSam.C111_same_as_batch Props.IncNumSam.C111_returned_actions Props.IncNumSam.Case.C111_limit_hull_error','Same contracts as C62 and C76 (exact arithmetic, printable coefficients, plain hull, no learned scale-down). An exception of Qhull while an observation is added ends the call (C111_limit_hull_error), so nothing is claimed then.')
c('C112','proved','Props.Session.C112_semi_faithful Props.Session.C112_noam_faithful Props.Session.C112_semi_safe Props.Session.C112_noam_safe','With the contracts of C110 for the numeric libraries on what was observed, calls without repeated objects in the plans, and trajectory files that are parsed as they were exported. Nothing is claimed about runs that end with an exception of Qhull or of the model construction.')
c('C113','proved','Props.FaultGen.C113_one_fault Props.FaultGen.C113_returns Props.FaultGen.C113_sign Props.FaultGen.C113_value Props.FaultGen.C113_removed Props.FaultGen.C113_effect Props.FaultGen.C113_detected','Values and effects: the way to the rightmost leaf goes through sums (sums and differences for effects); outside the amount can vanish (example with a product by 0). Exact arithmetic. The attributes numeric_preconditions and positive_preconditions are those the file uses; the pinned parser version renamed them.')
c('C114','proved','Props.Cluster.C114_first Props.Cluster.C114_again Props.Cluster.C114_submitted Props.Cluster.C114_unknown_version Props.Cluster.C114_submitted_multi Props.Cluster.C114_job Props.Cluster.C114_override Props.Cluster.C114_unknown_entry Props.Cluster.C114_triplets_job Props.Cluster.C114_folders_job','Files are named by stems and all copied files exist; abbreviated options of argparse are not modelled; what the queue shows is an argument (number of resubmissions).')
c('C115','proved','Props.TrajectoryFiles.C115_complete Props.TrajectoryFiles.C115_rerun Props.TrajectoryFiles.C115_resume Props.TrajectoryFiles.C115_history Props.TrajectoryFiles.C115_kept Props.TrajectoryFiles.C115_failed Props.TrajectoryFiles.C115_ma_history Props.TrajectoryFiles.C115_ma_complete','What the library makes of a problem and a plan (text, refusal, other exception) is an argument; the random numbers of the multi-agent creator may differ in every run. A crash leaves some files written and of the next one any first part.')
c('C116','proved','Props.PlanMiner.C116_lines Props.PlanMiner.C116_states Props.PlanMiner.C116_state Props.PlanMiner.C116_read Props.PlanMiner.C116_existing','How the library writes atoms, functions and calls is an argument. The conversion of the domain (parameter names) is library code and not modelled. upper() on ASCII.')
c('C117','proved','Props.Plans.C117_plans_correct Props.Plans.C117_all_plans_correct Props.Plans.C117_soft_plans_correct Props.Plans.C117_recorded_plans Props.Plans.C117_validation Props.Plans.C117_expert_plans Props.Plans.C117_multi_agent_plans Props.Plans.C117_multi_agent_validation Props.Plans.C117_repeated_objects_unsafe Props.Plans.C117_soft_unsafe','The planners and VAL are arguments; the hypothesis Evaluated says what is assumed of them.')
c('C118','proved','Props.NumPlans.C118_step Props.NumPlans.C118_plans_correct Props.NumPlans.C118_observed_step Props.NumPlans.C118_recorded_plans Props.NumPlans.C118_validation','Planners and VAL are arguments (hypothesis Evaluated). Exact arithmetic as in C62.')
c('C119','proved','Props.Jobs.C119_inputs_unchanged Props.Jobs.C119_finished Props.Jobs.C119_raised Props.Jobs.C119_files Props.Jobs.C119_schedule_independent Props.Jobs.C119_ends Props.Jobs.C119_recovers Props.Jobs.Case.C119_killed_truncates Props.Jobs.Case.C119_same_job_unsafe Props.Jobs.Case.C119_shared_machine_unsafe Props.Jobs.Case.C119_backups_collide Props.Jobs.C119_cleared Props.Jobs.C119_undisturbed Props.Jobs.C119_backup_names','Learners, planners, VAL and the calculators are functions of the files they read; PlanMiner and the triplets experiments are not modelled. A write proceeds character by character.')
c('C120','proved','Props.WorkingDir.C120_absolute Props.WorkingDir.C120_relative_aborts Props.WorkingDir.C120_default_fast_downward Props.WorkingDir.C120_default_metric_ff Props.WorkingDir.C120_relative_metric_ff','Paths have no .. and no links; whether a planner solves a problem is given; ENHSP is one attempt.')
c('C121','proved','Props.MacroPlans.C121_decoded_file Props.MacroPlans.C121_order_iff Props.MacroPlans.C121_plans_correct Props.MacroPlans.C121_validation Props.MacroPlans.C121_blank_line Props.MacroPlans.Case.C121_order_matters','Hypotheses of C54 (good joint data, no constants, no shared parameter names within a macro, effects with arguments) and: macro names are pairwise different and not action names, actions have parameters (else decoding drops them, C39). Planners and VAL are arguments.')
c('C122','proved','Props.Curve.C122_plans_kept Props.Curve.C122_semantic Props.Curve.C122_syntactic Props.Curve.C122_rounds Props.Curve.C122_curve Props.Curve.C122_returns_iff Props.Curve.C122_job_sizes','Real data: each transition is explained by the true schema and has no constants as objects when its objects are distinct. The planner and VAL are arguments.')
c('C123','proved','Props.MaCurve.C123_preconditions Props.MaCurve.C123_alone_returned Props.MaCurve.C123_dominates_baseline Props.MaCurve.C123_plans_kept Props.MaCurve.Case.C123_curve_can_sink Props.MaCurve.C123_job_rounds Props.MaCurve.C123_job_curve Props.MaCurve.C123_job_baseline','Good joint data as in C22 (distinct actions per joint action, the last call covers the visible effects); C123_preconditions needs only calls of the right length, C123_alone_returned nothing.')
c('C124','proved','Props.Evaluation.C124_data Props.Evaluation.C124_separate Props.Evaluation.C124_again Props.Evaluation.C124_stale Props.Evaluation.C124_iteration_one Props.Evaluation.C124_missing_file','File contents are abstract; the walks succeed where data are claimed; the domain file name does not begin with the prefix; with internal iterations.')
c('C125','proved','Props.NumCurve.C125_conditions Props.NumCurve.C125_step Props.NumCurve.C125_plans_kept Props.NumCurve.C125_incremental_step Props.NumCurve.C125_incremental_plans_correct Props.NumCurve.C125_same_steps Props.NumCurve.C125_same_plans Props.NumCurve.Case.C125_limit_lost','Same hypotheses as C62/C118 (Fits) and C111 (FitsInc) for the actions returned; the condition that the actions are still returned is needed (C125_limit_lost).')
c('C126','proved','Props.CondPlans.C126_plans_correct Props.CondPlans.C126_first_call Props.CondPlans.C126_recorded_plans Props.CondPlans.C126_validation Props.CondPlans.C126_universal_plans_correct Props.CondPlans.C126_universal_validation Props.CondPlans.Case.C126_needs_settled','Restrictions (settled actions) are those of C48/C84, each shown necessary there; C126_needs_settled gives a plan that fails.')
c('C127','proved','Props.PlanMinerRun.C127_own_output Props.PlanMinerRun.C127_undisturbed Props.PlanMinerRun.C127_failure_cause Props.PlanMinerRun.C127_timeout_ends_all Props.PlanMinerRun.C127_timeout_answer Props.PlanMinerRun.C127_can_return Props.PlanMinerRun.C127_absolute Props.PlanMinerRun.C127_relative_miner Props.PlanMinerRun.C127_relative_workdir Props.PlanMinerRun.Case.C127_other_job_fails Props.PlanMinerRun.C127_output_moved','Output names (with a uuid) are assumed distinct; a kill is immediate; PlanMiner is given by the successive contents of its output file.')
c('C128','proved','Props.UniReplay.C128_observed_states_accepted Props.UniReplay.C128_observed_transitions_reproduced Props.UniReplay.C128_needs_other_objects Props.UniReplay.C128_needs_exact_types Props.UniReplay.C128_needs_unambiguous Props.UniReplay.C128_needs_one_precondition Props.UniReplay.C128_needs_listed_types','Condition (3) shows an asymmetry of the code: universal preconditions are learned from objects of exactly the type outside the call, but quantify over all objects of the type and its subtypes, those of the call included.')
c('C129','proved','Props.OnlineEvaluation.C129_row Props.OnlineEvaluation.C129_files Props.OnlineEvaluation.C129_raises Props.OnlineEvaluation.C129_fresh Props.OnlineEvaluation.C129_labels Props.OnlineEvaluation.C129_domains_counted Props.OnlineEvaluation.C129_safe_row','The lessons are those of C110; the semantic measures of a domain are opaque here (C65 and following).')
c('C130','proved','Props.MaDatasets.C130_files Props.MaDatasets.C130_states Props.MaDatasets.C130_goals Props.MaDatasets.C130_goal_missed Props.MaDatasets.C130_executable Props.MaDatasets.C130_succeeds','Combining problems, reading plans and executing them are the library (arguments); that it executes plans as real joint transitions is a hypothesis (Executes). The export of the two domains is left out; the dummy actions in them are taken from tests/examples/driverlog_combined_domain.pddl:52-62.')
c('C131','proved','Props.Submission.C131_order Props.Submission.C131_once Props.Submission.C131_all Props.Submission.C131_wait_ends Props.Submission.C131_waits Props.Submission.C131_numeric_plan Props.Submission.Case.C131_queue_fails Props.Submission.Case.C131_file_shared Props.Submission.C131_multi_plan','Slurm is an event system: a job is pending, running or ended. Sleeping and printing are left out. That the runs are pairwise different is a hypothesis, shown for the numeric runner by C131_numeric_plan and for the multi-agent runner by C131_multi_plan.')
c('C132','proved','Props.Pipeline.C132_plans_correct Props.Pipeline.C132_readable Props.Pipeline.C132_broken','Composition of the models of the trajectory creator (C115), of the collection of observations and of SAM (C117). The exporter and the parser are arguments; the hypothesis about them is stated as Faithful.')
c('C133','proved','Props.Plots.C133_average Props.Plots.C133_range Props.Plots.C133_stack Props.Plots.C133_order','Means are exact rationals; colours and axes are not modelled.')
c('C134','proved','Props.SolvingPlots.C134_points Props.SolvingPlots.C134_band Props.SolvingPlots.C134_repeated Props.SolvingPlots.C134_nsam Props.SolvingPlots.C134_solo Props.SolvingPlots.C134_masam Props.SolvingPlots.C134_numeric_collector Props.SolvingPlots.C134_legend_texts_distinct','pd.read_csv is an argument; the collector theorem assumes that it reads the name of the algorithm a run has written (Reads).')
c('C135','proved','Props.Certificate.C135_flag Props.Certificate.C135_observations Props.Certificate.C135_conditions Props.Certificate.C135_unique Props.Certificate.C135_exact Props.Certificate.Case.C135_limit_rounding Props.Certificate.Case.C135_limit_uncertified Props.Certificate.Case.C135_limit_small_factor','Arithmetic is exact; the number of pivots of the reduced row echelon form is the rank. Effects of kind scale-down are excluded in C135_exact (see C58).')
c('C136','proved','Props.SolverJobs.C136_noninterference Props.SolverJobs.C136_moment_metric_ff Props.SolverJobs.C136_moment_fast_downward Props.SolverJobs.C136_moment_enhsp Props.SolverJobs.C136_metric_ff Props.SolverJobs.C136_metric_ff_clean Props.SolverJobs.C136_metric_ff_ok Props.SolverJobs.C136_fast_downward Props.SolverJobs.C136_enhsp Props.SolverJobs.C136_ends Props.SolverJobs.C136_submitted Props.SolverJobsCase.C136_cut_plan Props.SolverJobsCase.C136_stale Props.SolverJobsCase.C136_killed','The planners and MetricFFParser are arguments. Directories exist and are writable; SAS files have uuid names and are left out; only solver jobs of the scripts count for pkill.')
c('C137','proved','Props.EsamProxy.C137_construct_iff Props.EsamProxy.C137_signature Props.EsamProxy.C137_call Props.EsamProxy.C137_argument_lost Props.EsamProxy.C137_safe Props.EsamProxy.C137_merged_safe Props.EsamProxy.C137_stored Props.EsamProxy.C137_decode_raises Props.EsamProxy.C137_decode_unpacks Props.EsamProxy.C137_encode Props.EsamProxy.Case.C137_proxy_unsafe Props.EsamProxy.Case.C137_name_taken','Line 322 is read as if self.encoders[action_name] were a list (in the pinned commit it raises KeyError, C95); everything else is the code of the file. Safety is for policies other than hard and for true preconditions whose arguments are different objects in the observed calls.')
c('C138','proved','Props.Dnf.C138_combinations Props.Dnf.C138_order Props.Dnf.C138_minimise Props.Dnf.C138_raises Props.Dnf.C138_symbols Props.Dnf.C138_negative_assumption Props.Dnf.C138_not_prefix','sympy (simplify_logic, printing) and the Lark parser are one argument that gives a constant or a formula with the value of the expression (contract Simplifies, met by simplifies_plain). Literals of expressions are printed literals whose predicate names do not begin with not.')
c('C139','proved','Props.SamOptimal.C139_learned_is_candidate Props.SamOptimal.C139_preconditions Props.SamOptimal.C139_effects Props.SamOptimal.C139_possible_effects Props.SamOptimal.C139_accepts_iff Props.SamOptimal.C139_most_permissive Props.SamOptimal.C139_safe Props.SamOptimal.C139_repeated_objects_unused','Default policy (negative preconditions kept). Transitions with repeated objects are not part of the candidate condition because the learner ignores them; C139_repeated_objects_unused is a case where a repeated-object transition would exclude a candidate. Objects of calls are not constants of the domain.')
c('C140','proved','Props.NumOptimal.C140_batch Props.NumOptimal.C140_incremental Props.NumOptimal.C140_numeric_precondition_exact Props.NumOptimal.C140_incremental_precondition_exact Props.NumOptimal.C140_accepts_iff','Same contracts as C55, C70, C76, C111 (exact arithmetic, qhull and the fit of linear dependencies as arguments). Uses a proof of the Farkas lemma over ordered fields.')
c('C141','proved','Props.CnfExact.C141_units_are_certain Props.CnfExact.C141_excluded Props.CnfExact.C141_extracted_effects Props.CnfExact.C141_safe_iff_determined Props.CnfExact.C141_unsafe_is_ambiguous Props.CnfExact.C141_needs_distinct_actions Props.CnfExact.C141_order_of_agents','Reports do not repeat a pair (as in C21). C141_needs_distinct_actions: with an action twice in a report is_action_safe is true for an open effect. C141_order_of_agents: MA-SAM itself is not exact.')
c('C142','proved','Props.SamConverge.C142_changes Props.SamConverge.C142_converges Props.SamConverge.C142_mistakes Props.SamConverge.C142_bound_attained','Every policy for negative preconditions; no parameter bound to a constant (as in C01, C139).')
c('C143','proved','Props.OnlineBound.C143_open_attempts Props.OnlineBound.C143_open_successes Props.OnlineBound.C143_eventually_predicted Props.OnlineBound.C143_bounds_attained','')
c('C144','proved','Props.SamPac.C144_leave_one_out Props.SamPac.C144_error_bound Props.SamPac.C144_pac Props.SamPac.C144_solves','Every policy for negative preconditions; no parameter bound to a constant. The distribution is any probability measure; the sample is the product measure.')
c('C145','proved','Props.NumGeneral.C145_refused_are_vertices Props.NumGeneral.C145_single_function','Exact arithmetic and the contracts of C55/C70; the case of a single function needs no contract.')
c('C146','proved','Props.SamMean.C146_mean_error Props.SamMean.C146_markov Props.SamMean.C146_numeric_mean Props.SamMean.C146_numeric_pac Props.SamMean.C146_parabola Props.SamMean.C146_two_functions Props.SamMean.C146_numeric_error','Calls with distinct objects, as C144. Numeric part: exact real arithmetic; for two functions the contracts of C55/C70, and the hypotheses are shown to be met for two observations.')
c('C147','proved','Props.NumEffectsGeneral.C147_exact_on_affine Props.NumEffectsGeneral.C147_leave_one_out Props.NumEffectsGeneral.C147_mistake_bound Props.NumEffectsGeneral.C147_mean_error','Exact arithmetic and the regression contract of C58, coefficients that survive printing; the probability bound is for distributions for which being wrong is an event (all on countable spaces).')
c('C148','proved','Props.NumSamGeneral.C148_leave_one_out Props.NumSamGeneral.C148_mean_error Props.NumSamGeneral.refused_cases Props.NumSamGeneral.C148_error_bound Props.NumSamGeneral.C148_pac','Setting of C62/C140: exact arithmetic, library contracts, calls with distinct objects. The probability bound is for distributions for which being refused is an event (all on countable spaces).')
c('C149','proved','Props.IncSamGeneral.C149_leave_one_out Props.IncSamGeneral.C149_error_bound Props.IncSamGeneral.C149_pac Props.IncSamGeneral.refused_cases','Setting of C111/C140: exact arithmetic, library contracts, calls with distinct objects; every set of trajectories is an event.')
c('C150','proved','Props.MaGeneral.C150_leave_one_out Props.MaGeneral.C150_error_bound Props.MaGeneral.C150_pac Props.MaGeneral.errs_shows','Setting of C22: good joint data without constants. Whether an action is returned is not covered: C123_curve_can_sink shows that more data may drop one. Every set of trajectories is an event.')

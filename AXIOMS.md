# Axioms of the theorems in MANIFEST.json

Written by `scripts/axioms.py` from `#print axioms`.

## none

* `OE.Props.C13_leaf`
* `OE.Props.C41_query_outside`
* `OE.Props.C74_counterexample_raises`

## propext

* `OE.Props.C27_check_args`
* `OE.Props.C28_registry_partial`
* `OE.Props.C36_order_counterexample`
* `OE.Props.C74_counterexample_stale`

## propext, Classical.choice, Quot.sound

* `OE.Props.C01_contract`
* `OE.Props.C01_contract_returns`
* `OE.Props.C01_contract_terms`
* `OE.Props.C01_contract_no_optimize`
* `OE.Props.C02_path_independent`
* `OE.Props.C02_no_optimize`
* `OE.Props.C03_contraction_list`
* `OE.Props.C04_find_contraction`
* `OE.Props.C04_find_contraction_error`
* `OE.Props.C05_path_info`
* `OE.Props.C05_naive_cost_differs`
* `OE.Props.C06_size_dict`
* `OE.Props.C07_choose_memory_arg`
* `OE.Props.C08_can_blas_iff`
* `OE.Props.C08_can_blas_step`
* `OE.Props.C08_two_terms`
* `OE.Props.C08_can_blas_kind`
* `OE.Props.C09_blas_step_eq_einsum`
* `OE.Props.C09_which_steps`
* `OE.Props.C10_out_filled_partial`
* `OE.Props.C10_out_exact`
* `OE.Props.C10_optimize_false`
* `OE.Props.C10_expression_out_exact`
* `OE.Props.C10_scalar_counterexample`
* `OE.Props.C10_sharing_counterexample`
* `OE.Props.C100_first_step_partial`
* `OE.Props.C100_counterexample`
* `OE.Props.C100_temperature_zero`
* `OE.Props.C101_three_stages`
* `OE.Props.C101_greedy`
* `OE.Props.C101_random_greedy`
* `OE.Props.C101_auto`
* `OE.Props.C102_at_most`
* `OE.Props.C102_at_least`
* `OE.Props.C102_low_rank`
* `OE.Props.C102_choosers`
* `OE.Props.C102_counterexample`
* `OE.Props.C103_pick`
* `OE.Props.C103_boltzmann`
* `OE.Props.C103_possible`
* `OE.Props.C103_cheaper`
* `OE.Props.C103_temperature`
* `OE.Props.C103_relative`
* `OE.Props.C103_zero`
* `OE.Props.C103_best_at_zero`
* `OE.Props.C104_trees`
* `OE.Props.C104_reported`
* `OE.Props.C104_outcome`
* `OE.Props.C104_counterexample`
* `OE.Props.C105_rounds`
* `OE.Props.C105_logarithm`
* `OE.Props.C105_last_cap`
* `OE.Props.C105_off`
* `OE.Props.C106_work`
* `OE.Props.C106_exponential`
* `OE.Props.C106_connected`
* `OE.Props.C106_counter`
* `OE.Props.C106_all_rounds`
* `OE.Props.C106_part_rounds`
* `OE.Props.C11_ssa_to_linear`
* `OE.Props.C12_linear_to_ssa`
* `OE.Props.C12_ssa_round_trip`
* `OE.Props.C13_tree_to_sequence`
* `OE.Props.C14_optimal_complete`
* `OE.Props.C15_branch_complete`
* `OE.Props.C15_branch_function`
* `OE.Props.C16_ssa_greedy_complete`
* `OE.Props.C16_greedy_complete`
* `OE.Props.C17_dp_complete_partial`
* `OE.Props.C17_counterexample`
* `OE.Props.C79_no_limit`
* `OE.Props.C79_cap_zero`
* `OE.Props.C18_optimal_minimal_partial`
* `OE.Props.C18_optimal_limit_partial`
* `OE.Props.C18_counterexample`
* `OE.Props.C19_optimal_memory_partial`
* `OE.Props.C19_counterexample`
* `OE.Props.C20_branch_memory_partial`
* `OE.Props.C20_branch_function_partial`
* `OE.Props.C20_one_branch_memory`
* `OE.Props.C20_counterexample`
* `OE.Props.C21_dp_cheapest`
* `OE.Props.C21_dp_cheapest_connected`
* `OE.Props.C22_dp_memory_partial`
* `OE.Props.C22_diverges`
* `OE.Props.C79_dp_outcome`
* `OE.Props.C79_positive`
* `OE.Props.C23_ssa_greedy_order`
* `OE.Props.C23_greedy_order`
* `OE.Props.C24_call`
* `OE.Props.C24_history`
* `OE.Props.C24_serial`
* `OE.Props.C25_parallel_partial`
* `OE.Props.C25_call_partial`
* `OE.Props.C25_counterexample`
* `OE.Props.C25_call_counterexample`
* `OE.Props.C26_disconnected_subgraphs`
* `OE.Props.C28_counterexample`
* `OE.Props.C29_get_symbol_partial`
* `OE.Props.C29_counterexample`
* `OE.Props.C30_gen_unused_symbols`
* `OE.Props.C31_alpha_canonicalize_iff`
* `OE.Props.C31_alpha_canonicalize_renames`
* `OE.Props.C31_alpha_canonicalize_idempotent`
* `OE.Props.C32_convert_to_valid_einsum_chars_partial`
* `OE.Props.C32_exactly`
* `OE.Props.C33_find_output_str`
* `OE.Props.C33_find_output_str_order_independent`
* `OE.Props.C34_parse_einsum_input_iff`
* `OE.Props.C34_comma_in_output_accepted`
* `OE.Props.C35_ellipsis_expansion`
* `OE.Props.C36_convert_interleaved`
* `OE.Props.C36_unknown_output_label`
* `OE.Props.C36_contract_interleaved`
* `OE.Props.C36_order_partial`
* `OE.Props.C36_order_exactly`
* `OE.Props.C37_find_output_shape_partial`
* `OE.Props.C37_counterexample`
* `OE.Props.C37_exactly`
* `OE.Props.C37_short_shape`
* `OE.Props.C38_format_const_einsum_str`
* `OE.Props.C39_expression_equals_contract`
* `OE.Props.C39_expression_is_einsum`
* `OE.Props.C39_all_constant_counterexample`
* `OE.Props.C39_backend_case_counterexample`
* `OE.Props.C40_wrong_number_of_arrays`
* `OE.Props.C40_right_number_returns`
* `OE.Props.C40_no_arrays_counterexample`
* `OE.Props.C41_sharing_stack_exactly`
* `OE.Props.C42_sharing_transparent_partial`
* `OE.Props.C42_spaces_counterexample`
* `OE.Props.C42_ellipsis_counterexample`
* `OE.Props.C43_repeated_call_is_shared`
* `OE.Props.C43_einsum_up_to_renaming_is_shared`
* `OE.Props.C43_concrete`
* `OE.Props.C44_conversions_are_fresh_partial`
* `OE.Props.C44_stale_conversion_counterexample`
* `OE.Props.C45_object_einsum_partial`
* `OE.Props.C45_empty_inner_axis`
* `OE.Props.C45_no_broadcast`
* `OE.Props.C45_object_einsum_exactly`
* `OE.Props.C46_torch_tensordot`
* `OE.Props.C46_fallback_accepts_more`
* `OE.Props.C47_get_func_stable`
* `OE.Props.C47_has_partial`
* `OE.Props.C47_default_poisons`
* `OE.Props.C47_missing_library`
* `OE.Props.C47_exactly`
* `OE.Props.C47_which_function`
* `OE.Props.C48_cost_partial`
* `OE.Props.C48_counterexample`
* `OE.Props.C48_exactly`
* `OE.Props.C49_thermal_chooser`
* `OE.Props.C49_thermal_cold`
* `OE.Props.C50_auto`
* `OE.Props.C50_auto_hq_partial`
* `OE.Props.C53_random_greedy_function`
* `OE.Props.C50_auto_choice`
* `OE.Props.C50_auto_hq_choice`
* `OE.Props.C50_auto_optimal_partial`
* `OE.Props.C50_auto_branch_partial`
* `OE.Props.C50_counterexample`
* `OE.Props.C50_auto_hq_exactly`
* `OE.Props.C51_zero_broadcast`
* `OE.Props.C52_optimize_false_space`
* `OE.Props.C52_ellipsis_summed`
* `OE.Props.C52_ellipsis_letters`
* `OE.Props.C53_random_greedy_complete`
* `OE.Props.C53_single_input`
* `OE.Props.C54_contract_named`
* `OE.Props.C54_contract_default`
* `OE.Props.C54_unknown_name`
* `OE.Props.C54_no_search`
* `OE.Props.C54_runtime_error`
* `OE.Props.C55_interleaved_path`
* `OE.Props.C55_interleaved_named`
* `OE.Props.C56_rand_equation`
* `OE.Props.C56_returns`
* `OE.Props.C56_single_operand_never_returns`
* `OE.Props.C56_no_operands`
* `OE.Props.C56_contract`
* `OE.Props.C57_build_shapes`
* `OE.Props.C57_build_shapes_fit`
* `OE.Props.C57_ellipsis_refused`
* `OE.Props.C58_branch_all_partial`
* `OE.Props.C58_large_cutoff_partial`
* `OE.Props.C58_more_branches_partial`
* `OE.Props.C58_branch_all_limit_partial`
* `OE.Props.C58_branch_all_limit_size_partial`
* `OE.Props.C58_counterexample`
* `OE.Props.C59_greedy_connected_first`
* `OE.Props.C59_random_greedy_connected_first`
* `OE.Props.C59_auto_connected_first`
* `OE.Props.C60_alone`
* `OE.Props.C60_threads_partial`
* `OE.Props.C60_first_evaluation_race`
* `OE.Props.C60_never_wrong`
* `OE.Props.C60_counterexample_single_step`
* `OE.Props.C61_named_path`
* `OE.Props.C61_connected_first`
* `OE.Props.C62_least_cost_partial`
* `OE.Props.C62_memory_partial`
* `OE.Props.C62_branch_all_partial`
* `OE.Props.C63_other_sizes`
* `OE.Props.C63_same_as_contract`
* `OE.Props.C63_broadcast_counterexample`
* `OE.Props.C64_threads_share_a_cache`
* `OE.Props.C64_alone`
* `OE.Props.C64_race`
* `OE.Props.C65_any_integers`
* `OE.Props.C65_refused`
* `OE.Props.C65_non_negative`
* `OE.Props.C65_negative_pair`
* `OE.Props.C65_unfinished_counterexample`
* `OE.Props.C66_get_shape`
* `OE.Props.C66_entries`
* `OE.Props.C66_nested_lists`
* `OE.Props.C66_einsum`
* `OE.Props.C66_empty_list_refused`
* `OE.Props.C66_empty_list_counterexample`
* `OE.Props.C66_list_of_arrays_counterexample`
* `OE.Props.C67_same_path`
* `OE.Props.C67_report_again`
* `OE.Props.C67_shapes`
* `OE.Props.C67_same_contract`
* `OE.Props.C67_flag_changes`
* `OE.Props.C68_integers`
* `OE.Props.C68_figures`
* `OE.Props.C68_exact`
* `OE.Props.C68_speedup`
* `OE.Props.C68_table`
* `OE.Props.C68_expression`
* `OE.Props.C68_expression_steps`
* `OE.Props.C68_line_break`
* `OE.Props.C69_contract_any_library`
* `OE.Props.C69_contract_without_einsum`
* `OE.Props.C69_numpy_serves`
* `OE.Props.C69_torch_serves`
* `OE.Props.C69_objects_serve`
* `OE.Props.C70_filter`
* `OE.Props.C70_keyword_arguments_partial`
* `OE.Props.C70_exactly`
* `OE.Props.C70_counterexample`
* `OE.Props.C70_sharing`
* `OE.Props.C70_optimize_off`
* `OE.Props.C70_objects_reject_keywords`
* `OE.Props.C71_dp_report`
* `OE.Props.C71_named`
* `OE.Props.C71_counterexample_hyper`
* `OE.Props.C71_counterexample_outer`
* `OE.Props.C72_not_worse_than_greedy`
* `OE.Props.C72_not_worse_than_named`
* `OE.Props.C72_never_gets_worse`
* `OE.Props.C72_counterexample_jitter`
* `OE.Props.C73_graph_calls`
* `OE.Props.C73_einsum`
* `OE.Props.C73_other_shapes`
* `OE.Props.C73_counterexample_same_array`
* `OE.Props.C73_counterexample_recycled`
* `OE.Props.C74_setter_effect`
* `OE.Props.C74_jobs_settled`
* `OE.Props.C74_jobs_once`
* `OE.Props.C75_interleaved_expression`
* `OE.Props.C75_refused`
* `OE.Props.C75_builds`
* `OE.Props.C76_same_plan`
* `OE.Props.C76_same_plan_builtin`
* `OE.Props.C76_contract_path`
* `OE.Props.C76_same_network`
* `OE.Props.C76_finders`
* `OE.Props.C76_random_finders`
* `OE.Props.C76_dp_symbols`
* `OE.Props.C77_history`
* `OE.Props.C77_never_worse_partial`
* `OE.Props.C77_counterexample_hyperedge`
* `OE.Props.C77_counterexample_limit`
* `OE.Props.C77_counterexample_lifted`
* `OE.Props.C78_counter`
* `OE.Props.C78_call`
* `OE.Props.C78_history`
* `OE.Props.C78_life`
* `OE.Props.C78_kind`
* `OE.Props.C78_concrete`
* `OE.Props.C80_theano_right`
* `OE.Props.C80_theano_returns`
* `OE.Props.C80_same_array`
* `OE.Props.C80_counterexample_recycled`
* `OE.Props.C81_minimize_strings`
* `OE.Props.C81_minimize_other`
* `OE.Props.C81_custom_complete`
* `OE.Props.C81_custom_ends`
* `OE.Props.C81_custom_never`
* `OE.Props.C81_builtin_function`
* `OE.Props.C81_counterexample_dishonest`
* `OE.Props.C82_history`
* `OE.Props.C82_numpy_in_numpy_out`
* `OE.Props.C82_own_arrays`
* `OE.Props.C82_one_place`
* `OE.Props.C82_other_device`
* `OE.Props.C82_letter_case`
* `OE.Props.C82_einsum`
* `OE.Props.C82_counterexample_device`
* `OE.Props.C83_custom_cheapest`
* `OE.Props.C83_custom_outcome`
* `OE.Props.C83_custom_no_limit`
* `OE.Props.C83_counterexample_not_monotone`
* `OE.Props.C84_data_type`
* `OE.Props.C84_same_type`
* `OE.Props.C84_each_operand_once`
* `OE.Props.C84_counterexample`
* `OE.Props.C85_harmless_writes`
* `OE.Props.C85_writes_go_unnoticed`
* `OE.Props.C85_stale_exactly`
* `OE.Props.C85_stale_counterexample`
* `OE.Props.C85_result_counterexample`
* `OE.Props.C86_ample_memory`
* `OE.Props.C86_greedy`
* `OE.Props.C86_explicit_path`
* `OE.Props.C86_greedy_counterexample`
* `OE.Props.C87_more_memory_partial`
* `OE.Props.C87_counterexample`
* `OE.Props.C87_dp_returns`
* `OE.Props.C87_dp_no_worse`
* `OE.Props.C88_nested`
* `OE.Props.C88_operand_order`
* `OE.Props.C88_linear`
* `OE.Props.C88_homomorphism`
* `OE.Props.C89_largest_intermediate`
* `OE.Props.C89_speedup`
* `OE.Props.C89_counterexample`
* `OE.Props.C89_counterexample_default`
* `OE.Props.C90_summed`
* `OE.Props.C90_output`
* `OE.Props.C91_optimal`
* `OE.Props.C91_optimal_order`
* `OE.Props.C91_dp`
* `OE.Props.C91_dp_order`
* `OE.Props.C91_counterexample`
* `OE.Props.C92_dp_parts`
* `OE.Props.C92_counterexample`
* `OE.Props.C92_counterexample_independent`
* `OE.Props.C92_counterexample_traces`
* `OE.Props.C93_rule`
* `OE.Props.C93_without_einsum`
* `OE.Props.C93_counterexample`
* `OE.Props.C94_outcome`
* `OE.Props.C94_raises`
* `OE.Props.C94_contract_path`
* `OE.Props.C95_branch`
* `OE.Props.C95_optimal`
* `OE.Props.C95_bounds`
* `OE.Props.C96_new`
* `OE.Props.C96_tweaks`
* `OE.Props.C96_minimize_ignored`
* `OE.Props.C96_nbranch_zero`
* `OE.Props.C97_branch_one`
* `OE.Props.C97_no_outer`
* `OE.Props.C97_dp`
* `OE.Props.C97_optimal`
* `OE.Props.C97_more_branches`
* `OE.Props.C97_auto_hq_partial`
* `OE.Props.C97_counterexample_six`
* `OE.Props.C97_counterexample_seven`
* `OE.Props.C97_counterexample_eight`
* `OE.Props.C97_counterexample_batch`
* `OE.Props.C98_first_pair`
* `OE.Props.C98_first_pair_path`
* `OE.Props.C98_random_path`
* `OE.Props.C98_any_subclass`
* `OE.Props.C98_best_trial`
* `OE.Props.C98_never_gets_worse`
* `OE.Props.C99_user_function`
* `OE.Props.C99_total_function`
* `OE.Props.C99_always_raises`
* `OE.Props.C99_known_names`
* `OE.Props.C99_unknown_name`
* `OE.Props.C99_name_not_used`
* `OE.Props.C99_branch_user_function`
* `OE.Props.C99_branch_always_raises`
* `OE.Props.C99_branch_unknown_name`

## propext, Quot.sound

* `OE.Props.C28_exactly`
* `OE.Props.C29_first_symbols`
* `OE.Props.C32_counterexample`
* `OE.Props.C34_parse_einsum_input_error`
* `OE.Props.C34_spaces_ignored`
* `OE.Props.C38_erase_brackets`
* `OE.Props.C41_sharing_stack_partial`
* `OE.Props.C41_balanced`
* `OE.Props.C56_bad_range`
* `OE.Props.C74_own_pools_shut_once`
* `OE.Props.C74_others_never_shut`
* `OE.Props.C74_one_pool_at_a_time`
* `OE.Props.C74_open_after_assignment`
* `OE.Props.C74_outstanding`
* `OE.Props.C74_awaited_recorded`
* `OE.Props.C81_state`

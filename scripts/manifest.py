"""Writes MANIFEST.json from the table below (property, status, theorems, note)."""
import json, os
C = []
def c(p, status, theorems, note):
    C.append(dict(property=p, status=status, theorems=["OE.Props." + t for t in theorems], note=note))

c("C01", "proved", ["C01_contract", "C01_contract_returns", "C01_contract_terms", "C01_contract_no_optimize"],
  "Complete explicit paths and any path finder answering with complete paths; any element semiring. Up to 52 labels it returns; beyond, it may raise (as numpy's einsum has 52 labels) but what it returns is right. Zero-length axes meeting length-1 axes are excluded (see C51).")
c("C02", "proved", ["C02_path_independent", "C02_no_optimize"], "With optimize=False the code calls numpy's einsum whatever the backend; so does the model.")
c("C03", "proved", ["C03_contraction_list"], "")
c("C04", "proved", ["C04_find_contraction", "C04_find_contraction_error"], "Non-negative positions.")
c("C05", "proved", ["C05_path_info", "C05_naive_cost_differs"],
  "naive_cost counts an addition iff a label occurs in two terms, so it is not always the cost of the one-step plan (C05_naive_cost_differs).")
c("C06", "proved", ["C06_size_dict"], "")
c("C07", "proved", ["C07_choose_memory_arg"], "'max_input' is the largest size of the inputs and the output.")
c("C08", "proved", ["C08_can_blas_iff", "C08_can_blas_step", "C08_two_terms", "C08_can_blas_kind"], "")
c("C09", "proved", ["C09_blas_step_eq_einsum", "C09_which_steps"], "")
c("C51", "partial", ["C01_contract", "C51_zero_broadcast"],
  "C01_contract covers zero-length axes that do not meet length-1 axes; otherwise the claim is false of the code (C51_zero_broadcast).")
c("C52", "partial", ["C01_contract_no_optimize", "C02_no_optimize", "C52_optimize_false_space", "C52_ellipsis_summed", "C52_ellipsis_letters"],
  "Proved for equations without spaces whose ellipses, if any, come with labels among the 52 letters and are not summed over. Otherwise the claim is false of the code: a space or a summed ellipsis makes the unoptimised call raise, an ellipsis beside other labels makes it return something else (the C52_ theorems).")
c("C29", "partial", ["C29_get_symbol_partial", "C29_first_symbols", "C29_counterexample"],
  "Injective, never punctuation, range of chr. The 'never a surrogate' clause is false of the code: indices 55156..55295 give surrogates (C29_counterexample).")
c("C30", "proved", ["C30_gen_unused_symbols"], "")
c("C31", "proved", ["C31_alpha_canonicalize_iff", "C31_alpha_canonicalize_renames", "C31_alpha_canonicalize_idempotent"], "")
c("C32", "partial", ["C32_convert_to_valid_einsum_chars_partial", "C32_counterexample", "C32_exactly"],
  "Proved for strings without '.'; with an ellipsis the code renames the dots (C32_counterexample). C32_exactly says what the function returns for every string.")
c("C33", "proved", ["C33_find_output_str", "C33_find_output_str_order_independent"], "")
c("C34", "proved", ["C34_parse_einsum_input_iff", "C34_parse_einsum_input_error", "C34_spaces_ignored", "C34_comma_in_output_accepted"],
  "The iff is at character level; the code counts ',' in an explicit output as a character like any other (C34_comma_in_output_accepted).")
c("C35", "proved", ["C35_ellipsis_expansion"], "")
c("C36", "partial", ["C36_convert_interleaved", "C36_unknown_output_label", "C36_contract_interleaved", "C36_order_partial", "C36_order_counterexample", "C36_order_exactly"],
  "The conversion is proved in full; the order of the implicit output only for at most 26 labels, beyond which the code gets it wrong (C36_order_counterexample). C36_order_exactly gives the implicit output for any number of labels.")
c("C37", "partial", ["C37_find_output_shape_partial", "C37_counterexample", "C37_exactly", "C37_short_shape"],
  "False of the code for a label with dimensions 0 and 1 (C37_counterexample). C37_exactly gives the shape for all sizes.")
c("C38", "proved", ["C38_format_const_einsum_str", "C38_erase_brackets"], "")
c("C11", "proved", ["C11_ssa_to_linear"], "Paths of at least one step, non-negative ids.")
c("C12", "proved", ["C12_linear_to_ssa", "C12_ssa_round_trip"], "The round trips give the path back with the members of each step sorted.")
c("C13", "proved", ["C13_tree_to_sequence", "C13_leaf"], "Trees whose tuples are non-empty.")
c("C14", "proved", ["C14_optimal_complete"], "")
c("C18", "partial", ["C18_optimal_minimal_partial", "C18_optimal_limit_partial", "C18_counterexample"],
  "Proved for networks in which no summed label occurs on more than two inputs (output labels, such as batch labels, may occur on any number). With hyperedges the claim is false of the code: result_cache is keyed by label sets only (C18_counterexample).")
c("C19", "partial", ["C19_optimal_memory_partial", "C19_counterexample"],
  "Proved for networks in which no summed label occurs on more than two inputs (output labels, such as batch labels, may occur on any number). With hyperedges the claim is false of the code (C19_counterexample).")
c("C15", "proved", ["C15_branch_complete", "C15_branch_function"], "Any cutoff factor, rational costs.")
c("C20", "partial", ["C20_branch_memory_partial", "C20_branch_function_partial", "C20_one_branch_memory", "C20_counterexample"],
  "Proved for nbranch=1 (hence greedy with memory_limit) for every network with positive sizes, and for any nbranch without hyperedges. With hyperedges and nbranch > 1 the claim is false of the code (C20_counterexample).")
c("C27", "proved", ["C27_check_args"], "Arguments compared as values; a caller that mutates the very objects it passed first is not modelled (they are remembered by reference).")
c("C16", "proved", ["C16_ssa_greedy_complete", "C16_greedy_complete"], "Any chooser that returns live candidates or nothing and only shrinks the queue; thermal_chooser is one (C49).")
c("C23", "proved", ["C23_ssa_greedy_order", "C23_greedy_order"], "Unlimited memory and a cost function without random jitter; with a memory limit greedy is branch, which only iterates over sets of small integers.")
c("C49", "proved", ["C49_thermal_chooser", "C49_thermal_cold"], "")
c("C48", "partial", ["C48_cost_partial", "C48_counterexample", "C48_exactly"], "Size always; flops if every label occurs at least twice. False of the code for a label that is summed alone (C48_counterexample). C48_exactly gives the difference for every network, and that it is at most a factor of two.")
c("C24", "proved", ["C24_call", "C24_history", "C24_serial"], "")
c("C25", "partial", ["C25_parallel_partial", "C25_call_partial", "C25_counterexample", "C25_call_counterexample"], "Proved for max_repeats <= pre_dispatch. Otherwise the code skips every other trial (C25_counterexample).")
c("C53", "proved", ["C53_random_greedy_complete", "C53_single_input"], "")
c("C17", "partial", ["C17_dp_complete_partial", "C17_counterexample", "C79_no_limit", "C79_cap_zero"], "Termination without memory limit and completeness for all networks with sizes of at least 1 and a cost cap that is not 0; completeness of every returned path without restriction. With a size of 0 the code may raise RuntimeError although there is no memory limit (C17_counterexample); C79_no_limit says exactly when, and C79_cap_zero what a cost cap of 0 does.")
c("C21", "proved", ["C21_dp_cheapest", "C21_dp_cheapest_connected"], "For every cost model, cost cap, memory limit and set order. Several parts are joined in ascending order of the sizes of their results (see C92). Costs are exact (the code's combo factor is a float).")
c("C22", "partial", ["C22_dp_memory_partial", "C22_diverges", "C79_dp_outcome", "C79_positive"], "The limit is respected within each group of inputs by every path returned; for flops, size and write the call ends with a path or RuntimeError. For combo and limit the code loops forever when the limit cannot be met (C22_diverges). C79_dp_outcome gives the exact outcome for all sizes, cost models and caps.")
c("C26", "proved", ["C26_disconnected_subgraphs"], "For every pop and iteration order of the sets.")
c("C28", "partial", ["C28_registry_partial", "C28_counterexample", "C28_exactly"], "register_path_fn tests the name as given but stores it in lower case: a name with capitals replaces an existing entry (C28_counterexample). C28_exactly says what the registry holds after any sequence of registrations.")
c("C50", "partial", ["C50_auto", "C50_auto_hq_partial", "C53_random_greedy_function", "C50_auto_choice", "C50_auto_hq_choice", "C50_auto_optimal_partial", "C50_auto_branch_partial", "C50_counterexample", "C50_auto_hq_exactly"], "auto: in full, for every non-empty list of inputs, any sizes and memory limit. auto_hq: without memory limit and with sizes of at least 1, or with fewer than 6 or more than 16 inputs; otherwise the code may raise RuntimeError (C50_counterexample), exactly when C50_auto_hq_exactly says.")
c("C41", "partial", ["C41_sharing_stack_partial", "C41_balanced", "C41_query_outside", "C41_sharing_stack_exactly"], "C41_sharing_stack_exactly says what holds in all cases, including get_sharing_cache() outside every context. Any number of threads, any interleaving of the atomic dictionary and list operations, contexts used as with statements use them. Missing: get_sharing_cache() outside every context leaves an empty entry behind, after which currently_sharing() is wrong (C41_query_outside).")
c("C45", "partial", ["C45_object_einsum_partial", "C45_empty_inner_axis", "C45_no_broadcast", "C45_object_einsum_exactly"], "C45_object_einsum_exactly says exactly when a TypeError is raised instead. Elements of any type, read through any map into a commutative semiring that preserves + and *. Missing: an empty inner axis raises TypeError (C45_empty_inner_axis). Axes of length 1 do not broadcast (C45_no_broadcast).")
c("C46", "proved", ["C46_torch_tensordot", "C46_fallback_accepts_more"], "torch.einsum is modelled by numpy's meaning of einsum.")
c("C47", "partial", ["C47_get_func_stable", "C47_has_partial", "C47_default_poisons", "C47_missing_library", "C47_exactly", "C47_which_function"], "The first clause in full. has_einsum/has_tensordot: if no default was passed for a function that the backend lacks; the code caches defaults as if the backend provided them (C47_default_poisons). C47_exactly gives the answers after every history. C47_which_function: the function returned is the one the backend name stands for, by an independent table.")
c("C42", "partial", ["C42_sharing_transparent_partial", "C42_spaces_counterexample", "C42_ellipsis_counterexample"], "All histories of one program with any nesting, resuming and forgetting of contexts and arrays and any reuse of identities; transpose, tensordot, einsum and whole contractions, every backend. Missing: equations that reach einsum as the user wrote them and that numpy reads in another way than the parser (spaces; ellipses beside labels that are not letters; ellipses summed over): there the claim is false of the code (C42_spaces_counterexample, C42_ellipsis_counterexample). In-place modification of arrays is not modelled.")
c("C43", "proved", ["C43_repeated_call_is_shared", "C43_einsum_up_to_renaming_is_shared", "C43_concrete"], "Also for whole contractions and conversions.")
c("C44", "partial", ["C44_conversions_are_fresh_partial", "C44_stale_conversion_counterexample"], "Proved for programs that do not forget an array while a cache holds a conversion of it. Otherwise the claim is false of the code: the converted array is not kept alive, its identity can be reused (C44_stale_conversion_counterexample).")
c("C39", "proved", ["C39_expression_equals_contract", "C39_expression_is_einsum", "C39_all_constant_counterexample", "C39_backend_case_counterexample"], "Same value or same error as contract, after any history. The counterexamples mark what the quantifier leaves out: all operands constant, and backend names in another letter case. For tensorflow's graph mode see C73.")
c("C40", "proved", ["C40_wrong_number_of_arrays", "C40_right_number_returns", "C40_no_arrays_counterexample"], "The IndexError of the call without arrays is C40_no_arrays_counterexample.")
c("C10", "partial", ["C10_out_filled_partial", "C10_out_exact", "C10_optimize_false", "C10_expression_out_exact", "C10_scalar_counterexample", "C10_sharing_counterexample"], "Proved outside sharing contexts for results that are not 0-dimensional; the _exact theorems say what happens in every case. The full claim is false of the code: a 0-dimensional out raises IndexError when the last step is a tensordot, and inside shared_intermediates a last step done by einsum leaves out unfilled. out with a shape other than the result's and data types are not modelled.")
c("C54", "proved", ["C54_contract_named", "C54_contract_default", "C54_unknown_name", "C54_no_search", "C54_runtime_error"], "Fuel bounds the loops of the model: the theorems say that from some fuel on the call returns.")
c("C55", "proved", ["C55_interleaved_path", "C55_interleaved_named"], "optimize=False hands the operands to numpy's own interleaved form and is not covered.")
c("C56", "proved", ["C56_rand_equation", "C56_returns", "C56_single_operand_never_returns", "C56_no_operands", "C56_bad_range", "C56_contract"], "numpy's random numbers are parameters: permutations permute, randint stays in its range.")
c("C57", "proved", ["C57_build_shapes", "C57_build_shapes_fit", "C57_ellipsis_refused"], "The values of the arrays that build_views fills are not modelled.")
c("C58", "partial", ["C58_branch_all_partial", "C58_large_cutoff_partial", "C58_more_branches_partial", "C58_branch_all_limit_partial", "C58_branch_all_limit_size_partial", "C58_counterexample"], "Proved for networks in which no summed label occurs on more than two inputs. False with hyperedges (C58_counterexample). Under a memory limit with minimize='flops' the numbers of operations are compared (not the sizes of paths of equal cost).")
c("C59", "proved", ["C59_greedy_connected_first", "C59_random_greedy_connected_first", "C59_auto_connected_first"], "Without memory limit (with one greedy is branch-1, which makes outer products when nothing else fits). Choosers: the default one and the Boltzmann one of RandomGreedy for any random numbers, or any chooser that drops only what it chooses and dead candidates.")
c("C60", "partial", ["C60_alone", "C60_threads_partial", "C60_first_evaluation_race", "C60_never_wrong", "C60_counterexample_single_step"], "Proved for expressions without constants, and for those whose constants were evaluated once (for any backend) before the threads start. For the first evaluation the claim is false of the code: the evaluated operands are stored before the list of remaining steps (C60_first_evaluation_race). C60_never_wrong: also then a call that returns has the right result, it can only raise, unless the path has steps for single operands (C60_counterexample_single_step).")
c("C61", "proved", ["C61_named_path", "C61_connected_first"], "")
c("C62", "partial", ["C62_least_cost_partial", "C62_memory_partial", "C62_branch_all_partial"], "Proved for networks in which no summed label occurs on more than two inputs and, as far as costs are compared, no label is summed alone; the limit also for all networks with sizes of at least 1 if the finder follows one branch. False with hyperedges (C18_counterexample, C19_counterexample, C20_counterexample, C58_counterexample). dp under a limit is not covered here (see C22).")
c("C63", "proved", ["C63_other_sizes", "C63_same_as_contract", "C63_broadcast_counterexample"], "For backends with an einsum, as C39. The hypothesis on broadcasting is needed: with a new axis of length 1 on a step marked for tensordot the call raises ValueError (C63_broadcast_counterexample). For tensorflow's graph mode see C73.")
c("C64", "proved", ["C64_threads_share_a_cache", "C64_alone", "C64_race"], "Accesses to a dictionary and executions of a backend function are atomic, anything may happen in between. Conversions (to_backend_cache_wrap) are left out: for them the claim fails already with one thread (C44). C64_race: two threads that both compute and store the same product.")
c("C65", "proved", ["C65_any_integers", "C65_refused", "C65_non_negative", "C65_negative_pair", "C65_unfinished_counterexample"], "A path that leaves several operands is not refused: contract returns the first of those left (C65_unfinished_counterexample). Negative positions count from the end of what is left, so (-1, -2) contracts the last of three operands with the first (C65_negative_pair).")
c("C66", "proved", ["C66_get_shape", "C66_entries", "C66_nested_lists", "C66_einsum", "C66_empty_list_refused", "C66_empty_list_counterexample", "C66_list_of_arrays_counterexample"], "The provisos are needed: contract('a->', []) raises IndexError and contract('ab->', [array, array]) ValueError, while optimize=False computes both.")
c("C67", "proved", ["C67_same_path", "C67_report_again", "C67_shapes", "C67_same_contract", "C67_flag_changes"], "C67_flag_changes shows a BLAS flag that differs, for a broadcast axis.")
c("C68", "proved", ["C68_integers", "C68_figures", "C68_exact", "C68_speedup", "C68_table", "C68_expression", "C68_expression_steps", "C68_line_break"], "Decimal division (28 digits, half even) and the format .3e are modelled as the decimal module documents them. A line break is accepted as a label and makes a text with more lines (C68_line_break), hence the hypothesis.")
c("C69", "proved", ["C69_contract_any_library", "C69_contract_without_einsum", "C69_numpy_serves", "C69_torch_serves", "C69_objects_serve"], "Functions of the library are parameters with a specification (Serves). np.tensordot on arrays of objects is a hypothesis of C69_objects_serve.")
c("C70", "partial", ["C70_filter", "C70_keyword_arguments_partial", "C70_exactly", "C70_counterexample", "C70_sharing", "C70_optimize_off", "C70_objects_reject_keywords"], "C70_filter is unconditional. The rest holds with use_blas=False outside sharing (C70_keyword_arguments_partial). It is false in general (C70_counterexample): a step done with tensordot raises TypeError if there is any keyword argument, even one with its default value. C70_exactly says exactly when. Inside shared_intermediates the arguments never reach the library (C70_sharing). With optimize=False the backend argument has no effect (C70_optimize_off).")
c("C71", "proved", ["C71_dp_report", "C71_named", "C71_counterexample_hyper", "C71_counterexample_outer"], "The factor of two is needed with hyperedges (C71_counterexample_hyper). Outer products may be cheaper (C71_counterexample_outer), so that dynamic programming without search_outer is not optimal among all paths.")
c("C72", "proved", ["C72_not_worse_than_greedy", "C72_not_worse_than_named", "C72_never_gets_worse", "C72_counterexample_jitter"], "With the default cost_fn 'memory-removed-jitter' trial 0 breaks ties at random and the instance may be worse than greedy after all repeats (C72_counterexample_jitter).")
c("C73", "proved", ["C73_graph_calls", "C73_einsum", "C73_other_shapes", "C73_counterexample_same_array", "C73_counterexample_recycled"], "Both conditions on shared_intermediates are needed. If the first call passes one array twice inside a context, the graph has one placeholder for both and expr(x, y) computes y.y ever after (C73_counterexample_same_array). Results of session.run are dropped after conversion while their ids stay in the cache; if an id is given again in the same context, the expression works with other constants (C73_counterexample_recycled).")
c("C74", "proved", ["C74_own_pools_shut_once", "C74_others_never_shut", "C74_one_pool_at_a_time", "C74_open_after_assignment", "C74_setter_effect", "C74_jobs_settled", "C74_jobs_once", "C74_outstanding", "C74_awaited_recorded", "C74_counterexample_stale", "C74_counterexample_raises"], "The conditions are needed: after `parallel = 0` (which raises) the optimizer holds the pool it has just shut down and further calls raise RuntimeError (C74_counterexample_stale); if a trial raises the outstanding jobs are neither awaited nor cancelled (C74_counterexample_raises).")
c("C75", "proved", ["C75_interleaved_expression", "C75_refused", "C75_builds"], "At least one operand is not constant and the implicit output is for at most 26 labels, as in C39 and C36. The path finder is any that returns complete paths.")
c("C76", "proved", ["C76_same_plan", "C76_same_plan_builtin", "C76_contract_path", "C76_same_network", "C76_finders", "C76_random_finders", "C76_dp_symbols"], "An implicit output is sorted by label, so the renamed equation may have a transposed result (shown in an example); the plan is the same. Processes are assumed to iterate over sets of small integers (positions) alike, which hash seeds do not touch.")
c("C77", "partial", ["C77_history", "C77_never_worse_partial", "C77_counterexample_hyperedge", "C77_counterexample_limit", "C77_counterexample_lifted"], "For optimizer.best: proved for all networks and limits (C77_history). For the true costs: proved without hyperedges and without limits; false of the code with hyperedges (the second call returns a path of 47 operations instead of 29), when a limit is lifted (equal operations, larger intermediate), and a limit that is given only at a later call may be ignored (C77_counterexample_limit). A second call can indeed find a better path, also with nbranch=None (examples).")
c("C78", "proved", ["C78_counter", "C78_call", "C78_history", "C78_life", "C78_kind", "C78_concrete"], "A function that raises is executed but not counted (C78_call says by how much the two differ: one at most). A conversion function named 'tensor' is excluded, its keys would be taken for saved operands. One thread (threads sharing a cache: C64).")
c("C79", "proved", ["C79_dp_outcome", "C79_positive", "C79_no_limit", "C79_cap_zero"], "Negative or fractional cost caps are not modelled. C79_no_limit and C79_cap_zero are about the named cost models; for functions given by the user see C81 and C83.")
c("C80", "proved", ["C80_theano_right", "C80_theano_returns", "C80_same_array", "C80_counterexample_recycled"], "Theano is modelled by what its documentation says of variables, constants and functions; data types are left out. Theano tensors passed by the user are not modelled.")
c("C81", "proved", ["C81_minimize_strings", "C81_minimize_other", "C81_custom_complete", "C81_custom_ends", "C81_custom_never", "C81_builtin_function", "C81_state", "C81_counterexample_dishonest"], "The factor is the exact number (a float in Python); costs stored by the function are natural numbers. The counterexample shows that the condition on the entries is needed.")
c("C82", "proved", ["C82_history", "C82_numpy_in_numpy_out", "C82_own_arrays", "C82_one_place", "C82_other_device", "C82_letter_case", "C82_einsum", "C82_counterexample_device"], "Outside shared_intermediates; expressions with at least one array left to be given. What the libraries do is assumed as said in Spec/Eager.lean: they return their own arrays and do not raise KeyError (a KeyError in the evaluation of constants would be taken for a missing backend). Tracing by jax.jit is modelled as running the contraction list that is current when the shapes of the arguments are seen for the first time.")
c("C83", "proved", ["C83_custom_cheapest", "C83_custom_outcome", "C83_custom_no_limit", "C83_counterexample_not_monotone"], "Costs are natural numbers. Functions not written like the built-in ones are the subject of C81.")
c("C84", "proved", ["C84_data_type", "C84_same_type", "C84_each_operand_once", "C84_counterexample"], "The rule for types is a parameter; numpy's promote_types for five types is written down for the counterexample. The keyword argument dtype is not modelled.")
c("C85", "proved", ["C85_harmless_writes", "C85_writes_go_unnoticed", "C85_stale_exactly", "C85_stale_counterexample", "C85_result_counterexample"], "As for C42, equations that reach the backend as the user wrote them have to be read by numpy as the parser reads them (Covered); conversions are left to C44 in the first half and included in the second one.")
c("C86", "proved", ["C86_ample_memory", "C86_greedy", "C86_explicit_path", "C86_greedy_counterexample"], "The loops of the model have fuel; the equality holds for every fuel.")
c("C87", "partial", ["C87_more_memory_partial", "C87_counterexample", "C87_dp_returns", "C87_dp_no_worse"], "False of the code in general (C87_counterexample); proved under the conditions stated. Not covered: hyperedges with long summed axes, and the branching and greedy finders.")
c("C88", "proved", ["C88_nested", "C88_operand_order", "C88_linear", "C88_homomorphism"], "Exact arithmetic, at most 52 different labels (as for C01).")
c("C89", "proved", ["C89_largest_intermediate", "C89_speedup", "C89_counterexample", "C89_counterexample_default"], "The figures are the true ones by C05. C89_counterexample shows that the conditions of C89_speedup are needed, C89_counterexample_default that a sentence of the docstring of contract is not true.")
c("C90", "proved", ["C90_summed", "C90_output"], "Exact arithmetic (elements of a commutative semiring). The hypotheses on the label count are those of the calls that return (C01).")
c("C91", "proved", ["C91_optimal", "C91_optimal_order", "C91_dp", "C91_dp_order", "C91_counterexample"], "Conditions as in the statement; C91_counterexample shows that those on hyperedges and lone axes are needed for optimal. Networks in several parts are left out for dp.")
c("C92", "proved", ["C92_dp_parts", "C92_counterexample", "C92_counterexample_independent", "C92_counterexample_traces"], "Conditions as in the statement. C92_counterexample: 'a,b,c,d->abcd' is reported at 28 operations against 24 for pairing the operands, and 'za,zb,c->zabc', whose parts share a label, at 90 against 80. The other two are against statements of docs/paths/dp_path.md.")
c("C93", "proved", ["C93_rule", "C93_without_einsum", "C93_counterexample"], "The library's tensordot and transpose are assumed to do what numpy's do (Serves, Spec/AnyLibrary.lean).")
c("C94", "proved", ["C94_outcome", "C94_raises", "C94_contract_path"], "The model repeats _assess_candidate with the product None * best_progress raising TypeError (Model/NoCutoff.lean); branchNone does not use the factor of its options.")
c("C95", "proved", ["C95_branch", "C95_optimal", "C95_bounds"], "The recursions are repeated with the list of the paths that reach the end (Model/Assessed.lean); branchTrace_state and optTrace_state prove that this changes nothing else. Contractions of all remaining terms at once under a memory limit are not counted. An example attains the bound for branch-2.")
c("C96", "proved", ["C96_new", "C96_tweaks", "C96_minimize_ignored", "C96_nbranch_zero"], "cost_fn a function or one of the two names, cutoff_flops_factor a number (None: C94). The figures are those the object keeps (their truth: C77).")
c("C97", "partial", ["C97_branch_one", "C97_no_outer", "C97_dp", "C97_optimal", "C97_more_branches", "C97_auto_hq_partial", "C97_counterexample_six", "C97_counterexample_seven", "C97_counterexample_eight", "C97_counterexample_batch"], "All parts are proved except 'auto-hq' against 'auto', which is proved for 3 to 5 and 9 to 16 operands and false for 6, 7 and 8 (counterexamples: auto follows outer products that dynamic programming does not consider); for 17 or more it depends on random numbers (C72).")
c("C98", "proved", ["C98_first_pair", "C98_first_pair_path", "C98_random_path", "C98_any_subclass", "C98_best_trial", "C98_never_gets_worse"], "The figures compare as reported ones if no axis is summed alone (minimize='size': always, for the largest intermediate), as in C72. A user's function that returns an unfinished path is the case of C65_unfinished_counterexample.")
c("C99", "proved", ["C99_user_function", "C99_total_function", "C99_always_raises", "C99_known_names", "C99_unknown_name", "C99_name_not_used", "C99_branch_user_function", "C99_branch_always_raises", "C99_branch_unknown_name"], "Cost functions that return something other than a number are left out. The statements on branch are for a new instance.")
c("C100", "partial", ["C100_first_step_partial", "C100_counterexample", "C100_temperature_zero"], "Proved for the first step of greedy and for all steps of RandomGreedy at temperature zero; the later steps of greedy are refuted by C100_counterexample. Costs are exact integers. The temperature-zero theorem says nothing about the steps after two operands have the same labels, and requires all sizes to be at least two (an obsolete candidate may have the same cost otherwise).")
c("C101", "proved", ["C101_three_stages", "C101_greedy", "C101_random_greedy", "C101_auto"], "For ssa_greedy_optimize, for greedy without memory limit, for random_greedy, and for auto (auto_hq) from 15 (17) operands on, whose paths are converted with linear_to_ssa. What the second stage maximises is C100.")
c("C102", "proved", ["C102_at_most", "C102_at_least", "C102_low_rank", "C102_choosers", "C102_counterexample"], "The fuel of the model is the number of iterations allowed; none is the result if it does not suffice. What one iteration costs (a heap operation and the candidates of the new operand) is not counted.")
c("C103", "proved", ["C103_pick", "C103_boltzmann", "C103_possible", "C103_cheaper", "C103_temperature", "C103_relative", "C103_zero", "C103_best_at_zero"], "Temperatures and weights are real numbers: in floating point a weight may be rounded to 0. random() is any number in [0, 1); random.choices of the standard library is modelled by what it computes from this number. C103_best_at_zero is C100 for these weights.")
c("C104", "proved", ["C104_trees", "C104_reported", "C104_outcome", "C104_counterexample"], "From C21, C79 and C92. That a call never ends is modelled by a number of rounds without bound. Equal costs, not equal paths, are claimed.")
c("C105", "proved", ["C105_rounds", "C105_logarithm", "C105_last_cap", "C105_off"], "Rounds are counted by the fuel of the model's while loop; the same number, which has to be at least 2 n, bounds the loop that writes down the path.")
c("C106", "proved", ["C106_work", "C106_exponential", "C106_connected", "C106_counter", "C106_all_rounds", "C106_part_rounds"], "The model with a counter (Model/DpWork) lists the pairs of each round of each part; C106_counter says that its rounds are those of the search and that it counts each run of the innermost body, C106_all_rounds and C106_part_rounds that every round is counted. Parts after one whose search raises are counted too. How many rounds there are is C105.")
C.sort(key=lambda x: x["property"])
json.dump({"claims": C}, open(os.path.join(os.path.dirname(__file__), "..", "MANIFEST.json"), "w"), indent=1)

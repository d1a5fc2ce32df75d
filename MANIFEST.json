{
 "claims": [
  {
   "property": "C01",
   "status": "proved",
   "theorems": [
    "OE.Props.C01_contract",
    "OE.Props.C01_contract_returns",
    "OE.Props.C01_contract_terms",
    "OE.Props.C01_contract_no_optimize"
   ],
   "note": "Complete explicit paths and any path finder answering with complete paths; any element semiring. Up to 52 labels it returns; beyond, it may raise (as numpy's einsum has 52 labels) but what it returns is right. Zero-length axes meeting length-1 axes are excluded (see C51)."
  },
  {
   "property": "C02",
   "status": "proved",
   "theorems": [
    "OE.Props.C02_path_independent",
    "OE.Props.C02_no_optimize"
   ],
   "note": "With optimize=False the code calls numpy's einsum whatever the backend; so does the model."
  },
  {
   "property": "C03",
   "status": "proved",
   "theorems": [
    "OE.Props.C03_contraction_list"
   ],
   "note": ""
  },
  {
   "property": "C04",
   "status": "proved",
   "theorems": [
    "OE.Props.C04_find_contraction",
    "OE.Props.C04_find_contraction_error"
   ],
   "note": "Non-negative positions."
  },
  {
   "property": "C05",
   "status": "proved",
   "theorems": [
    "OE.Props.C05_path_info",
    "OE.Props.C05_naive_cost_differs"
   ],
   "note": "naive_cost counts an addition iff a label occurs in two terms, so it is not always the cost of the one-step plan (C05_naive_cost_differs)."
  },
  {
   "property": "C06",
   "status": "proved",
   "theorems": [
    "OE.Props.C06_size_dict"
   ],
   "note": ""
  },
  {
   "property": "C07",
   "status": "proved",
   "theorems": [
    "OE.Props.C07_choose_memory_arg"
   ],
   "note": "'max_input' is the largest size of the inputs and the output."
  },
  {
   "property": "C08",
   "status": "proved",
   "theorems": [
    "OE.Props.C08_can_blas_iff",
    "OE.Props.C08_can_blas_step",
    "OE.Props.C08_two_terms",
    "OE.Props.C08_can_blas_kind"
   ],
   "note": ""
  },
  {
   "property": "C09",
   "status": "proved",
   "theorems": [
    "OE.Props.C09_blas_step_eq_einsum",
    "OE.Props.C09_which_steps"
   ],
   "note": ""
  },
  {
   "property": "C10",
   "status": "partial",
   "theorems": [
    "OE.Props.C10_out_filled_partial",
    "OE.Props.C10_out_exact",
    "OE.Props.C10_optimize_false",
    "OE.Props.C10_expression_out_exact",
    "OE.Props.C10_scalar_counterexample",
    "OE.Props.C10_sharing_counterexample"
   ],
   "note": "Proved outside sharing contexts for results that are not 0-dimensional; the _exact theorems say what happens in every case. The full claim is false of the code: a 0-dimensional out raises IndexError when the last step is a tensordot, and inside shared_intermediates a last step done by einsum leaves out unfilled. out with a shape other than the result's and data types are not modelled."
  },
  {
   "property": "C100",
   "status": "partial",
   "theorems": [
    "OE.Props.C100_first_step_partial",
    "OE.Props.C100_counterexample",
    "OE.Props.C100_temperature_zero"
   ],
   "note": "Proved for the first step of greedy and for all steps of RandomGreedy at temperature zero; the later steps of greedy are refuted by C100_counterexample. Costs are exact integers. The temperature-zero theorem says nothing about the steps after two operands have the same labels, and requires all sizes to be at least two (an obsolete candidate may have the same cost otherwise)."
  },
  {
   "property": "C101",
   "status": "proved",
   "theorems": [
    "OE.Props.C101_three_stages",
    "OE.Props.C101_greedy",
    "OE.Props.C101_random_greedy",
    "OE.Props.C101_auto"
   ],
   "note": "For ssa_greedy_optimize, for greedy without memory limit, for random_greedy, and for auto (auto_hq) from 15 (17) operands on, whose paths are converted with linear_to_ssa. What the second stage maximises is C100."
  },
  {
   "property": "C102",
   "status": "proved",
   "theorems": [
    "OE.Props.C102_at_most",
    "OE.Props.C102_at_least",
    "OE.Props.C102_low_rank",
    "OE.Props.C102_choosers",
    "OE.Props.C102_counterexample"
   ],
   "note": "The fuel of the model is the number of iterations allowed; none is the result if it does not suffice. What one iteration costs (a heap operation and the candidates of the new operand) is not counted."
  },
  {
   "property": "C103",
   "status": "proved",
   "theorems": [
    "OE.Props.C103_pick",
    "OE.Props.C103_boltzmann",
    "OE.Props.C103_possible",
    "OE.Props.C103_cheaper",
    "OE.Props.C103_temperature",
    "OE.Props.C103_relative",
    "OE.Props.C103_zero",
    "OE.Props.C103_best_at_zero"
   ],
   "note": "Temperatures and weights are real numbers: in floating point a weight may be rounded to 0. random() is any number in [0, 1); random.choices of the standard library is modelled by what it computes from this number. C103_best_at_zero is C100 for these weights."
  },
  {
   "property": "C104",
   "status": "proved",
   "theorems": [
    "OE.Props.C104_trees",
    "OE.Props.C104_reported",
    "OE.Props.C104_outcome",
    "OE.Props.C104_counterexample"
   ],
   "note": "From C21, C79 and C92. That a call never ends is modelled by a number of rounds without bound. Equal costs, not equal paths, are claimed."
  },
  {
   "property": "C105",
   "status": "proved",
   "theorems": [
    "OE.Props.C105_rounds",
    "OE.Props.C105_logarithm",
    "OE.Props.C105_last_cap",
    "OE.Props.C105_off"
   ],
   "note": "Rounds are counted by the fuel of the model's while loop; the same number, which has to be at least 2 n, bounds the loop that writes down the path."
  },
  {
   "property": "C106",
   "status": "proved",
   "theorems": [
    "OE.Props.C106_work",
    "OE.Props.C106_exponential",
    "OE.Props.C106_connected",
    "OE.Props.C106_counter",
    "OE.Props.C106_all_rounds",
    "OE.Props.C106_part_rounds"
   ],
   "note": "The model with a counter (Model/DpWork) lists the pairs of each round of each part; C106_counter says that its rounds are those of the search and that it counts each run of the innermost body, C106_all_rounds and C106_part_rounds that every round is counted. Parts after one whose search raises are counted too. How many rounds there are is C105."
  },
  {
   "property": "C11",
   "status": "proved",
   "theorems": [
    "OE.Props.C11_ssa_to_linear"
   ],
   "note": "Paths of at least one step, non-negative ids."
  },
  {
   "property": "C12",
   "status": "proved",
   "theorems": [
    "OE.Props.C12_linear_to_ssa",
    "OE.Props.C12_ssa_round_trip"
   ],
   "note": "The round trips give the path back with the members of each step sorted."
  },
  {
   "property": "C13",
   "status": "proved",
   "theorems": [
    "OE.Props.C13_tree_to_sequence",
    "OE.Props.C13_leaf"
   ],
   "note": "Trees whose tuples are non-empty."
  },
  {
   "property": "C14",
   "status": "proved",
   "theorems": [
    "OE.Props.C14_optimal_complete"
   ],
   "note": ""
  },
  {
   "property": "C15",
   "status": "proved",
   "theorems": [
    "OE.Props.C15_branch_complete",
    "OE.Props.C15_branch_function"
   ],
   "note": "Any cutoff factor, rational costs."
  },
  {
   "property": "C16",
   "status": "proved",
   "theorems": [
    "OE.Props.C16_ssa_greedy_complete",
    "OE.Props.C16_greedy_complete"
   ],
   "note": "Any chooser that returns live candidates or nothing and only shrinks the queue; thermal_chooser is one (C49)."
  },
  {
   "property": "C17",
   "status": "partial",
   "theorems": [
    "OE.Props.C17_dp_complete_partial",
    "OE.Props.C17_counterexample",
    "OE.Props.C79_no_limit",
    "OE.Props.C79_cap_zero"
   ],
   "note": "Termination without memory limit and completeness for all networks with sizes of at least 1 and a cost cap that is not 0; completeness of every returned path without restriction. With a size of 0 the code may raise RuntimeError although there is no memory limit (C17_counterexample); C79_no_limit says exactly when, and C79_cap_zero what a cost cap of 0 does."
  },
  {
   "property": "C18",
   "status": "partial",
   "theorems": [
    "OE.Props.C18_optimal_minimal_partial",
    "OE.Props.C18_optimal_limit_partial",
    "OE.Props.C18_counterexample"
   ],
   "note": "Proved for networks in which no summed label occurs on more than two inputs (output labels, such as batch labels, may occur on any number). With hyperedges the claim is false of the code: result_cache is keyed by label sets only (C18_counterexample)."
  },
  {
   "property": "C19",
   "status": "partial",
   "theorems": [
    "OE.Props.C19_optimal_memory_partial",
    "OE.Props.C19_counterexample"
   ],
   "note": "Proved for networks in which no summed label occurs on more than two inputs (output labels, such as batch labels, may occur on any number). With hyperedges the claim is false of the code (C19_counterexample)."
  },
  {
   "property": "C20",
   "status": "partial",
   "theorems": [
    "OE.Props.C20_branch_memory_partial",
    "OE.Props.C20_branch_function_partial",
    "OE.Props.C20_one_branch_memory",
    "OE.Props.C20_counterexample"
   ],
   "note": "Proved for nbranch=1 (hence greedy with memory_limit) for every network with positive sizes, and for any nbranch without hyperedges. With hyperedges and nbranch > 1 the claim is false of the code (C20_counterexample)."
  },
  {
   "property": "C21",
   "status": "proved",
   "theorems": [
    "OE.Props.C21_dp_cheapest",
    "OE.Props.C21_dp_cheapest_connected"
   ],
   "note": "For every cost model, cost cap, memory limit and set order. Several parts are joined in ascending order of the sizes of their results (see C92). Costs are exact (the code's combo factor is a float)."
  },
  {
   "property": "C22",
   "status": "partial",
   "theorems": [
    "OE.Props.C22_dp_memory_partial",
    "OE.Props.C22_diverges",
    "OE.Props.C79_dp_outcome",
    "OE.Props.C79_positive"
   ],
   "note": "The limit is respected within each group of inputs by every path returned; for flops, size and write the call ends with a path or RuntimeError. For combo and limit the code loops forever when the limit cannot be met (C22_diverges). C79_dp_outcome gives the exact outcome for all sizes, cost models and caps."
  },
  {
   "property": "C23",
   "status": "proved",
   "theorems": [
    "OE.Props.C23_ssa_greedy_order",
    "OE.Props.C23_greedy_order"
   ],
   "note": "Unlimited memory and a cost function without random jitter; with a memory limit greedy is branch, which only iterates over sets of small integers."
  },
  {
   "property": "C24",
   "status": "proved",
   "theorems": [
    "OE.Props.C24_call",
    "OE.Props.C24_history",
    "OE.Props.C24_serial"
   ],
   "note": ""
  },
  {
   "property": "C25",
   "status": "partial",
   "theorems": [
    "OE.Props.C25_parallel_partial",
    "OE.Props.C25_call_partial",
    "OE.Props.C25_counterexample",
    "OE.Props.C25_call_counterexample"
   ],
   "note": "Proved for max_repeats <= pre_dispatch. Otherwise the code skips every other trial (C25_counterexample)."
  },
  {
   "property": "C26",
   "status": "proved",
   "theorems": [
    "OE.Props.C26_disconnected_subgraphs"
   ],
   "note": "For every pop and iteration order of the sets."
  },
  {
   "property": "C27",
   "status": "proved",
   "theorems": [
    "OE.Props.C27_check_args"
   ],
   "note": "Arguments compared as values; a caller that mutates the very objects it passed first is not modelled (they are remembered by reference)."
  },
  {
   "property": "C28",
   "status": "partial",
   "theorems": [
    "OE.Props.C28_registry_partial",
    "OE.Props.C28_counterexample",
    "OE.Props.C28_exactly"
   ],
   "note": "register_path_fn tests the name as given but stores it in lower case: a name with capitals replaces an existing entry (C28_counterexample). C28_exactly says what the registry holds after any sequence of registrations."
  },
  {
   "property": "C29",
   "status": "partial",
   "theorems": [
    "OE.Props.C29_get_symbol_partial",
    "OE.Props.C29_first_symbols",
    "OE.Props.C29_counterexample"
   ],
   "note": "Injective, never punctuation, range of chr. The 'never a surrogate' clause is false of the code: indices 55156..55295 give surrogates (C29_counterexample)."
  },
  {
   "property": "C30",
   "status": "proved",
   "theorems": [
    "OE.Props.C30_gen_unused_symbols"
   ],
   "note": ""
  },
  {
   "property": "C31",
   "status": "proved",
   "theorems": [
    "OE.Props.C31_alpha_canonicalize_iff",
    "OE.Props.C31_alpha_canonicalize_renames",
    "OE.Props.C31_alpha_canonicalize_idempotent"
   ],
   "note": ""
  },
  {
   "property": "C32",
   "status": "partial",
   "theorems": [
    "OE.Props.C32_convert_to_valid_einsum_chars_partial",
    "OE.Props.C32_counterexample",
    "OE.Props.C32_exactly"
   ],
   "note": "Proved for strings without '.'; with an ellipsis the code renames the dots (C32_counterexample). C32_exactly says what the function returns for every string."
  },
  {
   "property": "C33",
   "status": "proved",
   "theorems": [
    "OE.Props.C33_find_output_str",
    "OE.Props.C33_find_output_str_order_independent"
   ],
   "note": ""
  },
  {
   "property": "C34",
   "status": "proved",
   "theorems": [
    "OE.Props.C34_parse_einsum_input_iff",
    "OE.Props.C34_parse_einsum_input_error",
    "OE.Props.C34_spaces_ignored",
    "OE.Props.C34_comma_in_output_accepted"
   ],
   "note": "The iff is at character level; the code counts ',' in an explicit output as a character like any other (C34_comma_in_output_accepted)."
  },
  {
   "property": "C35",
   "status": "proved",
   "theorems": [
    "OE.Props.C35_ellipsis_expansion"
   ],
   "note": ""
  },
  {
   "property": "C36",
   "status": "partial",
   "theorems": [
    "OE.Props.C36_convert_interleaved",
    "OE.Props.C36_unknown_output_label",
    "OE.Props.C36_contract_interleaved",
    "OE.Props.C36_order_partial",
    "OE.Props.C36_order_counterexample",
    "OE.Props.C36_order_exactly"
   ],
   "note": "The conversion is proved in full; the order of the implicit output only for at most 26 labels, beyond which the code gets it wrong (C36_order_counterexample). C36_order_exactly gives the implicit output for any number of labels."
  },
  {
   "property": "C37",
   "status": "partial",
   "theorems": [
    "OE.Props.C37_find_output_shape_partial",
    "OE.Props.C37_counterexample",
    "OE.Props.C37_exactly",
    "OE.Props.C37_short_shape"
   ],
   "note": "False of the code for a label with dimensions 0 and 1 (C37_counterexample). C37_exactly gives the shape for all sizes."
  },
  {
   "property": "C38",
   "status": "proved",
   "theorems": [
    "OE.Props.C38_format_const_einsum_str",
    "OE.Props.C38_erase_brackets"
   ],
   "note": ""
  },
  {
   "property": "C39",
   "status": "proved",
   "theorems": [
    "OE.Props.C39_expression_equals_contract",
    "OE.Props.C39_expression_is_einsum",
    "OE.Props.C39_all_constant_counterexample",
    "OE.Props.C39_backend_case_counterexample"
   ],
   "note": "Same value or same error as contract, after any history. The counterexamples mark what the quantifier leaves out: all operands constant, and backend names in another letter case. For tensorflow's graph mode see C73."
  },
  {
   "property": "C40",
   "status": "proved",
   "theorems": [
    "OE.Props.C40_wrong_number_of_arrays",
    "OE.Props.C40_right_number_returns",
    "OE.Props.C40_no_arrays_counterexample"
   ],
   "note": "The IndexError of the call without arrays is C40_no_arrays_counterexample."
  },
  {
   "property": "C41",
   "status": "partial",
   "theorems": [
    "OE.Props.C41_sharing_stack_partial",
    "OE.Props.C41_balanced",
    "OE.Props.C41_query_outside",
    "OE.Props.C41_sharing_stack_exactly"
   ],
   "note": "C41_sharing_stack_exactly says what holds in all cases, including get_sharing_cache() outside every context. Any number of threads, any interleaving of the atomic dictionary and list operations, contexts used as with statements use them. Missing: get_sharing_cache() outside every context leaves an empty entry behind, after which currently_sharing() is wrong (C41_query_outside)."
  },
  {
   "property": "C42",
   "status": "partial",
   "theorems": [
    "OE.Props.C42_sharing_transparent_partial",
    "OE.Props.C42_spaces_counterexample",
    "OE.Props.C42_ellipsis_counterexample"
   ],
   "note": "All histories of one program with any nesting, resuming and forgetting of contexts and arrays and any reuse of identities; transpose, tensordot, einsum and whole contractions, every backend. Missing: equations that reach einsum as the user wrote them and that numpy reads in another way than the parser (spaces; ellipses beside labels that are not letters; ellipses summed over): there the claim is false of the code (C42_spaces_counterexample, C42_ellipsis_counterexample). In-place modification of arrays is not modelled."
  },
  {
   "property": "C43",
   "status": "proved",
   "theorems": [
    "OE.Props.C43_repeated_call_is_shared",
    "OE.Props.C43_einsum_up_to_renaming_is_shared",
    "OE.Props.C43_concrete"
   ],
   "note": "Also for whole contractions and conversions."
  },
  {
   "property": "C44",
   "status": "partial",
   "theorems": [
    "OE.Props.C44_conversions_are_fresh_partial",
    "OE.Props.C44_stale_conversion_counterexample"
   ],
   "note": "Proved for programs that do not forget an array while a cache holds a conversion of it. Otherwise the claim is false of the code: the converted array is not kept alive, its identity can be reused (C44_stale_conversion_counterexample)."
  },
  {
   "property": "C45",
   "status": "partial",
   "theorems": [
    "OE.Props.C45_object_einsum_partial",
    "OE.Props.C45_empty_inner_axis",
    "OE.Props.C45_no_broadcast",
    "OE.Props.C45_object_einsum_exactly"
   ],
   "note": "C45_object_einsum_exactly says exactly when a TypeError is raised instead. Elements of any type, read through any map into a commutative semiring that preserves + and *. Missing: an empty inner axis raises TypeError (C45_empty_inner_axis). Axes of length 1 do not broadcast (C45_no_broadcast)."
  },
  {
   "property": "C46",
   "status": "proved",
   "theorems": [
    "OE.Props.C46_torch_tensordot",
    "OE.Props.C46_fallback_accepts_more"
   ],
   "note": "torch.einsum is modelled by numpy's meaning of einsum."
  },
  {
   "property": "C47",
   "status": "partial",
   "theorems": [
    "OE.Props.C47_get_func_stable",
    "OE.Props.C47_has_partial",
    "OE.Props.C47_default_poisons",
    "OE.Props.C47_missing_library",
    "OE.Props.C47_exactly",
    "OE.Props.C47_which_function"
   ],
   "note": "The first clause in full. has_einsum/has_tensordot: if no default was passed for a function that the backend lacks; the code caches defaults as if the backend provided them (C47_default_poisons). C47_exactly gives the answers after every history. C47_which_function: the function returned is the one the backend name stands for, by an independent table."
  },
  {
   "property": "C48",
   "status": "partial",
   "theorems": [
    "OE.Props.C48_cost_partial",
    "OE.Props.C48_counterexample",
    "OE.Props.C48_exactly"
   ],
   "note": "Size always; flops if every label occurs at least twice. False of the code for a label that is summed alone (C48_counterexample). C48_exactly gives the difference for every network, and that it is at most a factor of two."
  },
  {
   "property": "C49",
   "status": "proved",
   "theorems": [
    "OE.Props.C49_thermal_chooser",
    "OE.Props.C49_thermal_cold"
   ],
   "note": ""
  },
  {
   "property": "C50",
   "status": "partial",
   "theorems": [
    "OE.Props.C50_auto",
    "OE.Props.C50_auto_hq_partial",
    "OE.Props.C53_random_greedy_function",
    "OE.Props.C50_auto_choice",
    "OE.Props.C50_auto_hq_choice",
    "OE.Props.C50_auto_optimal_partial",
    "OE.Props.C50_auto_branch_partial",
    "OE.Props.C50_counterexample",
    "OE.Props.C50_auto_hq_exactly"
   ],
   "note": "auto: in full, for every non-empty list of inputs, any sizes and memory limit. auto_hq: without memory limit and with sizes of at least 1, or with fewer than 6 or more than 16 inputs; otherwise the code may raise RuntimeError (C50_counterexample), exactly when C50_auto_hq_exactly says."
  },
  {
   "property": "C51",
   "status": "partial",
   "theorems": [
    "OE.Props.C01_contract",
    "OE.Props.C51_zero_broadcast"
   ],
   "note": "C01_contract covers zero-length axes that do not meet length-1 axes; otherwise the claim is false of the code (C51_zero_broadcast)."
  },
  {
   "property": "C52",
   "status": "partial",
   "theorems": [
    "OE.Props.C01_contract_no_optimize",
    "OE.Props.C02_no_optimize",
    "OE.Props.C52_optimize_false_space",
    "OE.Props.C52_ellipsis_summed",
    "OE.Props.C52_ellipsis_letters"
   ],
   "note": "Proved for equations without spaces whose ellipses, if any, come with labels among the 52 letters and are not summed over. Otherwise the claim is false of the code: a space or a summed ellipsis makes the unoptimised call raise, an ellipsis beside other labels makes it return something else (the C52_ theorems)."
  },
  {
   "property": "C53",
   "status": "proved",
   "theorems": [
    "OE.Props.C53_random_greedy_complete",
    "OE.Props.C53_single_input"
   ],
   "note": ""
  },
  {
   "property": "C54",
   "status": "proved",
   "theorems": [
    "OE.Props.C54_contract_named",
    "OE.Props.C54_contract_default",
    "OE.Props.C54_unknown_name",
    "OE.Props.C54_no_search",
    "OE.Props.C54_runtime_error"
   ],
   "note": "Fuel bounds the loops of the model: the theorems say that from some fuel on the call returns."
  },
  {
   "property": "C55",
   "status": "proved",
   "theorems": [
    "OE.Props.C55_interleaved_path",
    "OE.Props.C55_interleaved_named"
   ],
   "note": "optimize=False hands the operands to numpy's own interleaved form and is not covered."
  },
  {
   "property": "C56",
   "status": "proved",
   "theorems": [
    "OE.Props.C56_rand_equation",
    "OE.Props.C56_returns",
    "OE.Props.C56_single_operand_never_returns",
    "OE.Props.C56_no_operands",
    "OE.Props.C56_bad_range",
    "OE.Props.C56_contract"
   ],
   "note": "numpy's random numbers are parameters: permutations permute, randint stays in its range."
  },
  {
   "property": "C57",
   "status": "proved",
   "theorems": [
    "OE.Props.C57_build_shapes",
    "OE.Props.C57_build_shapes_fit",
    "OE.Props.C57_ellipsis_refused"
   ],
   "note": "The values of the arrays that build_views fills are not modelled."
  },
  {
   "property": "C58",
   "status": "partial",
   "theorems": [
    "OE.Props.C58_branch_all_partial",
    "OE.Props.C58_large_cutoff_partial",
    "OE.Props.C58_more_branches_partial",
    "OE.Props.C58_branch_all_limit_partial",
    "OE.Props.C58_branch_all_limit_size_partial",
    "OE.Props.C58_counterexample"
   ],
   "note": "Proved for networks in which no summed label occurs on more than two inputs. False with hyperedges (C58_counterexample). Under a memory limit with minimize='flops' the numbers of operations are compared (not the sizes of paths of equal cost)."
  },
  {
   "property": "C59",
   "status": "proved",
   "theorems": [
    "OE.Props.C59_greedy_connected_first",
    "OE.Props.C59_random_greedy_connected_first",
    "OE.Props.C59_auto_connected_first"
   ],
   "note": "Without memory limit (with one greedy is branch-1, which makes outer products when nothing else fits). Choosers: the default one and the Boltzmann one of RandomGreedy for any random numbers, or any chooser that drops only what it chooses and dead candidates."
  },
  {
   "property": "C60",
   "status": "partial",
   "theorems": [
    "OE.Props.C60_alone",
    "OE.Props.C60_threads_partial",
    "OE.Props.C60_first_evaluation_race",
    "OE.Props.C60_never_wrong",
    "OE.Props.C60_counterexample_single_step"
   ],
   "note": "Proved for expressions without constants, and for those whose constants were evaluated once (for any backend) before the threads start. For the first evaluation the claim is false of the code: the evaluated operands are stored before the list of remaining steps (C60_first_evaluation_race). C60_never_wrong: also then a call that returns has the right result, it can only raise, unless the path has steps for single operands (C60_counterexample_single_step)."
  },
  {
   "property": "C61",
   "status": "proved",
   "theorems": [
    "OE.Props.C61_named_path",
    "OE.Props.C61_connected_first"
   ],
   "note": ""
  },
  {
   "property": "C62",
   "status": "partial",
   "theorems": [
    "OE.Props.C62_least_cost_partial",
    "OE.Props.C62_memory_partial",
    "OE.Props.C62_branch_all_partial"
   ],
   "note": "Proved for networks in which no summed label occurs on more than two inputs and, as far as costs are compared, no label is summed alone; the limit also for all networks with sizes of at least 1 if the finder follows one branch. False with hyperedges (C18_counterexample, C19_counterexample, C20_counterexample, C58_counterexample). dp under a limit is not covered here (see C22)."
  },
  {
   "property": "C63",
   "status": "proved",
   "theorems": [
    "OE.Props.C63_other_sizes",
    "OE.Props.C63_same_as_contract",
    "OE.Props.C63_broadcast_counterexample"
   ],
   "note": "For backends with an einsum, as C39. The hypothesis on broadcasting is needed: with a new axis of length 1 on a step marked for tensordot the call raises ValueError (C63_broadcast_counterexample). For tensorflow's graph mode see C73."
  },
  {
   "property": "C64",
   "status": "proved",
   "theorems": [
    "OE.Props.C64_threads_share_a_cache",
    "OE.Props.C64_alone",
    "OE.Props.C64_race"
   ],
   "note": "Accesses to a dictionary and executions of a backend function are atomic, anything may happen in between. Conversions (to_backend_cache_wrap) are left out: for them the claim fails already with one thread (C44). C64_race: two threads that both compute and store the same product."
  },
  {
   "property": "C65",
   "status": "proved",
   "theorems": [
    "OE.Props.C65_any_integers",
    "OE.Props.C65_refused",
    "OE.Props.C65_non_negative",
    "OE.Props.C65_negative_pair",
    "OE.Props.C65_unfinished_counterexample"
   ],
   "note": "A path that leaves several operands is not refused: contract returns the first of those left (C65_unfinished_counterexample). Negative positions count from the end of what is left, so (-1, -2) contracts the last of three operands with the first (C65_negative_pair)."
  },
  {
   "property": "C66",
   "status": "proved",
   "theorems": [
    "OE.Props.C66_get_shape",
    "OE.Props.C66_entries",
    "OE.Props.C66_nested_lists",
    "OE.Props.C66_einsum",
    "OE.Props.C66_empty_list_refused",
    "OE.Props.C66_empty_list_counterexample",
    "OE.Props.C66_list_of_arrays_counterexample"
   ],
   "note": "The provisos are needed: contract('a->', []) raises IndexError and contract('ab->', [array, array]) ValueError, while optimize=False computes both."
  },
  {
   "property": "C67",
   "status": "proved",
   "theorems": [
    "OE.Props.C67_same_path",
    "OE.Props.C67_report_again",
    "OE.Props.C67_shapes",
    "OE.Props.C67_same_contract",
    "OE.Props.C67_flag_changes"
   ],
   "note": "C67_flag_changes shows a BLAS flag that differs, for a broadcast axis."
  },
  {
   "property": "C68",
   "status": "proved",
   "theorems": [
    "OE.Props.C68_integers",
    "OE.Props.C68_figures",
    "OE.Props.C68_exact",
    "OE.Props.C68_speedup",
    "OE.Props.C68_table",
    "OE.Props.C68_expression",
    "OE.Props.C68_expression_steps",
    "OE.Props.C68_line_break"
   ],
   "note": "Decimal division (28 digits, half even) and the format .3e are modelled as the decimal module documents them. A line break is accepted as a label and makes a text with more lines (C68_line_break), hence the hypothesis."
  },
  {
   "property": "C69",
   "status": "proved",
   "theorems": [
    "OE.Props.C69_contract_any_library",
    "OE.Props.C69_contract_without_einsum",
    "OE.Props.C69_numpy_serves",
    "OE.Props.C69_torch_serves",
    "OE.Props.C69_objects_serve"
   ],
   "note": "Functions of the library are parameters with a specification (Serves). np.tensordot on arrays of objects is a hypothesis of C69_objects_serve."
  },
  {
   "property": "C70",
   "status": "partial",
   "theorems": [
    "OE.Props.C70_filter",
    "OE.Props.C70_keyword_arguments_partial",
    "OE.Props.C70_exactly",
    "OE.Props.C70_counterexample",
    "OE.Props.C70_sharing",
    "OE.Props.C70_optimize_off",
    "OE.Props.C70_objects_reject_keywords"
   ],
   "note": "C70_filter is unconditional. The rest holds with use_blas=False outside sharing (C70_keyword_arguments_partial). It is false in general (C70_counterexample): a step done with tensordot raises TypeError if there is any keyword argument, even one with its default value. C70_exactly says exactly when. Inside shared_intermediates the arguments never reach the library (C70_sharing). With optimize=False the backend argument has no effect (C70_optimize_off)."
  },
  {
   "property": "C71",
   "status": "proved",
   "theorems": [
    "OE.Props.C71_dp_report",
    "OE.Props.C71_named",
    "OE.Props.C71_counterexample_hyper",
    "OE.Props.C71_counterexample_outer"
   ],
   "note": "The factor of two is needed with hyperedges (C71_counterexample_hyper). Outer products may be cheaper (C71_counterexample_outer), so that dynamic programming without search_outer is not optimal among all paths."
  },
  {
   "property": "C72",
   "status": "proved",
   "theorems": [
    "OE.Props.C72_not_worse_than_greedy",
    "OE.Props.C72_not_worse_than_named",
    "OE.Props.C72_never_gets_worse",
    "OE.Props.C72_counterexample_jitter"
   ],
   "note": "With the default cost_fn 'memory-removed-jitter' trial 0 breaks ties at random and the instance may be worse than greedy after all repeats (C72_counterexample_jitter)."
  },
  {
   "property": "C73",
   "status": "proved",
   "theorems": [
    "OE.Props.C73_graph_calls",
    "OE.Props.C73_einsum",
    "OE.Props.C73_other_shapes",
    "OE.Props.C73_counterexample_same_array",
    "OE.Props.C73_counterexample_recycled"
   ],
   "note": "Both conditions on shared_intermediates are needed. If the first call passes one array twice inside a context, the graph has one placeholder for both and expr(x, y) computes y.y ever after (C73_counterexample_same_array). Results of session.run are dropped after conversion while their ids stay in the cache; if an id is given again in the same context, the expression works with other constants (C73_counterexample_recycled)."
  },
  {
   "property": "C74",
   "status": "proved",
   "theorems": [
    "OE.Props.C74_own_pools_shut_once",
    "OE.Props.C74_others_never_shut",
    "OE.Props.C74_one_pool_at_a_time",
    "OE.Props.C74_open_after_assignment",
    "OE.Props.C74_setter_effect",
    "OE.Props.C74_jobs_settled",
    "OE.Props.C74_jobs_once",
    "OE.Props.C74_outstanding",
    "OE.Props.C74_awaited_recorded",
    "OE.Props.C74_counterexample_stale",
    "OE.Props.C74_counterexample_raises"
   ],
   "note": "The conditions are needed: after `parallel = 0` (which raises) the optimizer holds the pool it has just shut down and further calls raise RuntimeError (C74_counterexample_stale); if a trial raises the outstanding jobs are neither awaited nor cancelled (C74_counterexample_raises)."
  },
  {
   "property": "C75",
   "status": "proved",
   "theorems": [
    "OE.Props.C75_interleaved_expression",
    "OE.Props.C75_refused",
    "OE.Props.C75_builds"
   ],
   "note": "At least one operand is not constant and the implicit output is for at most 26 labels, as in C39 and C36. The path finder is any that returns complete paths."
  },
  {
   "property": "C76",
   "status": "proved",
   "theorems": [
    "OE.Props.C76_same_plan",
    "OE.Props.C76_same_plan_builtin",
    "OE.Props.C76_contract_path",
    "OE.Props.C76_same_network",
    "OE.Props.C76_finders",
    "OE.Props.C76_random_finders",
    "OE.Props.C76_dp_symbols"
   ],
   "note": "An implicit output is sorted by label, so the renamed equation may have a transposed result (shown in an example); the plan is the same. Processes are assumed to iterate over sets of small integers (positions) alike, which hash seeds do not touch."
  },
  {
   "property": "C77",
   "status": "partial",
   "theorems": [
    "OE.Props.C77_history",
    "OE.Props.C77_never_worse_partial",
    "OE.Props.C77_counterexample_hyperedge",
    "OE.Props.C77_counterexample_limit",
    "OE.Props.C77_counterexample_lifted"
   ],
   "note": "For optimizer.best: proved for all networks and limits (C77_history). For the true costs: proved without hyperedges and without limits; false of the code with hyperedges (the second call returns a path of 47 operations instead of 29), when a limit is lifted (equal operations, larger intermediate), and a limit that is given only at a later call may be ignored (C77_counterexample_limit). A second call can indeed find a better path, also with nbranch=None (examples)."
  },
  {
   "property": "C78",
   "status": "proved",
   "theorems": [
    "OE.Props.C78_counter",
    "OE.Props.C78_call",
    "OE.Props.C78_history",
    "OE.Props.C78_life",
    "OE.Props.C78_kind",
    "OE.Props.C78_concrete"
   ],
   "note": "A function that raises is executed but not counted (C78_call says by how much the two differ: one at most). A conversion function named 'tensor' is excluded, its keys would be taken for saved operands. One thread (threads sharing a cache: C64)."
  },
  {
   "property": "C79",
   "status": "proved",
   "theorems": [
    "OE.Props.C79_dp_outcome",
    "OE.Props.C79_positive",
    "OE.Props.C79_no_limit",
    "OE.Props.C79_cap_zero"
   ],
   "note": "Negative or fractional cost caps are not modelled. C79_no_limit and C79_cap_zero are about the named cost models; for functions given by the user see C81 and C83."
  },
  {
   "property": "C80",
   "status": "proved",
   "theorems": [
    "OE.Props.C80_theano_right",
    "OE.Props.C80_theano_returns",
    "OE.Props.C80_same_array",
    "OE.Props.C80_counterexample_recycled"
   ],
   "note": "Theano is modelled by what its documentation says of variables, constants and functions; data types are left out. Theano tensors passed by the user are not modelled."
  },
  {
   "property": "C81",
   "status": "proved",
   "theorems": [
    "OE.Props.C81_minimize_strings",
    "OE.Props.C81_minimize_other",
    "OE.Props.C81_custom_complete",
    "OE.Props.C81_custom_ends",
    "OE.Props.C81_custom_never",
    "OE.Props.C81_builtin_function",
    "OE.Props.C81_state",
    "OE.Props.C81_counterexample_dishonest"
   ],
   "note": "The factor is the exact number (a float in Python); costs stored by the function are natural numbers. The counterexample shows that the condition on the entries is needed."
  },
  {
   "property": "C82",
   "status": "proved",
   "theorems": [
    "OE.Props.C82_history",
    "OE.Props.C82_numpy_in_numpy_out",
    "OE.Props.C82_own_arrays",
    "OE.Props.C82_one_place",
    "OE.Props.C82_other_device",
    "OE.Props.C82_letter_case",
    "OE.Props.C82_einsum",
    "OE.Props.C82_counterexample_device"
   ],
   "note": "Outside shared_intermediates; expressions with at least one array left to be given. What the libraries do is assumed as said in Spec/Eager.lean: they return their own arrays and do not raise KeyError (a KeyError in the evaluation of constants would be taken for a missing backend). Tracing by jax.jit is modelled as running the contraction list that is current when the shapes of the arguments are seen for the first time."
  },
  {
   "property": "C83",
   "status": "proved",
   "theorems": [
    "OE.Props.C83_custom_cheapest",
    "OE.Props.C83_custom_outcome",
    "OE.Props.C83_custom_no_limit",
    "OE.Props.C83_counterexample_not_monotone"
   ],
   "note": "Costs are natural numbers. Functions not written like the built-in ones are the subject of C81."
  },
  {
   "property": "C84",
   "status": "proved",
   "theorems": [
    "OE.Props.C84_data_type",
    "OE.Props.C84_same_type",
    "OE.Props.C84_each_operand_once",
    "OE.Props.C84_counterexample"
   ],
   "note": "The rule for types is a parameter; numpy's promote_types for five types is written down for the counterexample. The keyword argument dtype is not modelled."
  },
  {
   "property": "C85",
   "status": "proved",
   "theorems": [
    "OE.Props.C85_harmless_writes",
    "OE.Props.C85_writes_go_unnoticed",
    "OE.Props.C85_stale_exactly",
    "OE.Props.C85_stale_counterexample",
    "OE.Props.C85_result_counterexample"
   ],
   "note": "As for C42, equations that reach the backend as the user wrote them have to be read by numpy as the parser reads them (Covered); conversions are left to C44 in the first half and included in the second one."
  },
  {
   "property": "C86",
   "status": "proved",
   "theorems": [
    "OE.Props.C86_ample_memory",
    "OE.Props.C86_greedy",
    "OE.Props.C86_explicit_path",
    "OE.Props.C86_greedy_counterexample"
   ],
   "note": "The loops of the model have fuel; the equality holds for every fuel."
  },
  {
   "property": "C87",
   "status": "partial",
   "theorems": [
    "OE.Props.C87_more_memory_partial",
    "OE.Props.C87_counterexample",
    "OE.Props.C87_dp_returns",
    "OE.Props.C87_dp_no_worse"
   ],
   "note": "False of the code in general (C87_counterexample); proved under the conditions stated. Not covered: hyperedges with long summed axes, and the branching and greedy finders."
  },
  {
   "property": "C88",
   "status": "proved",
   "theorems": [
    "OE.Props.C88_nested",
    "OE.Props.C88_operand_order",
    "OE.Props.C88_linear",
    "OE.Props.C88_homomorphism"
   ],
   "note": "Exact arithmetic, at most 52 different labels (as for C01)."
  },
  {
   "property": "C89",
   "status": "proved",
   "theorems": [
    "OE.Props.C89_largest_intermediate",
    "OE.Props.C89_speedup",
    "OE.Props.C89_counterexample",
    "OE.Props.C89_counterexample_default"
   ],
   "note": "The figures are the true ones by C05. C89_counterexample shows that the conditions of C89_speedup are needed, C89_counterexample_default that a sentence of the docstring of contract is not true."
  },
  {
   "property": "C90",
   "status": "proved",
   "theorems": [
    "OE.Props.C90_summed",
    "OE.Props.C90_output"
   ],
   "note": "Exact arithmetic (elements of a commutative semiring). The hypotheses on the label count are those of the calls that return (C01)."
  },
  {
   "property": "C91",
   "status": "proved",
   "theorems": [
    "OE.Props.C91_optimal",
    "OE.Props.C91_optimal_order",
    "OE.Props.C91_dp",
    "OE.Props.C91_dp_order",
    "OE.Props.C91_counterexample"
   ],
   "note": "Conditions as in the statement; C91_counterexample shows that those on hyperedges and lone axes are needed for optimal. Networks in several parts are left out for dp."
  },
  {
   "property": "C92",
   "status": "proved",
   "theorems": [
    "OE.Props.C92_dp_parts",
    "OE.Props.C92_counterexample",
    "OE.Props.C92_counterexample_independent",
    "OE.Props.C92_counterexample_traces"
   ],
   "note": "Conditions as in the statement. C92_counterexample: 'a,b,c,d->abcd' is reported at 28 operations against 24 for pairing the operands, and 'za,zb,c->zabc', whose parts share a label, at 90 against 80. The other two are against statements of docs/paths/dp_path.md."
  },
  {
   "property": "C93",
   "status": "proved",
   "theorems": [
    "OE.Props.C93_rule",
    "OE.Props.C93_without_einsum",
    "OE.Props.C93_counterexample"
   ],
   "note": "The library's tensordot and transpose are assumed to do what numpy's do (Serves, Spec/AnyLibrary.lean)."
  },
  {
   "property": "C94",
   "status": "proved",
   "theorems": [
    "OE.Props.C94_outcome",
    "OE.Props.C94_raises",
    "OE.Props.C94_contract_path"
   ],
   "note": "The model repeats _assess_candidate with the product None * best_progress raising TypeError (Model/NoCutoff.lean); branchNone does not use the factor of its options."
  },
  {
   "property": "C95",
   "status": "proved",
   "theorems": [
    "OE.Props.C95_branch",
    "OE.Props.C95_optimal",
    "OE.Props.C95_bounds"
   ],
   "note": "The recursions are repeated with the list of the paths that reach the end (Model/Assessed.lean); branchTrace_state and optTrace_state prove that this changes nothing else. Contractions of all remaining terms at once under a memory limit are not counted. An example attains the bound for branch-2."
  },
  {
   "property": "C96",
   "status": "proved",
   "theorems": [
    "OE.Props.C96_new",
    "OE.Props.C96_tweaks",
    "OE.Props.C96_minimize_ignored",
    "OE.Props.C96_nbranch_zero"
   ],
   "note": "cost_fn a function or one of the two names, cutoff_flops_factor a number (None: C94). The figures are those the object keeps (their truth: C77)."
  },
  {
   "property": "C97",
   "status": "partial",
   "theorems": [
    "OE.Props.C97_branch_one",
    "OE.Props.C97_no_outer",
    "OE.Props.C97_dp",
    "OE.Props.C97_optimal",
    "OE.Props.C97_more_branches",
    "OE.Props.C97_auto_hq_partial",
    "OE.Props.C97_counterexample_six",
    "OE.Props.C97_counterexample_seven",
    "OE.Props.C97_counterexample_eight",
    "OE.Props.C97_counterexample_batch"
   ],
   "note": "All parts are proved except 'auto-hq' against 'auto', which is proved for 3 to 5 and 9 to 16 operands and false for 6, 7 and 8 (counterexamples: auto follows outer products that dynamic programming does not consider); for 17 or more it depends on random numbers (C72)."
  },
  {
   "property": "C98",
   "status": "proved",
   "theorems": [
    "OE.Props.C98_first_pair",
    "OE.Props.C98_first_pair_path",
    "OE.Props.C98_random_path",
    "OE.Props.C98_any_subclass",
    "OE.Props.C98_best_trial",
    "OE.Props.C98_never_gets_worse"
   ],
   "note": "The figures compare as reported ones if no axis is summed alone (minimize='size': always, for the largest intermediate), as in C72. A user's function that returns an unfinished path is the case of C65_unfinished_counterexample."
  },
  {
   "property": "C99",
   "status": "proved",
   "theorems": [
    "OE.Props.C99_user_function",
    "OE.Props.C99_total_function",
    "OE.Props.C99_always_raises",
    "OE.Props.C99_known_names",
    "OE.Props.C99_unknown_name",
    "OE.Props.C99_name_not_used",
    "OE.Props.C99_branch_user_function",
    "OE.Props.C99_branch_always_raises",
    "OE.Props.C99_branch_unknown_name"
   ],
   "note": "Cost functions that return something other than a number are left out. The statements on branch are for a new instance."
  }
 ]
}
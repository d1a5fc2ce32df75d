{"id": "C01", "title": "contract equals one-shot einsum", "statement": "For a well-formed equation and operands, contract(eq, *ops, optimize=path) returns, without raising, an array whose shape is given by the output subscript and whose every entry equals the sum, over all values of the non-output labels, of the product of the operands (the Einstein summation of the whole expression), with size-1 dimensions broadcasting.", "quantifier": "every accepted equation, every number of operands, every rank and dimension sizes (no label having both a zero-length and a length-1 axis), every array contents over any commutative semiring, every complete contraction path or path finder that answers with one", "why_tests_cant": "the space of equations x paths x array contents is infinite; tests sample a few dozen equations with random arrays", "anchors": ["opt_einsum/contract.py:contract", "opt_einsum/contract.py:contract_path", "opt_einsum/contract.py:_core_contract", "opt_einsum/helpers.py:find_contraction"]}
{"id": "C02", "title": "result does not depend on path, BLAS use or einsum availability", "statement": "Two calls of contract on the same equation and operands that differ only in the contraction path, in use_blas, or in whether the backend offers einsum, return the same array whenever both return.", "quantifier": "every pair of complete paths, both values of use_blas, backends with and without einsum, all operands", "why_tests_cant": "pairs of paths grow super-exponentially with the number of operands", "anchors": ["opt_einsum/contract.py:_core_contract", "opt_einsum/contract.py:contract_path"]}
{"id": "C03", "title": "contraction list is a faithful plan", "statement": "In the contraction list built by contract_path for a complete path, each step names operand positions that exist at that moment, its einsum string lists exactly the labels of those operands followed by its result labels, every result label of a non-final step occurs in the popped operands and is still needed by the output or another remaining operand, no needed label is dropped, the last step produces exactly the output subscript in the requested order, and exactly one operand remains at the end.", "quantifier": "every equation, every complete path", "why_tests_cant": "bookkeeping errors appear only for particular interleavings of positions that grow factorially with operands", "anchors": ["opt_einsum/contract.py:contract_path", "opt_einsum/helpers.py:find_contraction"]}
{"id": "C04", "title": "find_contraction computes the contraction's index sets", "statement": "find_contraction(positions, input_sets, output_set) returns as result exactly the labels of the selected terms that are needed by the output or by an unselected term, as removed exactly the other labels of the selected terms, and the unselected terms in order followed by the result; it raises on out-of-range positions.", "quantifier": "every list of label sets, every output set, every tuple of distinct positions", "why_tests_cant": "label sets and positions are unbounded", "anchors": ["opt_einsum/helpers.py:find_contraction"]}
{"id": "C05", "title": "PathInfo cost figures are the true costs of the plan", "statement": "PathInfo.opt_cost is the sum over the steps of (product of the sizes of all labels involved) x (max(1, terms-1) plus one if some label is summed); scale_list holds the number of labels of each step; size_list the number of elements of each intermediate; largest_intermediate their maximum; naive_cost is the same formula for a single all-at-once step, an addition being counted iff some label occurs in two terms.", "quantifier": "every equation, sizes and path", "why_tests_cant": "requires agreement for unboundedly many plans and sizes", "anchors": ["opt_einsum/contract.py:contract_path", "opt_einsum/contract.py:PathInfo", "opt_einsum/helpers.py:flop_count", "opt_einsum/helpers.py:compute_size_by_dict"]}
{"id": "C06", "title": "dimension checking and broadcasting sizes", "statement": "contract_path accepts the shapes iff every operand has as many dimensions as its term has labels and, for each label, all of its dimensions other than 1 are equal; the recorded size of the label is then that common dimension (1 if all are 1). Otherwise it raises ValueError.", "quantifier": "every list of terms and shapes, labels repeated within and across terms, sizes 0, 1 and larger in any order", "why_tests_cant": "order-dependent dictionary updates over unbounded inputs", "anchors": ["opt_einsum/contract.py:contract_path"]}
{"id": "C07", "title": "memory_limit argument normalisation", "statement": "memory_limit None or -1 means unlimited, 'max_input' means the largest size among the inputs and the output, integers >= 1 are used as given, and every other value is rejected with ValueError.", "quantifier": "every memory_limit value and every list of sizes", "why_tests_cant": "integers are unbounded", "anchors": ["opt_einsum/contract.py:_choose_memory_arg"]}
{"id": "C08", "title": "can_blas is sound and complete for pairwise tensordot", "statement": "can_blas answers something other than False exactly when there are two terms, no label repeats inside a term, every label shared by the two terms is absent from the result and every unshared label is present in it, and (if shapes are given) every removed label has the same dimension on both sides. A GEMM answer implies that the removed labels are contiguous at an end of both terms in the same order; DOT implies equal terms.", "quantifier": "all pairs of terms, results, removed sets and shapes", "why_tests_cant": "all strings", "anchors": ["opt_einsum/blas.py:can_blas"]}
{"id": "C09", "title": "a BLAS step equals the einsum step it replaces", "statement": "Whenever contract_path flags a step for BLAS, performing tensordot over the removed labels followed by the transpose gives the same array (shape and entries) as evaluating the step's einsum string.", "quantifier": "every flagged step, all array contents", "why_tests_cant": "axes permutations grow factorially with rank", "anchors": ["opt_einsum/contract.py:_core_contract", "opt_einsum/blas.py:can_blas"]}
{"id": "C10", "title": "out= receives the result", "statement": "contract(..., out=o) and expr(..., out=o) fill o with the result and return o, also when a shared_intermediates context is active.", "quantifier": "every equation, path and sharing state", "why_tests_cant": "depends on the history of the sharing cache and on which primitive runs last", "anchors": ["opt_einsum/contract.py:_core_contract", "opt_einsum/sharing.py:einsum_cache_wrap"]}
{"id": "C11", "title": "ssa_to_linear preserves the contraction", "statement": "Executing ssa_to_linear(p) with recycled linear positions performs the same contractions, in the same order on the same tensors, as executing p with static single assignment ids.", "quantifier": "every complete ssa path for any number of tensors and any contraction arity", "why_tests_cant": "unbounded number of tensors and steps", "anchors": ["opt_einsum/paths.py:ssa_to_linear"]}
{"id": "C12", "title": "linear/ssa round trips", "statement": "For complete paths ssa_to_linear(linear_to_ssa(p)) = p and linear_to_ssa(ssa_to_linear(q)) = q up to the order of ids inside each step, and both keep paths complete.", "quantifier": "every complete path", "why_tests_cant": "unbounded lengths", "anchors": ["opt_einsum/paths.py:ssa_to_linear", "opt_einsum/paths.py:linear_to_ssa"]}
{"id": "C13", "title": "contraction trees become equivalent paths", "statement": "For every contraction tree whose leaves are 0..n-1 once each, the path produced from it (as the dp optimizer does) is complete for n tensors and executing it performs exactly the contractions of the tree.", "quantifier": "every tree of any shape, depth and arity", "why_tests_cant": "trees are unbounded", "anchors": ["opt_einsum/paths.py:_tree_to_sequence"]}
{"id": "C14", "title": "optimal always returns a complete path", "statement": "optimal(inputs, output, sizes, memory_limit) terminates and returns a complete contraction path for any non-empty inputs.", "quantifier": "every inputs, output, sizes, memory limit, and every iteration order of Python sets", "why_tests_cant": "search trees are factorial; set iteration order is an implementation detail", "anchors": ["opt_einsum/paths.py:optimal"]}
{"id": "C15", "title": "branch-and-bound always returns a complete path", "statement": "branch / BranchBound with any nbranch >= 1, cutoff factor >= 1, minimize criterion, cost function and memory limit terminates and returns a complete contraction path.", "quantifier": "every inputs, output, sizes, memory limit, options and set iteration order, and every history of calls of the instance", "why_tests_cant": "pruning interacts with history of best costs; unbounded", "anchors": ["opt_einsum/paths.py:BranchBound", "opt_einsum/paths.py:branch"]}
{"id": "C16", "title": "greedy always returns a complete path", "statement": "ssa_greedy_optimize / greedy terminates without raising and returns a complete contraction path whatever valid candidate the chooser picks and whatever costs the cost function assigns.", "quantifier": "every inputs, output, sizes, cost function, chooser behaviour, and set iteration order", "why_tests_cant": "chooser may be random; queue contains stale entries; unbounded", "anchors": ["opt_einsum/paths.py:ssa_greedy_optimize", "opt_einsum/paths.py:greedy"]}
{"id": "C17", "title": "dp always returns a complete path", "statement": "DynamicProgramming without memory limit terminates and returns a complete path for every inputs (any minimize kind, search_outer or not), and whenever it returns under a memory limit the path is complete.", "quantifier": "every inputs, output, sizes, minimize, search_outer, cost_cap", "why_tests_cant": "the cost-cap loop's termination is a property of all inputs", "anchors": ["opt_einsum/paths.py:DynamicProgramming"]}
{"id": "C18", "title": "optimal finds a minimum-cost path", "statement": "Without a memory limit, no pairwise contraction order has a smaller total flop count than the path returned by optimal.", "quantifier": "every inputs, output, sizes and set iteration order, against every pairwise order", "why_tests_cant": "all orders must be compared for all inputs", "anchors": ["opt_einsum/paths.py:optimal", "opt_einsum/paths.py:calc_k12_flops"]}
{"id": "C19", "title": "optimal respects memory_limit", "statement": "With memory_limit m, every step of the path returned by optimal except its last produces an intermediate with at most m elements.", "quantifier": "every inputs, sizes, limit, set order", "why_tests_cant": "all search branches", "anchors": ["opt_einsum/paths.py:optimal"]}
{"id": "C20", "title": "branch respects memory_limit", "statement": "With memory_limit m, every step except the last of the path returned by a fresh branch search (and by greedy, which delegates to it) produces an intermediate with at most m elements.", "quantifier": "every inputs, sizes, limit, options, set order", "why_tests_cant": "all search branches", "anchors": ["opt_einsum/paths.py:BranchBound", "opt_einsum/paths.py:greedy"]}
{"id": "C21", "title": "dp finds the cheapest tree", "statement": "Without memory limit the tree chosen by DynamicProgramming for a connected set of inputs has minimal cost (for its own cost model: flops, size, write or combo) among all binary contraction trees (search_outer=True), or among all those without outer products (search_outer=False), whatever the cost-cap strategy. The trees of several connected parts are joined one after the other, in ascending order of the sizes of their results.", "quantifier": "every inputs, sizes, minimize criterion", "why_tests_cant": "number of trees is super-exponential", "anchors": ["opt_einsum/paths.py:DynamicProgramming", "opt_einsum/paths.py:_dp_compare_flops", "opt_einsum/paths.py:_dp_compare_size", "opt_einsum/paths.py:_dp_compare_write", "opt_einsum/paths.py:_dp_compare_combo"]}
{"id": "C22", "title": "dp respects memory_limit or reports failure", "statement": "Under memory_limit m every pairwise intermediate that DynamicProgramming builds inside a connected subgraph has at most m elements; if no such tree exists it raises RuntimeError rather than running forever.", "quantifier": "every inputs, sizes, limit and minimize criterion", "why_tests_cant": "non-termination cannot be observed by a test; all inputs", "anchors": ["opt_einsum/paths.py:DynamicProgramming"]}
{"id": "C23", "title": "greedy is independent of hash ordering", "statement": "The path returned by greedy with the default chooser depends only on the inputs, output and sizes, not on the iteration order of Python sets and dicts of sets (PYTHONHASHSEED).", "quantifier": "every inputs and every pair of iteration orders", "why_tests_cant": "a test runs under a handful of hash seeds", "anchors": ["opt_einsum/paths.py:ssa_greedy_optimize", "opt_einsum/paths.py:_get_candidate"]}
{"id": "C24", "title": "a random optimizer returns the best trial seen so far", "statement": "After any sequence of calls, RandomOptimizer's best flops/size/path are those of a trial that no other recorded trial beats under the chosen criterion, costs and sizes record every assessed trial in order, and each call's returned path is that best path.", "quantifier": "every history of calls, trial results, time-outs and criterion", "why_tests_cant": "unbounded histories of random trials", "anchors": ["opt_einsum/path_random.py:RandomOptimizer"]}
{"id": "C25", "title": "parallel random search runs the same trials as serial", "statement": "With an executor, a call assesses the results of exactly the trials r_start .. r_start+max_repeats-1, in order, as the serial version does, with at most pre_dispatch jobs outstanding.", "quantifier": "every max_repeats, pre_dispatch and trial function", "why_tests_cant": "depends on the relation of two unbounded integers", "anchors": ["opt_einsum/path_random.py:RandomOptimizer._gen_results_parallel"]}
{"id": "C26", "title": "disconnected subgraphs are the connected components", "statement": "The groups used by dp partition the inputs, no summed label is shared by two groups, and inside a group any two inputs are linked by a chain of inputs sharing summed labels.", "quantifier": "every inputs, output and set iteration order", "why_tests_cant": "graphs are unbounded", "anchors": ["opt_einsum/paths.py:_find_disconnected_subgraphs"]}
{"id": "C27", "title": "stateful optimizers refuse a different contraction", "statement": "After the first call, an optimizer instance that checks its arguments accepts a call iff inputs, output and sizes equal those of the first call, and raises ValueError otherwise.", "quantifier": "every history of calls", "why_tests_cant": "unbounded histories", "anchors": ["opt_einsum/paths.py:PathOptimizer._check_args_against_first_call"]}
{"id": "C28", "title": "path function registry", "statement": "get_path_fn is case-insensitive; register_path_fn(name, fn) makes fn available under name in any case, never replaces an existing optimizer and leaves all others unchanged.", "quantifier": "every history of registrations and lookups, every name", "why_tests_cant": "unbounded histories and names", "anchors": ["opt_einsum/paths.py:register_path_fn", "opt_einsum/paths.py:get_path_fn"]}
{"id": "C29", "title": "get_symbol yields distinct valid symbols", "statement": "get_symbol(i) is a single character, different for different i, never one of ',->. ', and never a surrogate code point.", "quantifier": "every natural number i in chr's range", "why_tests_cant": "1.1 million values, and injectivity over all pairs", "anchors": ["opt_einsum/parser.py:get_symbol"]}
{"id": "C30", "title": "gen_unused_symbols", "statement": "gen_unused_symbols(used, n) terminates and yields exactly n pairwise different symbols none of which occurs in used, taking the earliest available ones.", "quantifier": "every string used and every n", "why_tests_cant": "unbounded", "anchors": ["opt_einsum/parser.py:gen_unused_symbols"]}
{"id": "C31", "title": "alpha_canonicalize identifies exactly alpha-equivalent equations", "statement": "alpha_canonicalize is idempotent, renames labels injectively leaving ',', '-', '>' and '.' fixed, and gives equal results for two equations iff one is obtained from the other by an injective renaming of labels.", "quantifier": "every pair of equations", "why_tests_cant": "all pairs of strings", "anchors": ["opt_einsum/parser.py:alpha_canonicalize"]}
{"id": "C32", "title": "convert_to_valid_einsum_chars is a faithful renaming", "statement": "convert_to_valid_einsum_chars renames labels injectively, keeps the punctuation , - > . and produces only characters valid for numpy einsum when there are at most 52 labels.", "quantifier": "every einsum string", "why_tests_cant": "all strings", "anchors": ["opt_einsum/parser.py:convert_to_valid_einsum_chars", "opt_einsum/contract.py:_einsum"]}
{"id": "C33", "title": "find_output_str implements implicit output", "statement": "find_output_str(subscripts) lists in increasing order, without repetition, exactly the labels occurring exactly once in the subscripts, whatever the order of the operands.", "quantifier": "every subscripts string", "why_tests_cant": "all strings", "anchors": ["opt_einsum/parser.py:find_output_str"]}
{"id": "C34", "title": "parse_einsum_input accepts exactly well-formed equations", "statement": "For subscripts without ellipsis, parse_einsum_input returns the part before '->' and the explicit or implicit output iff there is at most one '->' and no stray '-' or '>', output characters are distinct and occur in the inputs, and the number of terms equals the number of operands; otherwise ValueError. Spaces are ignored.", "quantifier": "every subscripts string and operand list", "why_tests_cant": "all strings", "anchors": ["opt_einsum/parser.py:parse_einsum_input"]}
{"id": "C35", "title": "ellipsis expansion", "statement": "For subscripts with ellipses, parse_einsum_input replaces each operand's ellipsis by labels not otherwise used, so that every operand's term length equals its rank, broadcast dimensions are aligned from the right across operands, and the output's ellipsis stands for the longest of them (put first when the output is implicit).", "quantifier": "every subscripts with ellipses, all operand ranks", "why_tests_cant": "all strings and ranks", "anchors": ["opt_einsum/parser.py:parse_einsum_input"]}
{"id": "C36", "title": "interleaved input equals string input", "statement": "convert_interleaved_input produces an equation in which equal user labels get equal symbols and different ones different symbols, position by position, with the operands in order; for implicit output the result axes are ordered as the user's labels are.", "quantifier": "every interleaved operand list with comparable labels", "why_tests_cant": "unbounded number of labels", "anchors": ["opt_einsum/parser.py:convert_interleaved_input", "opt_einsum/parser.py:convert_subscripts"]}
{"id": "C37", "title": "find_output_shape is the broadcast shape", "statement": "find_output_shape(inputs, shapes, output) is the shape of the einsum result: for each output label the common non-1 dimension of its occurrences, or 1.", "quantifier": "every terms and compatible shapes", "why_tests_cant": "unbounded", "anchors": ["opt_einsum/parser.py:find_output_shape"]}
{"id": "C38", "title": "format_const_einsum_str only adds brackets", "statement": "format_const_einsum_str(eq, constants) with its brackets erased is eq, the terms inside brackets are exactly the constant ones, and with no constants it is eq.", "quantifier": "every equation and constant set", "why_tests_cant": "all strings", "anchors": ["opt_einsum/contract.py:format_const_einsum_str"]}
{"id": "C39", "title": "expressions with constants equal plain contraction", "statement": "Calling a ContractExpression with its variable arrays gives the same array as contract with constants and variables merged in position order, for every call in any history of calls with any backends, before or after constants were evaluated.", "quantifier": "every equation, path, set of constants leaving at least one variable, and every history of calls and of evaluate_constants over several backends (names spelled as in the library's tables)", "why_tests_cant": "histories of cached constants per backend are unbounded", "anchors": ["opt_einsum/contract.py:ContractExpression", "opt_einsum/contract.py:contract_expression", "opt_einsum/contract.py:_core_contract"]}
{"id": "C40", "title": "expressions check the number of arrays", "statement": "A ContractExpression call with a number of arrays other than the number of non-constant operands raises ValueError and leaves the expression as it was (with no array and no backend to guess from it is an IndexError); with that number, and shapes as at building, it returns.", "quantifier": "every expression, every history of its use and every call", "why_tests_cant": "unbounded", "anchors": ["opt_einsum/contract.py:ContractExpression.__call__"]}
{"id": "C41", "title": "sharing contexts nest and are thread-local", "statement": "In every interleaving of threads entering and leaving shared_intermediates (normally or by exception), a thread is sharing iff it is inside at least one of its own contexts, its active cache is that of its innermost one, and threads never affect each other's.", "quantifier": "every schedule of enter/exit/query operations over any number of threads", "why_tests_cant": "interleavings are unbounded", "anchors": ["opt_einsum/sharing.py:shared_intermediates", "opt_einsum/sharing.py:currently_sharing", "opt_einsum/sharing.py:get_sharing_cache"]}
{"id": "C42", "title": "sharing never changes results", "statement": "Inside shared_intermediates, every einsum, tensordot and transpose call returns the same value as it would without sharing, even though results are looked up by object identity and by an equation canonicalised modulo renaming and operand order, and even though identities of dead objects can be reused.", "quantifier": "every history of operations, allocations and garbage collections", "why_tests_cant": "false hits depend on identity reuse after arbitrary histories", "anchors": ["opt_einsum/sharing.py:einsum_cache_wrap", "opt_einsum/sharing.py:tensordot_cache_wrap", "opt_einsum/sharing.py:transpose_cache_wrap", "opt_einsum/sharing.py:_save_tensors", "opt_einsum/sharing.py:_memoize"]}
{"id": "C43", "title": "sharing does share", "statement": "Inside one shared_intermediates context, an operation equal to an earlier one (for einsum: up to label renaming and a reordering of distinct operands) is not executed again and returns the earlier object.", "quantifier": "every history of operations", "why_tests_cant": "unbounded histories", "anchors": ["opt_einsum/sharing.py:_memoize", "opt_einsum/sharing.py:einsum_cache_wrap"]}
{"id": "C44", "title": "backend conversions under sharing are not stale", "statement": "Inside shared_intermediates, converting an array to a backend returns the conversion of that array, never of another array that earlier had the same identity.", "quantifier": "every history of conversions, allocations and garbage collections", "why_tests_cant": "identity reuse", "anchors": ["opt_einsum/sharing.py:to_backend_cache_wrap"]}
{"id": "C45", "title": "object_einsum computes the Einstein sum", "statement": "For a full equation and consistent shapes, object_einsum returns at every output coordinate the sum over the inner labels of the product of the elements, using only + and *.", "quantifier": "every equation and arrays over any type with associative operations", "why_tests_cant": "unbounded", "anchors": ["opt_einsum/backends/object_arrays.py:object_einsum"]}
{"id": "C46", "title": "torch tensordot fallback", "statement": "The einsum string built by the torch tensordot fallback computes tensordot for the given axes: contracted axes paired, remaining left axes then remaining right axes in order.", "quantifier": "every ranks and axes specifications up to the available 52 symbols", "why_tests_cant": "axes combinations are factorial", "anchors": ["opt_einsum/backends/torch.py:tensordot"]}
{"id": "C47", "title": "backend function cache is transparent", "statement": "get_func returns the same function for the same (func, backend) at every call, and has_einsum / has_tensordot answer whether the backend provides the function, whatever was looked up before.", "quantifier": "every history of lookups", "why_tests_cant": "unbounded histories", "anchors": ["opt_einsum/backends/dispatch.py:get_func", "opt_einsum/backends/dispatch.py:has_einsum", "opt_einsum/backends/dispatch.py:has_tensordot"]}
{"id": "C48", "title": "ssa path cost equals PathInfo cost", "statement": "For a pairwise ssa path, the flops and maximum size that the random optimizer uses to rank paths equal PathInfo.opt_cost and largest_intermediate of the corresponding linear path.", "quantifier": "every inputs, sizes and pairwise path", "why_tests_cant": "unbounded", "anchors": ["opt_einsum/path_random.py:ssa_path_compute_cost", "opt_einsum/contract.py:contract_path", "opt_einsum/paths.py:calc_k12_flops"]}
{"id": "C49", "title": "thermal_chooser conserves candidates", "statement": "thermal_chooser returns a candidate whose two terms are both still remaining, or None only if the queue holds no such candidate, and leaves in the queue every other live candidate exactly as many times as before.", "quantifier": "every queue, remaining map, nbranch >= 1 and random choice", "why_tests_cant": "random choices and queues are unbounded", "anchors": ["opt_einsum/path_random.py:thermal_chooser"]}
{"id": "C50", "title": "auto and auto-hq are total", "statement": "auto and auto_hq pick a path finder for every number of inputs and return a complete path.", "quantifier": "every number of inputs", "why_tests_cant": "unbounded", "anchors": ["opt_einsum/paths.py:auto", "opt_einsum/paths.py:auto_hq"]}
{"id": "C51", "title": "zero-length axes broadcast like others", "statement": "When a label has a zero-length axis in one operand and length-1 axes in others, contract returns the (empty or zero) Einstein summation for every complete path, without raising.", "quantifier": "every equation, shapes with zero-length and length-1 axes, every complete path", "why_tests_cant": "needs a conspiracy of shapes, path and BLAS classification", "anchors": ["opt_einsum/contract.py:contract_path", "opt_einsum/parser.py:find_output_shape", "opt_einsum/blas.py:can_blas"]}
{"id": "C52", "title": "optimize=False agrees with every other setting", "statement": "contract(eq, *ops, optimize=False) returns the same array as contract(eq, *ops) with any other optimize setting.", "quantifier": "every accepted equation and operands", "why_tests_cant": "the unoptimised call takes a different route through the code (no parsing) for every equation string", "anchors": ["opt_einsum/contract.py:contract", "opt_einsum/contract.py:_einsum", "opt_einsum/parser.py:convert_to_valid_einsum_chars"]}
{"id": "C53", "title": "random greedy always returns a complete path", "statement": "A call of RandomGreedy (random_greedy) with max_repeats >= 1 and nbranch >= 1 on two or more inputs returns a complete contraction path whatever random numbers are drawn and whenever max_time runs out.", "quantifier": "every inputs, output, sizes, random draws, time-outs and history of calls", "why_tests_cant": "random draws and time-outs are unbounded", "anchors": ["opt_einsum/path_random.py:RandomGreedy", "opt_einsum/path_random.py:_trial_greedy_ssa_path_and_cost"]}
{"id": "C54", "title": "contract with a built-in optimizer returns the Einstein sum", "statement": "contract(eq, *operands, optimize=name) with any registered name (in any letter case), True, None or no optimize argument ends and returns the Einstein summation of operands that fit the equation; only 'dp' and 'auto-hq' may raise RuntimeError instead, and only with a memory limit and three operands or more. A name that is not registered raises KeyError for three operands or more.", "quantifier": "every equation with at most 52 labels, operands that fit, registered name, memory limit, set iteration order and random draws; sizes of at least 1 for 'dp' and 'auto-hq'", "why_tests_cant": "the whole chain of parser, path search and pairwise evaluation, over all networks, hash orders and random draws", "anchors": ["opt_einsum/contract.py:contract", "opt_einsum/contract.py:contract_path", "opt_einsum/paths.py:get_path_fn", "opt_einsum/paths.py:auto", "opt_einsum/__init__.py"]}
{"id": "C55", "title": "interleaved contract returns the Einstein sum over the caller's labels", "statement": "contract(op0, labels0, op1, labels1, ..., [output]) with labels of any ordered type returns the Einstein summation over these labels; without output, its axes are the labels that occur once, in increasing order.", "quantifier": "every interleaved input without ellipsis with at most 52 labels (26 without explicit output), operands that fit, complete path or registered optimizer", "why_tests_cant": "label types, their order and their number are unbounded", "anchors": ["opt_einsum/parser.py:convert_interleaved_input", "opt_einsum/parser.py:convert_subscripts", "opt_einsum/contract.py:contract"]}
{"id": "C56", "title": "rand_equation generates the documented networks", "statement": "An equation returned by rand_equation(n, regularity, n_out, d_min, d_max, global_dim) has n terms without repeated label, n*regularity//2 bonds each on two different operands, n_out output labels each on one operand, the global label on all operands if asked for, sizes in [d_min, d_max], shapes that fit, and parse_einsum_input accepts it; with two operands or more and draws that keep hitting every operand the call returns, with one operand and a bond it never does.", "quantifier": "every argument and every sequence of random draws", "why_tests_cant": "random draws are unbounded; non-termination cannot be observed", "anchors": ["opt_einsum/testing.py:rand_equation"]}
{"id": "C57", "title": "build_shapes builds shapes that fit the equation", "statement": "The shapes build_shapes returns for an equation that the parser accepts with them give equal labels equal dimensions, those of the dictionary, and every ellipsis the same three dimensions; a label without a size is a KeyError and an ellipsis without replace_ellipsis a ValueError.", "quantifier": "every equation without spaces and dictionary of sizes", "why_tests_cant": "equations are unbounded", "anchors": ["opt_einsum/testing.py:build_shapes", "opt_einsum/testing.py:build_views"]}
{"id": "C58", "title": "branch-all misses no better path within its cutoff", "statement": "The path branch-all returns is at least as good (flops first, then peak size; or the other way round with minimize='size') as every pairwise path that contracts terms sharing labels before forming outer products and whose every prefix stays within cutoff_flops_factor of the best partial cost; under a memory_limit it is at least as good as every such path whose results are within the limit; without limit, the result with more branches is never worse than with one.", "quantifier": "every inputs, output, sizes, iteration order of sets, cutoff and cost function", "why_tests_cant": "the search space grows factorially and the pruning depends on the order of visits", "anchors": ["opt_einsum/paths.py:BranchBound"]}
{"id": "C59", "title": "Greedy joins what is connected before it takes outer products", "statement": "Every path returned by greedy without memory limit, by random-greedy, by auto for at least 15 tensors and by auto-hq for at least 17 is complete and pairwise, and every step of it that happens while two of the remaining tensors share an inner label (one that is neither in the output nor on all inputs) contracts two tensors that share an inner label or have the same labels: outer products are taken only when no connection is left.", "quantifier": "all networks of at least two tensors (hyperedges, repeated terms and disconnected parts included), sizes, cost functions, set iteration orders, random numbers, fuels for which the search returns", "why_tests_cant": "that the queue of candidates never loses a pair is an invariant over all states of the heap, the refcounts and the merged terms; a test sees one order of events", "anchors": ["opt_einsum/paths.py:ssa_greedy_optimize", "opt_einsum/paths.py:_push_candidate", "opt_einsum/paths.py:_update_ref_counts", "opt_einsum/path_random.py:thermal_chooser"]}
{"id": "C60", "title": "one expression can be used by several threads", "statement": "When several threads call one ContractExpression, or evaluate its constants, at the same time, every call returns or raises what contract does with the constants and that call's arrays.", "quantifier": "every expression, number of threads, interleaving of the accesses to the expression's attributes, mix of backends", "why_tests_cant": "the schedules are unboundedly many and a test cannot choose them", "anchors": ["opt_einsum/contract.py:ContractExpression"]}
{"id": "C61", "title": "contract_path reports what the named path finder found", "statement": "contract_path(eq, *operands, optimize=name) for a registered name reports, for three operands or more, exactly the path this finder returns for the label sets, the label sizes and a limit that admits the intermediates memory_limit admits; so with 'greedy', 'eager', 'opportunistic' and the random finders the reported path joins connected tensors before it takes outer products.", "quantifier": "every name in any capitals, terms, output, shapes, memory limit, set order, random draws", "why_tests_cant": "networks, sizes and orders are unbounded", "anchors": ["opt_einsum/contract.py:contract_path", "opt_einsum/contract.py:_choose_memory_arg", "opt_einsum/paths.py:get_path_fn"]}
{"id": "C62", "title": "the reported opt_cost of optimal is the least, within the reported memory", "statement": "The opt_cost that contract_path reports for 'optimal', 'auto' (up to 4 operands) and 'auto-hq' (up to 5) is at most the opt_cost it reports for any complete pairwise path whose intermediates are within memory_limit; for every finder that looks at the limit all entries of size_list but the last are within it; no path that contracts connected tensors first and stays within the cutoff beats the reported path of 'branch-all'.", "quantifier": "every network, sizes, memory limit (number, -1, 'max_input', none), set order, and every path of the user", "why_tests_cant": "the paths compared against grow factorially", "anchors": ["opt_einsum/contract.py:contract_path", "opt_einsum/paths.py:optimal", "opt_einsum/paths.py:BranchBound", "opt_einsum/helpers.py:flop_count"]}
{"id": "C63", "title": "an expression works for arrays of other sizes than it was built for", "statement": "A ContractExpression built for some shapes and called, after any history of uses, with arrays of the same ranks but other sizes returns the Einstein summation of these arrays and the constants, which is what contract returns for them with any path; provided the arrays broadcast no more than the shapes did: for each label either all its axes now have one length, or its axes of length 1 are where they were.", "quantifier": "every equation (at most 52 labels), constants, path, memory limit, use_blas, registered backend, history, shapes and sizes", "why_tests_cant": "sizes are unbounded, and which BLAS function a step was marked for depends on the sizes at build time", "anchors": ["opt_einsum/contract.py:ContractExpression", "opt_einsum/contract.py:_core_contract", "opt_einsum/blas.py:can_blas"]}
{"id": "C64", "title": "several threads can share one cache", "statement": "When several threads open shared_intermediates contexts over the same cache and call contract, einsum, tensordot and transpose at the same time, every call returns an array with the entries that the call without sharing gives for its arguments, or raises where that raises (never a KeyError from the cache), and no array the program holds changes.", "quantifier": "every number of threads, interleaving of the accesses to the caches and of the backend calls, nesting of contexts, allocator that only reuses identities no longer in use; einsum equations that numpy reads as the parser does", "why_tests_cant": "the schedules are unboundedly many, a test cannot choose them, and reuse of identities depends on the allocator", "anchors": ["opt_einsum/sharing.py:_memoize", "opt_einsum/sharing.py:_save_tensors", "opt_einsum/sharing.py:shared_intermediates", "opt_einsum/sharing.py:einsum_cache_wrap"]}
{"id": "C65", "title": "explicit paths may hold any integers", "statement": "contract with an explicit path of tuples of integers, negative or unsorted ones included, that are in range when their turn comes and leave one operand returns the Einstein summation; contract_path refuses every path with an empty tuple or a position out of range; for non-negative integers this is the contraction of C01-C10.", "quantifier": "every equation (at most 52 labels), operands, path, memory limit, use_blas", "why_tests_cant": "paths are unbounded and the meaning of a position depends on the operands popped before it", "anchors": ["opt_einsum/contract.py:contract_path", "opt_einsum/contract.py:_core_contract", "opt_einsum/helpers.py:find_contraction"]}
{"id": "C66", "title": "operands may be numbers or nested lists", "statement": "contract called with numbers or nested lists of numbers as operands does what it does with the arrays numpy makes of them (whose entries are the items of the lists): the same result or the same error, provided that no list is empty and that no list holds arrays with axes. get_shape finds the shape numpy gives to a list exactly when the first items end in something without axes; otherwise it raises IndexError (an empty list) or finds a proper prefix of the shape.", "quantifier": "all equations, nested lists of any depth and size, all paths, path finders, memory limits and BLAS settings", "why_tests_cant": "tests/test_parser.py checks get_shape on a handful of objects; ragged, empty and mixed nests of any depth are not tried, nor are the results of contracting them", "anchors": ["opt_einsum/parser.py:172-192", "opt_einsum/parser.py:330-334", "opt_einsum/contract.py:299-302", "opt_einsum/contract.py:615-628"]}
{"id": "C67", "title": "what contract_path reports can be fed back", "statement": "Giving the reported path back as optimize makes the same report. Giving the reported equation (PathInfo.eq), shapes (PathInfo.shapes) and path back to contract_path with shapes=True succeeds and makes the same report but for the BLAS flags, and exactly the same report when no axis was broadcast. The reported shapes hold the sizes of the labels after broadcasting. contract with the reported equation and path returns what it returns for the original arguments.", "quantifier": "all equations with or without ellipses and outputs, all shapes, paths, path finders, memory limits and BLAS settings for which contract_path succeeds", "why_tests_cant": "tests compare a few fields of PathInfo for a handful of equations; none feeds eq and shapes back", "anchors": ["opt_einsum/contract.py:32-65", "opt_einsum/contract.py:293-429"]}
{"id": "C68", "title": "What is printed of a path and of an expression is true", "statement": "print(path_info) never raises for a PathInfo that contract_path returned. The text consists of ten heading lines and one line for each contraction of the list: the complete equation, the numbers of labels (naive and optimised scaling), the naive and optimised FLOP counts, the speedup and the largest intermediate, and per contraction its scaling, its BLAS kind (0 for none), its einsum string and the operands that remain. The integers read back exactly; the counts are right to within half a unit of their fourth digit and exact below 10000; the speedup is naive / max(optimised, 1) to the same precision. The repr of an expression shows its equation and the positions of the constants in increasing order, its str one line for each contraction.", "quantifier": "For all equations that contract_path accepts without a line break as a label, shapes, paths, memory limits, flags and figures; all expressions whose equation contains no quote or line break.", "why_tests_cant": "A test compares one text (or only its length, as the suite does); it cannot show that every figure of every report is rounded correctly, that no report raises, or that rows and columns never run into each other.", "anchors": ["opt_einsum/contract.py:32-99", "opt_einsum/contract.py:906-920"]}
{"id": "C69", "title": "contract works with any array library that provides tensordot, transpose and an einsum for plain equations", "statement": "Let a library's arrays stand for tensors. If its tensordot and transpose do what numpy's do (tensordot on at most 52 axes in all), and its einsum evaluates every equation written in the 52 letters with an explicit output of distinct labels that occur in the inputs, then contract(eq, *ops, optimize=..., memory_limit=..., use_blas=..., backend=lib) returns an array that stands for the Einstein summation of the operands, for every complete path, inside and outside shared_intermediates. If the operands have no broadcast and no empty axes, the library's einsum need not cope with either. If every step of the plan can be done with tensordot, the library needs no einsum. numpy, torch with the tensordot fallback, and arrays of objects are such libraries.", "quantifier": "every library, representation of tensors by arrays, equation with at most 52 labels, operands, complete path, memory limit, use_blas, sharing", "why_tests_cant": "The tests run a fixed list of installed libraries on fixed equations. What contract asks of a library is written down nowhere; a proof from the listed requirements alone shows that nothing else is used, e.g. that no implicit output, ellipsis, or label outside the letters is ever passed on.", "anchors": ["opt_einsum/contract.py:432-471", "opt_einsum/contract.py:574-711", "opt_einsum/backends/dispatch.py:54-86"]}
{"id": "C70", "title": "Keyword arguments of einsum given to contract: what is dropped, what is handed on, what goes wrong", "statement": "Keyword arguments that contract does not know are handed to the library's einsum, except those that have their default values (order='K', casting='safe', dtype=None, out=None), which are left out and no others. With them contract still returns the Einstein summation.", "quantifier": "every library, keyword arguments, equation with at most 52 labels, operands, complete path, memory limit, use_blas, sharing", "why_tests_cant": "The tests pass only a few keyword arguments, all in calls that go to einsum. The claim is about every combination of arguments, plans and libraries.", "anchors": ["opt_einsum/contract.py:123-141", "opt_einsum/contract.py:432-451", "opt_einsum/contract.py:666-702", "opt_einsum/sharing.py:133-183"]}
{"id": "C71", "title": "What contract_path reports for dynamic programming is best among paths without outer products", "statement": "Three or more operands, no axis summed alone, and the network connected or search_outer set: if contract_path returns with optimize=DynamicProgramming(minimize, cost_cap, search_outer), or with 'dp', or with 'auto-hq' and 6 to 16 operands, the reported path contracts pairs only, every entry of size_list is within memory_limit, without search_outer no step is an outer product, and no complete path in pairs given by the user with intermediates within the limit (and without outer products unless search_outer) is reported with a smaller largest_intermediate (minimize='size'), a smaller sum of size_list ('write'), or, without hyperedges and search_outer, a smaller opt_cost ('flops'), opt_cost + 2 k sum(size_list) ('combo-k'), or sum of max(operations, 2 k size) ('limit-k'). With hyperedges or search_outer the last three hold up to a factor of two.", "quantifier": "every equation with three or more operands, sizes, minimize, cost_cap, search_outer, memory_limit, set orders, path of the user", "why_tests_cant": "The tests compare the reported cost of dynamic programming with that of optimal on a few random networks. The claim is about all paths of all networks and all five objectives; the code counts the size of a contraction where PathInfo counts operations.", "anchors": ["opt_einsum/paths.py:1108-1307", "opt_einsum/paths.py:899-1000", "opt_einsum/contract.py:343-429"]}
{"id": "C72", "title": "A RandomGreedy instance is never worse than greedy and never gets worse", "statement": "Three or more operands. Use one RandomGreedy instance as optimize of contract_path any number of times for the same operands, changing max_repeats, max_time, parallel, nbranch, temperature and cost_fn in between, with any random choices, time-outs and raising trials. If its trial 0 uses the deterministic cost function of greedy, whatever contract_path reports with the instance is not beaten, in the order of minimize ('flops': opt_cost then largest_intermediate; 'size': the other way round), by what it reports with greedy under no memory limit, provided no axis is summed alone; with minimize='size' largest_intermediate is never larger even if some are. And no report is beaten by an earlier report of the same instance.", "quantifier": "every equation with three or more operands, sizes, sequence of uses with any attributes, executor, clock, random choices, set orders, deterministic cost function", "why_tests_cant": "The tests check on a few networks that more repeats do not give a worse path. The claim is over all networks, random choices and sequences of uses, including those cut short by a time-out or an exception; the recorded best is kept in an attribute that every use may overwrite.", "anchors": ["opt_einsum/path_random.py:146-203", "opt_einsum/path_random.py:305-383", "opt_einsum/paths.py:721-757", "opt_einsum/contract.py:343-429"]}
{"id": "C73", "title": "Calls of an expression in tensorflow graph mode use the arrays of the call", "statement": "In tensorflow's graph mode an expression builds a graph at its first call and keeps it. After any history of calls, evaluations of its constants, conversions by other code and entering and leaving shared_intermediates, a call returns what the library's functions compute along the contraction list from the constants and the arrays of this very call, merged in order, and fails if they fail; with a library that does what numpy does this is the Einstein summation. This holds as long as all calls pass arrays of the same shapes and, inside shared_intermediates, the arrays of one call are different objects and no id comes to stand for another array. Once a call has returned, calls with arrays of other shapes or another number of arrays raise ValueError and change nothing.", "quantifier": "every library, contraction list with a complete path, constants, history of events, arrays, allocation of ids", "why_tests_cant": "The graph, the evaluated constants and the memoized conversions are three caches with different keys and lifetimes, and mistakes show only in particular orders of events. Tests call an expression once or twice, with fresh arrays.", "anchors": ["opt_einsum/backends/tensorflow.py:35-92", "opt_einsum/contract.py:767-850", "opt_einsum/sharing.py:186-216"]}
{"id": "C74", "title": "A RandomOptimizer shuts down each process pool it made exactly once, and no other executor", "statement": "Whatever sequence of values is assigned to `parallel` of a RandomOptimizer, including values for which the assignment raises, and also if __init__ raises: by the time the optimizer is deleted, every process pool it made was shut down exactly once, and executors of the user or of other optimizers never. At any time at most one pool made by it is open, and it is the one in use; after an assignment that did not raise the executor in use was not shut down. In a call that does not raise every submitted job is awaited or cancelled exactly once, at no time are more than pre_dispatch jobs outstanding, and the costs recorded are those of the awaited jobs in order.", "quantifier": "every sequence of assignments, every failure of pool creation, every pre_dispatch, time limit and outcome of the trials", "why_tests_cant": "Leaked or doubly closed process pools do not change any result, and depend on the history of assignments; tests assign `parallel` once or twice and look at the path.", "anchors": ["opt_einsum/path_random.py:65-149", "opt_einsum/path_random.py:174-208"]}
{"id": "C75", "title": "contract_expression with interleaved arguments", "statement": "contract_expression(item0, labels0, item1, labels1, ..., [output], constants=...) with labels of any ordered type, arrays at the operand positions in constants and shapes elsewhere that fit, builds an expression; after any history of uses a call with arrays of these shapes returns the Einstein summation over the caller's labels of the constants and arrays merged in order. optimize=False and an empty path raise ValueError before anything else. For string equations the expression is built whenever contract_path accepts the shapes.", "quantifier": "every ordered type of labels, number of operands, choice of constants, output, complete path or path finder, history of uses, backend with an einsum", "why_tests_cant": "The positions in constants refer to operands after the conversion, not to arguments, and the labels are renamed: mistakes show only with several constants, labels whose order differs from their position, and an implicit output. Tests use one or two equations.", "anchors": ["opt_einsum/contract.py:1019-1043", "opt_einsum/parser.py:232-286", "opt_einsum/contract.py:745-905"]}
{"id": "C76", "title": "The plan does not depend on the names of the labels nor on the hash seed", "statement": "Let an equation be given (with or without an explicit output, ellipses and spaces) and an injective renaming of its labels that keeps punctuation and spaces. If contract_path succeeds for the equation, then it succeeds for the renamed equation on the same shapes, with the same path, the same kind of call (tensordot, einsum, ...) on the same positions in each step, the same naive and optimized costs, scales, intermediate sizes and largest intermediate; this holds for optimize=False, for an explicit path and for the finders optimal, branch-all, branch-2, branch-1, greedy, dp and auto, and even if the two calls run in processes with different hash seeds, so that sets of labels are iterated in different orders. With an explicit output and no ellipsis the whole report of the renamed equation is the renamed report, and the same error is raised if there is one. The random finders do the same given the same random numbers, provided the set orders are transported along the renaming. DynamicProgramming numbers the labels as it meets them; the numbering has no influence.", "quantifier": "for all equations, injective renamings, shapes, memory limits, use_blas, finders, set iteration orders", "why_tests_cant": "Tests use a few fixed alphabets in one process; a dependence on label order (a sorted() on labels, a tie broken by set order) shows up only for particular names or hash seeds.", "anchors": ["opt_einsum/contract.py:293-429", "opt_einsum/paths.py:1187-1196", "opt_einsum/paths.py:672-779", "opt_einsum/parser.py:289-415"]}
{"id": "C77", "title": "A BranchBound instance that is called again returns the same path or a better one", "statement": "A BranchBound instance may be called several times with the same contraction (it keeps self.best and self.best_progress). Each later call returns the path of the earlier call, or a strictly better one by the instance's criterion (fewer operations and then smaller largest intermediate, or the other way round with minimize='size'); the figures in optimizer.best belong to the path returned and never get worse.", "quantifier": "All networks of at least two inputs, options (nbranch, cutoff factor, criterion, cost function), numbers of calls, memory limits and set iteration orders of each call.", "why_tests_cant": "Histories of calls are unbounded, and whether a later search finds something else depends on pruning by what earlier searches left; the tests call an instance once or twice.", "anchors": ["opt_einsum/paths.py:366-371", "opt_einsum/paths.py:405-494"]}
{"id": "C78", "title": "count_cached_ops counts the operations that were executed", "statement": "count_cached_ops(cache) maps each kind of key in the cache to the number of its keys of that kind. From entering shared_intermediates() on, the counts of all kinds but 'tensor' add up to exactly the number of backend functions (transpose, tensordot, einsum, conversions) that the calls made with this cache as the innermost one have executed; a successful call of one of them changes only the count of its own kind, by one or not at all; other caches, and all caches outside a context, are not changed.", "quantifier": "All caches, states of the heap, backends, allocators, histories of calls, contexts and forgotten arrays that keep the cache; calls with this cache as the innermost one succeed.", "why_tests_cant": "The executions are spread over an unbounded history of calls, nested and resumed contexts, and cache hits depend on object identities; the tests count operations of a few fixed contractions.", "anchors": ["opt_einsum/sharing.py:84-88", "opt_einsum/sharing.py:91-216", "opt_einsum/contract.py:586-672"]}
{"id": "C79", "title": "Exactly when DynamicProgramming returns a path, raises, or never ends", "statement": "DynamicProgramming searches each part of the network on its own (the inputs connected by summed labels; with search_outer all inputs that keep a label) with a cost cap that starts at the product of the sizes of the part's output labels (cost_cap=True), at infinity (False) or at the given number and is multiplied each round by the smallest size (at least 2). It returns a path exactly if for every part some binary tree of the kind searched for that respects memory_limit comes within the cap before the cap has exceeded len(inputs) times the product of all sizes (with 'combo' and 'limit': ever); it raises RuntimeError exactly if for some part the cap exceeds that bound with no such tree within it; otherwise it never ends. In particular, with positive sizes it returns a path iff every part has a tree within the memory limit, and else raises (flops, size, write) or loops forever (combo, limit); without memory limit and with the default cost cap it always ends, and raises only if a size is 0; cost_cap=0 makes it loop forever as soon as a part has two inputs.", "quantifier": "All networks, sizes (0 included), cost models and factors, search_outer, cost caps that are True, False or any natural number, memory limits and set orders.", "why_tests_cant": "Non-termination cannot be observed by a test, and whether the search ends depends on the whole sequence of caps against the cheapest admissible tree of every part.", "anchors": ["opt_einsum/paths.py:1039-1066", "opt_einsum/paths.py:1184-1306"]}
{"id": "C80", "title": "Expressions compiled by Theano never return a wrong result, and keep working for other shapes", "statement": "A ContractExpression called with backend='theano' compiles a function on its first call and keeps it. Whatever was done before with the expression and with shared_intermediates contexts (calls with arrays of other shapes, of other numbers of dimensions, with one array twice; contexts entered and left; arrays converted for other expressions; freed arrays whose id is given to other arguments; constants evaluated again), a call that returns, returns what the library computes from the constants and the arrays of this call, provided the constants converted in a context stay alive in it. If all calls pass arrays with the same numbers of dimensions (shapes may differ) and, inside a context, different objects, a call returns exactly if that contraction can be computed. Inside a context a first call with one array twice raises and stores nothing. The proviso is needed: evaluate_constants converts temporary arrays one by one, and inside a context the second may get the id and hence the value of the first.", "quantifier": "All libraries of operations, contraction lists for complete paths, constants, histories of events and allocations of ids.", "why_tests_cant": "The compiled function depends on the whole history of the expression and of the enclosing contexts, and the ids of temporaries are up to the allocator.", "anchors": ["opt_einsum/backends/theano.py:9-48", "opt_einsum/contract.py:767-850", "opt_einsum/sharing.py:184-214"]}
{"id": "C81", "title": "What minimize may be: strings that name a cost model, and functions of the user", "statement": "A DynamicProgramming optimizer accepts as minimize exactly the strings 'flops', 'size', 'write', and 'combo' or 'limit' followed by any number of hyphens and decimal digits for the factor (64 if there are none), and then uses this cost model; every other string (also 'flops-3' and 'combo-1.5') makes the call raise ValueError, and anything that is neither a string nor a function TypeError. With a function, whatever costs and labels it stores, whatever state it keeps and whatever it raises: as long as an entry it stores is for the union of the two sets of inputs it was called for and contracts the two operands, a path that is returned is complete, and an exception is one raised by the function. If the function accepts everything when there is no cap and stores the right labels, the call with cost_cap=False always ends. If it stores nothing, the call never ends as soon as two inputs share a summed label. A built-in cost model, passed as a function together with its bound, gives the same path as its name.", "quantifier": "All strings and Unicode digits, all functions with any state and exceptions, all contractions, memory limits, cost caps and orders of sets.", "why_tests_cant": "The space of user functions is infinite, and the strings that are wrongly accepted or rejected are exactly those nobody tries.", "anchors": ["opt_einsum/paths.py:1035-1066", "opt_einsum/paths.py:1148-1306"]}
{"id": "C82", "title": "Expressions convert numpy arrays to cupy, torch, tensorflow and jax and back, whatever was done with them before", "statement": "A contract expression, with or without constants, called with backend='cupy', 'torch', 'tensorflow' or 'jax' and numpy arrays returns the Einstein summation of the constants and the arrays of this call, computed by that library, as a numpy array. If some array given is not a numpy array, the arrays are handed to the library as they are and the result stays where the library puts it; a library that refuses to mix arrays of different classes or devices makes the call raise unless all arrays and the converted constants are in one place. None of this depends on what the expression was used for before: calls and evaluate_constants with any backends, whether they returned or raised, do not change any later result. In particular, where torch has a GPU, numpy constants are moved there and the expression can never be called with tensors on the CPU; and a backend name like 'Torch', which is recognised as one to convert for, always fails with numpy arrays.", "quantifier": "All expressions with any constants, all histories of calls and evaluations with all backends, all arrays, places and devices, all libraries with the stated behaviour.", "why_tests_cant": "The libraries and GPUs are rarely all there when tests run, and the expression's caches (constants per backend, jax traces, the shortened contraction list) make the result a function of the whole history.", "anchors": ["opt_einsum/contract.py:745-905", "opt_einsum/backends/dispatch.py:92-150", "opt_einsum/backends/cupy.py:9-32", "opt_einsum/backends/torch.py:99-129", "opt_einsum/backends/jax.py:15-45", "opt_einsum/backends/tensorflow.py:34-108"]}
{"id": "C83", "title": "DynamicProgramming with a cost function of the user finds the cheapest tree by that cost", "statement": "If the function given as minimize to DynamicProgramming is written like the built-in ones but with a cost of its own, and that cost does not distinguish between the two operands, is at least the cost of each and does not decrease if an operand gets dearer, then the path returned for a connected network (or with search_outer) contracts one binary tree that costs least by the user's cost among all that respect the memory limit and, without search_outer, have no outer product. The function may keep and change any state of its own. With positive sizes and a cost cap other than 0 a path is returned exactly if every part of the network has such a tree, always without a memory limit; otherwise the search never ends, since the bound on the cost is infinite for functions. Without the last of the three conditions on the cost, the path need not be the cheapest.", "quantifier": "All such functions and costs, all states, networks, sizes, memory limits, cost caps and set orders.", "why_tests_cant": "Tests try the named cost models only, on a few networks; that the search is right for every monotone cost needs an argument about all trees.", "anchors": ["opt_einsum/paths.py:1038-1066", "opt_einsum/paths.py:1148-1306"]}
{"id": "C84", "title": "The data type of the result is that of all operands together, if the library's rule for types is associative", "statement": "Let a library give each result a data type promoted from the types of the arrays it is computed from (transpose keeps the type), by a rule that depends neither on the order of the types nor on the order in which they are combined. Then contract returns an array of the type promoted from all operands, and computes otherwise what it computes without types, along every complete path, with and without use_blas, inside and outside shared_intermediates. With numpy's rule, which is not associative, the type depends on the path: int16, uint16 and float32 give float32 or float64. Taking bags of operands for types: every operand enters the result exactly once.", "quantifier": "every library, rule for types, equation, operands, complete path or finder that reports one, memory limit, use_blas, sharing", "why_tests_cant": "Tests use one data type for all operands; the type depends on the order of the steps only for rare combinations, and that an operand enters exactly once cannot be seen in numbers for all equations and paths.", "anchors": ["opt_einsum/contract.py:432-471", "opt_einsum/contract.py:631-711"]}
{"id": "C85", "title": "Writing into arrays under sharing: harmless unless a living cache refers to the array, otherwise unnoticed", "statement": "A program may write into its arrays between calls. If it never writes into an array that a living cache of shared_intermediates refers to (an operand or a result of a call made under sharing), every transpose, tensordot, einsum and contract call delivers what the call without sharing delivers for the contents at that time, and changes no array that the program holds. A write into other arrays goes unnoticed: a call made in a sharing context and repeated after any write that keeps the shapes returns the very array returned before and executes nothing, so if the result itself was not written into the repeated call is right exactly if the new contents give the same result as the old ones.", "quantifier": "every program of calls, contexts, forgotten arrays and caches and writes (of one or several arrays, since arrays may share memory); every choice of identities, backend, equation, path", "why_tests_cant": "Tests never write into operands inside a sharing context; which writes are harmless depends on which caches are alive and on everything called before.", "anchors": ["opt_einsum/sharing.py:91-110", "opt_einsum/sharing.py:113-183", "opt_einsum/sharing.py:186-216"]}
{"id": "C86", "title": "A memory limit that no array exceeds changes nothing, except for greedy", "statement": "If no array whose labels are among those of the operands has more elements than memory_limit allows (for axes of positive length: the limit is at least the product of the lengths of all labels), contract_path with optimal, branch-all, branch-2, branch-1, dp, auto (up to 14 operands), auto-hq and the random finders reports exactly what it reports without limit, errors included. greedy with any limit reports what branch-1 reports (as does auto beyond 14 operands), so such a limit does change its path and cost. For a path given by the user and for optimize=False every valid limit is without effect.", "quantifier": "every equation, shapes, memory_limit (a number or 'max_input'), named finder in any capitals, hash orders, use_blas", "why_tests_cant": "The searches compare sizes with the limit at every node, on cached label sets; that none of these comparisons is ever true, for all networks, cannot be seen from examples.", "anchors": ["opt_einsum/paths.py:201-283", "opt_einsum/paths.py:373-494", "opt_einsum/paths.py:733-774", "opt_einsum/paths.py:899-1036", "opt_einsum/contract.py:102-118", "opt_einsum/contract.py:333-357"]}
{"id": "C87", "title": "Raising memory_limit never makes the path of optimal or dynamic programming worse", "statement": "If memory_limit is raised (or left out), the cost that contract_path reports for optimal, for auto up to 4 operands and for auto-hq up to 5 operands does not rise, whatever the hash orders and whichever of these names is used before and after. This holds for networks without hyperedges and without labels that occur in only one operand, with axes of positive length of which those summed over have length at least 2. Without these conditions it is false: for 'xab,xbc,xca->x' with lengths 5, 1, 1, 1 the limit 4 leads to one contraction of three arrays, reported with 15 operations, the limit 5 and no limit lead to two pairwise contractions with 20. Dynamic programming that returns under a limit returns under every higher one; for connected networks (or with search_outer) without lone labels its path is then no worse in what minimize names, without hyperedges and search_outer exactly, otherwise up to a factor of two where operations count.", "quantifier": "every equation, shapes, pair of limits of which the second allows everything that the first allows, finder in any capitals, hash orders, use_blas", "why_tests_cant": "The search prunes by the best cost so far, and under a limit it compares pairwise trees with contractions of many operands at once, whose cost is computed by another function; that no such contraction is cheaper than the best pairwise tree of larger memory is a fact about all networks.", "anchors": ["opt_einsum/paths.py:132-144", "opt_einsum/paths.py:201-283", "opt_einsum/contract.py:102-118", "opt_einsum/contract.py:333-357"]}
{"id": "C88", "title": "Calls of contract obey the laws of Einstein sums: nesting, order of operands, linearity, homomorphisms", "statement": "(1) Some operands may be contracted first in a call of their own, to an array with any distinct labels that include those needed by the output and the other operands; contracting that array with the other operands returns what one call for all operands returns, and no call raises. (2) Permuting the operands together with their terms does not change the result. (3) The result is linear in each operand. (4) A map of the elements that preserves sums and products may be applied to the operands or to the result. Paths, memory limits, use_blas and backends of the calls are independent of each other; axes of length 1 may broadcast.", "quantifier": "every equation accepted by the parser, operands that fit, complete paths or finders, commutative semiring of elements", "why_tests_cant": "Relations between several calls with independent paths; for which choices of labels of an intermediate array the nesting is right depends on the whole network.", "anchors": ["opt_einsum/contract.py:502-604", "opt_einsum/contract.py:631-711"]}
{"id": "C89", "title": "The figures of a PathInfo bound each other: output size <= largest_intermediate <= opt_cost <= naive_cost", "statement": "For every complete path that contract_path reports: largest_intermediate is at least the size of the output and, if no axis has length 0, at most opt_cost. opt_cost is at most naive_cost (the reported speedup is at least 1) for every path whose steps join at least two operands, given or found, if every summed axis has a length of at least 2 and every other of at least 1, and two operands share a label or nothing is summed. None of these conditions can be dropped.", "quantifier": "for all equations, shapes, path finders or given paths, memory limits", "why_tests_cant": "The bound on the speedup needs an argument over all paths (a step that sums halves what is left), tests only see paths of sample networks; the exceptions (axes of length 1, lone labels) are rare in tests.", "anchors": ["opt_einsum/contract.py:293-429", "opt_einsum/helpers.py:103-135"]}
{"id": "C90", "title": "Contracting slice by slice gives the whole contraction", "statement": "Cut the operands of a call of contract along a label c into their slices (every operand that has the label is indexed at position x on all its axes with that label, the others stay). If c is summed over, the calls for the slices return and the sum of their results over all positions is the result of the one call for the whole operands. If c is a label of the output, the call for the slices returns the slice of the whole result at that position. Paths, memory limits, use_blas and backends of the calls are independent.", "quantifier": "for all equations, operands over any commutative semiring, sizes, labels of up to 52, positions, paths, memory limits", "why_tests_cant": "Slicing is used to bound memory; that it agrees for every equation, every path of every slice and every summed or kept label is a law over all inputs, and tests fix a few networks with one path.", "anchors": ["opt_einsum/contract.py:502-604", "opt_einsum/contract.py:631-711"]}
{"id": "C91", "title": "The reported costs of the exact finders do not depend on the order of operands and labels and do not fall when axes get longer", "statement": "Take a network without hyperedges and without an axis that is summed alone, and the same network with its operands in another order, the labels of operands and output in another order, and axes at least as long. The opt_cost that contract_path reports for optimal (or auto up to four operands, auto-hq up to five) without memory limit is at most the one it reports for the second network; if the axes are the same, both are equal. For connected networks of three or more operands the same holds for DynamicProgramming and the figures that minimize names, for any cost_cap, and with memory limits, if what is within the limit of the second is within the limit of the first. With hyperedges or axes summed alone the order does count (counterexamples).", "quantifier": "for all networks, orders, sizes, set orders, cost caps, memory limits (dp)", "why_tests_cant": "A test permutes a few operands; that the minimum is the same for every permutation although the searches visit pairs in different orders and prune differently follows only from exactness of both searches and an argument over all paths.", "anchors": ["opt_einsum/paths.py:201-305", "opt_einsum/paths.py:1108-1307", "opt_einsum/contract.py:343-429"]}
{"id": "C92", "title": "Dynamic programming contracts the connected parts first and joins their results, the smallest first; how good that is", "statement": "Three or more operands, no axis summed alone. When contract_path with DynamicProgramming (search_outer off) returns, its path contracts the connected parts of the network first, each without outer products and within memory_limit, and then joins their results one after the other in ascending order of size. If no label is on two parts: without hyperedges, no other path that contracts the parts without outer products within the limit and then joins their results one after the other, in any order, has a smaller figure of the one that minimize names (opt_cost for flops, and so on); and even with hyperedges, and whatever order and nesting of the joins, no such path has less than half of it (for minimize='size': less at all), if the axes of the output have size at least 1. The comment in the code that the ascending order 'will give the cheapest contractions' does not hold beyond this: two counterexamples. Nor do the statements of the documentation that optimizing the parts independently, and summing axes of single operands in the very beginning, still gives an optimal path, if operations are counted as reported.", "quantifier": "for all networks, minimize options, cost caps, memory limits, sizes, set orders; all competing trees and orders of joins", "why_tests_cant": "A test sees a few networks; that the ascending order is never beaten by any other order of joins, and by nested ones at most by a factor of two, is a statement over all trees and sizes.", "anchors": ["opt_einsum/paths.py:1284-1306", "opt_einsum/paths.py:1108-1307", "opt_einsum/contract.py:343-429"]}
{"id": "C93", "title": "Which contractions an array library without einsum can do", "statement": "A library that has tensordot and transpose but no einsum, operands of which nothing is broadcast and no axis empty, at most 52 labels, a complete path. With use_blas=True, contract returns the Einstein summation exactly when every step of the path takes two operands and every label of the operands occurs exactly twice in the whole expression, output included, and not twice in one operand; it does not depend on the order in which the pairs are contracted. Otherwise, and always with use_blas=False, it raises AttributeError. The documented rule (each index must appear twice in the full expression) is therefore necessary, but as worded not sufficient: 'aa,b->b' fails, as do a single operand, steps of three operands and broadcast axes.", "quantifier": "for all equations, operands, sizes, complete paths, path finders, memory limits, inside and outside shared_intermediates; for all such libraries", "why_tests_cant": "Whether the rule of the documentation is right depends on every way of contracting every expression pair by pair: the rule must be carried through all intermediate terms.", "anchors": ["docs/getting_started/backends.md:29-33", "opt_einsum/blas.py:10-122", "opt_einsum/contract.py:343-429", "opt_einsum/contract.py:631-711"]}
{"id": "C94", "title": "The documented BranchBound(cutoff_flops_factor=None) raises TypeError as soon as two pairs of operands cost the same", "statement": "A new BranchBound instance with cutoff_flops_factor=None, as the documentation creates it, either raises TypeError or returns the path that it returns with any number as factor (which is then never consulted). Without memory limit it raises TypeError, whatever nbranch, minimize and cost_fn and whatever the iteration order of sets, as soon as two pairs of operands that share labels have the same cost, or no operands share labels and any two pairs have the same cost; contract_path then raises TypeError for three or more operands.", "quantifier": "for all networks, sizes, options, memory limits (first claim), set orders", "why_tests_cant": "The documentation's example is not in the test suite; that it fails on every network with two equally expensive pairs, in whatever order they are met, is a statement over all networks.", "anchors": ["opt_einsum/paths.py:432-437", "opt_einsum/paths.py:330-494", "docs/paths/branching_path.md:49-52", "opt_einsum/contract.py:334-360"]}
{"id": "C95", "title": "The searches follow a bounded number of paths to the end: at most nbranch^(n-2), or n!(n-1)!/2^(n-1) without nbranch", "statement": "For n >= 2 operands a call of BranchBound (new or reused, with or without memory limit, whatever cost function, minimize and cutoff factor) follows at most nbranch^(n-2) complete paths, so branch-2 no more than the documented 2^n and branch-1 only one; optimal and branch-all follow at most n!(n-1)!/2^(n-1). No path is followed twice, each is a complete contraction of the operands, and without memory limit the path that a new BranchBound returns is one of them.", "quantifier": "for all networks, sizes, options, states of the instance, memory limits, set orders", "why_tests_cant": "The number of paths followed is not returned by the finders and is not observed by the tests; a bound for every network is a statement about the recursion.", "anchors": ["docs/paths/branching_path.md:18-21", "opt_einsum/paths.py:405-492", "opt_einsum/paths.py:236-281"]}
{"id": "C96", "title": "Settings of a BranchBound object: what the constructor refuses, and what changing them between calls does", "statement": "BranchBound(nbranch, cutoff_flops_factor, minimize, cost_fn) raises ValueError for nbranch < 1, otherwise KeyError for a minimize other than 'flops' and 'size', and otherwise returns an object. nbranch, cutoff_flops_factor, minimize and cost_fn may be assigned between calls for the same contraction, as the documentation proposes: if the first call is made with nbranch None or at least 1, every call returns a complete path, and each later one the earlier path with the same figures in optimizer.best or one with strictly better figures by the minimize given to the constructor. Assigning minimize has no effect at all. Assigning nbranch below 1 is not refused: a first call without memory limit then raises KeyError, later calls return a path.", "quantifier": "for all arguments, all sequences of assignments and calls, all networks of at least two operands, sizes, memory limits, set orders", "why_tests_cant": "The tests change nbranch once on one example; that no sequence of settings makes an object fail or get worse, and that minimize is read only once, are statements about all sequences.", "anchors": ["opt_einsum/paths.py:297-304", "opt_einsum/paths.py:331-367", "opt_einsum/paths.py:373-494", "docs/paths/branching_path.md:54-60"]}
{"id": "C97", "title": "The presets compared: dp against greedy and branch-1, branch-all and branch-2 against branch-1, auto-hq against auto", "statement": "Without memory limit, for contractions without hyperedges (no summed label on three or more operands) and without axes that are summed alone: the opt_cost that contract_path reports for optimize='optimal' is at most that of any other optimize that leads to a complete path in pairs; for 'branch-all' and 'branch-2' (and 'auto' with 5 to 8 operands) it is at most that of 'branch-1', and at equal cost largest_intermediate is at most that of 'branch-1'. If moreover the operands are connected by summed labels, it is for 'dp' at most that of 'greedy', 'random-greedy' and 'random-greedy-128', and if no output label is on two operands also at most that of 'branch-1'; and then 'auto-hq' is never worse than 'auto'. 'branch-1' contracts two tensors without a common label only when no two of the remaining tensors have one.", "quantifier": "for all networks of the kind named, all sizes, set orders and random numbers (the same set orders for the comparison of branch-2 and branch-all with branch-1)", "why_tests_cant": "The tests compare the finders on a few random networks; that one search is never worse than another is a statement about all networks, and the cases in which it is not (6 to 8 operands for auto-hq) do not show up in such tests.", "anchors": ["opt_einsum/paths.py:373-510", "opt_einsum/paths.py:1146-1306", "opt_einsum/paths.py:1320-1362", "docs/paths/introduction.md", "docs/paths/branching_path.md:17-40"]}
{"id": "C98", "title": "Path optimizers written by the user: the two of the documentation, and any subclass of RandomOptimizer", "statement": "contract with the documented optimizer that contracts the first pair again and again returns the Einstein summation and reports the path [(0, 1), (0, 1), ...]. A trial of the documented random optimizer returns, whatever is drawn, an SSA path in pairs that contracts all inputs, with its true cost and size. An instance of any subclass of RandomOptimizer whose trials return SSA paths that contract all inputs makes contract return the Einstein summation, whatever was done with the instance before for the same operands, if max_repeats and pre_dispatch are positive and no trial of the call raises. If the trials return their true figures, what contract_path reports is not beaten (in the order that minimize names) by the report for the path of any trial recorded so far, and never gets worse from use to use.", "quantifier": "for all equations, operands, user-defined trial functions, draws, settings, time-outs, executors and sequences of uses", "why_tests_cant": "The tests use one custom optimizer on one equation; that the machinery works for any trial function and any history is a statement about all subclasses.", "anchors": ["docs/paths/custom_paths.md:1-122", "opt_einsum/path_random.py:106-203", "opt_einsum/path_random.py:280-302", "opt_einsum/contract.py:343-357"]}
{"id": "C99", "title": "What cost_fn may be: functions of the user that raise, and strings that name no cost function", "statement": "Whatever a cost function of the user does, the greedy search and branch either do what they do for a function with the same values that never raises (so they return a complete path) or raise an exception that the cost function raised. The names 'memory-removed' and 'memory-removed-jitter' stand for the two built-in functions. A string that names no cost function is accepted by RandomGreedy and BranchBound, and is called: with RandomGreedy contract_path raises TypeError for three or more operands if two operands with different labels have a label in common that is neither in the output nor on all operands, and otherwise the string is not called and contract returns the Einstein summation; branch without memory limit always raises TypeError for two or more inputs.", "quantifier": "for all cost functions, strings, inputs, outputs, sizes, settings and iteration orders", "why_tests_cant": "The tests call the searches with the built-in cost functions; when a user's function is called and what its exceptions do is a statement about all functions and inputs.", "anchors": ["opt_einsum/paths.py:324-327", "opt_einsum/paths.py:405-490", "opt_einsum/paths.py:521-569", "opt_einsum/paths.py:598-730", "opt_einsum/path_random.py:305-383"]}
{"id": "C100", "title": "Greedy contracts at each step the pair that maximises reduced_size", "statement": "docs/paths/greedy_path.md says that the greedy path contracts at each step the pair that maximises reduced_size, the sizes of the two operands minus the size of the result. It is so for the first step: if no two operands have the same labels and some two have a label in common that is neither in the output nor on all operands, the first contraction is, among such pairs, one with the greatest reduced_size. It is false for later steps: for 'cd,ad,bd,b,d->abc' with axes a, b, c, d of size 2, 2, 5, 3 the second contraction is not the best. RandomGreedy at temperature zero, which is documented to explore only paths with exactly the cost of the best at each step, does as documented if all sizes are at least two: each step contracts a pair with the greatest reduced_size, until two operands have the same labels or no two have such a label in common.", "quantifier": "for all inputs without repeated operands, outputs, sizes, numbers of branches, random choices and iteration orders", "why_tests_cant": "The tests compare greedy paths with recorded ones and check that random paths are not worse; that each choice is the best one is a statement about all networks and all random choices.", "anchors": ["docs/paths/greedy_path.md:5-17", "opt_einsum/paths.py:521-569", "opt_einsum/paths.py:598-730", "opt_einsum/path_random.py:211-277"]}
{"id": "C101", "title": "The three stages of greedy", "statement": "The SSA path that ssa_greedy_optimize returns for two or more operands has the three stages that docs/paths/greedy_path.md describes. First it multiplies operands with the same labels, until all operands have different labels. Then each step contracts two operands that have a label in common which is neither in the output nor on all inputs, or two that have the same labels still needed, until no two operands have such a label in common. Then each step takes the outer product of two operands with the least sum of sizes, until one operand is left (the size of an operand counts only its labels that are in the output or on all inputs, as the others are summed by then). The same holds of the SSA paths of greedy (without memory limit), random-greedy, auto from 15 operands on and auto-hq from 17 operands on.", "quantifier": "for all networks of at least two operands (hyperedges, repeated operands and disconnected parts included), sizes, cost functions, choosers, iteration orders and random choices", "why_tests_cant": "The tests compare the costs of a few greedy paths; that the stages never mix and that the outer products are always of the two smallest operands is a statement about all states of the two queues.", "anchors": ["docs/paths/greedy_path.md:5-13", "opt_einsum/paths.py:598-730", "opt_einsum/path_random.py:211-277"]}
{"id": "C102", "title": "How many steps greedy takes", "statement": "docs/paths/greedy_path.md says that greedy takes time O(n * k) for n operands and labels on at most k of them (labels of the output and on all operands aside). For m(c) different operands with the label c, the main loop of ssa_greedy_optimize makes at least sum(m(c) - 1) iterations and at most n - 1 more, so at most n * (r + 1) for operands with no more than r labels. It is not O(n * k): three operands with labels on two of them need as many iterations as one likes, as two operands may have many labels in common. With a chooser, as in random-greedy, at most sum(m(c) * (m(c) - 1) / 2) + n * (n - 1) / 2 iterations are made.", "quantifier": "for all networks of at least two operands, sizes, cost functions, choosers and iteration orders", "why_tests_cant": "The number of iterations is not returned and not tested; tests that measure the time can only be made for some networks.", "anchors": ["docs/paths/greedy_path.md:18-23", "opt_einsum/paths.py:551-569", "opt_einsum/paths.py:656-716"]}
{"id": "C103", "title": "The random choices of random-greedy follow the documented Boltzmann distribution", "statement": "At a temperature T > 0 thermal_chooser takes each of the (at most nbranch) cheapest candidates with probability exp(-c / t) / sum(exp(-c_j / t)), where t is T or, with rel_temperature, T * max(1, |least cost|): the numbers random() in [0, 1) that lead to a candidate form an interval of this length. So every one of them can be chosen, cheaper ones are likelier and equally cheap ones equally likely; the probability of the best does not grow with the temperature; with rel_temperature only the ratios of the costs matter as soon as the least is at least 1 in size. At temperature zero only candidates with exactly the least cost are chosen. random.choices never fails, as the weight of the first candidate is 1.", "quantifier": "for all costs, temperatures, numbers of candidates and random numbers", "why_tests_cant": "Tests can only sample the distribution; the effects of the temperature are not tested at all.", "anchors": ["docs/paths/random_greedy_path.md:29-36", "opt_einsum/path_random.py:211-277"]}
{"id": "C104", "title": "cost_cap decides how long DynamicProgramming takes, not how good its path is", "statement": "Two DynamicProgramming optimizers that differ in cost_cap only (True, False or a number; the order of sets may differ too) return equally good paths for the same call: on a connected network (or with search_outer, if no input loses all its labels) both contract one tree, and the trees cost the same by the measure of minimize, a function of the user included, under any memory limit. For three or more operands without axes summed alone, without hyperedges and without labels on two parts, contract_path reports the same figure (opt_cost for flops, and so on) with both. If all sizes are at least 1 and neither cap is the number 0, they also do the same: both return, both raise RuntimeError, or both never end. With an axis of size 0, or cost_cap=0, this fails: counterexamples.", "quantifier": "for all networks, sizes, minimize options, memory limits, pairs of cost caps, set orders", "why_tests_cant": "The tests run a few networks with the three kinds of caps and compare costs on these only.", "anchors": ["docs/paths/dp_path.md:29-34", "docs/paths/dp_path.md:61-65", "opt_einsum/paths.py:DynamicProgramming"]}
{"id": "C105", "title": "How many rounds DynamicProgramming makes with growing cost caps", "statement": "DynamicProgramming searches each part of the network in rounds; the cost cap starts at the size of the part's output (or the given number) and is multiplied after each round by the smallest size among the part's labels (at least 2). A part needs exactly as many rounds as it takes until a tree of the kind searched for is within the cap. If all sizes are at least 1 and the cap is not 0, that is at most 1 + ceil(log2(c)) rounds, c the cost of any such tree, and the last cap, unless it is the first, is below the factor times the least cost. Without caps one round suffices.", "quantifier": "for all networks, sizes, minimize options, cost caps, memory limits and set orders", "why_tests_cant": "The tests do not look at the rounds at all; the number of rounds depends on all sizes.", "anchors": ["docs/paths/dp_path.md:29-34", "opt_einsum/paths.py:1226-1289"]}
{"id": "C106", "title": "How much DynamicProgramming tries: exponential in the parts only, quadratic in the connected sets within the cap", "statement": "DynamicProgramming searches disjoint parts of the network one by one. In a round with cost cap c, the innermost loop (pairs of memorized entries) runs for a part at most r^2 times, where r is the number of sets of inputs of the part that have a contraction tree without outer products (unless search_outer) within memory_limit of cost at most c; without search_outer at most s^2 times, s the number of connected sets of inputs of the part. So in all at most rounds * (4^n1 + 4^n2 + ...) times, for parts of n1, n2, ... inputs: as documented, the search is over connected subgraphs, only contractions within the cap are memorized, and the effort is exp(n1) + exp(n2) + ... rather than exp(n1 + n2 + ...).", "quantifier": "for all networks, sizes, minimize options, cost caps, memory limits and set orders", "why_tests_cant": "Run time is not tested; the number of connected sets is exponential in general.", "anchors": ["docs/paths/dp_path.md:18-23", "docs/paths/dp_path.md:29-48", "opt_einsum/paths.py:1220-1289"]}

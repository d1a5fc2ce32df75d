import json
P=[]
def p(title, statement, quantifier, why, anchors):
    P.append(dict(id=f"C{len(P)+1:02d}", title=title, statement=statement, quantifier=quantifier, why_tests_cant=why, anchors=anchors))

p("contract equals one-shot einsum",
  "For a well-formed equation and operands, contract(eq, *ops, optimize=path) returns, without raising, an array whose shape is given by the output subscript and whose every entry equals the sum, over all values of the non-output labels, of the product of the operands (the Einstein summation of the whole expression), with size-1 dimensions broadcasting.",
  "every accepted equation, every number of operands, every rank and dimension sizes (no label having both a zero-length and a length-1 axis), every array contents over any commutative semiring, every complete contraction path or path finder that answers with one",
  "the space of equations x paths x array contents is infinite; tests sample a few dozen equations with random arrays",
  ["opt_einsum/contract.py:contract","opt_einsum/contract.py:contract_path","opt_einsum/contract.py:_core_contract","opt_einsum/helpers.py:find_contraction"])
p("result does not depend on path, BLAS use or einsum availability",
  "Two calls of contract on the same equation and operands that differ only in the contraction path, in use_blas, or in whether the backend offers einsum, return the same array whenever both return.",
  "every pair of complete paths, both values of use_blas, backends with and without einsum, all operands",
  "pairs of paths grow super-exponentially with the number of operands",
  ["opt_einsum/contract.py:_core_contract","opt_einsum/contract.py:contract_path"])
p("contraction list is a faithful plan",
  "In the contraction list built by contract_path for a complete path, each step names operand positions that exist at that moment, its einsum string lists exactly the labels of those operands followed by its result labels, every result label of a non-final step occurs in the popped operands and is still needed by the output or another remaining operand, no needed label is dropped, the last step produces exactly the output subscript in the requested order, and exactly one operand remains at the end.",
  "every equation, every complete path",
  "bookkeeping errors appear only for particular interleavings of positions that grow factorially with operands",
  ["opt_einsum/contract.py:contract_path","opt_einsum/helpers.py:find_contraction"])
p("find_contraction computes the contraction's index sets",
  "find_contraction(positions, input_sets, output_set) returns as result exactly the labels of the selected terms that are needed by the output or by an unselected term, as removed exactly the other labels of the selected terms, and the unselected terms in order followed by the result; it raises on out-of-range positions.",
  "every list of label sets, every output set, every tuple of distinct positions",
  "label sets and positions are unbounded",
  ["opt_einsum/helpers.py:find_contraction"])
p("PathInfo cost figures are the true costs of the plan",
  "PathInfo.opt_cost is the sum over the steps of (product of the sizes of all labels involved) x (max(1, terms-1) plus one if some label is summed); scale_list holds the number of labels of each step; size_list the number of elements of each intermediate; largest_intermediate their maximum; naive_cost is the same formula for a single all-at-once step, an addition being counted iff some label occurs in two terms.",
  "every equation, sizes and path",
  "requires agreement for unboundedly many plans and sizes",
  ["opt_einsum/contract.py:contract_path","opt_einsum/contract.py:PathInfo","opt_einsum/helpers.py:flop_count","opt_einsum/helpers.py:compute_size_by_dict"])
p("dimension checking and broadcasting sizes",
  "contract_path accepts the shapes iff every operand has as many dimensions as its term has labels and, for each label, all of its dimensions other than 1 are equal; the recorded size of the label is then that common dimension (1 if all are 1). Otherwise it raises ValueError.",
  "every list of terms and shapes, labels repeated within and across terms, sizes 0, 1 and larger in any order",
  "order-dependent dictionary updates over unbounded inputs",
  ["opt_einsum/contract.py:contract_path"])
p("memory_limit argument normalisation",
  "memory_limit None or -1 means unlimited, 'max_input' means the largest size among the inputs and the output, integers >= 1 are used as given, and every other value is rejected with ValueError.",
  "every memory_limit value and every list of sizes",
  "integers are unbounded",
  ["opt_einsum/contract.py:_choose_memory_arg"])
p("can_blas is sound and complete for pairwise tensordot",
  "can_blas answers something other than False exactly when there are two terms, no label repeats inside a term, every label shared by the two terms is absent from the result and every unshared label is present in it, and (if shapes are given) every removed label has the same dimension on both sides. A GEMM answer implies that the removed labels are contiguous at an end of both terms in the same order; DOT implies equal terms.",
  "all pairs of terms, results, removed sets and shapes",
  "all strings",
  ["opt_einsum/blas.py:can_blas"])
p("a BLAS step equals the einsum step it replaces",
  "Whenever contract_path flags a step for BLAS, performing tensordot over the removed labels followed by the transpose gives the same array (shape and entries) as evaluating the step's einsum string.",
  "every flagged step, all array contents",
  "axes permutations grow factorially with rank",
  ["opt_einsum/contract.py:_core_contract","opt_einsum/blas.py:can_blas"])
p("out= receives the result",
  "contract(..., out=o) and expr(..., out=o) fill o with the result and return o, also when a shared_intermediates context is active.",
  "every equation, path and sharing state",
  "depends on the history of the sharing cache and on which primitive runs last",
  ["opt_einsum/contract.py:_core_contract","opt_einsum/sharing.py:einsum_cache_wrap"])
p("ssa_to_linear preserves the contraction",
  "Executing ssa_to_linear(p) with recycled linear positions performs the same contractions, in the same order on the same tensors, as executing p with static single assignment ids.",
  "every complete ssa path for any number of tensors and any contraction arity",
  "unbounded number of tensors and steps",
  ["opt_einsum/paths.py:ssa_to_linear"])
p("linear/ssa round trips",
  "For complete paths ssa_to_linear(linear_to_ssa(p)) = p and linear_to_ssa(ssa_to_linear(q)) = q up to the order of ids inside each step, and both keep paths complete.",
  "every complete path",
  "unbounded lengths",
  ["opt_einsum/paths.py:ssa_to_linear","opt_einsum/paths.py:linear_to_ssa"])
p("contraction trees become equivalent paths",
  "For every contraction tree whose leaves are 0..n-1 once each, the path produced from it (as the dp optimizer does) is complete for n tensors and executing it performs exactly the contractions of the tree.",
  "every tree of any shape, depth and arity",
  "trees are unbounded",
  ["opt_einsum/paths.py:_tree_to_sequence"])
p("optimal always returns a complete path",
  "optimal(inputs, output, sizes, memory_limit) terminates and returns a complete contraction path for any non-empty inputs.",
  "every inputs, output, sizes, memory limit, and every iteration order of Python sets",
  "search trees are factorial; set iteration order is an implementation detail",
  ["opt_einsum/paths.py:optimal"])
p("branch-and-bound always returns a complete path",
  "branch / BranchBound with any nbranch >= 1, cutoff factor >= 1, minimize criterion, cost function and memory limit terminates and returns a complete contraction path.",
  "every inputs, output, sizes, memory limit, options and set iteration order, and every history of calls of the instance",
  "pruning interacts with history of best costs; unbounded",
  ["opt_einsum/paths.py:BranchBound","opt_einsum/paths.py:branch"])
p("greedy always returns a complete path",
  "ssa_greedy_optimize / greedy terminates without raising and returns a complete contraction path whatever valid candidate the chooser picks and whatever costs the cost function assigns.",
  "every inputs, output, sizes, cost function, chooser behaviour, and set iteration order",
  "chooser may be random; queue contains stale entries; unbounded",
  ["opt_einsum/paths.py:ssa_greedy_optimize","opt_einsum/paths.py:greedy"])
p("dp always returns a complete path",
  "DynamicProgramming without memory limit terminates and returns a complete path for every inputs (any minimize kind, search_outer or not), and whenever it returns under a memory limit the path is complete.",
  "every inputs, output, sizes, minimize, search_outer, cost_cap",
  "the cost-cap loop's termination is a property of all inputs",
  ["opt_einsum/paths.py:DynamicProgramming"])
p("optimal finds a minimum-cost path",
  "Without a memory limit, no pairwise contraction order has a smaller total flop count than the path returned by optimal.",
  "every inputs, output, sizes and set iteration order, against every pairwise order",
  "all orders must be compared for all inputs",
  ["opt_einsum/paths.py:optimal","opt_einsum/paths.py:calc_k12_flops"])
p("optimal respects memory_limit",
  "With memory_limit m, every step of the path returned by optimal except its last produces an intermediate with at most m elements.",
  "every inputs, sizes, limit, set order",
  "all search branches",
  ["opt_einsum/paths.py:optimal"])
p("branch respects memory_limit",
  "With memory_limit m, every step except the last of the path returned by a fresh branch search (and by greedy, which delegates to it) produces an intermediate with at most m elements.",
  "every inputs, sizes, limit, options, set order",
  "all search branches",
  ["opt_einsum/paths.py:BranchBound","opt_einsum/paths.py:greedy"])
p("dp finds the cheapest tree",
  "Without memory limit the tree chosen by DynamicProgramming for a connected set of inputs has minimal cost (for its own cost model: flops, size, write or combo) among all binary contraction trees (search_outer=True), or among all those without outer products (search_outer=False), whatever the cost-cap strategy. The trees of several connected parts are joined one after the other, in ascending order of the sizes of their results.",
  "every inputs, sizes, minimize criterion",
  "number of trees is super-exponential",
  ["opt_einsum/paths.py:DynamicProgramming","opt_einsum/paths.py:_dp_compare_flops","opt_einsum/paths.py:_dp_compare_size","opt_einsum/paths.py:_dp_compare_write","opt_einsum/paths.py:_dp_compare_combo"])
p("dp respects memory_limit or reports failure",
  "Under memory_limit m every pairwise intermediate that DynamicProgramming builds inside a connected subgraph has at most m elements; if no such tree exists it raises RuntimeError rather than running forever.",
  "every inputs, sizes, limit and minimize criterion",
  "non-termination cannot be observed by a test; all inputs",
  ["opt_einsum/paths.py:DynamicProgramming"])
p("greedy is independent of hash ordering",
  "The path returned by greedy with the default chooser depends only on the inputs, output and sizes, not on the iteration order of Python sets and dicts of sets (PYTHONHASHSEED).",
  "every inputs and every pair of iteration orders",
  "a test runs under a handful of hash seeds",
  ["opt_einsum/paths.py:ssa_greedy_optimize","opt_einsum/paths.py:_get_candidate"])
p("a random optimizer returns the best trial seen so far",
  "After any sequence of calls, RandomOptimizer's best flops/size/path are those of a trial that no other recorded trial beats under the chosen criterion, costs and sizes record every assessed trial in order, and each call's returned path is that best path.",
  "every history of calls, trial results, time-outs and criterion",
  "unbounded histories of random trials",
  ["opt_einsum/path_random.py:RandomOptimizer"])
p("parallel random search runs the same trials as serial",
  "With an executor, a call assesses the results of exactly the trials r_start .. r_start+max_repeats-1, in order, as the serial version does, with at most pre_dispatch jobs outstanding.",
  "every max_repeats, pre_dispatch and trial function",
  "depends on the relation of two unbounded integers",
  ["opt_einsum/path_random.py:RandomOptimizer._gen_results_parallel"])
p("disconnected subgraphs are the connected components",
  "The groups used by dp partition the inputs, no summed label is shared by two groups, and inside a group any two inputs are linked by a chain of inputs sharing summed labels.",
  "every inputs, output and set iteration order",
  "graphs are unbounded",
  ["opt_einsum/paths.py:_find_disconnected_subgraphs"])
p("stateful optimizers refuse a different contraction",
  "After the first call, an optimizer instance that checks its arguments accepts a call iff inputs, output and sizes equal those of the first call, and raises ValueError otherwise.",
  "every history of calls",
  "unbounded histories",
  ["opt_einsum/paths.py:PathOptimizer._check_args_against_first_call"])
p("path function registry",
  "get_path_fn is case-insensitive; register_path_fn(name, fn) makes fn available under name in any case, never replaces an existing optimizer and leaves all others unchanged.",
  "every history of registrations and lookups, every name",
  "unbounded histories and names",
  ["opt_einsum/paths.py:register_path_fn","opt_einsum/paths.py:get_path_fn"])
p("get_symbol yields distinct valid symbols",
  "get_symbol(i) is a single character, different for different i, never one of ',->. ', and never a surrogate code point.",
  "every natural number i in chr's range",
  "1.1 million values, and injectivity over all pairs",
  ["opt_einsum/parser.py:get_symbol"])
p("gen_unused_symbols",
  "gen_unused_symbols(used, n) terminates and yields exactly n pairwise different symbols none of which occurs in used, taking the earliest available ones.",
  "every string used and every n",
  "unbounded",
  ["opt_einsum/parser.py:gen_unused_symbols"])
p("alpha_canonicalize identifies exactly alpha-equivalent equations",
  "alpha_canonicalize is idempotent, renames labels injectively leaving ',', '-', '>' and '.' fixed, and gives equal results for two equations iff one is obtained from the other by an injective renaming of labels.",
  "every pair of equations",
  "all pairs of strings",
  ["opt_einsum/parser.py:alpha_canonicalize"])
p("convert_to_valid_einsum_chars is a faithful renaming",
  "convert_to_valid_einsum_chars renames labels injectively, keeps the punctuation , - > . and produces only characters valid for numpy einsum when there are at most 52 labels.",
  "every einsum string",
  "all strings",
  ["opt_einsum/parser.py:convert_to_valid_einsum_chars","opt_einsum/contract.py:_einsum"])
p("find_output_str implements implicit output",
  "find_output_str(subscripts) lists in increasing order, without repetition, exactly the labels occurring exactly once in the subscripts, whatever the order of the operands.",
  "every subscripts string",
  "all strings",
  ["opt_einsum/parser.py:find_output_str"])
p("parse_einsum_input accepts exactly well-formed equations",
  "For subscripts without ellipsis, parse_einsum_input returns the part before '->' and the explicit or implicit output iff there is at most one '->' and no stray '-' or '>', output characters are distinct and occur in the inputs, and the number of terms equals the number of operands; otherwise ValueError. Spaces are ignored.",
  "every subscripts string and operand list",
  "all strings",
  ["opt_einsum/parser.py:parse_einsum_input"])
p("ellipsis expansion",
  "For subscripts with ellipses, parse_einsum_input replaces each operand's ellipsis by labels not otherwise used, so that every operand's term length equals its rank, broadcast dimensions are aligned from the right across operands, and the output's ellipsis stands for the longest of them (put first when the output is implicit).",
  "every subscripts with ellipses, all operand ranks",
  "all strings and ranks",
  ["opt_einsum/parser.py:parse_einsum_input"])
p("interleaved input equals string input",
  "convert_interleaved_input produces an equation in which equal user labels get equal symbols and different ones different symbols, position by position, with the operands in order; for implicit output the result axes are ordered as the user's labels are.",
  "every interleaved operand list with comparable labels",
  "unbounded number of labels",
  ["opt_einsum/parser.py:convert_interleaved_input","opt_einsum/parser.py:convert_subscripts"])
p("find_output_shape is the broadcast shape",
  "find_output_shape(inputs, shapes, output) is the shape of the einsum result: for each output label the common non-1 dimension of its occurrences, or 1.",
  "every terms and compatible shapes",
  "unbounded",
  ["opt_einsum/parser.py:find_output_shape"])
p("format_const_einsum_str only adds brackets",
  "format_const_einsum_str(eq, constants) with its brackets erased is eq, the terms inside brackets are exactly the constant ones, and with no constants it is eq.",
  "every equation and constant set",
  "all strings",
  ["opt_einsum/contract.py:format_const_einsum_str"])
p("expressions with constants equal plain contraction",
  "Calling a ContractExpression with its variable arrays gives the same array as contract with constants and variables merged in position order, for every call in any history of calls with any backends, before or after constants were evaluated.",
  "every equation, path, set of constants leaving at least one variable, and every history of calls and of evaluate_constants over several backends (names spelled as in the library's tables)",
  "histories of cached constants per backend are unbounded",
  ["opt_einsum/contract.py:ContractExpression","opt_einsum/contract.py:contract_expression","opt_einsum/contract.py:_core_contract"])
p("expressions check the number of arrays",
  "A ContractExpression call with a number of arrays other than the number of non-constant operands raises ValueError and leaves the expression as it was (with no array and no backend to guess from it is an IndexError); with that number, and shapes as at building, it returns.",
  "every expression, every history of its use and every call",
  "unbounded",
  ["opt_einsum/contract.py:ContractExpression.__call__"])
p("sharing contexts nest and are thread-local",
  "In every interleaving of threads entering and leaving shared_intermediates (normally or by exception), a thread is sharing iff it is inside at least one of its own contexts, its active cache is that of its innermost one, and threads never affect each other's.",
  "every schedule of enter/exit/query operations over any number of threads",
  "interleavings are unbounded",
  ["opt_einsum/sharing.py:shared_intermediates","opt_einsum/sharing.py:currently_sharing","opt_einsum/sharing.py:get_sharing_cache"])
p("sharing never changes results",
  "Inside shared_intermediates, every einsum, tensordot and transpose call returns the same value as it would without sharing, even though results are looked up by object identity and by an equation canonicalised modulo renaming and operand order, and even though identities of dead objects can be reused.",
  "every history of operations, allocations and garbage collections",
  "false hits depend on identity reuse after arbitrary histories",
  ["opt_einsum/sharing.py:einsum_cache_wrap","opt_einsum/sharing.py:tensordot_cache_wrap","opt_einsum/sharing.py:transpose_cache_wrap","opt_einsum/sharing.py:_save_tensors","opt_einsum/sharing.py:_memoize"])
p("sharing does share",
  "Inside one shared_intermediates context, an operation equal to an earlier one (for einsum: up to label renaming and a reordering of distinct operands) is not executed again and returns the earlier object.",
  "every history of operations",
  "unbounded histories",
  ["opt_einsum/sharing.py:_memoize","opt_einsum/sharing.py:einsum_cache_wrap"])
p("backend conversions under sharing are not stale",
  "Inside shared_intermediates, converting an array to a backend returns the conversion of that array, never of another array that earlier had the same identity.",
  "every history of conversions, allocations and garbage collections",
  "identity reuse",
  ["opt_einsum/sharing.py:to_backend_cache_wrap"])
p("object_einsum computes the Einstein sum",
  "For a full equation and consistent shapes, object_einsum returns at every output coordinate the sum over the inner labels of the product of the elements, using only + and *.",
  "every equation and arrays over any type with associative operations",
  "unbounded",
  ["opt_einsum/backends/object_arrays.py:object_einsum"])
p("torch tensordot fallback",
  "The einsum string built by the torch tensordot fallback computes tensordot for the given axes: contracted axes paired, remaining left axes then remaining right axes in order.",
  "every ranks and axes specifications up to the available 52 symbols",
  "axes combinations are factorial",
  ["opt_einsum/backends/torch.py:tensordot"])
p("backend function cache is transparent",
  "get_func returns the same function for the same (func, backend) at every call, and has_einsum / has_tensordot answer whether the backend provides the function, whatever was looked up before.",
  "every history of lookups",
  "unbounded histories",
  ["opt_einsum/backends/dispatch.py:get_func","opt_einsum/backends/dispatch.py:has_einsum","opt_einsum/backends/dispatch.py:has_tensordot"])
p("ssa path cost equals PathInfo cost",
  "For a pairwise ssa path, the flops and maximum size that the random optimizer uses to rank paths equal PathInfo.opt_cost and largest_intermediate of the corresponding linear path.",
  "every inputs, sizes and pairwise path",
  "unbounded",
  ["opt_einsum/path_random.py:ssa_path_compute_cost","opt_einsum/contract.py:contract_path","opt_einsum/paths.py:calc_k12_flops"])
p("thermal_chooser conserves candidates",
  "thermal_chooser returns a candidate whose two terms are both still remaining, or None only if the queue holds no such candidate, and leaves in the queue every other live candidate exactly as many times as before.",
  "every queue, remaining map, nbranch >= 1 and random choice",
  "random choices and queues are unbounded",
  ["opt_einsum/path_random.py:thermal_chooser"])
p("auto and auto-hq are total",
  "auto and auto_hq pick a path finder for every number of inputs and return a complete path.",
  "every number of inputs",
  "unbounded",
  ["opt_einsum/paths.py:auto","opt_einsum/paths.py:auto_hq"])
p("zero-length axes broadcast like others",
  "When a label has a zero-length axis in one operand and length-1 axes in others, contract returns the (empty or zero) Einstein summation for every complete path, without raising.",
  "every equation, shapes with zero-length and length-1 axes, every complete path",
  "needs a conspiracy of shapes, path and BLAS classification",
  ["opt_einsum/contract.py:contract_path","opt_einsum/parser.py:find_output_shape","opt_einsum/blas.py:can_blas"])
p("optimize=False agrees with every other setting",
  "contract(eq, *ops, optimize=False) returns the same array as contract(eq, *ops) with any other optimize setting.",
  "every accepted equation and operands",
  "the unoptimised call takes a different route through the code (no parsing) for every equation string",
  ["opt_einsum/contract.py:contract","opt_einsum/contract.py:_einsum","opt_einsum/parser.py:convert_to_valid_einsum_chars"])
p("random greedy always returns a complete path",
  "A call of RandomGreedy (random_greedy) with max_repeats >= 1 and nbranch >= 1 on two or more inputs returns a complete contraction path whatever random numbers are drawn and whenever max_time runs out.",
  "every inputs, output, sizes, random draws, time-outs and history of calls",
  "random draws and time-outs are unbounded",
  ["opt_einsum/path_random.py:RandomGreedy","opt_einsum/path_random.py:_trial_greedy_ssa_path_and_cost"])
p("contract with a built-in optimizer returns the Einstein sum",
  "contract(eq, *operands, optimize=name) with any registered name (in any letter case), True, None or no optimize argument ends and returns the Einstein summation of operands that fit the equation; only 'dp' and 'auto-hq' may raise RuntimeError instead, and only with a memory limit and three operands or more. A name that is not registered raises KeyError for three operands or more.",
  "every equation with at most 52 labels, operands that fit, registered name, memory limit, set iteration order and random draws; sizes of at least 1 for 'dp' and 'auto-hq'",
  "the whole chain of parser, path search and pairwise evaluation, over all networks, hash orders and random draws",
  ["opt_einsum/contract.py:contract","opt_einsum/contract.py:contract_path","opt_einsum/paths.py:get_path_fn","opt_einsum/paths.py:auto","opt_einsum/__init__.py"])
p("interleaved contract returns the Einstein sum over the caller's labels",
  "contract(op0, labels0, op1, labels1, ..., [output]) with labels of any ordered type returns the Einstein summation over these labels; without output, its axes are the labels that occur once, in increasing order.",
  "every interleaved input without ellipsis with at most 52 labels (26 without explicit output), operands that fit, complete path or registered optimizer",
  "label types, their order and their number are unbounded",
  ["opt_einsum/parser.py:convert_interleaved_input","opt_einsum/parser.py:convert_subscripts","opt_einsum/contract.py:contract"])
p("rand_equation generates the documented networks",
  "An equation returned by rand_equation(n, regularity, n_out, d_min, d_max, global_dim) has n terms without repeated label, n*regularity//2 bonds each on two different operands, n_out output labels each on one operand, the global label on all operands if asked for, sizes in [d_min, d_max], shapes that fit, and parse_einsum_input accepts it; with two operands or more and draws that keep hitting every operand the call returns, with one operand and a bond it never does.",
  "every argument and every sequence of random draws",
  "random draws are unbounded; non-termination cannot be observed",
  ["opt_einsum/testing.py:rand_equation"])
p("build_shapes builds shapes that fit the equation",
  "The shapes build_shapes returns for an equation that the parser accepts with them give equal labels equal dimensions, those of the dictionary, and every ellipsis the same three dimensions; a label without a size is a KeyError and an ellipsis without replace_ellipsis a ValueError.",
  "every equation without spaces and dictionary of sizes",
  "equations are unbounded",
  ["opt_einsum/testing.py:build_shapes","opt_einsum/testing.py:build_views"])
p("branch-all misses no better path within its cutoff",
  "The path branch-all returns is at least as good (flops first, then peak size; or the other way round with minimize='size') as every pairwise path that contracts terms sharing labels before forming outer products and whose every prefix stays within cutoff_flops_factor of the best partial cost; under a memory_limit it is at least as good as every such path whose results are within the limit; without limit, the result with more branches is never worse than with one.",
  "every inputs, output, sizes, iteration order of sets, cutoff and cost function",
  "the search space grows factorially and the pruning depends on the order of visits",
  ["opt_einsum/paths.py:BranchBound"])
p("Greedy joins what is connected before it takes outer products",
  "Every path returned by greedy without memory limit, by random-greedy, by auto for at least 15 tensors and by auto-hq for at least 17 is complete and pairwise, and every step of it that happens while two of the remaining tensors share an inner label (one that is neither in the output nor on all inputs) contracts two tensors that share an inner label or have the same labels: outer products are taken only when no connection is left.",
  "all networks of at least two tensors (hyperedges, repeated terms and disconnected parts included), sizes, cost functions, set iteration orders, random numbers, fuels for which the search returns",
  "that the queue of candidates never loses a pair is an invariant over all states of the heap, the refcounts and the merged terms; a test sees one order of events",
  ["opt_einsum/paths.py:ssa_greedy_optimize", "opt_einsum/paths.py:_push_candidate", "opt_einsum/paths.py:_update_ref_counts", "opt_einsum/path_random.py:thermal_chooser"])
p("one expression can be used by several threads",
  "When several threads call one ContractExpression, or evaluate its constants, at the same time, every call returns or raises what contract does with the constants and that call's arrays.",
  "every expression, number of threads, interleaving of the accesses to the expression's attributes, mix of backends",
  "the schedules are unboundedly many and a test cannot choose them",
  ["opt_einsum/contract.py:ContractExpression"])
p("contract_path reports what the named path finder found",
  "contract_path(eq, *operands, optimize=name) for a registered name reports, for three operands or more, exactly the path this finder returns for the label sets, the label sizes and a limit that admits the intermediates memory_limit admits; so with 'greedy', 'eager', 'opportunistic' and the random finders the reported path joins connected tensors before it takes outer products.",
  "every name in any capitals, terms, output, shapes, memory limit, set order, random draws",
  "networks, sizes and orders are unbounded",
  ["opt_einsum/contract.py:contract_path","opt_einsum/contract.py:_choose_memory_arg","opt_einsum/paths.py:get_path_fn"])
p("the reported opt_cost of optimal is the least, within the reported memory",
  "The opt_cost that contract_path reports for 'optimal', 'auto' (up to 4 operands) and 'auto-hq' (up to 5) is at most the opt_cost it reports for any complete pairwise path whose intermediates are within memory_limit; for every finder that looks at the limit all entries of size_list but the last are within it; no path that contracts connected tensors first and stays within the cutoff beats the reported path of 'branch-all'.",
  "every network, sizes, memory limit (number, -1, 'max_input', none), set order, and every path of the user",
  "the paths compared against grow factorially",
  ["opt_einsum/contract.py:contract_path","opt_einsum/paths.py:optimal","opt_einsum/paths.py:BranchBound","opt_einsum/helpers.py:flop_count"])
p("an expression works for arrays of other sizes than it was built for",
  "A ContractExpression built for some shapes and called, after any history of uses, with arrays of the same ranks but other sizes returns the Einstein summation of these arrays and the constants, which is what contract returns for them with any path; provided the arrays broadcast no more than the shapes did: for each label either all its axes now have one length, or its axes of length 1 are where they were.",
  "every equation (at most 52 labels), constants, path, memory limit, use_blas, registered backend, history, shapes and sizes",
  "sizes are unbounded, and which BLAS function a step was marked for depends on the sizes at build time",
  ["opt_einsum/contract.py:ContractExpression","opt_einsum/contract.py:_core_contract","opt_einsum/blas.py:can_blas"])
p("several threads can share one cache",
  "When several threads open shared_intermediates contexts over the same cache and call contract, einsum, tensordot and transpose at the same time, every call returns an array with the entries that the call without sharing gives for its arguments, or raises where that raises (never a KeyError from the cache), and no array the program holds changes.",
  "every number of threads, interleaving of the accesses to the caches and of the backend calls, nesting of contexts, allocator that only reuses identities no longer in use; einsum equations that numpy reads as the parser does",
  "the schedules are unboundedly many, a test cannot choose them, and reuse of identities depends on the allocator",
  ["opt_einsum/sharing.py:_memoize","opt_einsum/sharing.py:_save_tensors","opt_einsum/sharing.py:shared_intermediates","opt_einsum/sharing.py:einsum_cache_wrap"])
p("explicit paths may hold any integers",
  "contract with an explicit path of tuples of integers, negative or unsorted ones included, that are in range when their turn comes and leave one operand returns the Einstein summation; contract_path refuses every path with an empty tuple or a position out of range; for non-negative integers this is the contraction of C01-C10.",
  "every equation (at most 52 labels), operands, path, memory limit, use_blas",
  "paths are unbounded and the meaning of a position depends on the operands popped before it",
  ["opt_einsum/contract.py:contract_path", "opt_einsum/contract.py:_core_contract", "opt_einsum/helpers.py:find_contraction"])
p("operands may be numbers or nested lists",
  "contract called with numbers or nested lists of numbers as operands does what it does with the arrays numpy makes of them (whose entries are the items of the lists): the same result or the same error, provided that no list is empty and that no list holds arrays with axes. get_shape finds the shape numpy gives to a list exactly when the first items end in something without axes; otherwise it raises IndexError (an empty list) or finds a proper prefix of the shape.",
  "all equations, nested lists of any depth and size, all paths, path finders, memory limits and BLAS settings",
  "tests/test_parser.py checks get_shape on a handful of objects; ragged, empty and mixed nests of any depth are not tried, nor are the results of contracting them",
  ["opt_einsum/parser.py:172-192", "opt_einsum/parser.py:330-334", "opt_einsum/contract.py:299-302", "opt_einsum/contract.py:615-628"])
p("what contract_path reports can be fed back",
  "Giving the reported path back as optimize makes the same report. Giving the reported equation (PathInfo.eq), shapes (PathInfo.shapes) and path back to contract_path with shapes=True succeeds and makes the same report but for the BLAS flags, and exactly the same report when no axis was broadcast. The reported shapes hold the sizes of the labels after broadcasting. contract with the reported equation and path returns what it returns for the original arguments.",
  "all equations with or without ellipses and outputs, all shapes, paths, path finders, memory limits and BLAS settings for which contract_path succeeds",
  "tests compare a few fields of PathInfo for a handful of equations; none feeds eq and shapes back",
  ["opt_einsum/contract.py:32-65", "opt_einsum/contract.py:293-429"])
p("What is printed of a path and of an expression is true",
  "print(path_info) never raises for a PathInfo that contract_path returned. The text consists of ten heading lines and one line for each contraction of the list: the complete equation, the numbers of labels (naive and optimised scaling), the naive and optimised FLOP counts, the speedup and the largest intermediate, and per contraction its scaling, its BLAS kind (0 for none), its einsum string and the operands that remain. The integers read back exactly; the counts are right to within half a unit of their fourth digit and exact below 10000; the speedup is naive / max(optimised, 1) to the same precision. The repr of an expression shows its equation and the positions of the constants in increasing order, its str one line for each contraction.",
  "For all equations that contract_path accepts without a line break as a label, shapes, paths, memory limits, flags and figures; all expressions whose equation contains no quote or line break.",
  "A test compares one text (or only its length, as the suite does); it cannot show that every figure of every report is rounded correctly, that no report raises, or that rows and columns never run into each other.",
  ["opt_einsum/contract.py:32-99", "opt_einsum/contract.py:906-920"])
p("contract works with any array library that provides tensordot, transpose and an einsum for plain equations",
  "Let a library's arrays stand for tensors. If its tensordot and transpose do what numpy's do (tensordot on at most 52 axes in all), and its einsum evaluates every equation written in the 52 letters with an explicit output of distinct labels that occur in the inputs, then contract(eq, *ops, optimize=..., memory_limit=..., use_blas=..., backend=lib) returns an array that stands for the Einstein summation of the operands, for every complete path, inside and outside shared_intermediates. If the operands have no broadcast and no empty axes, the library's einsum need not cope with either. If every step of the plan can be done with tensordot, the library needs no einsum. numpy, torch with the tensordot fallback, and arrays of objects are such libraries.",
  "every library, representation of tensors by arrays, equation with at most 52 labels, operands, complete path, memory limit, use_blas, sharing",
  "The tests run a fixed list of installed libraries on fixed equations. What contract asks of a library is written down nowhere; a proof from the listed requirements alone shows that nothing else is used, e.g. that no implicit output, ellipsis, or label outside the letters is ever passed on.",
  ["opt_einsum/contract.py:432-471", "opt_einsum/contract.py:574-711", "opt_einsum/backends/dispatch.py:54-86"])
p("Keyword arguments of einsum given to contract: what is dropped, what is handed on, what goes wrong",
  "Keyword arguments that contract does not know are handed to the library's einsum, except those that have their default values (order='K', casting='safe', dtype=None, out=None), which are left out and no others. With them contract still returns the Einstein summation.",
  "every library, keyword arguments, equation with at most 52 labels, operands, complete path, memory limit, use_blas, sharing",
  "The tests pass only a few keyword arguments, all in calls that go to einsum. The claim is about every combination of arguments, plans and libraries.",
  ["opt_einsum/contract.py:123-141", "opt_einsum/contract.py:432-451", "opt_einsum/contract.py:666-702", "opt_einsum/sharing.py:133-183"])
p("What contract_path reports for dynamic programming is best among paths without outer products",
  "Three or more operands, no axis summed alone, and the network connected or search_outer set: if contract_path returns with optimize=DynamicProgramming(minimize, cost_cap, search_outer), or with 'dp', or with 'auto-hq' and 6 to 16 operands, the reported path contracts pairs only, every entry of size_list is within memory_limit, without search_outer no step is an outer product, and no complete path in pairs given by the user with intermediates within the limit (and without outer products unless search_outer) is reported with a smaller largest_intermediate (minimize='size'), a smaller sum of size_list ('write'), or, without hyperedges and search_outer, a smaller opt_cost ('flops'), opt_cost + 2 k sum(size_list) ('combo-k'), or sum of max(operations, 2 k size) ('limit-k'). With hyperedges or search_outer the last three hold up to a factor of two.",
  "every equation with three or more operands, sizes, minimize, cost_cap, search_outer, memory_limit, set orders, path of the user",
  "The tests compare the reported cost of dynamic programming with that of optimal on a few random networks. The claim is about all paths of all networks and all five objectives; the code counts the size of a contraction where PathInfo counts operations.",
  ["opt_einsum/paths.py:1108-1307", "opt_einsum/paths.py:899-1000", "opt_einsum/contract.py:343-429"])
p("A RandomGreedy instance is never worse than greedy and never gets worse",
  "Three or more operands. Use one RandomGreedy instance as optimize of contract_path any number of times for the same operands, changing max_repeats, max_time, parallel, nbranch, temperature and cost_fn in between, with any random choices, time-outs and raising trials. If its trial 0 uses the deterministic cost function of greedy, whatever contract_path reports with the instance is not beaten, in the order of minimize ('flops': opt_cost then largest_intermediate; 'size': the other way round), by what it reports with greedy under no memory limit, provided no axis is summed alone; with minimize='size' largest_intermediate is never larger even if some are. And no report is beaten by an earlier report of the same instance.",
  "every equation with three or more operands, sizes, sequence of uses with any attributes, executor, clock, random choices, set orders, deterministic cost function",
  "The tests check on a few networks that more repeats do not give a worse path. The claim is over all networks, random choices and sequences of uses, including those cut short by a time-out or an exception; the recorded best is kept in an attribute that every use may overwrite.",
  ["opt_einsum/path_random.py:146-203", "opt_einsum/path_random.py:305-383", "opt_einsum/paths.py:721-757", "opt_einsum/contract.py:343-429"])
p("Calls of an expression in tensorflow graph mode use the arrays of the call",
  "In tensorflow's graph mode an expression builds a graph at its first call and keeps it. After any history of calls, evaluations of its constants, conversions by other code and entering and leaving shared_intermediates, a call returns what the library's functions compute along the contraction list from the constants and the arrays of this very call, merged in order, and fails if they fail; with a library that does what numpy does this is the Einstein summation. This holds as long as all calls pass arrays of the same shapes and, inside shared_intermediates, the arrays of one call are different objects and no id comes to stand for another array. Once a call has returned, calls with arrays of other shapes or another number of arrays raise ValueError and change nothing.",
  "every library, contraction list with a complete path, constants, history of events, arrays, allocation of ids",
  "The graph, the evaluated constants and the memoized conversions are three caches with different keys and lifetimes, and mistakes show only in particular orders of events. Tests call an expression once or twice, with fresh arrays.",
  ["opt_einsum/backends/tensorflow.py:35-92", "opt_einsum/contract.py:767-850", "opt_einsum/sharing.py:186-216"])
p("A RandomOptimizer shuts down each process pool it made exactly once, and no other executor",
  "Whatever sequence of values is assigned to `parallel` of a RandomOptimizer, including values for which the assignment raises, and also if __init__ raises: by the time the optimizer is deleted, every process pool it made was shut down exactly once, and executors of the user or of other optimizers never. At any time at most one pool made by it is open, and it is the one in use; after an assignment that did not raise the executor in use was not shut down. In a call that does not raise every submitted job is awaited or cancelled exactly once, at no time are more than pre_dispatch jobs outstanding, and the costs recorded are those of the awaited jobs in order.",
  "every sequence of assignments, every failure of pool creation, every pre_dispatch, time limit and outcome of the trials",
  "Leaked or doubly closed process pools do not change any result, and depend on the history of assignments; tests assign `parallel` once or twice and look at the path.",
  ["opt_einsum/path_random.py:65-149", "opt_einsum/path_random.py:174-208"])
p("contract_expression with interleaved arguments",
  "contract_expression(item0, labels0, item1, labels1, ..., [output], constants=...) with labels of any ordered type, arrays at the operand positions in constants and shapes elsewhere that fit, builds an expression; after any history of uses a call with arrays of these shapes returns the Einstein summation over the caller's labels of the constants and arrays merged in order. optimize=False and an empty path raise ValueError before anything else. For string equations the expression is built whenever contract_path accepts the shapes.",
  "every ordered type of labels, number of operands, choice of constants, output, complete path or path finder, history of uses, backend with an einsum",
  "The positions in constants refer to operands after the conversion, not to arguments, and the labels are renamed: mistakes show only with several constants, labels whose order differs from their position, and an implicit output. Tests use one or two equations.",
  ["opt_einsum/contract.py:1019-1043", "opt_einsum/parser.py:232-286", "opt_einsum/contract.py:745-905"])
p("The plan does not depend on the names of the labels nor on the hash seed",
  "Let an equation be given (with or without an explicit output, ellipses and spaces) and an injective renaming of its labels that keeps punctuation and spaces. If contract_path succeeds for the equation, then it succeeds for the renamed equation on the same shapes, with the same path, the same kind of call (tensordot, einsum, ...) on the same positions in each step, the same naive and optimized costs, scales, intermediate sizes and largest intermediate; this holds for optimize=False, for an explicit path and for the finders optimal, branch-all, branch-2, branch-1, greedy, dp and auto, and even if the two calls run in processes with different hash seeds, so that sets of labels are iterated in different orders. With an explicit output and no ellipsis the whole report of the renamed equation is the renamed report, and the same error is raised if there is one. The random finders do the same given the same random numbers, provided the set orders are transported along the renaming. DynamicProgramming numbers the labels as it meets them; the numbering has no influence.",
  "for all equations, injective renamings, shapes, memory limits, use_blas, finders, set iteration orders",
  "Tests use a few fixed alphabets in one process; a dependence on label order (a sorted() on labels, a tie broken by set order) shows up only for particular names or hash seeds.",
  ["opt_einsum/contract.py:293-429", "opt_einsum/paths.py:1187-1196", "opt_einsum/paths.py:672-779", "opt_einsum/parser.py:289-415"])
p("A BranchBound instance that is called again returns the same path or a better one",
  "A BranchBound instance may be called several times with the same contraction (it keeps self.best and self.best_progress). Each later call returns the path of the earlier call, or a strictly better one by the instance's criterion (fewer operations and then smaller largest intermediate, or the other way round with minimize='size'); the figures in optimizer.best belong to the path returned and never get worse.",
  "All networks of at least two inputs, options (nbranch, cutoff factor, criterion, cost function), numbers of calls, memory limits and set iteration orders of each call.",
  "Histories of calls are unbounded, and whether a later search finds something else depends on pruning by what earlier searches left; the tests call an instance once or twice.",
  ["opt_einsum/paths.py:366-371", "opt_einsum/paths.py:405-494"])
p("count_cached_ops counts the operations that were executed",
  "count_cached_ops(cache) maps each kind of key in the cache to the number of its keys of that kind. From entering shared_intermediates() on, the counts of all kinds but 'tensor' add up to exactly the number of backend functions (transpose, tensordot, einsum, conversions) that the calls made with this cache as the innermost one have executed; a successful call of one of them changes only the count of its own kind, by one or not at all; other caches, and all caches outside a context, are not changed.",
  "All caches, states of the heap, backends, allocators, histories of calls, contexts and forgotten arrays that keep the cache; calls with this cache as the innermost one succeed.",
  "The executions are spread over an unbounded history of calls, nested and resumed contexts, and cache hits depend on object identities; the tests count operations of a few fixed contractions.",
  ["opt_einsum/sharing.py:84-88", "opt_einsum/sharing.py:91-216", "opt_einsum/contract.py:586-672"])
p("Exactly when DynamicProgramming returns a path, raises, or never ends",
  "DynamicProgramming searches each part of the network on its own (the inputs connected by summed labels; with search_outer all inputs that keep a label) with a cost cap that starts at the product of the sizes of the part's output labels (cost_cap=True), at infinity (False) or at the given number and is multiplied each round by the smallest size (at least 2). It returns a path exactly if for every part some binary tree of the kind searched for that respects memory_limit comes within the cap before the cap has exceeded len(inputs) times the product of all sizes (with 'combo' and 'limit': ever); it raises RuntimeError exactly if for some part the cap exceeds that bound with no such tree within it; otherwise it never ends. In particular, with positive sizes it returns a path iff every part has a tree within the memory limit, and else raises (flops, size, write) or loops forever (combo, limit); without memory limit and with the default cost cap it always ends, and raises only if a size is 0; cost_cap=0 makes it loop forever as soon as a part has two inputs.",
  "All networks, sizes (0 included), cost models and factors, search_outer, cost caps that are True, False or any natural number, memory limits and set orders.",
  "Non-termination cannot be observed by a test, and whether the search ends depends on the whole sequence of caps against the cheapest admissible tree of every part.",
  ["opt_einsum/paths.py:1039-1066", "opt_einsum/paths.py:1184-1306"])
p("Expressions compiled by Theano never return a wrong result, and keep working for other shapes",
  "A ContractExpression called with backend='theano' compiles a function on its first call and keeps it. Whatever was done before with the expression and with shared_intermediates contexts (calls with arrays of other shapes, of other numbers of dimensions, with one array twice; contexts entered and left; arrays converted for other expressions; freed arrays whose id is given to other arguments; constants evaluated again), a call that returns, returns what the library computes from the constants and the arrays of this call, provided the constants converted in a context stay alive in it. If all calls pass arrays with the same numbers of dimensions (shapes may differ) and, inside a context, different objects, a call returns exactly if that contraction can be computed. Inside a context a first call with one array twice raises and stores nothing. The proviso is needed: evaluate_constants converts temporary arrays one by one, and inside a context the second may get the id and hence the value of the first.",
  "All libraries of operations, contraction lists for complete paths, constants, histories of events and allocations of ids.",
  "The compiled function depends on the whole history of the expression and of the enclosing contexts, and the ids of temporaries are up to the allocator.",
  ["opt_einsum/backends/theano.py:9-48", "opt_einsum/contract.py:767-850", "opt_einsum/sharing.py:184-214"])
p("What minimize may be: strings that name a cost model, and functions of the user",
  "A DynamicProgramming optimizer accepts as minimize exactly the strings 'flops', 'size', 'write', and 'combo' or 'limit' followed by any number of hyphens and decimal digits for the factor (64 if there are none), and then uses this cost model; every other string (also 'flops-3' and 'combo-1.5') makes the call raise ValueError, and anything that is neither a string nor a function TypeError. With a function, whatever costs and labels it stores, whatever state it keeps and whatever it raises: as long as an entry it stores is for the union of the two sets of inputs it was called for and contracts the two operands, a path that is returned is complete, and an exception is one raised by the function. If the function accepts everything when there is no cap and stores the right labels, the call with cost_cap=False always ends. If it stores nothing, the call never ends as soon as two inputs share a summed label. A built-in cost model, passed as a function together with its bound, gives the same path as its name.",
  "All strings and Unicode digits, all functions with any state and exceptions, all contractions, memory limits, cost caps and orders of sets.",
  "The space of user functions is infinite, and the strings that are wrongly accepted or rejected are exactly those nobody tries.",
  ["opt_einsum/paths.py:1035-1066", "opt_einsum/paths.py:1148-1306"])
p("Expressions convert numpy arrays to cupy, torch, tensorflow and jax and back, whatever was done with them before",
  "A contract expression, with or without constants, called with backend='cupy', 'torch', 'tensorflow' or 'jax' and numpy arrays returns the Einstein summation of the constants and the arrays of this call, computed by that library, as a numpy array. If some array given is not a numpy array, the arrays are handed to the library as they are and the result stays where the library puts it; a library that refuses to mix arrays of different classes or devices makes the call raise unless all arrays and the converted constants are in one place. None of this depends on what the expression was used for before: calls and evaluate_constants with any backends, whether they returned or raised, do not change any later result. In particular, where torch has a GPU, numpy constants are moved there and the expression can never be called with tensors on the CPU; and a backend name like 'Torch', which is recognised as one to convert for, always fails with numpy arrays.",
  "All expressions with any constants, all histories of calls and evaluations with all backends, all arrays, places and devices, all libraries with the stated behaviour.",
  "The libraries and GPUs are rarely all there when tests run, and the expression's caches (constants per backend, jax traces, the shortened contraction list) make the result a function of the whole history.",
  ["opt_einsum/contract.py:745-905", "opt_einsum/backends/dispatch.py:92-150", "opt_einsum/backends/cupy.py:9-32", "opt_einsum/backends/torch.py:99-129", "opt_einsum/backends/jax.py:15-45", "opt_einsum/backends/tensorflow.py:34-108"])
p("DynamicProgramming with a cost function of the user finds the cheapest tree by that cost",
  "If the function given as minimize to DynamicProgramming is written like the built-in ones but with a cost of its own, and that cost does not distinguish between the two operands, is at least the cost of each and does not decrease if an operand gets dearer, then the path returned for a connected network (or with search_outer) contracts one binary tree that costs least by the user's cost among all that respect the memory limit and, without search_outer, have no outer product. The function may keep and change any state of its own. With positive sizes and a cost cap other than 0 a path is returned exactly if every part of the network has such a tree, always without a memory limit; otherwise the search never ends, since the bound on the cost is infinite for functions. Without the last of the three conditions on the cost, the path need not be the cheapest.",
  "All such functions and costs, all states, networks, sizes, memory limits, cost caps and set orders.",
  "Tests try the named cost models only, on a few networks; that the search is right for every monotone cost needs an argument about all trees.",
  ["opt_einsum/paths.py:1038-1066", "opt_einsum/paths.py:1148-1306"])
p("The data type of the result is that of all operands together, if the library's rule for types is associative",
  "Let a library give each result a data type promoted from the types of the arrays it is computed from (transpose keeps the type), by a rule that depends neither on the order of the types nor on the order in which they are combined. Then contract returns an array of the type promoted from all operands, and computes otherwise what it computes without types, along every complete path, with and without use_blas, inside and outside shared_intermediates. With numpy's rule, which is not associative, the type depends on the path: int16, uint16 and float32 give float32 or float64. Taking bags of operands for types: every operand enters the result exactly once.",
  "every library, rule for types, equation, operands, complete path or finder that reports one, memory limit, use_blas, sharing",
  "Tests use one data type for all operands; the type depends on the order of the steps only for rare combinations, and that an operand enters exactly once cannot be seen in numbers for all equations and paths.",
  ["opt_einsum/contract.py:432-471", "opt_einsum/contract.py:631-711"])
p("Writing into arrays under sharing: harmless unless a living cache refers to the array, otherwise unnoticed",
  "A program may write into its arrays between calls. If it never writes into an array that a living cache of shared_intermediates refers to (an operand or a result of a call made under sharing), every transpose, tensordot, einsum and contract call delivers what the call without sharing delivers for the contents at that time, and changes no array that the program holds. A write into other arrays goes unnoticed: a call made in a sharing context and repeated after any write that keeps the shapes returns the very array returned before and executes nothing, so if the result itself was not written into the repeated call is right exactly if the new contents give the same result as the old ones.",
  "every program of calls, contexts, forgotten arrays and caches and writes (of one or several arrays, since arrays may share memory); every choice of identities, backend, equation, path",
  "Tests never write into operands inside a sharing context; which writes are harmless depends on which caches are alive and on everything called before.",
  ["opt_einsum/sharing.py:91-110", "opt_einsum/sharing.py:113-183", "opt_einsum/sharing.py:186-216"])
p("A memory limit that no array exceeds changes nothing, except for greedy",
  "If no array whose labels are among those of the operands has more elements than memory_limit allows (for axes of positive length: the limit is at least the product of the lengths of all labels), contract_path with optimal, branch-all, branch-2, branch-1, dp, auto (up to 14 operands), auto-hq and the random finders reports exactly what it reports without limit, errors included. greedy with any limit reports what branch-1 reports (as does auto beyond 14 operands), so such a limit does change its path and cost. For a path given by the user and for optimize=False every valid limit is without effect.",
  "every equation, shapes, memory_limit (a number or 'max_input'), named finder in any capitals, hash orders, use_blas",
  "The searches compare sizes with the limit at every node, on cached label sets; that none of these comparisons is ever true, for all networks, cannot be seen from examples.",
  ["opt_einsum/paths.py:201-283", "opt_einsum/paths.py:373-494", "opt_einsum/paths.py:733-774", "opt_einsum/paths.py:899-1036", "opt_einsum/contract.py:102-118", "opt_einsum/contract.py:333-357"])
p("Raising memory_limit never makes the path of optimal or dynamic programming worse",
  "If memory_limit is raised (or left out), the cost that contract_path reports for optimal, for auto up to 4 operands and for auto-hq up to 5 operands does not rise, whatever the hash orders and whichever of these names is used before and after. This holds for networks without hyperedges and without labels that occur in only one operand, with axes of positive length of which those summed over have length at least 2. Without these conditions it is false: for 'xab,xbc,xca->x' with lengths 5, 1, 1, 1 the limit 4 leads to one contraction of three arrays, reported with 15 operations, the limit 5 and no limit lead to two pairwise contractions with 20. Dynamic programming that returns under a limit returns under every higher one; for connected networks (or with search_outer) without lone labels its path is then no worse in what minimize names, without hyperedges and search_outer exactly, otherwise up to a factor of two where operations count.",
  "every equation, shapes, pair of limits of which the second allows everything that the first allows, finder in any capitals, hash orders, use_blas",
  "The search prunes by the best cost so far, and under a limit it compares pairwise trees with contractions of many operands at once, whose cost is computed by another function; that no such contraction is cheaper than the best pairwise tree of larger memory is a fact about all networks.",
  ["opt_einsum/paths.py:132-144", "opt_einsum/paths.py:201-283", "opt_einsum/contract.py:102-118", "opt_einsum/contract.py:333-357"])
p("Calls of contract obey the laws of Einstein sums: nesting, order of operands, linearity, homomorphisms",
  "(1) Some operands may be contracted first in a call of their own, to an array with any distinct labels that include those needed by the output and the other operands; contracting that array with the other operands returns what one call for all operands returns, and no call raises. (2) Permuting the operands together with their terms does not change the result. (3) The result is linear in each operand. (4) A map of the elements that preserves sums and products may be applied to the operands or to the result. Paths, memory limits, use_blas and backends of the calls are independent of each other; axes of length 1 may broadcast.",
  "every equation accepted by the parser, operands that fit, complete paths or finders, commutative semiring of elements",
  "Relations between several calls with independent paths; for which choices of labels of an intermediate array the nesting is right depends on the whole network.",
  ["opt_einsum/contract.py:502-604", "opt_einsum/contract.py:631-711"])
p("The figures of a PathInfo bound each other: output size <= largest_intermediate <= opt_cost <= naive_cost",
  "For every complete path that contract_path reports: largest_intermediate is at least the size of the output and, if no axis has length 0, at most opt_cost. opt_cost is at most naive_cost (the reported speedup is at least 1) for every path whose steps join at least two operands, given or found, if every summed axis has a length of at least 2 and every other of at least 1, and two operands share a label or nothing is summed. None of these conditions can be dropped.",
  "for all equations, shapes, path finders or given paths, memory limits",
  "The bound on the speedup needs an argument over all paths (a step that sums halves what is left), tests only see paths of sample networks; the exceptions (axes of length 1, lone labels) are rare in tests.",
  ["opt_einsum/contract.py:293-429", "opt_einsum/helpers.py:103-135"])
p("Contracting slice by slice gives the whole contraction",
  "Cut the operands of a call of contract along a label c into their slices (every operand that has the label is indexed at position x on all its axes with that label, the others stay). If c is summed over, the calls for the slices return and the sum of their results over all positions is the result of the one call for the whole operands. If c is a label of the output, the call for the slices returns the slice of the whole result at that position. Paths, memory limits, use_blas and backends of the calls are independent.",
  "for all equations, operands over any commutative semiring, sizes, labels of up to 52, positions, paths, memory limits",
  "Slicing is used to bound memory; that it agrees for every equation, every path of every slice and every summed or kept label is a law over all inputs, and tests fix a few networks with one path.",
  ["opt_einsum/contract.py:502-604", "opt_einsum/contract.py:631-711"])
p("The reported costs of the exact finders do not depend on the order of operands and labels and do not fall when axes get longer",
  "Take a network without hyperedges and without an axis that is summed alone, and the same network with its operands in another order, the labels of operands and output in another order, and axes at least as long. The opt_cost that contract_path reports for optimal (or auto up to four operands, auto-hq up to five) without memory limit is at most the one it reports for the second network; if the axes are the same, both are equal. For connected networks of three or more operands the same holds for DynamicProgramming and the figures that minimize names, for any cost_cap, and with memory limits, if what is within the limit of the second is within the limit of the first. With hyperedges or axes summed alone the order does count (counterexamples).",
  "for all networks, orders, sizes, set orders, cost caps, memory limits (dp)",
  "A test permutes a few operands; that the minimum is the same for every permutation although the searches visit pairs in different orders and prune differently follows only from exactness of both searches and an argument over all paths.",
  ["opt_einsum/paths.py:201-305", "opt_einsum/paths.py:1108-1307", "opt_einsum/contract.py:343-429"])
p("Dynamic programming contracts the connected parts first and joins their results, the smallest first; how good that is",
  "Three or more operands, no axis summed alone. When contract_path with DynamicProgramming (search_outer off) returns, its path contracts the connected parts of the network first, each without outer products and within memory_limit, and then joins their results one after the other in ascending order of size. If no label is on two parts: without hyperedges, no other path that contracts the parts without outer products within the limit and then joins their results one after the other, in any order, has a smaller figure of the one that minimize names (opt_cost for flops, and so on); and even with hyperedges, and whatever order and nesting of the joins, no such path has less than half of it (for minimize='size': less at all), if the axes of the output have size at least 1. The comment in the code that the ascending order 'will give the cheapest contractions' does not hold beyond this: two counterexamples. Nor do the statements of the documentation that optimizing the parts independently, and summing axes of single operands in the very beginning, still gives an optimal path, if operations are counted as reported.",
  "for all networks, minimize options, cost caps, memory limits, sizes, set orders; all competing trees and orders of joins",
  "A test sees a few networks; that the ascending order is never beaten by any other order of joins, and by nested ones at most by a factor of two, is a statement over all trees and sizes.",
  ["opt_einsum/paths.py:1284-1306", "opt_einsum/paths.py:1108-1307", "opt_einsum/contract.py:343-429"])
p("Which contractions an array library without einsum can do",
  "A library that has tensordot and transpose but no einsum, operands of which nothing is broadcast and no axis empty, at most 52 labels, a complete path. With use_blas=True, contract returns the Einstein summation exactly when every step of the path takes two operands and every label of the operands occurs exactly twice in the whole expression, output included, and not twice in one operand; it does not depend on the order in which the pairs are contracted. Otherwise, and always with use_blas=False, it raises AttributeError. The documented rule (each index must appear twice in the full expression) is therefore necessary, but as worded not sufficient: 'aa,b->b' fails, as do a single operand, steps of three operands and broadcast axes.",
  "for all equations, operands, sizes, complete paths, path finders, memory limits, inside and outside shared_intermediates; for all such libraries",
  "Whether the rule of the documentation is right depends on every way of contracting every expression pair by pair: the rule must be carried through all intermediate terms.",
  ["docs/getting_started/backends.md:29-33", "opt_einsum/blas.py:10-122", "opt_einsum/contract.py:343-429", "opt_einsum/contract.py:631-711"])
p("The documented BranchBound(cutoff_flops_factor=None) raises TypeError as soon as two pairs of operands cost the same",
  "A new BranchBound instance with cutoff_flops_factor=None, as the documentation creates it, either raises TypeError or returns the path that it returns with any number as factor (which is then never consulted). Without memory limit it raises TypeError, whatever nbranch, minimize and cost_fn and whatever the iteration order of sets, as soon as two pairs of operands that share labels have the same cost, or no operands share labels and any two pairs have the same cost; contract_path then raises TypeError for three or more operands.",
  "for all networks, sizes, options, memory limits (first claim), set orders",
  "The documentation's example is not in the test suite; that it fails on every network with two equally expensive pairs, in whatever order they are met, is a statement over all networks.",
  ["opt_einsum/paths.py:432-437", "opt_einsum/paths.py:330-494", "docs/paths/branching_path.md:49-52", "opt_einsum/contract.py:334-360"])
p("The searches follow a bounded number of paths to the end: at most nbranch^(n-2), or n!(n-1)!/2^(n-1) without nbranch",
  "For n >= 2 operands a call of BranchBound (new or reused, with or without memory limit, whatever cost function, minimize and cutoff factor) follows at most nbranch^(n-2) complete paths, so branch-2 no more than the documented 2^n and branch-1 only one; optimal and branch-all follow at most n!(n-1)!/2^(n-1). No path is followed twice, each is a complete contraction of the operands, and without memory limit the path that a new BranchBound returns is one of them.",
  "for all networks, sizes, options, states of the instance, memory limits, set orders",
  "The number of paths followed is not returned by the finders and is not observed by the tests; a bound for every network is a statement about the recursion.",
  ["docs/paths/branching_path.md:18-21", "opt_einsum/paths.py:405-492", "opt_einsum/paths.py:236-281"])
p("Settings of a BranchBound object: what the constructor refuses, and what changing them between calls does",
  "BranchBound(nbranch, cutoff_flops_factor, minimize, cost_fn) raises ValueError for nbranch < 1, otherwise KeyError for a minimize other than 'flops' and 'size', and otherwise returns an object. nbranch, cutoff_flops_factor, minimize and cost_fn may be assigned between calls for the same contraction, as the documentation proposes: if the first call is made with nbranch None or at least 1, every call returns a complete path, and each later one the earlier path with the same figures in optimizer.best or one with strictly better figures by the minimize given to the constructor. Assigning minimize has no effect at all. Assigning nbranch below 1 is not refused: a first call without memory limit then raises KeyError, later calls return a path.",
  "for all arguments, all sequences of assignments and calls, all networks of at least two operands, sizes, memory limits, set orders",
  "The tests change nbranch once on one example; that no sequence of settings makes an object fail or get worse, and that minimize is read only once, are statements about all sequences.",
  ["opt_einsum/paths.py:297-304", "opt_einsum/paths.py:331-367", "opt_einsum/paths.py:373-494", "docs/paths/branching_path.md:54-60"])
p("The presets compared: dp against greedy and branch-1, branch-all and branch-2 against branch-1, auto-hq against auto",
  "Without memory limit, for contractions without hyperedges (no summed label on three or more operands) and without axes that are summed alone: the opt_cost that contract_path reports for optimize='optimal' is at most that of any other optimize that leads to a complete path in pairs; for 'branch-all' and 'branch-2' (and 'auto' with 5 to 8 operands) it is at most that of 'branch-1', and at equal cost largest_intermediate is at most that of 'branch-1'. If moreover the operands are connected by summed labels, it is for 'dp' at most that of 'greedy', 'random-greedy' and 'random-greedy-128', and if no output label is on two operands also at most that of 'branch-1'; and then 'auto-hq' is never worse than 'auto'. 'branch-1' contracts two tensors without a common label only when no two of the remaining tensors have one.",
  "for all networks of the kind named, all sizes, set orders and random numbers (the same set orders for the comparison of branch-2 and branch-all with branch-1)",
  "The tests compare the finders on a few random networks; that one search is never worse than another is a statement about all networks, and the cases in which it is not (6 to 8 operands for auto-hq) do not show up in such tests.",
  ["opt_einsum/paths.py:373-510", "opt_einsum/paths.py:1146-1306", "opt_einsum/paths.py:1320-1362", "docs/paths/introduction.md", "docs/paths/branching_path.md:17-40"])
p("Path optimizers written by the user: the two of the documentation, and any subclass of RandomOptimizer",
  "contract with the documented optimizer that contracts the first pair again and again returns the Einstein summation and reports the path [(0, 1), (0, 1), ...]. A trial of the documented random optimizer returns, whatever is drawn, an SSA path in pairs that contracts all inputs, with its true cost and size. An instance of any subclass of RandomOptimizer whose trials return SSA paths that contract all inputs makes contract return the Einstein summation, whatever was done with the instance before for the same operands, if max_repeats and pre_dispatch are positive and no trial of the call raises. If the trials return their true figures, what contract_path reports is not beaten (in the order that minimize names) by the report for the path of any trial recorded so far, and never gets worse from use to use.",
  "for all equations, operands, user-defined trial functions, draws, settings, time-outs, executors and sequences of uses",
  "The tests use one custom optimizer on one equation; that the machinery works for any trial function and any history is a statement about all subclasses.",
  ["docs/paths/custom_paths.md:1-122", "opt_einsum/path_random.py:106-203", "opt_einsum/path_random.py:280-302", "opt_einsum/contract.py:343-357"])
p("What cost_fn may be: functions of the user that raise, and strings that name no cost function",
  "Whatever a cost function of the user does, the greedy search and branch either do what they do for a function with the same values that never raises (so they return a complete path) or raise an exception that the cost function raised. The names 'memory-removed' and 'memory-removed-jitter' stand for the two built-in functions. A string that names no cost function is accepted by RandomGreedy and BranchBound, and is called: with RandomGreedy contract_path raises TypeError for three or more operands if two operands with different labels have a label in common that is neither in the output nor on all operands, and otherwise the string is not called and contract returns the Einstein summation; branch without memory limit always raises TypeError for two or more inputs.",
  "for all cost functions, strings, inputs, outputs, sizes, settings and iteration orders",
  "The tests call the searches with the built-in cost functions; when a user's function is called and what its exceptions do is a statement about all functions and inputs.",
  ["opt_einsum/paths.py:324-327", "opt_einsum/paths.py:405-490", "opt_einsum/paths.py:521-569", "opt_einsum/paths.py:598-730", "opt_einsum/path_random.py:305-383"])
p("Greedy contracts at each step the pair that maximises reduced_size",
  "docs/paths/greedy_path.md says that the greedy path contracts at each step the pair that maximises reduced_size, the sizes of the two operands minus the size of the result. It is so for the first step: if no two operands have the same labels and some two have a label in common that is neither in the output nor on all operands, the first contraction is, among such pairs, one with the greatest reduced_size. It is false for later steps: for 'cd,ad,bd,b,d->abc' with axes a, b, c, d of size 2, 2, 5, 3 the second contraction is not the best. RandomGreedy at temperature zero, which is documented to explore only paths with exactly the cost of the best at each step, does as documented if all sizes are at least two: each step contracts a pair with the greatest reduced_size, until two operands have the same labels or no two have such a label in common.",
  "for all inputs without repeated operands, outputs, sizes, numbers of branches, random choices and iteration orders",
  "The tests compare greedy paths with recorded ones and check that random paths are not worse; that each choice is the best one is a statement about all networks and all random choices.",
  ["docs/paths/greedy_path.md:5-17", "opt_einsum/paths.py:521-569", "opt_einsum/paths.py:598-730", "opt_einsum/path_random.py:211-277"])
p("The three stages of greedy",
  "The SSA path that ssa_greedy_optimize returns for two or more operands has the three stages that docs/paths/greedy_path.md describes. First it multiplies operands with the same labels, until all operands have different labels. Then each step contracts two operands that have a label in common which is neither in the output nor on all inputs, or two that have the same labels still needed, until no two operands have such a label in common. Then each step takes the outer product of two operands with the least sum of sizes, until one operand is left (the size of an operand counts only its labels that are in the output or on all inputs, as the others are summed by then). The same holds of the SSA paths of greedy (without memory limit), random-greedy, auto from 15 operands on and auto-hq from 17 operands on.",
  "for all networks of at least two operands (hyperedges, repeated operands and disconnected parts included), sizes, cost functions, choosers, iteration orders and random choices",
  "The tests compare the costs of a few greedy paths; that the stages never mix and that the outer products are always of the two smallest operands is a statement about all states of the two queues.",
  ["docs/paths/greedy_path.md:5-13", "opt_einsum/paths.py:598-730", "opt_einsum/path_random.py:211-277"])
p("How many steps greedy takes",
  "docs/paths/greedy_path.md says that greedy takes time O(n * k) for n operands and labels on at most k of them (labels of the output and on all operands aside). For m(c) different operands with the label c, the main loop of ssa_greedy_optimize makes at least sum(m(c) - 1) iterations and at most n - 1 more, so at most n * (r + 1) for operands with no more than r labels. It is not O(n * k): three operands with labels on two of them need as many iterations as one likes, as two operands may have many labels in common. With a chooser, as in random-greedy, at most sum(m(c) * (m(c) - 1) / 2) + n * (n - 1) / 2 iterations are made.",
  "for all networks of at least two operands, sizes, cost functions, choosers and iteration orders",
  "The number of iterations is not returned and not tested; tests that measure the time can only be made for some networks.",
  ["docs/paths/greedy_path.md:18-23", "opt_einsum/paths.py:551-569", "opt_einsum/paths.py:656-716"])
p("The random choices of random-greedy follow the documented Boltzmann distribution",
  "At a temperature T > 0 thermal_chooser takes each of the (at most nbranch) cheapest candidates with probability exp(-c / t) / sum(exp(-c_j / t)), where t is T or, with rel_temperature, T * max(1, |least cost|): the numbers random() in [0, 1) that lead to a candidate form an interval of this length. So every one of them can be chosen, cheaper ones are likelier and equally cheap ones equally likely; the probability of the best does not grow with the temperature; with rel_temperature only the ratios of the costs matter as soon as the least is at least 1 in size. At temperature zero only candidates with exactly the least cost are chosen. random.choices never fails, as the weight of the first candidate is 1.",
  "for all costs, temperatures, numbers of candidates and random numbers",
  "Tests can only sample the distribution; the effects of the temperature are not tested at all.",
  ["docs/paths/random_greedy_path.md:29-36", "opt_einsum/path_random.py:211-277"])
p("cost_cap decides how long DynamicProgramming takes, not how good its path is",
  "Two DynamicProgramming optimizers that differ in cost_cap only (True, False or a number; the order of sets may differ too) return equally good paths for the same call: on a connected network (or with search_outer, if no input loses all its labels) both contract one tree, and the trees cost the same by the measure of minimize, a function of the user included, under any memory limit. For three or more operands without axes summed alone, without hyperedges and without labels on two parts, contract_path reports the same figure (opt_cost for flops, and so on) with both. If all sizes are at least 1 and neither cap is the number 0, they also do the same: both return, both raise RuntimeError, or both never end. With an axis of size 0, or cost_cap=0, this fails: counterexamples.",
  "for all networks, sizes, minimize options, memory limits, pairs of cost caps, set orders",
  "The tests run a few networks with the three kinds of caps and compare costs on these only.",
  ["docs/paths/dp_path.md:29-34", "docs/paths/dp_path.md:61-65", "opt_einsum/paths.py:DynamicProgramming"])
p("How many rounds DynamicProgramming makes with growing cost caps",
  "DynamicProgramming searches each part of the network in rounds; the cost cap starts at the size of the part's output (or the given number) and is multiplied after each round by the smallest size among the part's labels (at least 2). A part needs exactly as many rounds as it takes until a tree of the kind searched for is within the cap. If all sizes are at least 1 and the cap is not 0, that is at most 1 + ceil(log2(c)) rounds, c the cost of any such tree, and the last cap, unless it is the first, is below the factor times the least cost. Without caps one round suffices.",
  "for all networks, sizes, minimize options, cost caps, memory limits and set orders",
  "The tests do not look at the rounds at all; the number of rounds depends on all sizes.",
  ["docs/paths/dp_path.md:29-34", "opt_einsum/paths.py:1226-1289"])
p("How much DynamicProgramming tries: exponential in the parts only, quadratic in the connected sets within the cap",
  "DynamicProgramming searches disjoint parts of the network one by one. In a round with cost cap c, the innermost loop (pairs of memorized entries) runs for a part at most r^2 times, where r is the number of sets of inputs of the part that have a contraction tree without outer products (unless search_outer) within memory_limit of cost at most c; without search_outer at most s^2 times, s the number of connected sets of inputs of the part. So in all at most rounds * (4^n1 + 4^n2 + ...) times, for parts of n1, n2, ... inputs: as documented, the search is over connected subgraphs, only contractions within the cap are memorized, and the effort is exp(n1) + exp(n2) + ... rather than exp(n1 + n2 + ...).",
  "for all networks, sizes, minimize options, cost caps, memory limits and set orders",
  "Run time is not tested; the number of connected sets is exponential in general.",
  ["docs/paths/dp_path.md:18-23", "docs/paths/dp_path.md:29-48", "opt_einsum/paths.py:1220-1289"])
with open('/verif/properties.jsonl','w') as f:
    for x in P: f.write(json.dumps(x)+"\n")
print(len(P))

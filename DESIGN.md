# Formal model of opt_einsum in Lean 4 — design

Source: `/repo` (opt_einsum at the pinned commit). Model, specs and theorems: `/verif/lean/Verif`.

## Layout

| directory | content |
|---|---|
| `Verif/Py/*` | Python primitives used by the model (str/list/dict operations, exceptions as values) |
| `Verif/Model/*` | the model, function by function; every definition cites file and lines of `/repo` |
| `Verif/Spec/*` | small independent specifications (Einstein sum, complete path, tree execution, ...) |
| `Verif/Lemmas/*` | helper lemmas |
| `Verif/Props/*` | the property theorems `Cxx_...`, with non-vacuity examples and counterexamples |

## Modelling conventions

* A Python `str` is a list of code points (`List Nat`); labels are code points. `frozenset` of labels is `Finset Nat`.
  `dict` is an insertion-ordered association list.
* Exceptions are values: `Except PyErr α`.
* Python integers are `Nat`/`Int`; `float('inf')` is `none` / `⊤`.
* Iteration order of Python `set`s is *not* fixed by the model where it can matter: it is a parameter (any enumeration),
  and theorems quantify over it.
* Array elements live in an arbitrary commutative semiring: floating-point rounding is outside the model.
* `numpy`'s `einsum`, `tensordot`, `transpose` are modelled by their documented mathematical meaning (`Verif/Model/Tensor.lean`),
  including the shape errors that they raise. That meaning is part of the trusted base.
* `heapq` is modelled by its contract: pop removes a minimal element.
* unbounded `while` loops take a fuel argument; theorems show that enough fuel exists (termination), or that no fuel suffices.

## Plan per property

| id | what is modelled | how it is proved |
|---|---|---|
| C01–C03 | parser output → `contract_path` loop → `_core_contract` loop, on tensors over a commutative semiring | invariant along the path: Σ over live labels of the product of the live operands is constant |
| C04 | `find_contraction` | direct |
| C05 | cost lists of `contract_path`, `PathInfo` | induction over the path |
| C06 | `size_dict` loop | invariant of the fold |
| C07 | `_choose_memory_arg` | case analysis |
| C08 | `can_blas` branch by branch | iff with an independent predicate |
| C09 | tensordot/transpose branch of `_core_contract` | semantic equality |
| C10 | `out` handling, sharing wrapper dropping kwargs | semantic equality + counterexample under sharing |
| C11–C13 | `ssa_to_linear`, `linear_to_ssa`, `_tree_to_sequence` | simulation between interpreters |
| C14, C18, C19 | `optimal` as state-threading search with arbitrary set order | induction over the search tree |
| C15, C20 | `BranchBound` | same |
| C16, C23 | `ssa_greedy_optimize` with arbitrary chooser / order | loop invariant; permutation invariance |
| C17, C21, C22, C26 | DP tables as dicts, cost-cap loop with fuel | loop invariants, optimal substructure |
| C24, C25, C48, C49 | `path_random.py` | invariants over histories |
| C27, C28, C47 | state machines | invariants over histories |
| C29–C38 | parser functions on code-point lists | induction on strings |
| C39, C40 | `ContractExpression` state machine | refinement to plain contraction |
| C41–C44 | sharing stack per thread; caches with object identities | refinement / history invariants |
| C45, C46 | `object_einsum`, torch `tensordot` | equality with the Einstein-sum spec |
| C50 | `auto`, `auto_hq` | case analysis over the other theorems |
| C58 | `paths.py` `BranchBound` | invariant of the recursion: the table of partial costs and the best path bound every path within the cutoff |
| C59 | `paths.py` `ssa_greedy_optimize`, `path_random.py` `thermal_chooser` | invariant of the loop: labels with two or more live terms are in `dim_to_keys`, refcount sets say how many, and every joined pair of live terms has a live candidate in the queue or a common neighbour with one; then the trace of tags is read in recycled positions |
| C60 | `contract.py` `ContractExpression` | steps of a use between accesses to `_evaluated_constants` and `contraction_list`; invariant: every stored value is the one the evaluation of the constants yields |
| C61 | `contract.py` `contract_path` | invert `contract_path` to the call of the finder; the floor of the limit admits the same natural numbers |
| C62 | `contract.py`, `paths.py` | C18, C19, C20, C58 transferred to `PathInfo`: without axes summed alone both ways of counting operations agree on every legal path |
| C63 | `contract.py` `ContractExpression`, `blas.py` | two runs of the loop that marks the steps, for the old and the new sizes: each old mark is the new one or none, and the executing loop is right for any such marks |
| C64 | `sharing.py` `_memoize`, `_save_tensors`, the wrappers, `_core_contract` as programs of atomic actions of several threads | rely/guarantee: what a pending call relies on (its arrays keep their contents, keys stay in the caches of its contexts) is kept by every action of the others |
| C65 | `contract_path`, `_core_contract`, `find_contraction` for integer positions | each integer is resolved to the position it means when popped; the loop lemmas hold for any way of popping |
| C66 | `parser.py` `get_shape` | recursion over nested lists against `numpy.asanyarray`; the loop over objects follows the loop over their arrays |
| C67 | `contract.py` `contract_path`, `PathInfo` | the written-out equation is parsed as itself; the sizes are found again from the shapes they make; the path loop looks at shapes of equal ranks only for the flags |
| C68 | `PathInfo.__repr__`, `ContractExpression.__repr__`, `__str__` | digits and powers of ten for the figures; splitting at line breaks and spaces for the table |
| C69 | `contract`, `_core_contract`, `_einsum`, `_tensordot`, `_transpose` for any library | simulation: library arrays represent tensors; instances for numpy, torch, objects |
| C70 | `_filter_einsum_defaults`, `**kwargs` of `contract` | dictionary lemmas; exact condition; counterexample |
| C71 | `contract_path` with `DynamicProgramming` | steps of a path as nodes of a binary tree; cost of a tree against reported figures |
| C72 | `RandomGreedy` as `optimize`, repeatedly | history of recorded trials over all uses; first recorded trial is greedy |
| C73 | tensorflow graph mode: `build_expression_graph`, `evaluate_constants_graph`, `to_tensorflow` | graph node = function of the feed; invariant over histories of events |
| C74 | `RandomOptimizer.parallel`, `__del__`, `_gen_results_parallel`, `_cancel_futures` | invariant over assignments; trace of jobs, linked to `roCall` |
| C75 | `contract_expression` with interleaved arguments | conversion (C36) and renaming (C55) composed with the invariant of C39 |
| C76 | `contract_path`, all finders, `DynamicProgramming.__call__` (numbering of labels) | equivariance of every function of the model under permutations of labels; extension of finite injections to permutations; C23 for the set orders of greedy |
| C77 | `BranchBound` called again | best is replaced only by better figures (`Kept`), invariants of C58 along histories |
| C78 | `count_cached_ops` | a ledger (`Counts`) that every cached call keeps; histories (`RanWith`) |
| C79 | `DynamicProgramming.__call__`, ends or not | the loop over the caps as an iff in the number of rounds; trees of cost 0 for parts with an empty output |
| C80 | `backends/theano.py` | the state of the expression as an invariant with a flag for the strict histories, along all histories |
| C81 | `_parse_minimize`, `DynamicProgramming.__call__` with a function | the regular expression by cases; the tables of the search as an invariant that does not mention costs |
| C82 | `ContractExpression.__call__`, `evaluate_constants`, `_contract_with_conversion`, backends cupy, torch, tensorflow (eager), jax | an invariant of the expression: its caches hold what the initial contraction list and constants determine |
| C83 | `DynamicProgramming.__call__` with a function written like `_dp_compare_combo` | the call equals that of a cost model `custom` (simulation that forgets the state); the optimality proof of C21 needs commutativity, monotonicity and a lower bound of the cost only |
| C84 | `contract` with data types | library of pairs (type, array), invariance of the promoted type of the operand list |
| C85 | caches of `shared_intermediates` with writes into arrays | invariant of the caches, replay of calls from the cache with shapes only |
| C86 | `memory_limit` in all finders | invariant: label sets of the search, of its cache and of the tables are among those of the operands |
| C87 | `optimal`, `_compute_oversize_flops`, `DynamicProgramming` | every contraction of many operands at once costs at least a pairwise tree of the same operands; for dynamic programming from C71 and C79 |
| C88 | `contract` | from C01 and the algebra of the explicit formula |
| C89 | `contract_path` figures, `PathInfo.speedup` | induction over the path: the product of all remaining sizes times the number of operands |
| C90 | `contract`, `_core_contract` on slices | sums over assignments split along one label |
| C91 | `optimal`, `DynamicProgramming` reported figures | permuted paths, monotone figures, exactness of C18 and C71 |
| C92 | `DynamicProgramming.__call__` joins of parts | trees of parts and joins, sums of prefix products, exactness of C71 for each part |
| C93 | `contract_path` blas flags, `_core_contract` with libraries that lack einsum | the rule is invariant under contracting a pair |
| C94 | `BranchBound` with `cutoff_flops_factor=None` | simulation by the search with a factor; the first loop over pairs must meet falling costs |
| C95 | `_branch_iterate`, `_optimal_iterate` with the paths reached | the candidates of a node are distinct pairs, at most `n choose 2`, of which `nbranch` are visited |
| C96 | `BranchBound.__init__`, attributes, `get_better_fn` | an invariant of the object: ready, with a path after the first call; the best is replaced only by a better one |
| C97 | `auto`, `auto_hq`, `branch`, `greedy`, `dynamic_programming` | a search with one branch never prunes, so it contracts overlapping tensors first; in a connected network such paths have no outer product, and dynamic programming is optimal among those |
| C98 | documented custom optimizers, `RandomOptimizer.__call__` | the history of an instance records the trials run; a loop that replaces two ids by a new one yields a complete SSA path |
| C99 | `_COST_FNS.get`, `_get_candidate`, `_assess_candidate` with a raising `cost_fn` | simulation: each step agrees with the search for a total extension of the cost function, or raises what the function raised |
| C100 | `ssa_greedy_optimize`, `thermal_chooser` and the choice of the pair | invariant: with push_all the queue holds an up-to-date candidate for each pair of neighbours; obsolete candidates cost more |
| C101 | `ssa_greedy_optimize`, all three stages | invariants of the deduplication, of the main loop and of the final heap, with the operands as sets of inputs |
| C102 | main loop of `ssa_greedy_optimize` | the length of the queue and the number of operands as a measure; the length of the queue at the start |
| C103 | weights of `thermal_chooser`, `random.choices` | sums of weights and intervals; monotonicity of exp |
| C104 | `cost_cap` of `DynamicProgramming` | minimality of both trees; exact conditions of the outcome |
| C105 | the `while` loop over cost caps | exact condition of the loop by induction; least round |
| C106 | loops of `DynamicProgramming`, counted | each table holds each set once; sums over pairs of sizes |

Where the unchanged code violates the property as stated, the negation is proved with a concrete witness and the positive theorem
carries the suffix `_partial` with the exact extra hypothesis.

## Trusted base

1. Lean's kernel (4.33.0) and Mathlib's definitions. `lake build` checks every proof; there is no `sorry`, no `native_decide`, no `bv_decide` and no
   axiom beyond Lean's own three: `propext`, `Classical.choice`, `Quot.sound`. `AXIOMS.md` (written by `scripts/axioms.py` from `#print axioms`)
   lists the axioms of every theorem named in `MANIFEST.json`.
2. The reading of the Python source in `Verif/Model`, definition by definition; the comments cite files and lines and say what is simplified.
3. The meaning given to what the code calls but does not contain:
   * Python: `str`, `list`, `dict`, `set`, `sorted`, `heapq`, `bisect` (`Verif/Py/Basic.lean`, `popMin`, `bisectLeft`); iteration orders of sets,
     random numbers, clocks, executors and the choice of object identities are arbitrary parameters;
   * `numpy.einsum`, `tensordot`, `transpose` (`Verif/Model/Tensor.lean`): exact arithmetic in a commutative semiring, with numpy's shape errors and its own reading of ellipses.
     All backends compute these functions; they differ in which of them they offer.
4. The specifications in `Verif/Spec` (what a theorem says); they use none of the model's helpers.

## Modelled

| module of `/repo/opt_einsum` | functions | model |
|---|---|---|
| `parser.py` | all but `possibly_convert_to_numpy` (used nowhere) | `Model/Parser`, `Model/ArrayLike` (`get_shape`) |
| `helpers.py`, `blas.py` | all but `has_array_interface` | `Model/Helpers`, `Model/Search` |
| `contract.py` | `_choose_memory_arg`, `contract_path`, `PathInfo` (fields), `_einsum`, `_tensordot`, `_transpose`, `_core_contract`, `contract`, `parse_backend`, `infer_backend`, `format_const_einsum_str`, `ContractExpression`, `contract_expression`, the `out` argument, interleaved operands, `optimize` by name, paths of integers, `PathInfo.eq` and `PathInfo.shapes`, printing of `PathInfo` and of expressions (`decimal.Decimal` as its documentation has it: 28 digits, half to even) | `Model/Contract`, `Model/Report`, `Model/Print`, `Model/IntPath`, `Model/Expression`, `Model/ExprThreads`, `Model/Out`, `Model/Interleaved`, `Model/Registry` |
| `paths.py` | all path finders, `ssa_to_linear`, `linear_to_ssa`, `_tree_to_sequence`, registry, `_check_args_against_first_call` | `Model/PathConv`, `Search`, `Branch`, `Greedy`, `Subgraphs`, `Dp`, `DpWork` (with a counter), `Auto` |
| `path_random.py` | all (random numbers, clock and executor as oracles; the weights of `thermal_chooser` as real numbers) | `Model/Random`, `Model/Thermal`, `Model/Auto` |
| `sharing.py` | all | `Model/SharingStack` (stacks of threads), `Model/Sharing` (caches, identities), `Model/SharingWrites` (writes of the program), `Model/SharingThreads` (threads that share caches), `Model/CountOps` |
| `backends/dispatch.py` | `get_func`, `has_einsum`, `has_tensordot`, `has_backend`, aliases | `Model/Dispatch`, `Model/Expression` |
| `backends/object_arrays.py`, `backends/torch.py` | `object_einsum`; `einsum`, `tensordot` | `Model/Objects`, `Model/Torch` |
| `testing.py` | `build_shapes`, `rand_equation` (random draws as oracles; the values of the arrays are left out) | `Model/Testing` |

## Not modelled

Floating-point rounding; data types beyond a rule for the type of a result (`Model/DataType`); the bodies of the conversions of the GPU, TensorFlow, Theano and JAX backends (a conversion keeps the
contents; TensorFlow's graph mode is in `Model/GraphMode`, Theano's compiled functions are in `Model/Theano`, both without data types); process pools beyond the order in which results are yielded; what the keyword arguments passed on to `numpy.einsum` (`dtype`, `order`, `casting`)
do there (that they are passed on is modelled in `Model/AnyLibrary`); which arrays share memory (`Model/SharingWrites` lets a
write of the user's program change any set of arrays); typing stubs.

## Testing the theorems

`seeded/LOG.jsonl` records wrong programs tried in a scratch copy: the definition edited, the edit, the claim that it breaks, and the theorems
that stopped proving. The build stops at the first lemma that breaks, so the property theorems downstream of it are not listed each time.

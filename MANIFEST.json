{
 "claims": [
  {
   "property": "C01",
   "status": "proved",
   "theorems": [
    "TNCO.C01_string",
    "TNCO.C01_positions",
    "TNCO.C01_empty",
    "TNCO.C01_pickle"
   ],
   "note": "Every argument; the error branch is characterised by an iff."
  },
  {
   "property": "C02",
   "status": "proved",
   "theorems": [
    "TNCO.C02_operations",
    "TNCO.C02_comparisons",
    "TNCO.C02_count_getitem"
   ],
   "note": "Every pair of bitsets of equal length."
  },
  {
   "property": "C03",
   "status": "proved",
   "theorems": [
    "TNCO.C03_iteration",
    "TNCO.C03_operations_order",
    "TNCO.C03_operators",
    "TNCO.C03_type_error"
   ],
   "note": "Every pair of sequences."
  },
  {
   "property": "C04",
   "status": "partial",
   "theorems": [
    "TNCO.C04_hash_partial",
    "TNCO.C04_violated"
   ],
   "note": "The code violates the property (hash depends on insertion order): witness for every collision-free tuple hash. Proved for equal iteration order."
  },
  {
   "property": "C05",
   "status": "partial",
   "theorems": [
    "TNCO.C05_tree_is_accepted",
    "TNCO.C05_is_valid_partial",
    "TNCO.C05_isTree_iff",
    "TNCO.C05_violated_parents",
    "TNCO.C05_violated_cycle"
   ],
   "note": "The code violates the property: two concrete node lists are accepted that are not trees (wrong parent pointers; detached cycle). Proved: every tree is accepted, exactly what acceptance guarantees, and the exact missing conditions."
  },
  {
   "property": "C06",
   "status": "proved",
   "theorems": [
    "TNCO.C06_swap_keeps_tree",
    "TNCO.C06_swap_noop",
    "TNCO.C06_swap_exchanges",
    "TNCO.C06_swap_undo"
   ],
   "note": "For every tree and every position."
  },
  {
   "property": "C07",
   "status": "proved",
   "theorems": [
    "TNCO.C07_traverse"
   ],
   "note": "For every tree; the loop's iteration bound is part of the statement."
  },
  {
   "property": "C08",
   "status": "proved",
   "theorems": [
    "TNCO.C08_get_contraction"
   ],
   "note": "For every tree."
  },
  {
   "property": "C09",
   "status": "proved",
   "theorems": [
    "TNCO.C09_accepts",
    "TNCO.C09_represents",
    "TNCO.C09_rejects",
    "TNCO.C09_equal_positions"
   ],
   "note": "Every path with two different positions per step, every list of tensors without repeated indices, every set iteration order. A step naming one position twice is not rejected by the code; C09_equal_positions states what it does."
  },
  {
   "property": "C10",
   "status": "proved",
   "theorems": [
    "TNCO.C10_indices_exact",
    "TNCO.C10_core_exact"
   ],
   "note": "Every accepted path."
  },
  {
   "property": "C11",
   "status": "proved",
   "theorems": [
    "TNCO.C11_given",
    "TNCO.C11_omitted",
    "TNCO.C11_hyper_rejected"
   ],
   "note": "Every accepted path."
  },
  {
   "property": "C12",
   "status": "proved",
   "theorems": [
    "TNCO.C12_path",
    "TNCO.C12_round_trip"
   ],
   "note": "Every well-formed tree, including trees rewritten by an optimizer; round trip through the constructor with check_shared_inds off."
  },
  {
   "property": "C13",
   "status": "proved",
   "theorems": [
    "TNCO.C13_update_keeps_tree",
    "TNCO.C13_update_keeps_valid",
    "TNCO.C13_is_valid_true"
   ],
   "note": "Every history of updates of the infinite-memory optimizer, every random generator, every acceptance function and cost model (exact arithmetic)."
  },
  {
   "property": "C14",
   "status": "proved",
   "theorems": [
    "TNCO.C14_total_cost_exact",
    "TNCO.C14_running_total"
   ],
   "note": "After every history, and at every point inside an update."
  },
  {
   "property": "C15",
   "status": "proved",
   "theorems": [
    "TNCO.C15_min_is_best"
   ],
   "note": "Every history."
  },
  {
   "property": "C16",
   "status": "proved",
   "theorems": [
    "TNCO.C16_shared_inds"
   ],
   "note": "Every history from a tree with exact index sets (what the constructor builds, C10)."
  },
  {
   "property": "C17",
   "status": "partial",
   "theorems": [
    "TNCO.C17_greedy_partial",
    "TNCO.C17_violated"
   ],
   "note": "The code violates the property when the uniform draw is exactly 0 (witness). Proved for every history when draws are positive."
  },
  {
   "property": "C18",
   "status": "proved",
   "theorems": [
    "TNCO.C18_value",
    "TNCO.C18_accept_measure",
    "TNCO.C18_monotone",
    "TNCO.C18_detailed_balance"
   ],
   "note": "Real arithmetic."
  },
  {
   "property": "C19",
   "status": "proved",
   "theorems": [
    "TNCO.C19_cost_is_count",
    "TNCO.C19_dims_forms_agree",
    "TNCO.C19_cost_pos_mono"
   ],
   "note": "Exact arithmetic."
  },
  {
   "property": "C20",
   "status": "proved",
   "theorems": [
    "TNCO.C20_sparse_cost",
    "TNCO.C20_sparse_vs_dense"
   ],
   "note": "Exact arithmetic."
  },
  {
   "property": "C21",
   "status": "proved",
   "theorems": [
    "TNCO.C21_get_slices",
    "TNCO.C21_no_slices"
   ],
   "note": "Every tree, width model with the stated laws, shuffle and set of skipped indices."
  },
  {
   "property": "C22",
   "status": "partial",
   "theorems": [
    "TNCO.C22_width_limit_partial",
    "TNCO.C22_violated"
   ],
   "note": "The code violates the property for the sparse cost model with max_number_new_slices > 0 (witness). Proved for every history with the dense model, with no new slices, or with the sparse indices among the skipped ones."
  },
  {
   "property": "C23",
   "status": "proved",
   "theorems": [
    "TNCO.C23_skip_never_sliced"
   ],
   "note": "Every history."
  },
  {
   "property": "C24",
   "status": "proved",
   "theorems": [
    "TNCO.C24_caches_exact",
    "TNCO.C24_min",
    "TNCO.C24_rejected_moves_undone",
    "TNCO.C24_is_valid_partial"
   ],
   "note": "Every history, exact arithmetic; the is_valid() form holds where the width limit holds (C22)."
  },
  {
   "property": "C25",
   "status": "partial",
   "theorems": [
    "TNCO.C25_no_crash_partial",
    "TNCO.C25_only_div_by_zero",
    "TNCO.C25_violated"
   ],
   "note": "The code violates the property: prng() % 0 when all indices to slice are skipped (witness). Proved without new slices, without skipped indices, or if the skipped indices together are not wider than max_width; nothing else can go wrong."
  },
  {
   "property": "C26",
   "status": "partial",
   "theorems": [
    "TNCO.C26_infinite_memory",
    "TNCO.C26_infinite_memory_state",
    "TNCO.C26_finite_width_partial",
    "TNCO.C26_finite_width_state_partial",
    "TNCO.C26_violated"
   ],
   "note": "Proved in full for the infinite-memory optimizer. The finite-width optimizer violates it: max_number_new_slices is not in its pickled state and comes back as 0 (witness). Proved for max_number_new_slices = 0, and everything else in the state is preserved. The textual dump of the generator restores it exactly: C87_pickle, C87_pickle_fw. Assumed: that of the costs does."
  },
  {
   "property": "C27",
   "status": "proved",
   "theorems": [
    "TNCO.C27_paths",
    "TNCO.C27_merged",
    "TNCO.C27_single"
   ],
   "note": "For every network, seed and iteration order of sets; randrange and sample behave as documented. Paths come in the order of the components. The bound on loop iterations is the number of tensors plus the number of indices."
  },
  {
   "property": "C28",
   "status": "proved",
   "theorems": [
    "TNCO.C28_merge",
    "TNCO.C28_autocomplete",
    "TNCO.C28_rejects"
   ],
   "note": "For lists of valid paths; steps of the merged path equal those of the given paths, in order, up to the order of the two operands."
  },
  {
   "property": "C29",
   "status": "proved",
   "theorems": [
    "TNCO.C29_components",
    "TNCO.C29_split",
    "TNCO.C29_normalized",
    "TNCO.C29_nonempty",
    "TNCO.C29_merge_back"
   ],
   "note": "For every valid path; contractions are compared up to the order of the two operands."
  },
  {
   "property": "C30",
   "status": "proved",
   "theorems": [
    "TNCO.C30_fuse",
    "TNCO.C30_rejects"
   ],
   "note": "For every network without repeated indices inside a tensor, positive dimensions, every seed; widths are of any type with + and <, so the rounding of floats does not matter. Fused indices agree with contract() up to order."
  },
  {
   "property": "C31",
   "status": "partial",
   "theorems": [
    "TNCO.C31_value",
    "TNCO.C31_complete",
    "TNCO.C31_path_independent",
    "TNCO.C31_succeeds",
    "TNCO.C31_inds_only",
    "TNCO.C31_dangling",
    "TNCO.C31_no_dangling"
   ],
   "note": "Proved for every network, path and commutative semiring: the returned network always has the same value. The single result is the einsum over the output indices when every non-output index is in two or more tensors; otherwise the code never sums the dangling index (witness C31_dangling). NumPy transpose, reshape and matmul are trusted; entries are exact."
  },
  {
   "property": "C32",
   "status": "proved",
   "theorems": [
    "TNCO.C32_tensordot",
    "TNCO.C32_order",
    "TNCO.C32_inds_only",
    "TNCO.C32_not_shared",
    "TNCO.C32_mismatch_unnoticed"
   ],
   "note": "For arrays that agree on dimensions; NumPy transpose, reshape and matmul are trusted, entries are exact. Disagreeing shapes may go unnoticed (witness)."
  },
  {
   "property": "C33",
   "status": "partial",
   "theorems": [
    "TNCO.C33_tensor",
    "TNCO.C33_tensor_ok",
    "TNCO.C33_tensor_rejects",
    "TNCO.C33_value",
    "TNCO.C33_value_partial",
    "TNCO.C33_network_ok",
    "TNCO.C33_violated",
    "TNCO.C33_repeated_index"
   ],
   "note": "Proved for every network over a commutative ring with exact comparison: the exact relation of the two values. They are equal unless a summed index vanishes from all tensors; then the code loses its dimension as a factor (violated, witness). After renaming a tensor can have an index twice (witness)."
  },
  {
   "property": "C34",
   "status": "proved",
   "theorems": [
    "TNCO.C34_read_inds",
    "TNCO.C34_tokens"
   ],
   "note": "For every index map; the tokens must differ, else the code rejects them."
  },
  {
   "property": "C35",
   "status": "partial",
   "theorems": [
    "TNCO.C35_injective",
    "TNCO.C35_no_syntax",
    "TNCO.C35_defined",
    "TNCO.C35_total",
    "TNCO.C35_decode",
    "TNCO.C35_surrogates_partial",
    "TNCO.C35_violated",
    "TNCO.C35_empty"
   ],
   "note": "Proved: natural numbers get different characters, never einsum syntax, and subscripts decode up to renaming. The code violates the rest: 55156 to 55295 get surrogates, and negative numbers wrap around. A network without tensors and one with a single scalar give the same string."
  },
  {
   "property": "C36",
   "status": "partial",
   "theorems": [
    "TNCO.C36_fresh",
    "TNCO.C36_given",
    "TNCO.C36_terminates_partial",
    "TNCO.C36_violated"
   ],
   "note": "Every name returned is fresh; but with a seed whose first name collides the loop never ends (violated)."
  },
  {
   "property": "C37",
   "status": "proved",
   "theorems": [
    "TNCO.C37_simplify",
    "TNCO.C37_commute",
    "TNCO.C37_commute_qubits",
    "TNCO.C37_same",
    "TNCO.C37_rejects",
    "TNCO.C37_violated"
   ],
   "note": "Proved for every circuit of unitary gates over any field with an involution, in exact arithmetic, with the code's own commutation and equality tests (proved exact). load does not check unitarity; for other matrices the product can change (violated, witness)."
  },
  {
   "property": "C38",
   "status": "partial",
   "theorems": [
    "TNCO.C38_load",
    "TNCO.C38_rejects",
    "TNCO.C38_violated"
   ],
   "note": "Proved for all options (simplify, decompose, fuse), all valid states and every circuit; the gates must be unitary if simplify or decompose is set, and simplify allows a global phase. load does not check unitarity; with decompose and other matrices a factor is lost (violated, witness)."
  },
  {
   "property": "C39",
   "status": "proved",
   "theorems": [
    "TNCO.C39_expected",
    "TNCO.C39_born",
    "TNCO.C39_total",
    "TNCO.C39_sample",
    "TNCO.C39_rejects",
    "TNCO.C39_repeated_order"
   ],
   "note": "Exact arithmetic. Draws are Born distributed if each comparison with rng.random() is a coin of that bias; for every generator of numbers in [0,1) no run fails and all drawn bitstrings have positive probability. The optimizer is any function returning complete paths; qubit_order without repetitions (with repetitions there are extra zero bits, C39_repeated_order)."
  },
  {
   "property": "C40",
   "status": "partial",
   "theorems": [
    "TNCO.C40_square_partial",
    "TNCO.C40_shape_partial",
    "TNCO.C40_violated"
   ],
   "note": "Violated: a square matrix whose size is not a power of two and a matrix with additional zero columns are accepted (witnesses). Square matrices: acceptance is characterised exactly."
  },
  {
   "property": "C41",
   "status": "proved",
   "theorems": [
    "TNCO.C41_args",
    "TNCO.C41_results",
    "TNCO.C41_errors",
    "TNCO.C41_deterministic",
    "TNCO.C41_once",
    "TNCO.C41_ends",
    "TNCO.C41_shorter",
    "TNCO.C41_rejects"
   ],
   "note": "For cores that keep to their own slots (a hypothesis, as in the documentation). Every interleaving of the workers and of the timer is covered; joblib and the sequential branch. Shared memory slot by slot, justified by C53."
  },
  {
   "property": "C42",
   "status": "partial",
   "theorems": [
    "TNCO.C42_return_partial",
    "TNCO.C42_raise_leaks",
    "TNCO.C42_violated",
    "TNCO.C42_violated_early"
   ],
   "note": "The code violates the property: whenever the core raises, all segments stay linked and the timer goes on waiting (for all inputs, plus witnesses). Released when the function returns."
  },
  {
   "property": "C43",
   "status": "partial",
   "theorems": [
    "TNCO.C43_infinite_memory_partial",
    "TNCO.C43_finite_width_partial",
    "TNCO.C43_slices",
    "TNCO.C72_cost",
    "TNCO.C72_cost_width",
    "TNCO.C43_violated",
    "TNCO.C43_violated_width",
    "TNCO.C72_violated_cost"
   ],
   "note": "Exact arithmetic. The cost is the cost of the path exactly if the network is connected; for disconnected networks with open indices it is understated, and the joined tensors may exceed max_width (witnesses). The reported cost has only six digits (C72_violated_cost; C72_cost says how far off it is). Missing: what is false."
  },
  {
   "property": "C44",
   "status": "partial",
   "theorems": [
    "TNCO.C44_infinite_memory_partial",
    "TNCO.C44_finite_width_partial",
    "TNCO.C72_improves",
    "TNCO.C72_improves_width",
    "TNCO.C72_order",
    "TNCO.C44_updates",
    "TNCO.C44_updates_width",
    "TNCO.C44_steps",
    "TNCO.C44_range",
    "TNCO.C44_slice_turn",
    "TNCO.C44_betas",
    "TNCO.C44_rejects",
    "TNCO.C72_violated_improves",
    "TNCO.C72_violated_order"
   ],
   "note": "Proved for costs as the optimizers hold them, in exact arithmetic. The costs that Python gets have six digits: they are sorted too, and at most the reported cost of the random path (C72_improves), but they can exceed its cost (C72_violated_improves), and the results need not be sorted by their costs (C72_violated_order; C72_order bounds the difference). Running times are not modelled, a time limit is an event of the schedule."
  },
  {
   "property": "C45",
   "status": "partial",
   "theorems": [
    "TNCO.C45_tensor",
    "TNCO.C45_tensor_error",
    "TNCO.C45_network",
    "TNCO.C45_not_tensor",
    "TNCO.C45_occurrences",
    "TNCO.C45_repeated_violated"
   ],
   "note": "Acceptance is characterised exactly, for all arguments. Hyper-indices are counted by occurrence: for an index repeated within a tensor the code demands output indices although it is in two tensors only (violated, witness); for tensors without repeated indices both notions agree (C45_occurrences)."
  },
  {
   "property": "C46",
   "status": "proved",
   "theorems": [
    "TNCO.C46_delta_simple",
    "TNCO.C46_delta_sparse",
    "TNCO.C46_mono",
    "TNCO.C46_sparse_le_simple",
    "TNCO.C46_sliced_cost",
    "TNCO.C46_width_is_log"
   ],
   "note": "Exact arithmetic."
  },
  {
   "property": "C47",
   "status": "partial",
   "theorems": [
    "TNCO.C47_compare_partial",
    "TNCO.C47_isnan_partial",
    "TNCO.C47_violated",
    "TNCO.C47_nan_violated",
    "TNCO.C47_eq_not_transitive"
   ],
   "note": "The code violates the property: isinf and signbit return isnan, and NaN compares equal to everything (for all values). Between other numbers the six comparisons are those of the extended rationals, and isnan is right."
  },
  {
   "property": "C48",
   "status": "partial",
   "theorems": [
    "TNCO.C48_width_cache",
    "TNCO.C48_cost_cache",
    "TNCO.C48_hyper_cache",
    "TNCO.C48_dims_cache_partial",
    "TNCO.C48_violated"
   ],
   "note": "The code violates the property for DimsCache with one common dimension (witness)."
  },
  {
   "property": "C49",
   "status": "partial",
   "theorems": [
    "TNCO.C49_components_partial",
    "TNCO.C49_no_scalars",
    "TNCO.C49_violated"
   ],
   "note": "Proved for every network without scalar tensors; the assertions never fail. The code violates the property for tensors without indices: they are dropped and the positions of the others are shifted (witness); C49_components_partial says what is returned then."
  },
  {
   "property": "C50",
   "status": "partial",
   "theorems": [
    "TNCO.C50_text",
    "TNCO.C50_no_lines",
    "TNCO.C50_network",
    "TNCO.C50_rejects",
    "TNCO.C50_indented",
    "TNCO.C50_dispatch",
    "TNCO.C50_dump_check",
    "TNCO.C50_dump_errors",
    "TNCO.C50_compression",
    "TNCO.C50_dump_partial",
    "TNCO.C50_violated"
   ],
   "note": "The text format, the network made of it, the choice of the optimizer and the output are described for all inputs. The claim that compression without a file name is rejected is false (C50_violated); indented lines are not recognised (C50_indented). The Unicode tables, the file system and the libraries for JSON, pickle, gzip and bz2 are parameters."
  },
  {
   "property": "C51",
   "status": "partial",
   "theorems": [
    "TNCO.C51_violated",
    "TNCO.C51_violated_first_step_lost"
   ],
   "note": "The code violates the property: a one-shot iterator loses its first step."
  },
  {
   "property": "C52",
   "status": "proved",
   "theorems": [
    "TNCO.C52_pair_subscripts"
   ],
   "note": ""
  },
  {
   "property": "C53",
   "status": "partial",
   "theorems": [
    "TNCO.C53_create",
    "TNCO.C53_set",
    "TNCO.C53_set_succeeds",
    "TNCO.C53_past",
    "TNCO.C53_negative",
    "TNCO.C53_list",
    "TNCO.C53_rejects",
    "TNCO.C53_rounded_violated"
   ],
   "note": "Byte-level model. The length is that of the sequence if the system gives blocks of the requested size (Linux); where blocks are rounded up, it is violated (witness)."
  },
  {
   "property": "C54",
   "status": "partial",
   "theorems": [
    "TNCO.C54_parse",
    "TNCO.C54_accepts",
    "TNCO.C54_padding_partial",
    "TNCO.C54_length",
    "TNCO.C54_rejects",
    "TNCO.C54_width",
    "TNCO.C54_core",
    "TNCO.C54_violated"
   ],
   "note": "The grammar is characterised exactly. The code violates the property for the zero flag and the alignment = (witnesses); otherwise the padding is Python's. The text of the bare number is left to MPFR."
  },
  {
   "property": "C55",
   "status": "partial",
   "theorems": [
    "TNCO.C55_infinite_memory",
    "TNCO.C55_finite_width",
    "TNCO.C55_sparse_needed",
    "TNCO.C55_sparse_error",
    "TNCO.C55_unsized_error",
    "TNCO.C55_width_errors"
   ],
   "note": "Proved under the condition that every part with more than one tensor has all sparse indices, which is shown to be necessary; the claim without it is false (C55_sparse_error). Some invalid arguments are accepted and fail after the start (C55_unsized_error, C55_width_errors)."
  },
  {
   "property": "C56",
   "status": "partial",
   "theorems": [
    "TNCO.C56_json_partial",
    "TNCO.C56_raw_error",
    "TNCO.C56_plain",
    "TNCO.C56_never_binary",
    "TNCO.C56_file",
    "TNCO.C56_violated"
   ],
   "note": "Holds for JSON with every compression. It is false for raw results (C56_raw_error), for other binary files, which raise an exception instead of being returned as bytes (C56_never_binary), and for texts that start with BZ (C56_violated). The libraries are parameters that invert each other."
  },
  {
   "property": "C57",
   "status": "partial",
   "theorems": [
    "TNCO.C57_unchanged",
    "TNCO.C57_inds",
    "TNCO.C57_fuse",
    "TNCO.C57_decompose",
    "TNCO.C57_value_partial",
    "TNCO.C57_decomposed_twice",
    "TNCO.C57_fused_twice",
    "TNCO.C57_violated",
    "TNCO.C57_violated_identity",
    "TNCO.C57_violated_repeated"
   ],
   "note": "Proved without decomposition; with decomposition the exact relation of the two values is proved, and equality if no index vanishes (C57_value_partial). The property is false in general: the value changes by the dimensions of vanished indices (C57_violated), networks whose output indices vanish are rejected (C57_violated_identity), and a repeated index after the decomposition is rejected when fusing (C57_violated_repeated). Missing: fusing networks with repeated indices that happen not to be touched. Exact arithmetic."
  },
  {
   "property": "C58",
   "status": "partial",
   "theorems": [
    "TNCO.C58_accepts",
    "TNCO.C58_accepts_fw",
    "TNCO.C58_cost",
    "TNCO.C58_cost_missing",
    "TNCO.C58_cost_repeated",
    "TNCO.C58_cost_fw",
    "TNCO.C58_cost_fw_result",
    "TNCO.C58_width",
    "TNCO.C58_width_errors",
    "TNCO.C58_eq",
    "TNCO.C58_violated_add",
    "TNCO.C58_violated_type",
    "TNCO.C58_violated_float"
   ],
   "note": "The formulas are proved for all arguments. The documentation is violated in three places: delta_width refuses an index that is not in the tensor (C58_violated_add), an unknown type raises AttributeError instead of NotImplementedError (C58_violated_type), and a whole n_projs given as a float is accepted but then every call fails (C58_violated_float). Exact arithmetic; NaN as max_width is outside the model."
  },
  {
   "property": "C59",
   "status": "partial",
   "theorems": [
    "TNCO.C59_held",
    "TNCO.C59_muls",
    "TNCO.C59_value",
    "TNCO.C59_sliced",
    "TNCO.C59_sliced_muls",
    "TNCO.C59_memory",
    "TNCO.C59_infinite_memory_partial",
    "TNCO.C59_finite_width_partial",
    "TNCO.C72_muls",
    "TNCO.C72_muls_width",
    "TNCO.C72_violated_cost"
   ],
   "note": "Proved for costs as the optimizers hold them; Python gets them rounded to six digits (C72_violated_cost), which is the nearest such number to the number of multiplications (C72_muls). Exact arithmetic; the arrays are given by hand (the apps do not contract). Disconnected networks are the subject of C43 (cost and width are violated there), dangling indices of C31_dangling."
  },
  {
   "property": "C60",
   "status": "partial",
   "theorems": [
    "TNCO.C60_random",
    "TNCO.C60_errors",
    "TNCO.C60_ends",
    "TNCO.C60_names",
    "TNCO.C60_names_ok",
    "TNCO.C60_violated",
    "TNCO.C60_violated_one"
   ],
   "note": "Proved for every generator and 1 <= k. C60_violated: n_tensors = k, n_inds = 1 passes the check of the arguments but the function always gives up. C60_violated_one: with k = 1 the components are not connected."
  },
  {
   "property": "C61",
   "status": "partial",
   "theorems": [
    "TNCO.C61_inds",
    "TNCO.C61_equal",
    "TNCO.C61_max_width",
    "TNCO.C61_contractions",
    "TNCO.C61_swapped",
    "TNCO.C61_tests",
    "TNCO.C61_check",
    "TNCO.C61_built",
    "TNCO.C61_violated_two",
    "TNCO.C61_violated_iterator"
   ],
   "note": "The answers are characterised exactly (C61_check). Violated: for one or two tensors the assertion about the swapped copy always fails (C61_violated_two); a one-shot iterator of tensors is never accepted (C61_violated_iterator). For three or more tensors it never fails (C61_swapped), so all trees built from a path are accepted (C61_built)."
  },
  {
   "property": "C62",
   "status": "partial",
   "theorems": [
    "TNCO.C62_load",
    "TNCO.C62_infinite_memory_partial",
    "TNCO.C62_finite_width_partial",
    "TNCO.C62_returns",
    "TNCO.C72_violated_cost"
   ],
   "note": "Everything is proved but for the digits of the reported cost, of which Python gets six (C72). Exact arithmetic; 1/sqrt(2) is an element r with 2 |r|^2 = 1; the extraction of the gates from cirq and qiskit circuits is not modelled. The options decompose_hyper_inds and fuse of load_tn are ignored for circuits, as in the code. n_projs may be given, but a circuit has no sparse indices."
  },
  {
   "property": "C63",
   "status": "partial",
   "theorems": [
    "TNCO.C63_list",
    "TNCO.C63_rows",
    "TNCO.C63_gates",
    "TNCO.C63_text",
    "TNCO.C63_indirect",
    "TNCO.C63_rejects_partial",
    "TNCO.C63_rejects_text",
    "TNCO.C63_circuit",
    "TNCO.C63_ends_partial",
    "TNCO.C63_not_type_error",
    "TNCO.C63_empty",
    "TNCO.C63_loops",
    "TNCO.C63_file_names",
    "TNCO.C63_dump"
   ],
   "note": "The choice between rows and gates is characterised exactly. The code violates the rest in corners, each with a witness: empty members, dictionaries and infinite entries raise IndexError, KeyError and OverflowError (C63_not_type_error; the TypeError is proved for all other members), empty objects and circuits without operations are taken for a list of indices (C63_empty), a file with its own name as text is loaded for ever (C63_loops; the end is proved wherever files do not lead in circles), and files with certain names are not looked at (C63_file_names), and what optimize prints as JSON is never accepted (C63_dump)."
  },
  {
   "property": "C64",
   "status": "proved",
   "theorems": [
    "TNCO.C64_split",
    "TNCO.C64_whole",
    "TNCO.C64_accepts",
    "TNCO.C64_value_error",
    "TNCO.C64_empty"
   ],
   "note": "linalg.svd is a parameter; it is assumed to return a singular value decomposition of the matrix it is given (IsSvd), in exact arithmetic."
  },
  {
   "property": "C65",
   "status": "proved",
   "theorems": [
    "TNCO.C65_constructor",
    "TNCO.C65_cheapest",
    "TNCO.C65_born",
    "TNCO.C65_returns",
    "TNCO.C65_agree",
    "TNCO.C65_reuse",
    "TNCO.C72_sampler"
   ],
   "note": "Exact arithmetic; the seeds that the optimizer draws and the turns of its workers are arbitrary arguments."
  },
  {
   "property": "C66",
   "status": "partial",
   "theorems": [
    "TNCO.C66_tree",
    "TNCO.C66_cost",
    "TNCO.C66_min",
    "TNCO.C66_accepts",
    "TNCO.C66_simple_partial",
    "TNCO.C66_sparse_partial",
    "TNCO.C66_violated",
    "TNCO.C66_violated_bits"
   ],
   "note": "Violated: for one common dimension the cost is std::pow in double precision, so float1024 overflows at 2^1024 and has 53 right bits. Holds for different dimensions in every format and for one dimension up to double. std::pow is taken to be correctly rounded."
  },
  {
   "property": "C67",
   "status": "partial",
   "theorems": [
    "TNCO.C67_tree",
    "TNCO.C67_cost",
    "TNCO.C67_min",
    "TNCO.C67_width_partial",
    "TNCO.C67_no_crash_partial",
    "TNCO.C67_bits_width",
    "TNCO.C67_bits_no_crash",
    "TNCO.C67_simple",
    "TNCO.C67_sparse",
    "TNCO.C67_bits_simple",
    "TNCO.C67_bits_sparse",
    "TNCO.C67_max_width",
    "TNCO.C67_log",
    "TNCO.C67_violated",
    "TNCO.C67_violated_skip",
    "TNCO.C67_violated_slices",
    "TNCO.C67_violated_limit"
   ],
   "note": "Violated for dimensions that are not powers of two: skipped indices that fit exactly make an update divide by zero (C67_violated) or are rejected by the Python constructor (C67_violated_skip), an index more than needed is sliced (C67_violated_slices), and max_width is rounded up (C67_violated_limit). The limit holds up to the roundings, and exactly for powers of two and max_width as stored; without a margin for the roundings, or with sparse indices that may be sliced (see C22), it is not claimed. log2 is a table of doubles; underflow is not represented."
  },
  {
   "property": "C68",
   "status": "partial",
   "theorems": [
    "TNCO.C68_tree",
    "TNCO.C68_tree_path_partial",
    "TNCO.C68_infinite",
    "TNCO.C68_infinite_future",
    "TNCO.C68_infinite_pickle",
    "TNCO.C68_finite_partial",
    "TNCO.C68_finite_future_partial",
    "TNCO.C68_finite_pickle",
    "TNCO.C68_violated_path",
    "TNCO.C68_violated",
    "TNCO.C68_violated_mixed",
    "TNCO.C68_violated_builtin"
   ],
   "note": "Violated four times: trees that skip different tensors are equal with different paths (C68_violated_path); max_number_new_slices is not compared (C68_violated); fw == inf raises AttributeError if the trees are equal (C68_violated_mixed); comparing with None, numbers, texts or lists raises TypeError (C68_violated_builtin). Otherwise proved for all reachable optimizers; with sparse indices in the finite-width case for max_number_new_slices = 0, as in C22."
  },
  {
   "property": "C69",
   "status": "partial",
   "theorems": [
    "TNCO.C69_cirq_partial",
    "TNCO.C69_load_tn_partial",
    "TNCO.C69_cirq_errors",
    "TNCO.C69_cirq_violated_measured",
    "TNCO.C69_cirq_violated_subcircuit",
    "TNCO.C69_qiskit_reversed",
    "TNCO.C69_qiskit_partial",
    "TNCO.C69_one_qubit",
    "TNCO.C69_qiskit_violated",
    "TNCO.C69_qiskit_errors",
    "TNCO.C69_sample_cirq_partial",
    "TNCO.C69_sample_cirq_violated",
    "TNCO.C69_sample_qiskit_violated"
   ],
   "note": "Violated four times: cirq qubits that are only measured are lost (C69_cirq_violated_measured, C69_sample_cirq_violated); the gates of a sub-circuit that also measures are dropped (C69_cirq_violated_subcircuit); the qubits of qiskit gates are read in reverse, so that a CNOT has control and target exchanged (C69_qiskit_violated; C69_qiskit_reversed says what is loaded for every circuit); sampling from a qiskit circuit always raises TypeError (C69_sample_qiskit_violated). Proved for cirq circuits without such operations, and for qiskit circuits of gates that are symmetric under the reversal. What cirq and qiskit say of their operations is a hypothesis."
  },
  {
   "property": "C70",
   "status": "partial",
   "theorems": [
    "TNCO.C70_tensor",
    "TNCO.C70_tensor_errors",
    "TNCO.C70_symm",
    "TNCO.C70_refl",
    "TNCO.C70_network",
    "TNCO.C70_network_errors",
    "TNCO.C70_network_symm",
    "TNCO.C70_network_refl",
    "TNCO.C70_network_other",
    "TNCO.C70_value",
    "TNCO.C70_order",
    "TNCO.C70_violated_shapes",
    "TNCO.C70_violated_other",
    "TNCO.C70_violated_trans"
   ],
   "note": "Violated three times: arrays whose shapes NumPy does not combine raise ValueError instead of False (C70_violated_shapes; exactly then, C70_tensor_errors and C70_network_errors), a tensor compared with another object raises AttributeError (C70_violated_other), and == is not transitive (C70_violated_trans). When it is True, symmetry, reflexivity and the bound on the values are proved for all valid tensors and networks. Exact arithmetic."
  },
  {
   "property": "C71",
   "status": "partial",
   "theorems": [
    "TNCO.C71_text",
    "TNCO.C71_network",
    "TNCO.C71_network_errors",
    "TNCO.C71_tensor",
    "TNCO.C71_result",
    "TNCO.C71_result_errors",
    "TNCO.C71_output",
    "TNCO.C71_output_errors",
    "TNCO.C71_same_partial",
    "TNCO.C71_entries",
    "TNCO.C71_violated_costs",
    "TNCO.C71_violated_tags",
    "TNCO.C71_violated_numbers",
    "TNCO.C71_violated_same"
   ],
   "note": "Proved for a reader of JSON written down from the standard. Violated: the costs of the parts and the tags of the network are not written (C71_violated_costs, C71_violated_tags), complex entries and costs are strings (C71_violated_numbers), and a frozenset and a tuple as an index have the same text (C71_violated_same). C71_same_partial: for indices built from None, Booleans, integers, strings and tuples, the same text means the same tensors, output and sparse indices. Floats are given by their text."
  },
  {
   "property": "C72",
   "status": "proved",
   "theorems": [
    "TNCO.C72_digits",
    "TNCO.C72_ties",
    "TNCO.C72_shown",
    "TNCO.C72_total",
    "TNCO.C72_infinite_memory",
    "TNCO.C72_finite_width",
    "TNCO.C72_cost",
    "TNCO.C72_cost_width",
    "TNCO.C72_small",
    "TNCO.C72_improves",
    "TNCO.C72_improves_width",
    "TNCO.C72_order",
    "TNCO.C72_order_factor",
    "TNCO.C72_muls",
    "TNCO.C72_muls_width",
    "TNCO.C72_sampler",
    "TNCO.C72_violated_cost",
    "TNCO.C72_violated_improves",
    "TNCO.C72_violated_order",
    "TNCO.C72_violated_digits"
   ],
   "note": "Only the values of the printed numbers are modelled, not their text. That a stream prints a number rounded to six significant digits, ties to even, and the default context of decimal (28 digits, half even) are taken from their documentation. The costs inside the optimizers are exact; C17, C66 and others treat their rounding."
  },
  {
   "property": "C73",
   "status": "partial",
   "theorems": [
    "TNCO.C73_infinite",
    "TNCO.C73_infinite_best",
    "TNCO.C73_finite",
    "TNCO.C73_finite_best",
    "TNCO.C73_finite_width_partial",
    "TNCO.C73_finite_returns_partial",
    "TNCO.C73_infinite_accepts",
    "TNCO.C73_infinite_errors",
    "TNCO.C73_finite_accepts",
    "TNCO.C73_finite_errors",
    "TNCO.C73_wrong_type",
    "TNCO.C73_prob",
    "TNCO.C73_prob_eq",
    "TNCO.C73_violated_width",
    "TNCO.C73_violated_returns",
    "TNCO.C73_violated_eq"
   ],
   "note": "Violated in three places, each with a witness: sparse indices that may be sliced let a tensor exceed max_width (C22), skipped indices that do not fit together divide by zero (C25), and == of two probabilities of different classes raises TypeError. The partial theorems exclude exactly these. Costs are exact up to what is printed (C72). The private keyword arguments are those of C68."
  },
  {
   "property": "C74",
   "status": "partial",
   "theorems": [
    "TNCO.C74_main",
    "TNCO.C74_load",
    "TNCO.C74_record",
    "TNCO.C74_infinite",
    "TNCO.C74_finite",
    "TNCO.C74_infinite_object",
    "TNCO.C74_finite_object",
    "TNCO.C74_infinite_path",
    "TNCO.C74_finite_path",
    "TNCO.C74_infinite_value",
    "TNCO.C74_finite_value",
    "TNCO.C74_returns",
    "TNCO.C74_errors",
    "TNCO.C74_projs",
    "TNCO.C74_violated_cost"
   ],
   "note": "Proved for texts in which every row has a positive dimension and at least one tensor, and no name twice. The claim about costs is false as it stands: the reported cost and path leave out the contractions made while loading (C74_violated_cost: cost 0 and no path for a network of three tensors); the theorems add them. Costs and widths only for connected networks (C43). Values need two tensors for every row that is no output. Fire, the other formats of texts (C63-C66), str(Decimal) and running times are parameters."
  },
  {
   "property": "C75",
   "status": "partial",
   "theorems": [
    "TNCO.C75_arith",
    "TNCO.C75_zero",
    "TNCO.C75_nan",
    "TNCO.C75_infinite",
    "TNCO.C75_closed",
    "TNCO.C75_algebra",
    "TNCO.C75_monotone",
    "TNCO.C75_pow",
    "TNCO.C75_operand",
    "TNCO.C75_operand_partial",
    "TNCO.C75_compare",
    "TNCO.C75_construct",
    "TNCO.C75_construct_in",
    "TNCO.C75_float_roundtrip",
    "TNCO.C75_float_near_partial",
    "TNCO.C75_read",
    "TNCO.C75_read_case",
    "TNCO.C75_str",
    "TNCO.C75_str_partial",
    "TNCO.C75_pickle",
    "TNCO.C75_inplace_partial",
    "TNCO.C75_violated_alias",
    "TNCO.C75_violated_int",
    "TNCO.C75_violated_float",
    "TNCO.C75_violated_text",
    "TNCO.C75_violated_str",
    "TNCO.C75_violated_other"
   ],
   "note": "Arithmetic, monotonicity and pickling hold in full. Violated, each with a witness: integers go through a double (exact up to 2^53, nearest double up to its range, then TypeError); float(x) rounds twice and is off by up to 2^-53 + 2^-63 of x; texts that are no numbers are read as 0, NaN or the number at their beginning; str(x) loses digits of numbers below 1; x += 1 changes every name of the object; == with another object raises TypeError. C47 shows the defects of comparisons with NaN. MPFR is taken to round as documented; powers with exponents that are not whole are a parameter."
  },
  {
   "property": "C76",
   "status": "partial",
   "theorems": [
    "TNCO.C76_draws",
    "TNCO.C76_step",
    "TNCO.C76_three_partial",
    "TNCO.C76_violated"
   ],
   "note": "Single iterations are balanced, for all networks, cost models and histories, over the reals. Whole updates are not: for four tensors on one index there are twelve trees whose chances to be led to a thirteenth of the same cost add up to more than one, at every beta, so no weight that depends on the cost only is kept (C76_violated). For three tensors updates are balanced (C76_three_partial). Draws are taken as independent and uniform."
  },
  {
   "property": "C77",
   "status": "partial",
   "theorems": [
    "TNCO.C77_draws",
    "TNCO.C77_chance",
    "TNCO.C77_reach",
    "TNCO.C77_limit",
    "TNCO.C77_rate",
    "TNCO.C77_mean_time",
    "TNCO.C77_violated"
   ],
   "note": "Holds in full for acceptance at least as frequent as that of Metropolis and Hastings at some beta: for all networks, schedules and starting states, over the reals, by connecting any two trees through exchanges that the code can propose. Violated for the greedy probability: a tree of cost 36 for four tensors is never left, although there is one of cost 34 (C77_violated). Draws are taken as independent and uniform."
  },
  {
   "property": "C78",
   "status": "proved",
   "theorems": [
    "TNCO.C78_make",
    "TNCO.C78_run",
    "TNCO.C78_fixed_slices",
    "TNCO.C78_app"
   ],
   "note": "For exact costs and widths. The apps are compared through a relation between the states of the two optimizers that every step of the threads keeps, so the statement is about every schedule."
  },
  {
   "property": "C79",
   "status": "partial",
   "theorems": [
    "TNCO.C79_limit_partial",
    "TNCO.C79_rate_partial",
    "TNCO.C79_trap",
    "TNCO.C79_violated"
   ],
   "note": "Holds if no contraction of some of the tensors is wider than max_width (C79_limit_partial). Violated otherwise: for four tensors in a ring and max_new = 0, a tree of cost 5120 that fits is never left, for any generator and any acceptance, although a tree of cost 1536 fits (C79_violated). C79_trap gives the general condition under which a tree is never left."
  },
  {
   "property": "C80",
   "status": "proved",
   "theorems": [
    "TNCO.C80_drawn",
    "TNCO.C80_connected"
   ],
   "note": "An equivalence: C80_drawn characterises the possible results, for every iteration order of sets. \"Can return\" means: for some generator with the documented behaviour of randrange and sample. Nothing is said about how likely each result is."
  },
  {
   "property": "C81",
   "status": "partial",
   "theorems": [
    "TNCO.C81_paths",
    "TNCO.C81_tree",
    "TNCO.C81_infinite",
    "TNCO.C81_finite",
    "TNCO.C81_sets",
    "TNCO.C81_load_partial",
    "TNCO.C81_violated"
   ],
   "note": "Proved for random paths, trees and both apps, from the network on, with no hypothesis on the network. C81_load_partial is the same for load_tn without fused tensors, or without indices that two fused tensors keep in common. It is violated otherwise: tn.py:994-1015 passes a frozenset of the kept indices to tensordot, which lists them first, so the order of the indices of a fused tensor, and with it the random path for a given seed, change with the order of sets (C81_violated). The order of sets of positions (integers) in fuse is taken to be the same function of the set in both runs."
  },
  {
   "property": "C82",
   "status": "partial",
   "theorems": [
    "TNCO.C82_steps_partial",
    "TNCO.C82_steps_width_partial",
    "TNCO.C82_runs",
    "TNCO.C82_runs_width",
    "TNCO.C82_printers",
    "TNCO.C82_calls",
    "TNCO.C82_calls_width",
    "TNCO.C82_seeds",
    "TNCO.C82_violated"
   ],
   "note": "Proved for runs, calls, time limits and lists of temperatures, with no hypothesis on the network or the generators, for exact and for reported costs. Violated for two inverse temperatures (beta_ini, beta_end): n_steps changes all temperatures but the first, and with the acceptance of Metropolis and Hastings and one seed three steps give a cost of 80 where two steps give 56 (C82_violated; prob6_iff says that the acceptance is the right one)."
  },
  {
   "property": "C83",
   "status": "partial",
   "theorems": [
    "TNCO.C83_results",
    "TNCO.C83_silent",
    "TNCO.C83_lines",
    "TNCO.C83_errors",
    "TNCO.C83_quiet",
    "TNCO.C83_late",
    "TNCO.C83_apps_status",
    "TNCO.C83_apps",
    "TNCO.C83_ends_partial",
    "TNCO.C83_hangs",
    "TNCO.C83_raise",
    "TNCO.C83_violated",
    "TNCO.C83_violated_checks"
   ],
   "note": "Proved: results, lines, and the end of the thread where the operating system gives exactly the memory asked for. Violated where it gives whole pages (as multiprocessing.shared_memory documents for some platforms): Buffer.__len__ is shm.size // calcsize, the slots of completed beyond the runs are never set, and the call waits for ever (C83_hangs, C83_violated). After an exception of a run the thread goes on for ever (C83_raise). The last assertion fails if one run was shown and another one ends without a positive status (C83_violated_checks), which does not happen in the apps with two steps or more unless the time is up (C83_apps). rich is modelled by its table of lines."
  },
  {
   "property": "C84",
   "status": "proved",
   "theorems": [
    "TNCO.C84_flags",
    "TNCO.C84_order",
    "TNCO.C84_results",
    "TNCO.C84_each",
    "TNCO.C84_drawn",
    "TNCO.C84_no_steps",
    "TNCO.C84_infinite",
    "TNCO.C84_finite",
    "TNCO.C84_random",
    "TNCO.C84_random_width"
   ],
   "note": "The limit is said to have passed when the timer has set all flags, for which it needs n + 2 steps for n runs. Reading the flag and the update that follows are one step of the model, so an update that has begun when the flag is set is counted as made before. The condition of C84_infinite and C84_finite on sparse indices is that of C55. Times are counted in steps: one call of the random path, of the constructors or of finish is one step, however long it takes."
  },
  {
   "property": "C85",
   "status": "proved",
   "theorems": [
    "TNCO.C85_calls",
    "TNCO.C85_complete",
    "TNCO.C85_exception",
    "TNCO.C85_needed"
   ],
   "note": "For callbacks that leave the tree as it is. The tree is passed by reference, so that a callback can change it during the walk; then positions may be called twice or not at all (C85_needed)."
  },
  {
   "property": "C86",
   "status": "partial",
   "theorems": [
    "TNCO.C86_step",
    "TNCO.C86_right",
    "TNCO.C86_natural",
    "TNCO.C86_tree",
    "TNCO.C86_accepts",
    "TNCO.C86_rejects",
    "TNCO.C86_named_partial",
    "TNCO.C86_negative",
    "TNCO.C86_equal",
    "TNCO.C86_split",
    "TNCO.C86_places",
    "TNCO.C86_merge",
    "TNCO.C86_value"
   ],
   "note": "The code violates the property: (-2, -1) contracts other tensors than the last two, or raises IndexError (C86_negative), ContractionTree and merge_contraction_paths accept a step with equal positions (C86_equal), split_contraction_path raises AssertionError or ValueError for paths that the others accept (C86_split). What each step takes is characterised for all integers (C86_step, C86_right); trees, merged paths and contracted networks are right for what the steps take (C86_tree, C86_merge, C86_value)."
  },
  {
   "property": "C87",
   "status": "partial",
   "theorems": [
    "TNCO.C87_restore",
    "TNCO.C87_spaces",
    "TNCO.C87_state",
    "TNCO.C87_pickle",
    "TNCO.C87_pickle_fw",
    "TNCO.C87_sequence",
    "TNCO.C87_standard",
    "TNCO.C87_range",
    "TNCO.C87_uniform",
    "TNCO.C87_leaf",
    "TNCO.C87_words",
    "TNCO.C87_seeds",
    "TNCO.C87_alive",
    "TNCO.C87_violated_seed",
    "TNCO.C87_violated_text",
    "TNCO.C87_violated_zero",
    "TNCO.C87_violated_range",
    "TNCO.C87_violated_greedy"
   ],
   "note": "The code violates the property: seeds are taken modulo 2^32 (C87_violated_seed), and every text is accepted: texts that do not begin with a number all give one generator, the text of a number is not that seed (C87_violated_text), a text can give a generator of zeros only, numbers beyond 32 bits, or a Greedy run that raises the cost (C87_violated_zero, C87_violated_range, C87_violated_greedy). The rest is proved for std::mt19937 as it is in libstdc++, down to the 10000th number that the standard demands (C87_standard); pickling needs no assumption on the generator any more."
  },
  {
   "property": "C88",
   "status": "partial",
   "theorems": [
    "TNCO.C88_number",
    "TNCO.C88_shuffle",
    "TNCO.C88_orders",
    "TNCO.C88_model",
    "TNCO.C88_unbiased",
    "TNCO.C88_equal",
    "TNCO.C88_slices",
    "TNCO.C88_violated_hang",
    "TNCO.C88_violated_bounds"
   ],
   "note": "Proved for std::shuffle as it is in libstdc++: no bias at all, for any number of indices (below 2^32). Violated only for states that no seed leads to but a text can give: with a text of zeros the shuffle of three indices never ends, with words of more than 32 bits it writes outside the list (C88_violated_hang, C88_violated_bounds). That the numbers of a seed are not rejected for ever is not proved. C88_model: the shuffle of the code meets the only condition under which the finite-width theorems are stated."
  },
  {
   "property": "C89",
   "status": "partial",
   "theorems": [
    "TNCO.C89_state",
    "TNCO.C89_alive",
    "TNCO.C89_words",
    "TNCO.C89_values",
    "TNCO.C89_seeds",
    "TNCO.C89_seeds_long",
    "TNCO.C89_seeds_drawn",
    "TNCO.C89_violated_seed",
    "TNCO.C89_random",
    "TNCO.C89_random_uniform",
    "TNCO.C89_flip",
    "TNCO.C89_choices",
    "TNCO.C89_choice",
    "TNCO.C89_bits",
    "TNCO.C89_randrange",
    "TNCO.C89_bits_uniform",
    "TNCO.C89_seed_uniform",
    "TNCO.C89_sample",
    "TNCO.C89_sample_uniform",
    "TNCO.C89_model"
   ],
   "note": "Proved for random.Random of CPython 3.11. Violated for the seeds of the user: -n gives the same numbers as n, and a the same as a + (a - 1) * 2^32 (C89_violated_seed); below 2^64 these are all the coincidences (C89_seeds), and the seeds that the code draws itself, below 2^32, are all different (C89_seeds_drawn). Longer integers are compared only with those of as many words (C89_seeds_long). That randrange is not rejected for ever is not proved for a given seed. C89_model: the generator meets the condition (PyRng.Ok) of the theorems on random paths."
  },
  {
   "property": "C90",
   "status": "proved",
   "theorems": [
    "TNCO.C90_make",
    "TNCO.C90_error",
    "TNCO.C90_overloads",
    "TNCO.C90_pickle",
    "TNCO.C90_entry",
    "TNCO.C90_rejected",
    "TNCO.C90_repr"
   ],
   "note": "index_type has 64 bits (glibc). Node itself takes no None, which its properties show for a missing child or parent (C90_rejected); ContractionTree does (C90_entry)."
  },
  {
   "property": "C91",
   "status": "partial",
   "theorems": [
    "TNCO.C91_make",
    "TNCO.C91_operations",
    "TNCO.C91_queries",
    "TNCO.C91_sizes",
    "TNCO.C91_sizes_compare",
    "TNCO.C91_violated_or",
    "TNCO.C91_violated_blocks",
    "TNCO.C91_python",
    "TNCO.C91_violated_contains",
    "TNCO.C91_getitem"
   ],
   "note": "Proved for operands of the same size, for every block size. Violated for different sizes, in a build without assertions: | and ^ can leave bits beyond the end, which count() and positions() then report (C91_violated_or), a right operand with fewer blocks is read outside of its memory, and < can be wrong (C91_violated_blocks); C91_sizes says when. p in b compares p with the bits and not with the positions (C91_violated_contains). The loops of Boost, which is not in /repo, are written down from its source."
  },
  {
   "property": "C92",
   "status": "partial",
   "theorems": [
    "TNCO.C92_cost",
    "TNCO.C92_str",
    "TNCO.C92_distinct",
    "TNCO.C92_add",
    "TNCO.C92_total",
    "TNCO.C92_plain",
    "TNCO.C92_fixed",
    "TNCO.C92_repr",
    "TNCO.C92_same",
    "TNCO.C92_functions",
    "TNCO.C92_decimal",
    "TNCO.C92_json",
    "TNCO.C92_json_width",
    "TNCO.C92_violated_text"
   ],
   "note": "Proved but for the last sentence, which is violated (C92_violated_text): the cost 1234570 is 1.23457E+6 for a part and 1234570 for the result, and the cost 8 of a result is 8 or, with float1024, 8.000000000000000000000000000 (C92_fixed). C92_same: for one cost type, results of the same cost have the same text, and so have parts. C92_plain is for all cost types but float1024. C92_json and C92_json_width: the same for the JSON text of the whole program (C74). Negative and infinite costs do not occur and are not modelled; exponents of Decimal have no limits here."
  },
  {
   "property": "C93",
   "status": "proved",
   "theorems": [
    "TNCO.C93_grow",
    "TNCO.C93_forever",
    "TNCO.C93_one_way",
    "TNCO.C93_needed",
    "TNCO.C93_not_needed",
    "TNCO.C93_refine",
    "TNCO.C93_fresh"
   ],
   "note": "C93_grow, C93_forever, C93_one_way and C93_refine hold in every state and for any arithmetic of costs and widths, rounded or not. The others are for states reached from a constructor, exact arithmetic of costs and widths."
  },
  {
   "property": "C94",
   "status": "partial",
   "theorems": [
    "TNCO.C94_model",
    "TNCO.C94_model_width",
    "TNCO.C94_tree",
    "TNCO.C94_network",
    "TNCO.C94_optimizer",
    "TNCO.C94_set",
    "TNCO.C94_violated_equal",
    "TNCO.C94_violated_beta"
   ],
   "note": "Proved but for two sentences, which are violated: equal cost models can show n_projs as 2 or 2.0 (C94_violated_equal), and probabilities show beta with six digits (C94_violated_beta, whole numbers as beta). The repr of floats and of frozensets are arguments of which only injectivity and the characters of a float are assumed."
  },
  {
   "property": "C95",
   "status": "partial",
   "theorems": [
    "TNCO.C95_single_partial",
    "TNCO.C95_fewest_partial",
    "TNCO.C95_last_partial",
    "TNCO.C95_make_partial",
    "TNCO.C95_update_partial",
    "TNCO.C95_amount_partial",
    "TNCO.C95_ratio_partial",
    "TNCO.C95_violated",
    "TNCO.C95_violated_kept",
    "TNCO.C95_violated_sparse"
   ],
   "note": "Violated: the slices of get_slices for several wide tensors may contain one that can be left out (C95_violated), and an optimizer may keep slices that its best tree does not need (C95_violated_kept). Proved if only one tensor is too wide, for the dense cost model (C95_single_partial), with sparse indices not even then (C95_violated_sparse); for the dense one there are as few slices as possible (C95_fewest_partial). For all trees and width models at least one slice is needed, so a single one is never superfluous (C95_last_partial). C95_make_partial says the same of new optimizers, C95_update_partial of the slices that update_slices puts in. For the dense cost model the slices together amount to no more than the excess widths of the tensors and one index for each of them (C95_amount_partial), and if all dimensions are equal there are at most n times as many slices as needed, for n tensors that are too wide (C95_ratio_partial)."
  }
 ]
}

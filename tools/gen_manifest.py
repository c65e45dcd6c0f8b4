#!/usr/bin/env python3
"""Writes MANIFEST.json from the table below."""
import json, os

C = {}

def claim(pid, status, theorems, note):
    C[pid] = dict(property=pid, status=status,
                  theorems=["TNCO." + t for t in theorems], note=note)

claim("C05", "partial",
      ["C05_tree_is_accepted", "C05_is_valid_partial", "C05_isTree_iff",
       "C05_violated_parents", "C05_violated_cycle"],
      "The code violates the property: two concrete node lists are accepted that are not trees "
      "(wrong parent pointers; detached cycle). Proved: every tree is accepted, exactly what "
      "acceptance guarantees, and the exact missing conditions.")
claim("C06", "proved",
      ["C06_swap_keeps_tree", "C06_swap_noop", "C06_swap_exchanges", "C06_swap_undo"],
      "For every tree and every position.")
claim("C07", "proved", ["C07_traverse"], "For every tree; the loop's iteration bound is part of the statement.")
claim("C08", "proved", ["C08_get_contraction"], "For every tree.")

claim("C13", "proved",
      ["C13_update_keeps_tree", "C13_update_keeps_valid", "C13_is_valid_true"],
      "Every history of updates of the infinite-memory optimizer, every random generator, every "
      "acceptance function and cost model (exact arithmetic).")
claim("C14", "proved", ["C14_total_cost_exact", "C14_running_total"],
      "After every history, and at every point inside an update.")
claim("C15", "proved", ["C15_min_is_best"], "Every history.")
claim("C16", "proved", ["C16_shared_inds"],
      "Every history from a tree with exact index sets (what the constructor builds, C10).")
claim("C17", "partial", ["C17_greedy_partial", "C17_violated"],
      "The code violates the property when the uniform draw is exactly 0 (witness). Proved for "
      "every history when draws are positive.")
claim("C18", "proved",
      ["C18_value", "C18_accept_measure", "C18_monotone", "C18_detailed_balance"],
      "Real arithmetic.")
claim("C19", "proved", ["C19_cost_is_count", "C19_dims_forms_agree", "C19_cost_pos_mono"],
      "Exact arithmetic.")
claim("C20", "proved", ["C20_sparse_cost", "C20_sparse_vs_dense"], "Exact arithmetic.")

claim("C01", "proved", ["C01_string", "C01_positions", "C01_empty", "C01_pickle"],
      "Every argument; the error branch is characterised by an iff.")
claim("C02", "proved", ["C02_operations", "C02_comparisons", "C02_count_getitem"],
      "Every pair of bitsets of equal length.")
claim("C03", "proved",
      ["C03_iteration", "C03_operations_order", "C03_operators", "C03_type_error"],
      "Every pair of sequences.")
claim("C04", "partial", ["C04_hash_partial", "C04_violated"],
      "The code violates the property (hash depends on insertion order): witness for every "
      "collision-free tuple hash. Proved for equal iteration order.")

claim("C09", "proved", ["C09_accepts", "C09_represents", "C09_rejects", "C09_equal_positions"],
      "Every path with two different positions per step, every list of tensors without repeated "
      "indices, every set iteration order. A step naming one position twice is not rejected by the "
      "code; C09_equal_positions states what it does.")
claim("C10", "proved", ["C10_indices_exact", "C10_core_exact"], "Every accepted path.")
claim("C11", "proved", ["C11_given", "C11_omitted", "C11_hyper_rejected"], "Every accepted path.")
claim("C12", "proved", ["C12_path", "C12_round_trip"],
      "Every well-formed tree, including trees rewritten by an optimizer; round trip through the "
      "constructor with check_shared_inds off.")
claim("C51", "partial", ["C51_violated", "C51_violated_first_step_lost"],
      "The code violates the property: a one-shot iterator loses its first step.")

claim("C21", "proved", ["C21_get_slices", "C21_no_slices"],
      "Every tree, width model with the stated laws, shuffle and set of skipped indices.")
claim("C22", "partial", ["C22_width_limit_partial", "C22_violated"],
      "The code violates the property for the sparse cost model with max_number_new_slices > 0 "
      "(witness). Proved for every history with the dense model, with no new slices, or with the sparse indices among the skipped ones.")
claim("C23", "proved", ["C23_skip_never_sliced"], "Every history.")
claim("C24", "proved", ["C24_caches_exact", "C24_min", "C24_rejected_moves_undone", "C24_is_valid_partial"],
      "Every history, exact arithmetic; the is_valid() form holds where the width limit holds (C22).")
claim("C25", "partial", ["C25_no_crash_partial", "C25_only_div_by_zero", "C25_violated"],
      "The code violates the property: prng() % 0 when all indices to slice are skipped (witness). "
      "Proved without new slices, without skipped indices, or if the skipped indices together are not wider than max_width; nothing else can go wrong.")
claim("C26", "partial", ["C26_infinite_memory", "C26_infinite_memory_state", "C26_finite_width_partial",
                         "C26_finite_width_state_partial", "C26_violated"],
      "Proved in full for the infinite-memory optimizer. The finite-width optimizer violates it: "
      "max_number_new_slices is not in its pickled state and comes back as 0 (witness). Proved for "
      "max_number_new_slices = 0, and everything else in the state is preserved. The textual dump "
      "of the generator restores it exactly: C87_pickle, C87_pickle_fw. Assumed: that of the costs does.")
claim("C28", "proved", ["C28_merge", "C28_autocomplete", "C28_rejects"],
      "For lists of valid paths; steps of the merged path equal those of the given paths, in order, up to "
      "the order of the two operands.")
claim("C29", "proved", ["C29_components", "C29_split", "C29_normalized", "C29_nonempty", "C29_merge_back"],
      "For every valid path; contractions are compared up to the order of the two operands.")
claim("C30", "proved", ["C30_fuse", "C30_rejects"],
      "For every network without repeated indices inside a tensor, positive dimensions, every seed; widths are of any type with + and <, so "
      "the rounding of floats does not matter. Fused indices agree with contract() up to order.")
claim("C31", "partial", ["C31_value", "C31_complete", "C31_path_independent", "C31_succeeds", "C31_inds_only", "C31_dangling", "C31_no_dangling"],
      "Proved for every network, path and commutative semiring: the returned network always has the same value. The single result "
      "is the einsum over the output indices when every non-output index is in two or more tensors; otherwise the code never "
      "sums the dangling index (witness C31_dangling). NumPy transpose, reshape and matmul are trusted; entries are exact.")
claim("C32", "proved", ["C32_tensordot", "C32_order", "C32_inds_only", "C32_not_shared", "C32_mismatch_unnoticed"],
      "For arrays that agree on dimensions; NumPy transpose, reshape and matmul are trusted, entries are exact. Disagreeing shapes "
      "may go unnoticed (witness).")
claim("C27", "proved", ["C27_paths", "C27_merged", "C27_single"],
      "For every network, seed and iteration order of sets; randrange and sample behave as documented. Paths come in the order of the components. The bound on loop "
      "iterations is the number of tensors plus the number of indices.")
claim("C33", "partial", ["C33_tensor", "C33_tensor_ok", "C33_tensor_rejects", "C33_value", "C33_value_partial", "C33_network_ok", "C33_violated",
                         "C33_repeated_index"],
      "Proved for every network over a commutative ring with exact comparison: the exact relation of the two values. They are equal unless a "
      "summed index vanishes from all tensors; then the code loses its dimension as a factor (violated, witness). After renaming a "
      "tensor can have an index twice (witness).")
claim("C34", "proved", ["C34_read_inds", "C34_tokens"], "For every index map; the tokens must differ, else the code rejects them.")
claim("C35", "partial", ["C35_injective", "C35_no_syntax", "C35_defined", "C35_total", "C35_decode", "C35_surrogates_partial", "C35_violated",
                         "C35_empty"],
      "Proved: natural numbers get different characters, never einsum syntax, and subscripts decode up to renaming. The code "
      "violates the rest: 55156 to 55295 get surrogates, and negative numbers wrap around. A network without tensors and one with a "
      "single scalar give the same string.")
claim("C36", "partial", ["C36_fresh", "C36_given", "C36_terminates_partial", "C36_violated"],
      "Every name returned is fresh; but with a seed whose first name collides the loop never ends (violated).")
claim("C52", "proved", ["C52_pair_subscripts"], "")
claim("C37", "proved", ["C37_simplify", "C37_commute", "C37_commute_qubits", "C37_same", "C37_rejects", "C37_violated"],
      "Proved for every circuit of unitary gates over any field with an involution, in exact arithmetic, with the code's own commutation and "
      "equality tests (proved exact). load does not check unitarity; for other matrices the product can change (violated, witness).")
claim("C38", "partial", ["C38_load", "C38_rejects", "C38_violated"],
      "Proved for all options (simplify, decompose, fuse), all valid states and every circuit; the gates must be unitary if simplify or decompose is "
      "set, and simplify allows a global phase. load does not check unitarity; with decompose and other matrices a factor is lost (violated, witness).")
claim("C39", "proved", ["C39_expected", "C39_born", "C39_total", "C39_sample", "C39_rejects", "C39_repeated_order"],
      "Exact arithmetic. Draws are Born distributed if each comparison with rng.random() is a coin of that bias; for every generator of numbers in [0,1) "
      "no run fails and all drawn bitstrings have positive probability. The optimizer is any function returning complete paths; qubit_order without repetitions (with "
      "repetitions there are extra zero bits, C39_repeated_order).")
claim("C40", "partial", ["C40_square_partial", "C40_shape_partial", "C40_violated"],
      "Violated: a square matrix whose size is not a power of two and a matrix with additional zero columns are accepted (witnesses). Square matrices: acceptance is "
      "characterised exactly.")
claim("C41", "proved", ["C41_args", "C41_results", "C41_errors", "C41_deterministic", "C41_once", "C41_ends", "C41_shorter", "C41_rejects"],
      "For cores that keep to their own slots (a hypothesis, as in the documentation). Every interleaving of the workers and of the timer is covered; "
      "joblib and the sequential branch. Shared memory slot by slot, justified by C53.")
claim("C42", "partial", ["C42_return_partial", "C42_raise_leaks", "C42_violated", "C42_violated_early"],
      "The code violates the property: whenever the core raises, all segments stay linked and the timer goes on waiting (for all inputs, plus witnesses). Released when the function returns.")
claim("C53", "partial", ["C53_create", "C53_set", "C53_set_succeeds", "C53_past", "C53_negative", "C53_list", "C53_rejects", "C53_rounded_violated"],
      "Byte-level model. The length is that of the sequence if the system gives blocks of the requested size (Linux); where blocks are rounded up, it is violated (witness).")
claim("C43", "partial", ["C43_infinite_memory_partial", "C43_finite_width_partial", "C43_slices", "C72_cost", "C72_cost_width", "C43_violated", "C43_violated_width", "C72_violated_cost"],
      "Exact arithmetic. The cost is the cost of the path exactly if the network is connected; for disconnected networks with open indices it is understated, "
      "and the joined tensors may exceed max_width (witnesses). The reported cost has only six digits (C72_violated_cost; C72_cost says how far off it is). Missing: what is false.")
claim("C44", "partial", ["C44_infinite_memory_partial", "C44_finite_width_partial", "C72_improves", "C72_improves_width", "C72_order", "C44_updates", "C44_updates_width", "C44_steps", "C44_range", "C44_slice_turn", "C44_betas", "C44_rejects", "C72_violated_improves", "C72_violated_order"],
      "Proved for costs as the optimizers hold them, in exact arithmetic. The costs that Python gets have six digits: they are sorted too, and at most the reported cost of the random path (C72_improves), "
      "but they can exceed its cost (C72_violated_improves), and the results need not be sorted by their costs (C72_violated_order; C72_order bounds the difference). Running times are not modelled, a time limit is an event of the schedule.")
claim("C50", "partial", ["C50_text", "C50_no_lines", "C50_network", "C50_rejects", "C50_indented", "C50_dispatch", "C50_dump_check", "C50_dump_errors", "C50_compression", "C50_dump_partial", "C50_violated"],
      "The text format, the network made of it, the choice of the optimizer and the output are described for all inputs. The claim that compression without a file name is rejected is false (C50_violated); "
      "indented lines are not recognised (C50_indented). The Unicode tables, the file system and the libraries for JSON, pickle, gzip and bz2 are parameters.")
claim("C56", "partial", ["C56_json_partial", "C56_raw_error", "C56_plain", "C56_never_binary", "C56_file", "C56_violated"],
      "Holds for JSON with every compression. It is false for raw results (C56_raw_error), for other binary files, which raise an exception instead of being returned as bytes (C56_never_binary), and for texts that "
      "start with BZ (C56_violated). The libraries are parameters that invert each other.")
claim("C57", "partial", ["C57_unchanged", "C57_inds", "C57_fuse", "C57_decompose", "C57_value_partial", "C57_decomposed_twice", "C57_fused_twice",
                         "C57_violated", "C57_violated_identity", "C57_violated_repeated"],
      "Proved without decomposition; with decomposition the exact relation of the two values is proved, and equality if no index vanishes (C57_value_partial). The property is false in general: the value changes by the "
      "dimensions of vanished indices (C57_violated), networks whose output indices vanish are rejected (C57_violated_identity), and a repeated index after the decomposition is rejected "
      "when fusing (C57_violated_repeated). Missing: fusing networks with repeated indices that happen not to be touched. Exact arithmetic.")
claim("C58", "partial", ["C58_accepts", "C58_accepts_fw", "C58_cost", "C58_cost_missing", "C58_cost_repeated", "C58_cost_fw", "C58_cost_fw_result",
                         "C58_width", "C58_width_errors", "C58_eq", "C58_violated_add", "C58_violated_type", "C58_violated_float"],
      "The formulas are proved for all arguments. The documentation is violated in three places: delta_width refuses an index that is not in the tensor (C58_violated_add), an unknown type "
      "raises AttributeError instead of NotImplementedError (C58_violated_type), and a whole n_projs given as a float is accepted but then every call fails (C58_violated_float). "
      "Exact arithmetic; NaN as max_width is outside the model.")
claim("C59", "partial", ["C59_held", "C59_muls", "C59_value", "C59_sliced", "C59_sliced_muls", "C59_memory", "C59_infinite_memory_partial", "C59_finite_width_partial", "C72_muls", "C72_muls_width", "C72_violated_cost"],
      "Proved for costs as the optimizers hold them; Python gets them rounded to six digits (C72_violated_cost), which is the nearest such number to the number of multiplications (C72_muls). Exact arithmetic; the arrays are given by hand (the apps do not contract). Disconnected networks are the subject of C43 (cost and width are violated there), dangling indices of C31_dangling.")
claim("C60", "partial", ["C60_random", "C60_errors", "C60_ends", "C60_names", "C60_names_ok", "C60_violated", "C60_violated_one"],
      "Proved for every generator and 1 <= k. C60_violated: n_tensors = k, n_inds = 1 passes the check of the arguments but the function always gives up. C60_violated_one: with k = 1 the components are not connected.")
claim("C61", "partial", ["C61_inds", "C61_equal", "C61_max_width", "C61_contractions", "C61_swapped", "C61_tests", "C61_check", "C61_built", "C61_violated_two", "C61_violated_iterator"],
      "The answers are characterised exactly (C61_check). Violated: for one or two tensors the assertion about the swapped copy always fails (C61_violated_two); a one-shot iterator of tensors is never accepted "
      "(C61_violated_iterator). For three or more tensors it never fails (C61_swapped), so all trees built from a path are accepted (C61_built).")
claim("C62", "partial", ["C62_load", "C62_infinite_memory_partial", "C62_finite_width_partial", "C62_returns", "C72_violated_cost"],
      "Everything is proved but for the digits of the reported cost, of which Python gets six (C72). Exact arithmetic; 1/sqrt(2) is an element r with 2 |r|^2 = 1; the extraction of the gates from cirq and qiskit circuits is not modelled. The options decompose_hyper_inds and fuse of load_tn are ignored for circuits, as in the code. "
      "n_projs may be given, but a circuit has no sparse indices.")
claim("C63", "partial", ["C63_list", "C63_rows", "C63_gates", "C63_text", "C63_indirect", "C63_rejects_partial", "C63_rejects_text", "C63_circuit", "C63_ends_partial",
                         "C63_not_type_error", "C63_empty", "C63_loops", "C63_file_names", "C63_dump"],
      "The choice between rows and gates is characterised exactly. The code violates the rest in corners, each with a witness: empty members, dictionaries and infinite entries raise IndexError, KeyError and OverflowError "
      "(C63_not_type_error; the TypeError is proved for all other members), empty objects and circuits without operations are taken for a list of indices (C63_empty), a file with its own name as text is loaded for ever "
      "(C63_loops; the end is proved wherever files do not lead in circles), and files with certain names are not looked at (C63_file_names), and what optimize prints as JSON is never accepted (C63_dump).")
claim("C64", "proved", ["C64_split", "C64_whole", "C64_accepts", "C64_value_error", "C64_empty"],
      "linalg.svd is a parameter; it is assumed to return a singular value decomposition of the matrix it is given (IsSvd), in exact arithmetic.")
claim("C65", "proved", ["C65_constructor", "C65_cheapest", "C65_born", "C65_returns", "C65_agree", "C65_reuse", "C72_sampler"],
      "Exact arithmetic; the seeds that the optimizer draws and the turns of its workers are arbitrary arguments.")
claim("C66", "partial", ["C66_tree", "C66_cost", "C66_min", "C66_accepts", "C66_simple_partial", "C66_sparse_partial", "C66_violated", "C66_violated_bits"],
      "Violated: for one common dimension the cost is std::pow in double precision, so float1024 overflows at 2^1024 and has 53 right bits. Holds for different dimensions in every format and for one dimension up to double. std::pow is taken to be correctly rounded.")
claim("C67", "partial", ["C67_tree", "C67_cost", "C67_min", "C67_width_partial", "C67_no_crash_partial", "C67_bits_width", "C67_bits_no_crash", "C67_simple", "C67_sparse", "C67_bits_simple", "C67_bits_sparse", "C67_max_width", "C67_log", "C67_violated", "C67_violated_skip", "C67_violated_slices", "C67_violated_limit"],
      "Violated for dimensions that are not powers of two: skipped indices that fit exactly make an update divide by zero (C67_violated) or are rejected by the Python constructor (C67_violated_skip), an index more than needed is sliced (C67_violated_slices), and max_width is rounded up (C67_violated_limit). "
      "The limit holds up to the roundings, and exactly for powers of two and max_width as stored; without a margin for the roundings, or with sparse indices that may be sliced (see C22), it is not claimed. log2 is a table of doubles; underflow is not represented.")
claim("C68", "partial", ["C68_tree", "C68_tree_path_partial", "C68_infinite", "C68_infinite_future", "C68_infinite_pickle", "C68_finite_partial", "C68_finite_future_partial", "C68_finite_pickle", "C68_violated_path", "C68_violated", "C68_violated_mixed", "C68_violated_builtin"],
      "Violated four times: trees that skip different tensors are equal with different paths (C68_violated_path); max_number_new_slices is not compared (C68_violated); fw == inf raises AttributeError if the trees are equal (C68_violated_mixed); comparing with None, numbers, texts or lists raises TypeError (C68_violated_builtin). "
      "Otherwise proved for all reachable optimizers; with sparse indices in the finite-width case for max_number_new_slices = 0, as in C22.")
claim("C69", "partial", ["C69_cirq_partial", "C69_load_tn_partial", "C69_cirq_errors", "C69_cirq_violated_measured", "C69_cirq_violated_subcircuit", "C69_qiskit_reversed", "C69_qiskit_partial", "C69_one_qubit", "C69_qiskit_violated", "C69_qiskit_errors", "C69_sample_cirq_partial", "C69_sample_cirq_violated", "C69_sample_qiskit_violated"],
      "Violated four times: cirq qubits that are only measured are lost (C69_cirq_violated_measured, C69_sample_cirq_violated); the gates of a sub-circuit that also measures are dropped (C69_cirq_violated_subcircuit); the qubits of qiskit gates are read in reverse, so that a CNOT has control and target exchanged (C69_qiskit_violated; C69_qiskit_reversed says what is loaded for every circuit); sampling from a qiskit circuit always raises TypeError (C69_sample_qiskit_violated). "
      "Proved for cirq circuits without such operations, and for qiskit circuits of gates that are symmetric under the reversal. What cirq and qiskit say of their operations is a hypothesis.")
claim("C70", "partial", ["C70_tensor", "C70_tensor_errors", "C70_symm", "C70_refl", "C70_network", "C70_network_errors", "C70_network_symm", "C70_network_refl", "C70_network_other", "C70_value", "C70_order", "C70_violated_shapes", "C70_violated_other", "C70_violated_trans"],
      "Violated three times: arrays whose shapes NumPy does not combine raise ValueError instead of False (C70_violated_shapes; exactly then, C70_tensor_errors and C70_network_errors), a tensor compared with another object raises AttributeError (C70_violated_other), and == is not transitive (C70_violated_trans). "
      "When it is True, symmetry, reflexivity and the bound on the values are proved for all valid tensors and networks. Exact arithmetic.")
claim("C71", "partial", ["C71_text", "C71_network", "C71_network_errors", "C71_tensor", "C71_result", "C71_result_errors", "C71_output", "C71_output_errors", "C71_same_partial", "C71_entries", "C71_violated_costs", "C71_violated_tags", "C71_violated_numbers", "C71_violated_same"],
      "Proved for a reader of JSON written down from the standard. Violated: the costs of the parts and the tags of the network are not written (C71_violated_costs, C71_violated_tags), complex entries and costs are strings (C71_violated_numbers), and a frozenset and a tuple as an index have the same text (C71_violated_same). "
      "C71_same_partial: for indices built from None, Booleans, integers, strings and tuples, the same text means the same tensors, output and sparse indices. Floats are given by their text.")
claim("C72", "proved", ["C72_digits", "C72_ties", "C72_shown", "C72_total", "C72_infinite_memory", "C72_finite_width", "C72_cost", "C72_cost_width", "C72_small", "C72_improves", "C72_improves_width", "C72_order", "C72_order_factor", "C72_muls", "C72_muls_width", "C72_sampler", "C72_violated_cost", "C72_violated_improves", "C72_violated_order", "C72_violated_digits"],
      "Only the values of the printed numbers are modelled, not their text. That a stream prints a number rounded to six significant digits, ties to even, and the default context of decimal (28 digits, half even) are taken from their documentation. The costs inside the optimizers are exact; C17, C66 and others treat their rounding.")
claim("C73", "partial", ["C73_infinite", "C73_infinite_best", "C73_finite", "C73_finite_best", "C73_finite_width_partial", "C73_finite_returns_partial", "C73_infinite_accepts", "C73_infinite_errors", "C73_finite_accepts", "C73_finite_errors", "C73_wrong_type", "C73_prob", "C73_prob_eq", "C73_violated_width", "C73_violated_returns", "C73_violated_eq"],
      "Violated in three places, each with a witness: sparse indices that may be sliced let a tensor exceed max_width (C22), skipped indices that do not fit together divide by zero (C25), and == of two probabilities of different classes raises TypeError. The partial theorems exclude exactly these. Costs are exact up to what is printed (C72). The private keyword arguments are those of C68.")
claim("C74", "partial", ["C74_main", "C74_load", "C74_record", "C74_infinite", "C74_finite", "C74_infinite_object", "C74_finite_object", "C74_infinite_path", "C74_finite_path", "C74_infinite_value", "C74_finite_value", "C74_returns", "C74_errors", "C74_projs", "C74_violated_cost"],
      "Proved for texts in which every row has a positive dimension and at least one tensor, and no name twice. The claim about costs is false as it stands: the reported cost and path leave out the contractions made while loading (C74_violated_cost: cost 0 and no path for a network of three tensors); the theorems add them. Costs and widths only for connected networks (C43). Values need two tensors for every row that is no output. Fire, the other formats of texts (C63-C66), str(Decimal) and running times are parameters.")
claim("C75", "partial", ["C75_arith", "C75_zero", "C75_nan", "C75_infinite", "C75_closed", "C75_algebra", "C75_monotone", "C75_pow", "C75_operand", "C75_operand_partial", "C75_compare", "C75_construct", "C75_construct_in", "C75_float_roundtrip", "C75_float_near_partial", "C75_read", "C75_read_case", "C75_str", "C75_str_partial", "C75_pickle", "C75_inplace_partial", "C75_violated_alias", "C75_violated_int", "C75_violated_float", "C75_violated_text", "C75_violated_str", "C75_violated_other"],
      "Arithmetic, monotonicity and pickling hold in full. Violated, each with a witness: integers go through a double (exact up to 2^53, nearest double up to its range, then TypeError); float(x) rounds twice and is off by up to 2^-53 + 2^-63 of x; texts that are no numbers are read as 0, NaN or the number at their beginning; str(x) loses digits of numbers below 1; x += 1 changes every name of the object; == with another object raises TypeError. C47 shows the defects of comparisons with NaN. MPFR is taken to round as documented; powers with exponents that are not whole are a parameter.")
claim("C76", "partial", ["C76_draws", "C76_step", "C76_three_partial", "C76_violated"],
      "Single iterations are balanced, for all networks, cost models and histories, over the reals. Whole updates are not: for four tensors on one index there are twelve trees whose chances to be led to a thirteenth of the same cost add up to more than one, at every beta, so no weight that depends on the cost only is kept (C76_violated). For three tensors updates are balanced (C76_three_partial). Draws are taken as independent and uniform.")
claim("C77", "partial", ["C77_draws", "C77_chance", "C77_reach", "C77_limit", "C77_rate", "C77_mean_time", "C77_violated"],
      "Holds in full for acceptance at least as frequent as that of Metropolis and Hastings at some beta: for all networks, schedules and starting states, over the reals, by connecting any two trees through exchanges that the code can propose. Violated for the greedy probability: a tree of cost 36 for four tensors is never left, although there is one of cost 34 (C77_violated). Draws are taken as independent and uniform.")
claim("C78", "proved", ["C78_make", "C78_run", "C78_fixed_slices", "C78_app"],
      "For exact costs and widths. The apps are compared through a relation between the states of the two optimizers that every step of the threads keeps, so the statement is about every schedule.")
claim("C79", "partial", ["C79_limit_partial", "C79_rate_partial", "C79_trap", "C79_violated"],
      "Holds if no contraction of some of the tensors is wider than max_width (C79_limit_partial). Violated otherwise: for four tensors in a ring and max_new = 0, a tree of cost 5120 that fits is never left, for any generator and any acceptance, although a tree of cost 1536 fits (C79_violated). C79_trap gives the general condition under which a tree is never left.")
claim("C80", "proved", ["C80_drawn", "C80_connected"],
      "An equivalence: C80_drawn characterises the possible results, for every iteration order of sets. \"Can return\" means: for some generator with the documented behaviour of randrange and sample. Nothing is said about how likely each result is.")
claim("C81", "partial", ["C81_paths", "C81_tree", "C81_infinite", "C81_finite", "C81_sets", "C81_load_partial", "C81_violated"],
      "Proved for random paths, trees and both apps, from the network on, with no hypothesis on the network. C81_load_partial is the same for load_tn without fused tensors, or without indices that two fused tensors keep in common. It is violated otherwise: tn.py:994-1015 passes a frozenset of the kept indices to tensordot, which lists them first, so the order of the indices of a fused tensor, and with it the random path for a given seed, change with the order of sets (C81_violated). The order of sets of positions (integers) in fuse is taken to be the same function of the set in both runs.")
claim("C82", "partial", ["C82_steps_partial", "C82_steps_width_partial", "C82_runs", "C82_runs_width", "C82_printers", "C82_calls", "C82_calls_width", "C82_seeds", "C82_violated"],
      "Proved for runs, calls, time limits and lists of temperatures, with no hypothesis on the network or the generators, for exact and for reported costs. Violated for two inverse temperatures (beta_ini, beta_end): n_steps changes all temperatures but the first, and with the acceptance of Metropolis and Hastings and one seed three steps give a cost of 80 where two steps give 56 (C82_violated; prob6_iff says that the acceptance is the right one).")

claim("C83", "partial", ["C83_results", "C83_silent", "C83_lines", "C83_errors", "C83_quiet", "C83_late", "C83_apps_status", "C83_apps", "C83_ends_partial", "C83_hangs", "C83_raise", "C83_violated", "C83_violated_checks"],
      "Proved: results, lines, and the end of the thread where the operating system gives exactly the memory asked for. Violated where it gives whole pages (as multiprocessing.shared_memory documents for some platforms): Buffer.__len__ is shm.size // calcsize, the slots of completed beyond the runs are never set, and the call waits for ever (C83_hangs, C83_violated). After an exception of a run the thread goes on for ever (C83_raise). The last assertion fails if one run was shown and another one ends without a positive status (C83_violated_checks), which does not happen in the apps with two steps or more unless the time is up (C83_apps). rich is modelled by its table of lines.")

claim("C84", "proved", ["C84_flags", "C84_order", "C84_results", "C84_each", "C84_drawn", "C84_no_steps", "C84_infinite", "C84_finite", "C84_random", "C84_random_width"],
      "The limit is said to have passed when the timer has set all flags, for which it needs n + 2 steps for n runs. Reading the flag and the update that follows are one step of the model, so an update that has begun when the flag is set is counted as made before. The condition of C84_infinite and C84_finite on sparse indices is that of C55. Times are counted in steps: one call of the random path, of the constructors or of finish is one step, however long it takes.")

claim("C85", "proved", ["C85_calls", "C85_complete", "C85_exception", "C85_needed"],
      "For callbacks that leave the tree as it is. The tree is passed by reference, so that a callback can change it during the walk; then positions may be called twice or not at all (C85_needed).")

claim("C86", "partial", ["C86_step", "C86_right", "C86_natural", "C86_tree", "C86_accepts", "C86_rejects", "C86_named_partial", "C86_negative", "C86_equal", "C86_split",
                        "C86_places", "C86_merge", "C86_value"],
      "The code violates the property: (-2, -1) contracts other tensors than the last two, or raises IndexError (C86_negative), ContractionTree and merge_contraction_paths accept a step with equal positions (C86_equal), "
      "split_contraction_path raises AssertionError or ValueError for paths that the others accept (C86_split). What each step takes is characterised for all integers (C86_step, C86_right); trees, merged paths and contracted "
      "networks are right for what the steps take (C86_tree, C86_merge, C86_value).")

claim("C87", "partial", ["C87_restore", "C87_spaces", "C87_state", "C87_pickle", "C87_pickle_fw", "C87_sequence", "C87_standard", "C87_range", "C87_uniform", "C87_leaf", "C87_words", "C87_seeds", "C87_alive",
                        "C87_violated_seed", "C87_violated_text", "C87_violated_zero", "C87_violated_range", "C87_violated_greedy"],
      "The code violates the property: seeds are taken modulo 2^32 (C87_violated_seed), and every text is accepted: texts that do not begin with a number all give one generator, the text of a number is not that seed "
      "(C87_violated_text), a text can give a generator of zeros only, numbers beyond 32 bits, or a Greedy run that raises the cost (C87_violated_zero, C87_violated_range, C87_violated_greedy). The rest is proved for "
      "std::mt19937 as it is in libstdc++, down to the 10000th number that the standard demands (C87_standard); pickling needs no assumption on the generator any more.")

claim("C88", "partial", ["C88_number", "C88_shuffle", "C88_orders", "C88_model", "C88_unbiased", "C88_equal", "C88_slices", "C88_violated_hang", "C88_violated_bounds"],
      "Proved for std::shuffle as it is in libstdc++: no bias at all, for any number of indices (below 2^32). Violated only for states that no seed leads to but a text can give: with a text of zeros the shuffle of three indices "
      "never ends, with words of more than 32 bits it writes outside the list (C88_violated_hang, C88_violated_bounds). That the numbers of a seed are not rejected for ever is not proved. "
      "C88_model: the shuffle of the code meets the only condition under which the finite-width theorems are stated.")

claim("C89", "partial", ["C89_state", "C89_alive", "C89_words", "C89_values", "C89_seeds", "C89_seeds_long", "C89_seeds_drawn", "C89_violated_seed", "C89_random", "C89_random_uniform",
                        "C89_flip", "C89_choices", "C89_choice", "C89_bits", "C89_randrange", "C89_bits_uniform", "C89_seed_uniform", "C89_sample", "C89_sample_uniform", "C89_model"],
      "Proved for random.Random of CPython 3.11. Violated for the seeds of the user: -n gives the same numbers as n, and a the same as a + (a - 1) * 2^32 (C89_violated_seed); below 2^64 these are all the coincidences "
      "(C89_seeds), and the seeds that the code draws itself, below 2^32, are all different (C89_seeds_drawn). Longer integers are compared only with those of as many words (C89_seeds_long). That randrange is not rejected for ever is "
      "not proved for a given seed. C89_model: the generator meets the condition (PyRng.Ok) of the theorems on random paths.")

claim("C90", "proved", ["C90_make", "C90_error", "C90_overloads", "C90_pickle", "C90_entry", "C90_rejected", "C90_repr"],
      "index_type has 64 bits (glibc). Node itself takes no None, which its properties show for a missing child or parent (C90_rejected); ContractionTree does (C90_entry).")

claim("C91", "partial", ["C91_make", "C91_operations", "C91_queries", "C91_sizes", "C91_sizes_compare", "C91_violated_or", "C91_violated_blocks", "C91_python", "C91_violated_contains", "C91_getitem"],
      "Proved for operands of the same size, for every block size. Violated for different sizes, in a build without assertions: | and ^ can leave bits beyond the end, which count() and positions() then report (C91_violated_or), "
      "a right operand with fewer blocks is read outside of its memory, and < can be wrong (C91_violated_blocks); C91_sizes says when. p in b compares p with the bits and not with the positions (C91_violated_contains). "
      "The loops of Boost, which is not in /repo, are written down from its source.")

claim("C92", "partial", ["C92_cost", "C92_str", "C92_distinct", "C92_add", "C92_total", "C92_plain", "C92_fixed", "C92_repr", "C92_same", "C92_functions", "C92_decimal", "C92_json", "C92_json_width", "C92_violated_text"],
      "Proved but for the last sentence, which is violated (C92_violated_text): the cost 1234570 is 1.23457E+6 for a part and 1234570 for the result, and the cost 8 of a result is 8 or, with float1024, 8.000000000000000000000000000 (C92_fixed). "
      "C92_same: for one cost type, results of the same cost have the same text, and so have parts. C92_plain is for all cost types but float1024. C92_json and C92_json_width: the same for the JSON text of the whole program (C74). Negative and infinite costs do not occur and are not modelled; exponents of Decimal have no limits here.")

claim("C93", "proved", ["C93_grow", "C93_forever", "C93_one_way", "C93_needed", "C93_not_needed", "C93_refine", "C93_fresh"],
      "C93_grow, C93_forever, C93_one_way and C93_refine hold in every state and for any arithmetic of costs and widths, rounded or not. The others are for states reached from a constructor, exact arithmetic of costs and widths.")

claim("C94", "partial", ["C94_model", "C94_model_width", "C94_tree", "C94_network", "C94_optimizer", "C94_set", "C94_violated_equal", "C94_violated_beta"],
      "Proved but for two sentences, which are violated: equal cost models can show n_projs as 2 or 2.0 (C94_violated_equal), and probabilities show beta with six digits (C94_violated_beta, whole numbers as beta). "
      "The repr of floats and of frozensets are arguments of which only injectivity and the characters of a float are assumed.")

claim("C95", "partial", ["C95_single_partial", "C95_fewest_partial", "C95_last_partial", "C95_make_partial", "C95_update_partial", "C95_amount_partial", "C95_ratio_partial", "C95_violated", "C95_violated_kept", "C95_violated_sparse"],
      "Violated: the slices of get_slices for several wide tensors may contain one that can be left out (C95_violated), and an optimizer may keep slices that its best tree does not need (C95_violated_kept). "
      "Proved if only one tensor is too wide, for the dense cost model (C95_single_partial), with sparse indices not even then (C95_violated_sparse); for the dense one there are as few slices as possible (C95_fewest_partial). For all trees and width models at least one slice is needed, so a single one is never superfluous (C95_last_partial). C95_make_partial says the same of new optimizers, C95_update_partial of the slices that update_slices puts in. For the dense cost model the slices together amount to no more than the excess widths of the tensors and one index for each of them (C95_amount_partial), and if all dimensions are equal there are at most n times as many slices as needed, for n tensors that are too wide (C95_ratio_partial).")

claim("C55", "partial", ["C55_infinite_memory", "C55_finite_width", "C55_sparse_needed", "C55_sparse_error", "C55_unsized_error", "C55_width_errors"],
      "Proved under the condition that every part with more than one tensor has all sparse indices, which is shown to be necessary; the claim without it is false (C55_sparse_error). "
      "Some invalid arguments are accepted and fail after the start (C55_unsized_error, C55_width_errors).")
claim("C45", "partial", ["C45_tensor", "C45_tensor_error", "C45_network", "C45_not_tensor", "C45_occurrences", "C45_repeated_violated"],
      "Acceptance is characterised exactly, for all arguments. Hyper-indices are counted by occurrence: for an index repeated within a tensor the code demands output "
      "indices although it is in two tensors only (violated, witness); for tensors without repeated indices both notions agree (C45_occurrences).")
claim("C46", "proved", ["C46_delta_simple", "C46_delta_sparse", "C46_mono", "C46_sparse_le_simple",
                        "C46_sliced_cost", "C46_width_is_log"], "Exact arithmetic.")
claim("C47", "partial", ["C47_compare_partial", "C47_isnan_partial", "C47_violated", "C47_nan_violated", "C47_eq_not_transitive"],
      "The code violates the property: isinf and signbit return isnan, and NaN compares equal to everything (for all values). Between other numbers the six comparisons are "
      "those of the extended rationals, and isnan is right.")
claim("C49", "partial", ["C49_components_partial", "C49_no_scalars", "C49_violated"],
      "Proved for every network without scalar tensors; the assertions never fail. The code violates the property for tensors without indices: they are dropped and "
      "the positions of the others are shifted (witness); C49_components_partial says what is returned then.")
claim("C54", "partial", ["C54_parse", "C54_accepts", "C54_padding_partial", "C54_length", "C54_rejects", "C54_width", "C54_core", "C54_violated"],
      "The grammar is characterised exactly. The code violates the property for the zero flag and the alignment = (witnesses); otherwise the padding is Python's. The text of the bare number is left to MPFR.")
claim("C48", "partial", ["C48_width_cache", "C48_cost_cache", "C48_hyper_cache", "C48_dims_cache_partial",
                         "C48_violated"],
      "The code violates the property for DimsCache with one common dimension (witness).")

here = os.path.dirname(os.path.abspath(__file__))
out = os.path.join(here, "..", "MANIFEST.json")
with open(out, "w") as f:
    json.dump({"claims": [C[k] for k in sorted(C)]}, f, indent=1)
    f.write("\n")

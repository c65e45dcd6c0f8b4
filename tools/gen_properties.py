#!/usr/bin/env python3
"""Writes ../properties.jsonl (one JSON object per line)."""
import json, pathlib
P = []
def add(title, statement, quantifier, why, anchors):
    P.append(dict(id="C%02d" % (len(P) + 1), title=title, statement=statement,
                  quantifier=quantifier, why_tests_cant=why, anchors=anchors))

add("Bitset text and position encodings round-trip",
    "Building a Bitset from a 0/1 string and printing it gives the same string; building it from a list of distinct in-range positions and reading positions() gives the same positions in ascending order; pickling and unpickling returns an equal Bitset. Construction fails (and returns nothing) exactly when the arguments are inconsistent: a character other than 0/1, a declared length different from the string length, a repeated position, a position >= n.",
    "every string, every list of positions, every declared size n",
    "The set of strings and position lists is infinite; a boundary slip at n == max(position) only shows for that exact size.",
    ["tnco/bitset.py:Bitset", "include/tnco/bitset.hpp:Bitset"])
add("Bitset operations are set operations",
    "For Bitsets of equal length, &, |, ^, - and ~ give exactly the intersection, union, symmetric difference, difference and complement of the position sets; <= and < are inclusion and strict inclusion, isdisjoint/intersects test emptiness of the intersection, count is the cardinality, and indexing out of range is an error.",
    "every pair of bitsets of the same (arbitrary) length and every position",
    "Algebraic identity over an unbounded family of lengths and contents.",
    ["include/tnco/bitset.hpp:Bitset"])
add("OrderedFrozenSet is a set that remembers first-occurrence order",
    "Iterating an OrderedFrozenSet yields every distinct element of the input once, in order of first occurrence; membership, union, intersection, difference, symmetric difference and comparisons agree with the mathematical set, and the results keep the order of the left operand followed by new elements of the right one.",
    "every pair of input sequences over any element type with decidable equality",
    "Order/duplicate interactions cannot be enumerated; reproducibility of seeds relies on them.",
    ["tnco/ordered_frozenset.py:OrderedFrozenSet"])
add("Equal OrderedFrozenSets hash equally",
    "If two OrderedFrozenSets compare equal then they have the same hash, as Python requires for dict/set keys.",
    "every pair of OrderedFrozenSets and every hash function on tuples",
    "Needs two equal sets with different insertion orders and a statement about all hash functions.",
    ["tnco/ordered_frozenset.py:OrderedFrozenSet.__eq__", "tnco/ordered_frozenset.py:OrderedFrozenSet.__hash__"])
add("Tree.is_valid accepts only trees",
    "Whenever the Tree constructor accepts a list of nodes, the nodes form one rooted full binary tree: every node is reachable from the last node, the parent pointers are the inverse of the child pointers and there are no cycles. Conversely every such tree (leaves first, root last) is accepted.",
    "every list of nodes",
    "The check is a conjunction of counts; adversarial node lists are unbounded.",
    ["include/tnco/tree.hpp:Tree.is_valid", "include/tnco/node.hpp:Node.is_valid"])
add("swap_with_nn keeps a contraction tree a tree, and is undone by swapping back",
    "For every tree and every position, swap_with_nn(pos) yields again a rooted full binary tree on the same nodes with the same leaves and the same root; it does nothing when pos is the root, a child of the root or out of range; otherwise it exchanges exactly pos with the sibling of its parent, and calling it again on the exchanged sibling restores the original tree bit for bit.",
    "every well-formed tree of every size, every position",
    "Pointer surgery must be right for every shape and every left/right orientation.",
    ["include/tnco/tree.hpp:Tree.swap_with_nn"])
add("traverse visits every node once, children before parents",
    "traverse calls the callback exactly once for each node, every node after all of its descendants and the root last, and it terminates.",
    "every well-formed tree",
    "Loop with explicit stack; termination and order must hold for every shape and depth.",
    ["include/tnco/utils.hpp:traverse", "tnco/ctree.py:traverse_tree"])
add("get_contraction is an executable contraction order",
    "get_contraction lists every internal node exactly once as (child, child, node) and whenever a node is used as an operand it is a leaf or was produced earlier in the list, and no operand is used twice.",
    "every well-formed tree",
    "Executability is a statement about the whole order, for every tree.",
    ["include/tnco/utils.hpp:get_contraction"])
add("A contraction tree built from a path represents exactly that path",
    "ContractionTree(path, ts_inds, ...) succeeds for every linear path that contracts the tensors it touches to a single tensor (and the index arguments are consistent), and the resulting tree has exactly the bracketing prescribed by the path, with the touched tensors as leaves in increasing position order. A path that reads outside the current tensor list, or that leaves more than one contracted tensor, is rejected.",
    "every number of tensors and every path, valid or not",
    "Compaction and renumbering must be right for every path.",
    ["tnco/ctree.py:ContractionTree.__init__"])
add("Every intermediate tensor carries exactly the indices it must",
    "In a ContractionTree built from a path, an index belongs to a node iff it occurs in a leaf below that node and it also occurs in a leaf outside the node or in the tree's output indices. In particular no index is summed before all tensors carrying it have been multiplied and no finished index survives. The tree passes its own validity check.",
    "every path, every tensor network (without repeated indices inside one tensor), every set of output indices, including hyper-indices",
    "Hyper-index counters are updated along the path; the global characterisation cannot be sampled.",
    ["tnco/ctree.py:ContractionTree.__init__", "include/tnco/ctree.hpp:ContractionTree.is_valid"])
add("Output indices of a tree are the requested ones",
    "The root of a ContractionTree built from a path with output_inds carries every requested output index that occurs in the contracted tensors and no index that occurs in at least two tensors and was not requested; with output_inds omitted the outputs are exactly the indices occurring once, and a hyper-index is rejected.",
    "every tensor network, every path, every output selection",
    "Universally quantified over networks and selections.",
    ["tnco/ctree.py:ContractionTree.__init__", "tnco/ctree.py:ContractionTree.output_inds"])
add("path() round-trips through ContractionTree",
    "ctree.path() is a valid linear path over the original number of tensors and replaying it performs exactly the contractions of the tree (same bracketing, same leaves); rebuilding a ContractionTree from it gives the same bracketing again.",
    "every contraction tree obtained from a path, including trees over a subset of the tensors",
    "Requires the inverse property for every tree and every subset of touched tensors.",
    ["tnco/ctree.py:ContractionTree.path"])
add("An optimizer step never breaks the contraction tree",
    "After any number of update() calls, with any random draws and any acceptance rule, the current tree is still a full binary tree over the same leaves with the same leaf indices and the same output indices, every intermediate tensor carries exactly the indices it must, and the tree passes is_valid.",
    "every starting tree built from a path, every sequence of random numbers, every acceptance probability, every number of updates",
    "Histories of random moves are unbounded; a corrupted index set may appear only after a specific sequence.",
    ["include/tnco/optimize/infinite_memory/optimizer.hpp:Optimizer.update", "include/tnco/optimize/optimizer.hpp:Optimizer.get_ctree_nn"])
add("total_cost is always the true cost of the current tree",
    "After any history of updates the cached total cost equals the sum over all contractions of the current tree of the cost-model cost, i.e. equals recomputing it from scratch; the hyper-index cache and every per-node cached cost also agree with recomputation. The incremental delta used for acceptance is exactly the change of the total cost.",
    "every starting tree, every cost model, every random history (exact arithmetic)",
    "Incremental caches drift only under specific histories.",
    ["include/tnco/optimize/infinite_memory/optimizer.hpp:Optimizer.update", "include/tnco/optimize/infinite_memory/utils.hpp:CostCache", "include/tnco/optimize/infinite_memory/utils.hpp:HyperCache"])
add("min_ctree / min_total_cost are the best state seen",
    "After any history, min_total_cost is the cost of min_ctree, min_ctree is one of the trees present after some earlier update (or the initial one), min_total_cost is <= the cost after every update so far and never increases.",
    "every random history of updates",
    "Statement about whole histories.",
    ["include/tnco/optimize/infinite_memory/optimizer.hpp:Optimizer.update"])
add("Shared-index guarantee of the optimizer",
    "With disable_shared_inds = False, if in the initial tree every contraction joins two tensors sharing an index, then the same holds for every tree reached by the optimizer.",
    "every starting tree built from a path with check_shared_inds, every random history",
    "Depends on which of two grandchildren is moved, for every hyper-index configuration.",
    ["include/tnco/optimize/optimizer.hpp:Optimizer.get_ctree_nn", "include/tnco/optimize/infinite_memory/optimizer.hpp:Optimizer.update"])
add("Greedy acceptance never increases the cost",
    "With the Greedy acceptance rule the total cost after an update is <= the total cost before it.",
    "every tree, every draw of the random generator, including the boundary value 0 of the uniform distribution",
    "The violating draw has probability about 2^-53 and is never hit by a test.",
    ["include/tnco/optimize/prob/greedy.hpp", "tnco/optimize/prob.py:Greedy", "include/tnco/optimize/infinite_memory/optimizer.hpp:Optimizer.update"])
add("Metropolis-Hastings acceptance is a probability with detailed balance",
    "For positive costs and beta >= 0 the acceptance value lies in (0,1], equals 1 for non-increasing moves, is non-increasing in the cost increase and in beta, equals (old/new)^beta for increasing moves, and satisfies detailed balance with respect to cost^(-beta).",
    "all real costs, cost changes and inverse temperatures",
    "Real-analytic identity over a continuum.",
    ["include/tnco/optimize/prob/mh.hpp", "tnco/optimize/prob.py:MetropolisHastings"])
add("Cost model: contraction cost is the product of all dimensions involved",
    "For a valid contraction A = B*C the model cost (computed from the output and one operand) is the product of the dimensions of all indices of the two operands, independently of which operand is listed first; the scalar-dimension and per-index representations of dims agree; the cost is positive when dimensions are.",
    "all index sets and dimensions",
    "Holds only thanks to the tree's index invariant; universally quantified.",
    ["include/tnco/optimize/infinite_memory/cost_model/simple.hpp:CostModel.contraction_cost", "tnco/optimize/infinite_memory/cost_model.py:SimpleCostModel"])
add("Sparse cost model caps the sparse dimensions at n_projs",
    "With sparse indices the cost is (product of dense dimensions) * min(product of sparse dimensions, n_projs); it never exceeds the dense cost, equals it when n_projs is large enough, is monotone in the index set and in n_projs, and n_projs = 0 is rejected.",
    "all index sets, sparse sets, dimensions and n_projs",
    "Universally quantified arithmetic law.",
    ["include/tnco/optimize/infinite_memory/cost_model/simple_sparse_inds.hpp:get_cost", "tnco/optimize/infinite_memory/cost_model.py:SimpleCostModelSparseInds"])
add("get_slices makes every tensor fit",
    "The slices chosen by the greedy slicer never contain a skipped index, contain only indices of the tree, and after slicing every tensor of the tree has width <= max_width whenever the un-sliceable part of every tensor fits; the slicer terminates for every random shuffle.",
    "every tree, every width limit, every skip set, every shuffle",
    "Depends on traversal order and random tie-breaking.",
    ["include/tnco/optimize/finite_width/greedy/utils.hpp:get_slices"])
add("Finite-width optimizer: the width limit holds in every reachable state",
    "After any history of updates every tensor of the current tree sliced by the current slices, and of min_ctree sliced by min_slices, has width <= max_width.",
    "every starting tree, every history of draws, any max_number_new_slices, any cost model offered by the library",
    "A violating state needs a particular sequence of accepted slicing moves with sparse indices.",
    ["include/tnco/optimize/finite_width/greedy/optimizer.hpp:Optimizer.update"])
add("skip_slices are never sliced",
    "No reachable state of the finite-width optimizer slices an index listed in skip_slices (neither slices nor min_slices), provided none was supplied initially.",
    "every history of updates",
    "Safety property over unbounded histories.",
    ["include/tnco/optimize/finite_width/greedy/optimizer.hpp:Optimizer.update", "include/tnco/optimize/finite_width/greedy/utils.hpp:get_slices"])
add("Finite-width caches and best state stay consistent",
    "After any history the finite-width optimizer's total cost equals the recomputed sliced cost of its tree, its width cache equals the recomputed widths, the tree is well formed with the right index sets, rejected slicing moves leave the tree, indices and slices exactly as before, and (min_ctree, min_slices, min_total_cost) is consistent and non-increasing.",
    "every history of updates, exact arithmetic",
    "The slicing branch edits the tree tentatively and rolls back; unbounded histories.",
    ["include/tnco/optimize/finite_width/greedy/optimizer.hpp:Optimizer.update"])
add("update() of the finite-width optimizer cannot crash",
    "An update with max_number_new_slices > 0 never evaluates a remainder by zero (it never runs out of sliceable candidates while still trying to pick one).",
    "every reachable state and every draw",
    "Needs a move whose un-sliceable part exceeds the limit.",
    ["include/tnco/optimize/finite_width/greedy/optimizer.hpp:Optimizer.update"])
add("Pickling an optimizer preserves its future",
    "An optimizer restored from its pickle behaves from then on exactly as the original: same tree, costs, best tree and the same response to every future sequence of updates.",
    "every reachable optimizer state, every future sequence of draws, both optimizers",
    "Equality of all futures; the equality test used by the library itself goes through the same pickling code.",
    ["tnco/optimize/infinite_memory/optimizer.py:Optimizer.__reduce__", "tnco/optimize/finite_width/optimizer.py:Optimizer.__reduce__"])
add("Random contraction paths are always valid and only contract tensors sharing an index",
    "For every network and seed get_random_contraction_path terminates without error; in each returned component path every step contracts two distinct current tensors that share an index; every component is contracted completely (no two remaining tensors share an index), and the linear positions refer to the right tensors.",
    "every list of tensor indices, every seed (every sequence of random choices)",
    "Randomised algorithm: all seeds and all networks with hyper-indices.",
    ["tnco/utils/tn.py:get_random_contraction_path"])
add("Merged paths perform the same contractions",
    "merge_contraction_paths(n, paths) for paths touching disjoint tensors is a valid linear path performing exactly the contractions of all paths; with autocomplete it has n-1 steps and ends with a single tensor; overlapping paths are rejected with ValueError.",
    "every n and every list of paths",
    "Index bookkeeping for arbitrary interleavings of components.",
    ["tnco/utils/tn.py:merge_contraction_paths"])
add("Split paths perform the same contractions",
    "split_contraction_path(n, path) returns one path per connected component, together performing exactly the contractions of path; components partition the tensors; with normalize_paths the positions are relative to the component; merging the (non-normalised) split paths again gives a path with the same bracketing.",
    "every n and every valid path",
    "The normalised lists contain stale and future tensors; correctness relies on an ordering invariant.",
    ["tnco/utils/tn.py:split_contraction_path"])
add("fuse respects the width limit and the excluded indices",
    "fuse returns a valid linear path in which every produced tensor has width <= max_width, no contracted tensor carries an excluded index, the reported fused indices are exactly those produced by contract() along that path, and it terminates for every seed.",
    "every network, every limit, every exclusion set, every seed",
    "Randomised algorithm over all networks.",
    ["tnco/utils/tn.py:fuse", "tnco/utils/tn.py:contract"])
add("contract() computes the tensor network's value whatever the path",
    "For every valid path, contract returns tensors whose product, summed over their remaining shared non-output indices, equals the full einsum of the network over the output indices; if the path contracts everything the single result is that einsum. Hence any two complete paths give the same tensor.",
    "every network (hyper-indices included), every path, all entries in any commutative semiring",
    "Equality of multilinear sums for all networks and all contraction orders.",
    ["tnco/utils/tn.py:contract", "tnco/utils/tensor.py:tensordot"])
add("tensordot sums exactly the shared non-hyper indices",
    "tensordot returns hyper-indices first, then the private indices of the left and the right operand; its entries are the sums over the shared non-hyper indices of the products; hyper_inds not shared are rejected.",
    "all operands and index lists, all sizes",
    "Transposition/reshape/matmul pipeline for arbitrary ranks.",
    ["tnco/utils/tensor.py:tensordot"])
add("Decomposing hyper-indices preserves the network's value",
    "Replacing diagonal tensors by hyper-indices (tensor- and network-level decompose_hyper_inds) does not change the value of the network.",
    "every network and every entry values (exact comparison)",
    "Only fails when a whole index class disappears; universally quantified otherwise.",
    ["tnco/utils/tensor.py:decompose_hyper_inds", "tnco/utils/tn.py:decompose_hyper_inds"])
add("read_inds inverts the index map",
    "read_inds lists an index under a tensor name iff the tensor is named in the index's entry, in the order of the map; dimensions are kept; output and sparse indices are exactly those tagged with the tokens, and the tokens never appear as tensor names.",
    "every index map",
    "Round-trip law over arbitrary maps.",
    ["tnco/utils/tn.py:read_inds"])
add("Einsum symbols are unique and printable",
    "get_symbol gives different characters to different integers, never a character with a meaning in einsum syntax, and never a Unicode surrogate; hence get_einsum_subscripts can be decoded back to the network up to renaming.",
    "every integer and every network",
    "The faulty range starts beyond 55,000 indices.",
    ["tnco/utils/tn.py:get_symbol", "tnco/utils/tn.py:get_einsum_subscripts"])
add("svd terminates with a fresh index name",
    "svd chooses a bond index that is not already an index of the tensor, for every seed.",
    "every list of indices and every seed",
    "Non-termination for a colliding seeded name cannot be observed by a finite test.",
    ["tnco/utils/tensor.py:svd"])
add("Circuit simplification preserves the circuit",
    "Loading a circuit with simplify removes gates only in cancelling pairs: the product of the remaining gates equals the original product up to a scalar, for every circuit; it terminates, and the surviving gates keep their relative order.",
    "every circuit of unitary gates, any commutation test that is sound",
    "Arbitrary circuits and repeated passes.",
    ["tnco/utils/circuit.py:load"])
add("The tensor network of a circuit is the circuit",
    "The tensor network built from a circuit, with its open input and output indices, has as value the matrix element of the circuit's operator.",
    "every circuit, every number of qubits, every pair of basis states",
    "Sum over all Feynman paths, unbounded.",
    ["tnco/utils/circuit.py:load"])
add("Bitstring sampling is exact",
    "In exact arithmetic the gate-by-gate sampler draws each bitstring with probability equal to the squared amplitude of the circuit's final state, never divides by zero on a reachable bitstring, and the reported frequencies sum to one.",
    "every circuit made of one-qubit unitaries and classical (permutation) gates, every number of qubits and samples",
    "A statement about probability distributions, not about samples.",
    ["tnco/app/circuit/sampling.py:sample"])
add("Classical-operation detection is sound",
    "A matrix accepted by is_classical_operation is a square power-of-two matrix that maps every basis state to a single basis state with unit modulus.",
    "all matrices of all shapes",
    "The precedence slip matters only for shapes no test uses.",
    ["tnco/app/circuit/sampling.py:is_classical_operation"])
add("Parallel returns one result per argument, in order, whatever the schedule",
    "Parallel applies the core function once to each argument tuple and returns the results in argument order; every worker observes only its own stop and status slots, so the outcome of each task does not depend on the interleaving; a timeout can only shorten runs.",
    "every schedule of workers and every timeout instant",
    "Interleavings are exponential in number.",
    ["tnco/parallel.py:Parallel", "tnco/parallel.py:Buffer"])
add("Parallel releases its resources at every crash point",
    "When Parallel returns or raises, the timer is cancelled and the shared-memory buffers are unlinked.",
    "every point at which a task may raise",
    "Crash-point property.",
    ["tnco/parallel.py:Parallel"])
add("Optimization results describe the returned path",
    "The reported cost is the cost of executing the returned (merged) path, and for finite width the path fits in max_width with the reported slices.",
    "every tensor network, connected or not",
    "Fails only for disconnected networks with open indices.",
    ["tnco/app/infinite_memory/sa.py", "tnco/app/finite_width/sa.py", "tnco/utils/tn.py:merge_contraction_paths"])
add("Results are sorted by cost and simulated annealing only improves",
    "The results returned by the app optimizers are sorted by increasing cost; each result's cost is at most the cost of its initial path; the number of updates never exceeds n_steps; a stop request only shortens the run.",
    "every random history, every number of runs and steps",
    "Unbounded histories.",
    ["tnco/app/infinite_memory/sa.py:Optimizer.optimize", "tnco/app/app.py:Optimizer"])
add("TensorNetwork validation",
    "TensorNetwork accepts exactly the inputs where equal indices have equal dimensions, arrays match their shapes, output and sparse indices occur in some tensor, and output indices are given when an index occurs in more than two tensors.",
    "every list of tensors and index selections",
    "Acceptance iff, for all inputs.",
    ["tnco/app/tn.py:TensorNetwork", "tnco/app/tn.py:Tensor"])
add("Width bookkeeping: delta_width and sliced widths",
    "Toggling an index changes the width of a tensor by exactly delta_width, for the simple and the sparse model; widths are monotone in the index set; sliced cost with slices S is the product over S of dimensions times the per-slice cost.",
    "all index sets, dimensions, positions",
    "Universally quantified arithmetic.",
    ["include/tnco/optimize/finite_width/cost_model/simple.hpp", "include/tnco/optimize/finite_width/cost_model/simple_sparse_inds.hpp"])
add("High-precision float predicates",
    "The Python-visible predicates of the fixed-precision float report what their names say (isnan, isinf, signbit) and comparison with NaN is false.",
    "all extended reals and NaN",
    "Only special values differ.",
    ["include/tnco/fixed_float.hpp"])
add("Cache validators detect wrong caches",
    "Each cache's is_close_to returns false when some cached value differs from the recomputed one by more than the tolerance.",
    "all caches and tolerances",
    "A self-comparison can never fail in a test that only checks valid states.",
    ["include/tnco/optimize/finite_width/utils.hpp:DimsCache", "include/tnco/utils.hpp:all_close"])
add("Connected components of a network",
    "get_connected_components returns the partition of tensor positions into classes connected through shared indices.",
    "every network, including tensors without indices",
    "Graph property over all networks.",
    ["tnco/testing/utils.py:get_connected_components"])
add("load_tn text format and optimizer dispatch",
    "Comment and blank lines are ignored, each data line defines one index with its dimension and tensors; the finite-width optimizer is selected iff a finite max_width is given; dump_results rejects compression without a file name.",
    "every text and every parameter combination",
    "Decision logic over all inputs.",
    ["tnco/app/app.py:load_tn", "tnco/app/app.py:Optimizer", "tnco/app/app.py:dump_results"])
add("Any iterable path gives the same tree",
    "The contraction tree built from a path does not depend on whether the path is passed as a list or as a one-shot iterator (the signature accepts any Iterable); no step is dropped or read twice.",
    "every path, every kind of iterable",
    "Tests pass lists; a dropped first step still builds a valid tree, of fewer tensors.",
    ["tnco/ctree.py:ContractionTree.__init__"])
add("Subscripts of two tensors",
    "tensor.get_einsum_subscripts gives every index its own ASCII letter, so the string describes the contraction, for at most 52 different indices; for more it raises an exception and never returns a wrong string.",
    "all lists of indices",
    "A clash of letters needs more than 52 indices, and any assignment must be covered.",
    ["tnco/utils/tensor.py:get_einsum_subscripts"])
add("A shared-memory buffer is a fixed-length list",
    "A Buffer made of a sequence holds this sequence and has its length; reading a slot gives the last value written to it, and writing to one slot changes no other; positions outside raise an exception.",
    "all formats, contents and positions, positive or negative",
    "Workers share these blocks: overlapping slots would let one stop another.",
    ["tnco/parallel.py:Buffer"])
add("Formatting with Python specifiers",
    "Formatting a fixed-precision float accepts exactly the specifiers of the documented form, and pads the printed number to the width as Python's format does, with the given fill, alignment and zero flag.",
    "all specifiers, all printed numbers",
    "The regular expression has more than a thousand shapes of input; the zero flag and sign-aware alignment are rarely used.",
    ["include/tnco/fixed_float.hpp:to_string"])
add("The optimizers return results for valid arguments",
    "With valid parameters and a valid network, optimize returns one result per run and raises nothing, whatever the scheduling and the time limit, for connected and disconnected networks, with and without sparse indices; invalid parameters are rejected before anything runs.",
    "every network, every list of seeds, every schedule and time limit",
    "Errors appear only in some combinations of sparse indices and components, or after the first update.",
    ["tnco/app/infinite_memory/sa.py:Optimizer.optimize", "tnco/app/finite_width/sa.py:Optimizer.optimize"])
add("load_file reads what dump_results writes",
    "A file written by dump_results, as JSON or raw, compressed or not, is read back by load_file as the value that was dumped; a file with other contents is returned as text or bytes.",
    "all results, formats, compressions and file contents",
    "Decision logic over all file contents, in particular the ones that look like compressed data or are no text.",
    ["tnco/app/app.py:load_file", "tnco/app/app.py:dump_results"])
add("load_tn keeps the value of a network",
    "load_tn of a TensorNetwork returns a network with the same value over the output indices, up to the renaming recorded in the tag hyper_inds_map, for every network and every choice of decompose_hyper_inds and fuse; networks with sparse indices or with only some of the arrays are returned as they are; the path and the tags of fused tensors are recorded.",
    "all networks with and without arrays, all options, all random choices",
    "Decomposition, fusing, contraction and the checks of the network interact; indices can vanish or be repeated between the steps.",
    ["tnco/app/app.py:load_tn"])
add("Cost models compute the documented formulas, by index name",
    "SimpleCostModel (infinite memory and finite width) accepts exactly the documented arguments. contraction_cost, width and delta_width of an accepted model equal the documented product of dimensions and sum of logarithms over the indices of the call, with the sparse part capped at n_projs; the order of the indices, the iteration order of sets and the form of the dimensions do not matter; missing dimensions and inconsistent arguments raise ValueError.",
    "all index names, index lists, dimensions, sparse indices and iteration orders",
    "The wrappers translate names to bit positions through several lists; a mismatch between the lists shows only for some orders and some sparse indices.",
    ["tnco/optimize/infinite_memory/cost_model.py:SimpleCostModel", "tnco/optimize/finite_width/cost_model.py:SimpleCostModel"])

add("What the optimizers report is what contracting does",
    "For a network whose non-output indices are in at least two tensors each: contracting the arrays along the path of any result of an optimizer, slice by slice for the sliced indices reported, and adding up the slices gives the value of the network. If the network is connected, the reported cost (no sparse indices) is the number of multiplications of entries over all slices, and with finite width no array held at any time while contracting a slice of two or more tensors is wider than max_width.",
    "all networks and arrays, all results, all slices, all moments of the contraction",
    "It joins the optimizers, the trees, the paths and the contraction of arrays, which count indices in different ways.",
    ["tnco/app/infinite_memory/sa.py:Optimizer.optimize", "tnco/app/finite_width/sa.py:Optimizer.optimize", "tnco/utils/tn.py:contract", "tnco/utils/tensor.py:tensordot"])

add("Random tensor networks have the documented shape",
    "generate_random_tensors returns n_tensors * n_cc different tensors without repeated indices, with n_inds * n_cc indices and n_output_inds * n_cc output indices; an index that is no output index is in k tensors; for k >= 2 there are exactly n_cc connected components of equal sizes; otherwise it raises ValueError, and none of its assertions fails. generate_random_inds returns n different names.",
    "all sizes, all random generators, with and without random names",
    "The networks are grown in several random phases and renamed; all other tests of the library rely on them.",
    ["tnco/testing/utils.py:generate_random_tensors", "tnco/testing/utils.py:generate_random_inds"])

add("Reading and checking a contraction tree",
    "inds[key] is the set of index names at a position counted from the front or the back, and an IndexError elsewhere; max_width is the largest sum of logarithms of dimensions over the tensors of the tree; in a tree built from a path an index is contracted one time fewer than there are tensors with it. is_valid_contraction_tree, given the tensors, dimensions, outputs and counts of a network, answers True exactly for the trees whose leaves are the tensors and whose index sets are exact; trees built from a path are accepted.",
    "all trees, networks, dimensions, outputs, keys and iteration orders",
    "The check counts contractions only; that this forces every index set to be the right one is not obvious. It rests on pickling, comparison and swapping.",
    ["tnco/ctree.py:ContractionTree.inds", "tnco/ctree.py:ContractionTree.max_width", "tnco/testing/utils.py:is_valid_contraction_tree"])

add("Simulating a circuit through an optimizer gives its matrix elements",
    "load_tn of a non-empty circuit (of unitary gates, if it is simplified) with valid states returns a tensor network whose output indices are the open qubits. The optimizers return results for it. For every result, contracting the network along its path, slice by slice for finite width, and adding up the slices gives the matrix elements of the circuit between the given states, up to one phase that is the same for all results and entries, and without phase if the circuit is not simplified. If the network is connected, the reported cost is the number of multiplications, and no array is wider than max_width.",
    "all circuits, gates, states, options, seeds, schedules, results and slices",
    "It joins the whole library: simplification, the network of the circuit, the parallel search, the trees, slicing and the contraction of arrays.",
    ["tnco/app/app.py:load_tn", "tnco/utils/circuit.py:load", "tnco/app/infinite_memory/sa.py:Optimizer.optimize", "tnco/app/finite_width/sa.py:Optimizer.optimize", "tnco/utils/tn.py:contract"])

add("load_tn takes an object for what it is",
    "A list or tuple is loaded as a list of indices exactly if each of its members has an integer and at least one more entry, and as a list of gates exactly if each is a square matrix with the matching number of qubits. A text of rows is loaded like the list of its rows, the text stdin like the text on standard input, the name of a file like its content, and a JSON text like the value it denotes. Networks are networks and circuits circuits. Everything else is a TypeError, iterators a NotImplementedError, and the search for the format ends.",
    "all objects as far as load_tn looks at them, all texts, files and contents of standard input",
    "load_tn guesses the format of its argument; a wrong guess loads another network without a word, and an object it cannot guess should be rejected as documented.",
    ["tnco/app/app.py:load_tn", "tnco/app/app.py:load_file"])

add("Splitting a tensor by singular values",
    "svd returns three tensors with the indices left + (new,), (new,) and (new,) + rest, where rest are the other indices in their order. The first has orthonormal columns, the last orthonormal rows, the singular values do not increase and are at least atol, and there are at most as many as the smaller side has values. Summed over the new index their product reproduces every entry of the tensor up to atol, exactly if nothing was dropped; the squared error over all entries is the squared norm of the tensor minus the squares of the values returned, and at most atol squared for each value dropped. With no or all indices on the left the tensor is returned with its axes permuted. It is accepted exactly if every axis has its own index, the left indices are different indices of the tensor, the name is new and, if it is split, no axis has length 0; everything else is a ValueError.",
    "all arrays over the real or complex numbers, index lists, thresholds and names; all decompositions that linalg.svd may return",
    "Transposition, reshaping with an inferred length and masks have to agree; the caller relies on the threshold as a bound for the error.",
    ["tnco/utils/tensor.py:svd"])

add("A Sampler follows Born's rule, whatever its optimizer finds",
    "Sampler raises NotImplementedError exactly if max_width is less than infinity. For a circuit of one-qubit unitaries and classical operations, valid parameters and workers that run long enough, every call of sample returns; each network is contracted along the path of a result with the least reported cost. Each bitstring is drawn with the squared modulus of its amplitude. The counts do not depend on the optimizer: two samplers with different options, temperatures, seeds of the optimizer or schedules draw the same bitstrings from the same random numbers, and an intermediate state used again yields what the circuit itself yields.",
    "all circuits, options, seeds, schedules, orders of qubits and numbers of samples",
    "It joins the parallel search and the sampling; only the path should depend on the search, and reusing a state should be safe.",
    ["tnco/app/circuit/sampling.py:Sampler", "tnco/app/circuit/sampling.py:sample", "tnco/app/infinite_memory/sa.py:Optimizer.optimize"])

add("Rounded costs stay close to the exact ones",
    "Whatever the arithmetic of the costs does, every history of updates of the infinite-memory optimizer completes and yields a valid tree of the same network with exact index sets. With a cost type of p bits, the total cost after any history is the exact cost of the tree with the relative error of k roundings, where k depends on the numbers of tensors and indices only and not on the length of the history. The recorded minimum is the cost of min_ctree with the same error, and the exact cost of min_ctree exceeds that of no tree visited by more than the errors of the two. A valid tree whose cost fits in the type with a margin for the roundings is accepted.",
    "all networks, trees, formats (float, double, long double, float1024), acceptance functions, generators and histories",
    "The totals are kept up to date by sums over millions of updates; errors must not build up, and larger cost types exist to avoid overflow.",
    ["include/tnco/optimize/infinite_memory/optimizer.hpp:Optimizer", "include/tnco/optimize/infinite_memory/utils.hpp:CostCache", "include/tnco/optimize/infinite_memory/cost_model/simple.hpp:get_cost", "include/tnco/globals.hpp:EXPAND_COST_TYPE"])

add("Rounded widths keep the finite-width optimizer within its limit",
    "Whatever the arithmetic of costs and widths does, a history of updates of the finite-width optimizer yields a valid tree of the same network with exact index sets and no skipped slice, or divides by zero, which needs max_number_new_slices > 0. The total cost and the recorded minimum have the relative error of a number of roundings independent of the length of the history. The width of every tensor of the current and the best tree is at most max_width up to the error of a number of roundings that depends on the number of indices only, and exactly if all dimensions are powers of two. Nothing divides by zero if the skipped indices fit in max_width; the constructor rejects only skipped indices that do not fit.",
    "all networks, trees, formats of costs (float, double, long double, float1024) and widths (float, double, long double), acceptance functions, generators and histories",
    "max_width is the memory of the machine. Widths are float32 by default and compared with exact limits, where a rounding decides between a slice and none.",
    ["include/tnco/optimize/finite_width/greedy/optimizer.hpp:Optimizer", "include/tnco/optimize/finite_width/greedy/utils.hpp:get_slices", "include/tnco/optimize/finite_width/cost_model/simple.hpp:get_width", "include/tnco/optimize/finite_width/cost_model/simple_sparse_inds.hpp:get_width", "tnco/optimize/finite_width/optimizer.py:Optimizer.__init__"])

add("Equality of trees and optimizers",
    "Two trees built from paths are equal exactly if they have the same nodes, index sets, dimensions and names of indices, and then they have the same path. Comparing two optimizers, after any updates, returns a Boolean; they are equal exactly if their cost models, their index names and all of their state are equal, so that equal optimizers answer every further sequence of updates in the same way. The unpickled copy of an optimizer is equal to it. Comparing an optimizer with anything else is False.",
    "all networks, paths, cost models, options, generators, acceptance functions and histories, for both optimizers",
    "The tests of the project rely on == to see whether two optimizers, or an optimizer and its copy, are interchangeable.",
    ["tnco/ctree.py:ContractionTree.__eq__", "tnco/optimize/infinite_memory/optimizer.py:Optimizer.__eq__", "tnco/optimize/finite_width/optimizer.py:Optimizer.__eq__", "include/tnco/ctree.hpp:operator=="])

add("Circuits of cirq and qiskit mean what they mean there",
    "load of a cirq circuit returns a network whose value is, up to a phase, the matrix element of the gates of the circuit between the given states of all its qubits; measurements change nothing. load of a qiskit circuit does the same with the convention of qiskit, where the first qubit of a gate is the least significant. A cirq operation that is neither a measurement nor unitary is a TypeError, a qiskit instruction without a matrix an error. sample draws the bitstrings of all the qubits of such a circuit by Born's rule.",
    "all circuits, sub-circuits, states, options and generators",
    "Most users have circuits of these libraries. A qubit that is lost, or two that are exchanged, gives a wrong amplitude without a word.",
    ["tnco/utils/circuit.py:cirq_to_arrays", "tnco/utils/circuit.py:qiskit_to_arrays", "tnco/utils/circuit.py:load", "tnco/app/circuit/sampling.py:sample"])

add("Equality of tensors and networks",
    "Comparing two valid tensors returns a Boolean: they are equal exactly if they have the same indices and dimensions and both have no array, or arrays whose entries differ by less than atol; tags do not matter. Comparing two networks returns a Boolean: they are equal exactly if their tensors are, one by one, and the output indices, the sparse indices and the tags are the same. Both relations are equivalence relations, and comparing with any other object is False. The values of equal networks differ by at most the number of terms times (M + atol)^n - M^n, for n tensors with entries up to M.",
    "all tensors and networks, arrays over any normed field, tolerances and values of the open indices",
    "The tests of the project compare networks with ==; a caller that gets True computes with one network instead of the other.",
    ["tnco/app/tn.py:Tensor.__eq__", "tnco/app/tn.py:TensorNetwork"])

add("The JSON output holds the network and the results",
    "The text that dump_results returns in the JSON format is one JSON object with the network and the list of results. A reader of JSON finds in it the indices, dimensions, entries and tags of every tensor in order, the output and sparse indices and tags of the network, and for every result its cost, time, path, the costs and paths of its parts and, with a limited width, its slices. Numbers are written as numbers, and networks with the same text are the same network. Writing fails exactly if an index, an entry, a tag or a cost cannot be written, always with TypeError.",
    "all networks, results, strings (with any code points) and nested tags",
    "The file is what users keep and what other programs read; the contraction is done from it.",
    ["tnco/app/tn.py:JSONEncoder.default", "tnco/app/app.py:JSONEncoder.default", "tnco/app/app.py:dump_results", "tnco/app/infinite_memory/sa.py:JSONEncoder.default", "tnco/app/finite_width/sa.py:JSONEncoder.default"])

add("Reported costs have six digits",
    "The results of the app optimizers are those of the optimizers, with the same paths and slices, and sorted by the reported costs. Each reported cost of a part is a nearest number with six significant digits to its cost (for float1024: the cost), and the reported cost of a result is the sum of those of its parts, each addition rounded to 28 digits. So for a connected network the reported cost is a nearest number with six digits (float1024: 28) to the number of multiplications along the path, costs below 10^6 are exact, reported costs do not exceed the reported cost of the random path, and of results with at most 10^20 parts, an earlier one costs at most 1 + 1.1e-5 times as much as a later one.",
    "all networks, options, seeds, schedules and results",
    "Rounding only shows for costs of a million and more, which tests avoid; comparing results with equal reported costs hides which one is cheaper.",
    ["tnco/app/infinite_memory/sa.py:Optimizer.optimize", "tnco/app/finite_width/sa.py:Optimizer.optimize", "include/tnco/globals.hpp:to_string", "include/tnco/optimize/infinite_memory/optimizer.hpp", "include/tnco/optimize/finite_width/greedy/optimizer.hpp", "include/tnco/fixed_float.hpp"])

add("Optimizers as a program drives them",
    "Whatever probabilities a program passes to update, of the right cost type or not, and also if it goes on after an exception: every property of an optimizer can be read, ctree and min_ctree are valid trees over the tensors of the tree it was built from, total_cost and min_total_cost are the costs of these trees (with slices and min_slices) as the cost model of the user reports them by name, min_total_cost is the least that was shown and min_ctree the tree shown with it. A wrong probability changes nothing. With a limited width every tensor of both trees is at most max_width wide outside the slices, skip_slices are never sliced, and update returns. The constructors accept exactly the documented arguments. Probabilities exist for every documented cost type; two are equal exactly if they have the same class, cost type and beta, and are equal after pickling.",
    "all networks, paths, cost models, keyword arguments, generators, sequences of calls of update",
    "This is the interface in the README; the classes translate names, cost types and exceptions between Python and C++.",
    ["tnco/optimize/infinite_memory/optimizer.py:Optimizer", "tnco/optimize/finite_width/optimizer.py:Optimizer", "tnco/optimize/prob.py:MetropolisHastings", "include/tnco/optimize/prob/base.hpp:Probability"])

add("From a text to a contraction",
    "Running the optimizer on a text with a list of indices (as the command line does) either raises an exception before any thread is started (unknown method, output options that are not in order, a text that is not a network, sparse indices without n_projs), or prints or writes the results: one for each seed, sorted by reported cost, together with the network. A reader of the JSON finds the network of the text, possibly after contractions of tensors up to the width given by fuse, with tags that tell how each tensor comes from those of the text. Contracting the tensors of the text along the path of these contractions and the path of a result, slice by slice if there are slices, gives the value of the network of the text; the reported cost is the number of multiplications this takes, up to the digits that are not printed; with a limited width every array held after the first contractions fits. With arguments that fit, there is an output.",
    "all texts, options, generators, seeds, orders of sets and schedules",
    "This is what a user of the command line gets: a chain from the parser through fusing, the search, sorting and JSON, of which each link is described on its own elsewhere.",
    ["tnco/app/cli.py:Main", "tnco/app/app.py:BaseOptimizer", "tnco/app/app.py:Optimizer", "tnco/app/app.py:load_tn", "tnco/app/infinite_memory/sa.py:Optimizer.optimize", "tnco/app/finite_width/sa.py:Optimizer.optimize"])

add("float1024 is a number of Python",
    "float1024(x) holds a float, an integer or the number in a text correctly rounded to 1024 bits, and raises an exception for anything else. +, -, *, /, ** with whole exponents, and the comparisons, with a float1024, a float or an integer on either side, return the exact result, correctly rounded (nearest, ties to even, infinity and zero beyond the range); results are numbers of the class, + and * commute, and greater exact results do not become smaller. Special values follow IEEE 754. float(x) is the nearest float; str(x) and pickling give texts from which the same number is read. Augmented assignment changes only the name on its left.",
    "all numbers of the class, operators, operands, texts, and formats of any precision and range",
    "Costs of cost type float1024 reach the user as such objects; the repository tests only a few of the operators, on small integers.",
    ["include/tnco/fixed_float.hpp", "include/tnco/fixed_float.hpp:to_string"])

add("Searching at a fixed temperature",
    "With the acceptance of Metropolis and Hastings at a fixed beta, the search is a random walk on trees that visits trees by their weight cost^-beta: the chance to be led from one tree to another, times the weight of the first, equals the same for the way back. This holds for one iteration of the loop of update at a given contraction, with and without the check of shared indices, and for whole updates. Whatever the generator returns, an update is a leaf and a pair of draws for each iteration.",
    "all networks, trees, cost models, histories of updates, generators, and beta >= 0",
    "It is the reason for this acceptance rule; whether moves and draws are set up so that it applies cannot be seen from single runs.",
    ["include/tnco/optimize/infinite_memory/optimizer.hpp", "include/tnco/optimize/optimizer.hpp", "include/tnco/optimize/prob/mh.hpp:MetropolisHastings"])

add("The search finds the best tree",
    "If the probability accepts costlier trees at least as often as the rule of Metropolis and Hastings at some fixed beta (any schedule of betas up to a bound, or accepting everything), then from any state of an optimizer every valid tree for the same tensors and output is reached with a positive chance, and the chance that min_total_cost is at most the cost of any such tree tends to one with the number of updates, exponentially fast, so that the mean number of updates until then is finite; with and without the check of shared indices. The same holds for the greedy probability.",
    "all networks, trees with exact index sets, cost models with positive costs, histories, schedules, and beta >= 0",
    "A search whose moves do not connect all trees, or lose the minimum, would still return valid paths; no test with few updates could tell.",
    ["include/tnco/optimize/infinite_memory/optimizer.hpp", "include/tnco/optimize/optimizer.hpp", "include/tnco/optimize/prob/mh.hpp:MetropolisHastings", "include/tnco/optimize/prob/greedy.hpp:Greedy"])

add("A width limit that nothing exceeds changes nothing",
    "If no contraction of some of the tensors of the network is wider than max_width, the finite-width optimizer does what the infinite-memory optimizer does: its constructor accepts the same trees and raises the same exceptions, and after any history of updates with the same generator it has the same tree, the same costs and the same best tree, and has sliced nothing, whatever max_number_new_slices, skip_slices and the update_slices of the calls. The simulated annealing app for finite width then returns the results of the one for infinite memory with the same seeds, with empty slices, and raises the same exceptions (for a network with tensors and update_slices other than 0). With max_number_new_slices = 0 the slices change only in updates with update_slices, whatever the limit.",
    "all networks, trees, cost models, generators, histories, seeds, schedules of the threads",
    "The two optimizers are separate code, written twice in C++ and twice in Python; where the limit does not matter they have to agree, and no test compares them.",
    ["include/tnco/optimize/finite_width/greedy/optimizer.hpp", "include/tnco/optimize/infinite_memory/optimizer.hpp", "include/tnco/optimize/finite_width/greedy/utils.hpp", "tnco/app/finite_width/sa.py:Optimizer.optimize", "tnco/app/infinite_memory/sa.py:Optimizer.optimize"])

add("The finite-width search finds the best tree that fits",
    "If the probability accepts costlier trees at least as often as the rule of Metropolis and Hastings at some fixed beta, then the chance that the finite-width search finds a cost at most that of any given valid tree for the same tensors whose tensors all fit into max_width tends to one with the number of updates.",
    "all networks, trees with exact index sets that fit, cost models with positive costs, histories, schedules, and settings of the slicing",
    "A user who raises the number of steps expects the search to get better in the end; moves through trees that do not fit are rejected, so it may not.",
    ["include/tnco/optimize/finite_width/greedy/optimizer.hpp", "tnco/optimize/finite_width/optimizer.py:Optimizer"])

add("Which random paths can be drawn",
    "get_random_contraction_path with merge_paths=False can return, for suitable random numbers, exactly the lists with one path for each connected component of the network, in the order in which indices of the components first appear, where each path is written with the smaller position first, contracts in each step two tensors of its component that share an index, and ends when no two tensors share an index. So in a connected network every contraction of all tensors to one, in steps between tensors that share an index, is a possible start of the search.",
    "all networks (with hyper-indices, open indices and scalars), all orders of sets",
    "C27 bounds what may be returned; a generator that always returned the same tree, or could not reach some trees, would satisfy it.",
    ["tnco/utils/tn.py:get_random_contraction_path"])

add("Results depend on the seeds only, not on names or the order of sets",
    "With the same seeds, the same network gives the same results, whatever the order in which Python lists sets (which changes with PYTHONHASHSEED for sets of strings), and whatever the names of the indices: random paths, contraction trees, both simulated annealing apps (for finite width, the slices are renamed), exceptions included, and load_tn.",
    "all networks, injective renamings, orders of sets, generators, seeds, schedules of the threads",
    "Results that cannot be reproduced from a seed cannot be compared or debugged; tests run with one hash seed and one set of names.",
    ["tnco/utils/tn.py:get_random_contraction_path", "tnco/utils/tn.py:contract", "tnco/ctree.py:ContractionTree", "tnco/app/infinite_memory/sa.py:Optimizer.optimize", "tnco/app/finite_width/sa.py:Optimizer.optimize", "tnco/app/app.py:load_tn"])

add("More effort does not make results worse",
    "With the same seeds, more temperatures after the same ones, and a longer time limit, never lead to worse results, and more runs keep the results of the fewer runs: the n-th best cost of the call with more steps is at most that of the call with fewer; the results with n seeds are among those with these seeds and further ones; two calls of optimize on one optimizer with a and b runs give together what one call with a + b runs gives. This holds for the costs as the optimizers hold them and as they are reported, whatever the number of processes and their interleaving. The same holds for more steps between two given inverse temperatures.",
    "all networks, schedules of temperatures, generators, acceptance probabilities, seeds, numbers of processes and interleavings; both apps",
    "A user who repeats a search with more steps, runs or time expects the result not to get worse; a search that dropped its best tree, or drew the seeds of its runs in another way for another number of runs, would still satisfy C43 and C44.",
    ["tnco/app/infinite_memory/sa.py:Optimizer.optimize", "tnco/app/finite_width/sa.py:Optimizer.optimize", "tnco/app/app.py:BaseOptimizer.__post_init__"])

add("The progress display",
    "With verbose >= 2, Parallel returns what it returns without a display. The display has at most one line for each run; each run whose status is positive has one, which shows in the end, or showed last before it was removed, the final status of the run and its final values in the buffers; with leave the lines stay, without it they are removed. The thread of the display ends soon after the last run, and does so without an exception.",
    "all functions that use only their own slots, numbers of runs, buffers, and all interleavings of the workers, the timer and the single reads of the display",
    "The display reads shared memory while it is written, and the call waits for its thread: a display that does not end makes the call hang after all the work is done. No test runs with verbose >= 2 and looks at the display.",
    ["tnco/parallel.py:Parallel", "tnco/parallel.py:Buffer"])

add("The time limit",
    "Once the time limit of optimize has passed, no run makes a further update: each run returns the best tree it has by then, for the path it is working on, and the random start for the paths that it has not begun; runs that have not begun return their random start, which is what a call without temperatures returns. There is still one result for each seed, and the call returns after a number of steps for each run that depends only on the number of tensors, not on the temperatures that are left.",
    "all networks, lists of temperatures, generators, acceptance probabilities, seeds, numbers of processes, and all interleavings of the workers with the timer that sets one flag after the other; both apps",
    "A flag which is read too rarely, or reset between paths, makes a call with timeout run for hours; a run which drops what it has when it is stopped loses the best result. No test passes a timeout to optimize.",
    ["tnco/parallel.py:Parallel", "tnco/app/infinite_memory/sa.py:Optimizer.optimize", "tnco/app/finite_width/sa.py:Optimizer.optimize"])

add("Walking through a tree",
    "traverse_tree(ctree, callback) calls the callback once for each position of the tree: first for the positions below the first child, one after the other, then for those below the second child, then for the node. It goes on to the end, or to the first exception of the callback, which leaves traverse_tree; no position is called after it. The progress bar counts the calls up to the number of nodes, is full at the end, and changes nothing else.",
    "all trees, all callbacks that leave the tree as it is (any state, any exception at any position), all values of verbose",
    "It is the only way from Python to visit a tree in an order in which it can be contracted; tests use a callback that never raises, and only check that children come before parents.",
    ["tnco/ctree.py:traverse_tree", "include/tnco/utils.hpp:traverse"])

add("Negative and equal positions in a path",
    "A position in a path may be negative, and then counts from the end of the list of tensors, as everywhere in Python. ContractionTree, contract, merge_contraction_paths and split_contraction_path contract in each step the two tensors that the two positions name, and reject a step that names a tensor out of the list, one tensor twice, or not two tensors. For positions that count from the front this is C09, C28, C29 and C31.",
    "all paths of integers, steps of any length, all networks",
    "The type Tuple[int, int] allows negative positions; the two pops of a step see lists of different lengths, so that a negative position means another tensor in the second one. No test uses negative or equal positions.",
    ["tnco/ctree.py:ContractionTree", "tnco/utils/tn.py:contract", "tnco/utils/tn.py:merge_contraction_paths", "tnco/utils/tn.py:split_contraction_path"])

add("The random numbers of the optimizers",
    "An optimizer made with seed=n draws the sequence of the Mersenne twister MT19937 for n, whatever n, and different seeds give different sequences; its uniform numbers are in [0, 1). seed=None takes a seed from the system. A text given as seed is a state from prng_state: it restores the generator exactly, so that a pickled optimizer goes on as the original; a text that is no state is rejected.",
    "all seeds and texts, all states, any number of draws",
    "prng_state is part of the pickled state (C26) and the way to resume a run; the tests compare two optimizers made from the same seed or state, which any deterministic generator would pass, and give no invalid text.",
    ["include/tnco/optimize/optimizer.hpp:Optimizer", "tnco/optimize/infinite_memory/optimizer.py:Optimizer", "tnco/optimize/finite_width/optimizer.py:Optimizer"])

add("Which indices are sliced first is decided without bias",
    "get_slices shuffles the indices of a tensor that is too wide before it sorts them. The shuffle keeps all indices and always ends. If the random numbers are uniform, all orders of the indices are equally likely before the sort, and after it all orders in which none comes before one that is preferred; so two indices that the sort does not distinguish are equally likely to be among the first that are sliced.",
    "all numbers of indices and preferences, all states of the generator",
    "The comment says that the shuffle is there to avoid a bias; a bias would favour slices by the names and the order of the tensors, and no test would notice.",
    ["include/tnco/optimize/finite_width/greedy/utils.hpp:get_slices"])

add("The random numbers of the apps",
    "An app made with seed=n draws the sequence of Python's generator for n, and different seeds give different sequences; seed=None takes a seed from the system. Every number that is drawn is in its range, and if the words of the generator are uniform no value is favoured: random() is in [0, 1) and each of its 2^53 values is equally likely, so that a sampled bit is flipped with its probability up to 2^-53; the seeds of the runs are in [0, 2^32), each equally likely; randrange(n) gives each value of [0, n) equally often; sample gives two different positions, each ordered pair equally often.",
    "all integers as seeds, all states of the generator, ranges and lists of any length, any number of draws",
    "The apps promise reproducible results for a seed and independent runs for different seeds; the random paths, the samples and the seeds of the runs come from this generator. Tests fix one seed and compare two calls, which any deterministic generator would pass.",
    ["tnco/app/app.py:BaseOptimizer", "tnco/app/infinite_memory/sa.py:Optimizer.optimize", "tnco/app/finite_width/sa.py:Optimizer.optimize", "tnco/app/circuit/sampling.py:sample", "tnco/utils/tn.py:get_random_contraction_path", "tnco/utils/tn.py:fuse"])

add("Nodes",
    "Node(children, parent) makes a node exactly if both children are given and different and the parent is not one of them, or if no child is given; negative numbers stand for none, 0 is a position as any other; otherwise it raises ValueError. children and parent then show what was given. Node(), Node(children) and Node(parent) leave out what is missing, Node(node) copies. Every node is valid, is restored by pickling, and two nodes have the same repr only if they are equal. ContractionTree takes nodes, or lists of the children and the parent as numbers or None, and gets the same nodes.",
    "all integers, all nodes, all arguments",
    "Trees are pickled for parallel runs and built from lists of numbers; the code compares with a null value that is itself a number. The test draws positions that are all positive, or all negative, never 0.",
    ["include/tnco/node.hpp:Node", "include/tnco/node.hpp:init", "tnco/ctree.py:ContractionTree"])

add("Blocks of a bitset",
    "Bitset keeps its bits in blocks of machine words, with the unused bits of the last one zero. For bitsets of the same size, whatever the size of a block, constructors, &, |, ^, -, ~, comparisons, count, positions and printing give what they give for a list of bits, keep the unused bits zero, and never access memory outside of the blocks. Operands of different sizes are rejected, or the shorter one counts as padded with zeros. In Python a Bitset is a sequence of bits: list(b) gives them, b[i] is one of them or an error, and p in b says whether position p is set.",
    "every block size, all bitsets of all sizes, all integers as indices",
    "All costs and widths come from these operations; the words behind them are seen only where a size is not a multiple of 64 or two sizes differ. Tests compare bitsets of one size.",
    ["include/tnco/bitset.hpp:Bitset", "include/tnco/bitset.hpp:init", "tnco/bitset.py:Bitset"])

add("The text of a cost",
    "The text that C++ writes for a cost can be read by Decimal, and its value is the reported cost. str of a Decimal is read as the same Decimal, and different Decimals have different texts. The cost of a result is the number 0 exactly if no part needed an optimizer, and else a Decimal whose text in JSON is read as the sum of the reported costs of the parts, rounded to 28 digits; a total of at most 28 digits is written with all its digits. repr of a result shows the cost rounded to three digits. Parts and results of the same cost have the same text, whatever the cost type.",
    "all natural numbers as costs, all non-negative decimals, any number of parts",
    "Costs leave C++ as text, are added as decimals and leave Python as text again; users compare them across runs and read them from JSON, where a cost is a string unless it is 0. Tests compare numbers, never texts.",
    ["include/tnco/globals.hpp:to_string", "include/tnco/fixed_float.hpp:to_string", "include/tnco/optimize/infinite_memory/optimizer.hpp:init", "tnco/app/app.py:JSONEncoder", "tnco/app/app.py:BaseContractionResults", "tnco/app/infinite_memory/sa.py:Optimizer.optimize", "tnco/app/finite_width/sa.py:Optimizer.optimize"])

add("When slices come and go",
    "An update of the finite-width optimizer without update_slices never gives up a slice, in any state; it slices none of skip_slices, at most max_number_new_slices indices for each of the at most n - 2 moves of a pass over n tensors, and only indices of tensors of the new tree that are wider than max_width with the slices before the update: if the new tree fits with the old slices, nothing is sliced. Hence moves that add slices are never undone by such updates, unlike the moves of the infinite-memory optimizer. update_slices acts after the pass: it leaves the tree alone, does nothing if nothing is sliced, and otherwise keeps slices and cost, or replaces all slices by indices of tensors wider than max_width and lowers the cost.",
    "every state for the growth, every reachable state for the rest, all probabilities, random generators, trees, width models and cost functions",
    "Slices multiply the work of the whole contraction, and the app updates them only in every tenth step by default. A slice added without need, or one given up that is still needed, would show only in costs and widths of particular trees; tests check the final width.",
    ["include/tnco/optimize/finite_width/greedy/optimizer.hpp:Optimizer.update", "include/tnco/optimize/finite_width/greedy/utils.hpp:get_slices", "tnco/app/finite_width/sa.py:Optimizer.optimize"])

add("What cost models, trees, networks, optimizers and probabilities show",
    "repr of a cost model shows its types, its width limit, its sparse indices and n_projs: two cost models with the same repr are equal, and equal ones have the same repr if they show their sets of indices in the same order. Trees and networks with the same repr have as many nodes or tensors and as many indices, and conversely; optimizers have the same repr exactly if their trees and their cost models have. Ordered sets have the same repr exactly if they have the same elements in the same order, for elements that are told apart by their repr and show neither commas nor closing brackets. Probabilities with the same repr are equal.",
    "all cost models that can be made, whatever the names of the indices, all trees, networks, optimizers and probabilities",
    "Logs of runs identify models and probabilities by these texts. Names of indices may contain any characters, also the ones that separate the fields. Tests do not look at repr.",
    ["tnco/optimize/infinite_memory/cost_model.py:SimpleCostModel", "tnco/optimize/finite_width/cost_model.py:SimpleCostModel", "tnco/ctree.py:ContractionTree", "tnco/app/tn.py:TensorNetwork", "tnco/optimize/infinite_memory/optimizer.py:Optimizer", "tnco/optimize/finite_width/optimizer.py:Optimizer", "tnco/ordered_frozenset.py:OrderedFrozenSet", "include/tnco/optimize/prob/greedy.hpp:init", "include/tnco/optimize/prob/mh.hpp:init"])

add("No slice is superfluous",
    "Every slice that get_slices returns is needed: without it, and with all the others, some tensor is too wide. The same holds for the slices and min_slices of an optimizer, so that the cost is not that of more slices than the tree needs.",
    "all trees, dimensions, width limits, skip_slices and random numbers",
    "Each slice multiplies the cost by the dimension of its index. The tests check that the slices suffice, not that they are needed.",
    ["include/tnco/optimize/finite_width/greedy/utils.hpp:get_slices", "include/tnco/optimize/finite_width/greedy/optimizer.hpp:Optimizer.update"])

out = pathlib.Path(__file__).resolve().parent.parent / "properties.jsonl"
out.write_text("".join(json.dumps(p, ensure_ascii=False) + "\n" for p in P))
print(len(P))

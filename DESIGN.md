# Formal model of google-research/tnco in Lean 4

This file says what is modelled, how each property of `properties.jsonl` is
proved, what is trusted, and where the code was found to violate a property.

## 1. Method

* The model lives in `lean/Verif/`. Each definition cites the file and lines of
  `/repo` it mirrors; simplifications are stated in the same comment.
* Layers (each layer only imports the ones before it):
  1. `Model/*`   shallow functional model of the code (total functions,
     exceptions as `Except`/`Option`, loops as structural recursion or fuel);
  2. `Spec/*`    short specifications that do not mention the model's helpers
     (binary trees, the einsum of a network, ...);
  3. `Lemmas/*`  helper lemmas;
  4. `Props/*`   the property theorems, named after the property ids, each
     followed by an `example` exhibiting a non-trivial instance of the
     hypotheses, and by `#print axioms`-clean proofs.
* Random numbers are explicit state machines: a generator is a state type with
  step functions (`PyRng`, `Prng`, `FwPrng`), and the theorems quantify over the
  generator and its state, with only the documented laws as hypotheses
  (`PyRng.Ok`: values in range, samples distinct). This covers every seed of
  `mt19937` and `random.Random`. The iteration order of a Python set is an
  unknown function `enum` with `EnumOk` (every element once).
* Costs and widths are exact (`Nat`, `Int`, ordered fields or `Real`), or of any
  type with the operations used. Floating-point rounding is modelled for the costs and
  widths of the two optimizers (C66, C67) and nowhere else: round to nearest, ties to even,
  with infinities and NaN, without underflow; `log2` is an unknown table of `double`s.
* Loops whose bound is not evident take fuel; the theorems give the bound for
  which they end.
* If the code violates a property, the negation is proved with a concrete
  witness (`_violated`), and the property under a stated extra condition
  (`_partial`).

## 2. Representation choices

* A core tree (`include/tnco/tree.hpp`) is a size and a function from positions
  to nodes (`std::vector<Node>`); `null` (-1) is `none`. A *well-formed* tree is
  one that encodes an inductive binary tree whose node labels are exactly the
  positions `0..size-1`, leaves first, root last. This is the specification
  against which `is_valid`, `swap_with_nn`, `traverse`, `get_contraction`,
  `path()` and the optimizers are checked.
* A bitset is a list of Booleans at code level (C01, C02), which C91 justifies by
  the blocks of Boost. The optimizers use finite sets of positions, which C02
  justifies operation by operation.
* Indices are an arbitrary type with decidable equality.
* A tensor's value is a function of an index assignment into a commutative
  semiring; `einsum` is a sum over assignments of the summed indices
  (`Spec/Einsum.lean`).
* A path is a list of pairs of natural numbers. Its meaning is `replay`
  (`Spec/Replay.lean`): the bracketing it builds. The general case, integers
  (negative ones count from the end) and steps of any length, is in
  `Model/PathInts.lean` (C86).
* Exceptions are values: `PyErr` for Python, `AppErr` where messages of
  libraries matter.
* Arrays (`Model/NDArray.lean`) are a shape and a function of the flat position
  in C order; `reshape`, `transpose`, `matmul`, `stack`, `diagonal` follow the
  documentation of NumPy, over exact entries.
* Strings are lists of code points; properties of characters that Python takes
  from the Unicode tables (`isspace`, digits, upper case) are parameters with
  the laws that are needed, checked on ASCII.
* Dictionaries are association lists with insertion order (`Model/Dict.lean`).
* Circuits are lists of matrices over a field with an involution (`StarRing`),
  so that "unitary" and "up to a phase" make sense without square roots.
* Parallel execution is a schedule: a list of events (a worker makes a step, the
  timer fires). Theorems quantify over all schedules. Buffers of shared memory
  are lists of bytes (`Model/Buffer.lean`).
* The fixed-precision float is an extended rational with NaN; MPFR is taken to
  round correctly, and its parsing and printing follow its documentation.

## 3. Plan per property

| id | model | proof |
|----|-------|-------|
| C01 | `Bitset` constructors, printing, positions, pickle | round-trip laws, iff for the error branch |
| C02 | `Bitset` operations on lists of Booleans | refinement to `Finset` |
| C03 | `OrderedFrozenSet` as duplicate-free list | list lemmas, refinement to sets |
| C04 | `__eq__`, `__hash__` | **violated**: witness; partial: equal order implies equal hash |
| C05 | `Node.is_valid`, `Tree.is_valid` incl. the precedence slip | **violated**: two witnesses (inconsistent parents, detached cycle); completeness for every real tree; partial soundness (child counts) by pigeonhole |
| C06 | `swap_with_nn` | zipper decomposition of the encoded tree |
| C07 | `traverse` with explicit stack and visited flags | simulation by structural post-order; fuel bound |
| C08 | `get_contraction` | corollary of C07 |
| C09 | path branch of `ContractionTree.__init__` | invariant along the path: forest of terms |
| C10, C11 | hyper-counter loop | invariant: counter = live occurrences - 1 (+1 if output); semantic index sets |
| C12 | `path()` | simulation of the position list against the forest |
| C13-C16 | infinite-memory optimizer state machine | one-step invariant via zipper; induction over history |
| C17 | Greedy rule plugged into the state machine | **violated** at the draw 0: witness; partial for positive draws |
| C18 | MH rule over the reals | real powers |
| C19, C20 | cost models | `Finset.prod` algebra |
| C21-C25 | finite-width optimizer and slicer | invariants; **violations**: sparse width bookkeeping in the slicing branch (C22), remainder by zero (C25) with witnesses; partial theorems |
| C26 | `__reduce__`/`__build__` | restore . dump = id on coherent states (infinite memory); **violated** for finite width (lost `max_number_new_slices`) |
| C27 | random path with choice oracle | invariant: live tensors with x = counter + 1 |
| C28, C29 | merge/split | simulation of position lists against forests |
| C30 | fuse | same invariant as C27 plus width guard |
| C31, C32 | contract, tensordot | value semantics, sum exchange |
| C33 | decompose | **violated** (class vanishes): witness; partial under "class still present" |
| C34 | read_inds | list/map lemmas |
| C35 | get_symbol, get_einsum_subscripts | injectivity; **violated**: surrogates; decoding theorem |
| C36 | svd name loop | **violated** (diverges for a colliding seed): for all fuel no result; partial: fresh if it returns |
| C37 | simplify loop in a monoid with scalars | induction over gates |
| C38 | index assignment in load | induction over gates, path sum |
| C39 | sampler as a distribution transformer over complex amplitudes | induction over gates |
| C40 | is_classical_operation | **violated**: witness; partial for square power-of-two matrices |
| C41 | worker/timer interleaving model | commutation / projection of schedules |
| C42 | Parallel control flow with a raising task | **violated**: witness; partial for the normal return |
| C43 | sa.py result assembly | **violated**: witness for disconnected networks; partial for connected |
| C44 | sa.py loop and sorting | induction; **violated** for reported costs (C72) |
| C45 | TensorNetwork constructor checks | iff |
| C46 | width model | `Finset.sum` algebra |
| C47, C48 | bindings / validators | **violated**: witness; partial |
| C49 | get_connected_components | **violated** with empty tensors: witness; partial otherwise |
| C50 | text parsing, dispatch and output decision logic | decision theorems; **violated**: compression check |
| C51 | iterators as paths | **violated**: the first step is lost |
| C52 | subscripts of two tensors | injectivity of the letters |
| C53 | shared-memory buffer, byte level | get/set laws; **violated** where blocks are rounded to pages |
| C54 | format specifiers | grammar and padding; **violated** for `0` and `=` |
| C55 | the annealing apps return | **violated** for sparse indices missing from a part |
| C56 | load_file after dump_results | round trip for JSON; **violated** for raw results |
| C57 | load_tn of a tensor network | value relation from C30, C31, C33, C45; **violated** where C33 is |
| C58 | Python cost models, by index name | translation of names to positions; **violated**: unsupported types |
| C59 | results of the optimizers against contraction | sums over slices, counted multiplications, live tensors; **violated** for reported costs (C72) |
| C60 | random tensor networks | invariant of the growing network, counting; **violated**: one index, or `k = 1` |
| C61 | reading and checking contraction trees | a surplus count along the tree; swaps that cancel come in pairs, and there are too few inner nodes to pair; **violated** for two tensors and for iterators |
| C62 | a circuit, loaded, optimized and contracted, gives its matrix elements | composition of C38, C45, C55, C59 over the model of the circuit branches of `load_tn` |
| C63 | the choice of the format in `load_tn` | case analysis of the tests, a rank for the recursion; **violated**: empty members, empty objects, files in circles |
| C64 | splitting a tensor by singular values | row-major order by names, Bessel's inequality for the threshold; `linalg.svd` is an oracle |
| C65 | the class `Sampler` with the real optimizer | composition of C39, C43, C44, C55 and C57; two preparations agree step by step |
| C66 | costs of the infinite-memory optimizer in floating point | a run with any arithmetic is followed by a run with exact costs that counts the roundings |
| C67 | costs and widths of the finite-width optimizer in floating point | the same with an exact run for the widths; powers of two are exact |
| C68 | `==` of trees and optimizers | a reachable optimizer is rebuilt from the arguments of its `__reduce__`; **violated**: skipped tensors, `max_number_new_slices`, mixed and foreign comparisons |
| C69 | cirq and qiskit circuits | an operation is what the library says of it; gates are composed with C38 and C39; **violated**: measured qubits, sub-circuits, qiskit order of qubits, qiskit sampling |
| C70 | `==` of tensors and networks | broadcasting of shapes; a telescoping bound for products, summed over the indices; **violated**: shapes that do not fit, other objects, transitivity |
| C71 | JSON output | a reader of JSON from the standard; what `json.dumps` writes is read as its value, by induction on the object; **violated**: lost costs and tags, numbers as strings, frozensets as tuples |
| C72 | the costs that Python gets | the apps with a printer commute with printing (simulation of the parallel runs); decimal rounding, error bounds; **violated**: costs of a million and more |
| C73 | the optimizer and probability classes, driven from Python | a session is a history of the C++ optimizer (C14, C15, C21-C25), read back by name through the cost models (C48); **violated**: widths with sparse indices, division by zero, `==` of probabilities |
| C74 | the whole way from a text to the output and back to a contraction | composition of C43, C46, C50, C55, C57, C59, C71, C72; what `fuse` does is again a path; **violated**: reported costs leave out what is fused |
| C75 | `float1024` as a class: operators, operands of other classes, texts, pickling | correct rounding characterised as the nearest number of the format (with the even one of two), for every precision and range; **violated**: integers and `float(x)` go through machine formats, `str`, texts, aliases |
| C76 | the search as a random walk at a fixed temperature | chances as Lebesgue measures of draws; an exchange is undone by the exchange with the other coin, and costs determine both acceptance tests; **violated** for whole updates: thirteen trees of equal cost |
| C77 | the search reaches every tree and, with chance tending to one, the least cost | any two trees are joined by exchanges within the walk from a leaf to the root; finitely many trees, so the chances have a common lower bound, the chance to miss falls exponentially and the mean number of updates is finite; **violated** for the greedy probability: a tree of cost 36 is never left, there is one of cost 34 |
| C78 | a width limit that nothing exceeds changes nothing: the finite-width optimizer and its app do what those for infinite memory do | `Roomy` is about sets of tensors (Spec/Roomy.lean), not about trees; a relation between the states of both optimizers is kept by every iteration and, for the apps, by every turn of every thread (Lemmas/ParallelRel.lean) |
| C79 | the finite-width search finds the best tree that fits | from C77 and C78 where the limit does not matter; **violated** otherwise: a tree is never left if every exchange gives a tensor that is too wide (C79_trap); four tensors in a ring, cost 5120 against 1536 |
| C80 | which random paths can be drawn | the invariant of C27 run backwards: a generator that follows a script of numbers leads through any path that contracts neighbours; the numbering of components is unique |
| C81 | results depend on the seeds only, not on names or the order of sets | a relation between two runs (names mapped, sets listed differently) kept by every function from random paths to results; the order of the indices of a tree is that of its leaves; witness for `load_tn` with `fuse` |
| C82 | more steps, runs or time do not make results worse | the recorded minimum never grows (no invariant needed); a run that is not stopped is a function of its seed and its temperatures; sorted lists keep domination; `rng.choices` draws one seed after the other; **violated** for two given temperatures |
| C83 | display thread as a further party of the schedule, one read of a slot per step; `rich` as a table of lines | invariant on dictionary, table and position of the thread; completed runs do not change; measure for the end; **violated** where shared memory comes in pages, and after exceptions; partial for exact sizes |
| C84 | what the time limit leaves of a run: `wrapUp`, the rest of `core_` without updates | a core whose flag is set is the core with the flag ignored (`Core.stopped`), so the lemmas on runs alone and on progress apply from that moment on; flags are set in order; there are not more parts than tensors |
| C85 | callbacks on a state, with exceptions: `follow`, `begun`; `Under` | the loop with callbacks follows the loop of C07, which lists the positions; a subtree is a contiguous part of the post-order |
| C86 | `Names`, `Named` (both positions read in the list before the step), `Popped` (the second one in what is left), `Places` (the path of natural numbers) | the models with natural numbers are special cases; the lemmas on lists of contractions do not depend on how the path is read |
| C87 | `IsTwister` (the recurrence of MT19937 on a sequence of numbers), `Follows` (where in a sequence a generator is), `Proper` | a renewal of the 624 words is 624 steps of the recurrence; the recurrence can be run backwards, since a word has 32 bits and the constant its highest bit set; the mixing of bits is injective; the standard's 10000th number by evaluation in the kernel of a list version proved equal |
| C88 | `arrange` (a shuffle as one choice for each entry), `allChoices`, `scaled` (what becomes of one number of 32 bits), permutations that the sort leaves alone | counting multiples in an interval; the last choice is where the last entry is; a stable sort commutes with new names for indices of the same rank |
| C89 | pairs of draws; `keySeq`, `numSeq` (seeding with no array), `SeedTwin` (seeds below 2^64 that coincide) | the second loop of the seeding can be undone, and the first one tells what was added in each step; each value of a draw is an interval of words |
| C90 | nodes made by calls (`Made`), texts as lists of characters | cases on signs; digits are read back; a text is cut at the first comma |
| C91 | a bitset as blocks of `w` bits (`DBits`), `Ok` (number and range of the blocks, unused bits zero), `toBits` | each loop of Boost is the function on lists of bits; bits of a number are compared one by one |
| C92 | the texts that a cost goes through: C++ stream, `Decimal`, `sum`, `str` | texts as digits, point and exponent; `%g` rounds as `roundSig`; a sum keeps as small an exponent as 28 digits allow, so its value determines it; **violated**: one cost, several texts |
| C93 | slices within one pass and between passes | one iteration adds no slice or a set `T` of indices of the new tensor; a position left behind by the walk keeps its index set; `update` with the flag is compared with `update` without it |
| C94 | `repr` of cost models, trees, networks, optimizers, ordered sets, probabilities | lists of characters; texts are split at the first comma or the last equals sign, so names of indices may contain anything; **violated**: `2` and `2.0` for equal models, `beta` with six digits |
| C95 | superfluous slices | proved if only one tensor is too wide (dimensions in any order, any shuffle): the last slice is the smallest, so each one is needed and there are as few as possible; for all trees the one taken last is needed, and all slices together are bounded by the excess widths, and by a multiple of the fewest possible if the dimensions are equal; **violated**: slices taken for a later tensor make earlier ones superfluous, slices are kept when the tree changes, and slicing one of several sparse indices may not change the width |

## 4. Trusted base

* Lean 4.33.0 kernel; Mathlib as installed; axioms at most `propext`,
  `Classical.choice`, `Quot.sound`. No axioms of our own, no `sorry`, no
  `native_decide`.
* The reading of the code: nothing links the Python/C++ text to the model
  mechanically. Each definition cites the lines it mirrors.
* The semantics given to libraries: NumPy/autoray (exact entries), `random`,
  `more_itertools`, dictionaries and sets of Python, `std::vector` and
  `boost::dynamic_bitset`, MPFR, joblib, shared memory, pickle, JSON, gzip, bz2.
  Where they are parameters (AppIO, LoadText, Pickle), the laws assumed are
  structures (`CodecsOk`, `DigitsOk`, ...) that concrete instances are shown to
  meet.
* cirq: an operation is a measurement if it contains one, and in its unitary the
  first qubit is the most significant. qiskit: in the matrix of an instruction
  the first qubit is the least significant; instructions that are not unitary
  gates have no matrix. Neither library is in /repo.
* `json.dumps`: modelled with its default options as documented; the text of a
  float is the one Python writes, taken to be a JSON number, `NaN`, `Infinity` or
  `-Infinity`. Surrogates as single code points are excluded.
* Boost (C91): the loops of `dynamic_bitset` over its blocks, in a build without
  assertions, as in the source of the library, which is not in /repo.
* Printed costs: a C++ stream writes a number rounded to six significant digits,
  ties to even; `Decimal` reads text exactly, and adds with 28 digits, ties to
  even. Their texts (C92) are those of `%g` and of the specification of `decimal`
  (Python 3.11).
* The program (C74): the seeds that Python's generator draws, the running times and
  `str` of a `Decimal` (as a function of its value, one for parts and one for sums,
  as C92_functions justifies) are arguments; names of indices are numbers; the file system
  is one state before and one after the run.
* MPFR (C75): operations return the exact result rounded to nearest, ties to even,
  with the default range of exponents; `mpfr_set_str` reads the longest beginning
  that is a number; `%Ra` writes one hexadecimal digit before the point and all
  after it. pybind11: an argument of type `long double` is read by
  `PyFloat_AsDouble`; no overload that fits is a `TypeError`. `long double` has
  64 bits.
* Random draws (C76, C77 and C79_limit_partial only): the integers and the numbers of `[0, 1)` are independent
  and uniform. All other theorems hold for every generator.
* Pickling: the textual dump of a cost of a machine type restores it exactly (for
  `float1024` this is C75_pickle; for the generator C87_restore).
* The generator (C87): `std::mt19937`, its operators `<<` and `>>`, and
  `uniform_real_distribution<double>` are those of libstdc++ (GCC 13) on a machine
  with 64 bits; numbers are read in the "C" locale. `std::random_device` gives any
  number. `std::shuffle` and `uniform_int_distribution` (C88) are those of the same
  library. `random.Random` (C89) is that of CPython 3.11; the model gives the words
  that CPython gives (C89_values).

## 5. What is modelled

| file of /repo | model |
|----|----|
| include/tnco/bitset.hpp | Bitset, Blocks |
| include/tnco/node.hpp, tree.hpp, ctree.hpp | Tree, CTree, PyNode |
| include/tnco/utils.hpp (traverse, contraction) | Traverse |
| include/tnco/optimize/infinite_memory, prob | Cost, Prob, InfMem, InfValid |
| include/tnco/optimize/finite_width | Width, FiniteWidth, FwValid |
| include/tnco/fixed_float.hpp | FixedFloat, FloatClass |
| include/tnco/globals.hpp:46-52, the costs that Python gets | Report |
| include/tnco/globals.hpp (cost types), infinite_memory/cost_model in floating point | Float |
| finite_width/cost_model in floating point | FloatWidth |
| include/tnco/globals.hpp:37, optimize/optimizer.hpp:48,67-78,191-195 (the generator) | Twister |
| finite_width/greedy/utils.hpp:82 (`std::shuffle`) | Shuffle |
| `Random` (app.py:783, sampling.py:240,456, utils/tn.py:91,593, utils/circuit.py:396, utils/tensor.py:319) | PyRandom |
| include/tnco/node.hpp (binding), tnco/ctree.py:226-234 | PyNode |
| tnco/optimize/*/optimizer.py (pickling) | Pickle |
| tnco/ctree.py, tnco/optimize/*/optimizer.py (`==`) | Compare |
| `__repr__` of tnco/ctree.py, tnco/app/tn.py, tnco/optimize/*/optimizer.py, include/tnco/optimize/prob/*.hpp | Repr |
| tnco/optimize/*/optimizer.py (constructors, `update`, properties), tnco/optimize/prob.py | Session |
| tnco/ordered_frozenset.py | OrderedFrozenSet, Repr |
| tnco/ctree.py | PathBuild, CTree |
| tnco/utils/tn.py | Components, RandomPath, MergeSplit, Fuse, Contract, Decompose, Names |
| tnco/utils/tensor.py | NDArray, Contract, Decompose, Names, Svd |
| tnco/utils/circuit.py | Circuit, CircuitLoad, Frameworks |
| tnco/parallel.py | Parallel, Buffer |
| tnco/app/tn.py | TensorNetwork, NetEq, Json |
| tnco/app/app.py | LoadText, LoadNet, AppIO, Json, Program |
| tnco/app/cli.py | Program |
| tnco/app/*/sa.py | Anneal, Json |
| tnco/app/circuit/sampling.py | Sampling, Sampler |
| tnco/optimize/*/cost_model.py | CostModel, Repr |
| tnco/testing/utils.py (random networks) | RandomTensors |
| tnco/ctree.py (reading), tnco/testing/utils.py (`is_valid_contraction_tree`) | TreeCheck |
| tnco/app/app.py:489-561 (circuits in `load_tn`) | LoadGates |
| tnco/app/app.py:259-308, 417-474, 564 (format choice in `load_tn`) | LoadObj |
| tnco/parallel.py:241-308, 346-347 (progress display) | Display |

Not modelled: floating-point rounding (except C66, C67 and C72), threads inside NumPy, joblib and the
operating system beyond schedules, logging and
progress bars other than that of `Parallel` (C83), cirq and qiskit themselves, memory safety beyond explicit bounds,
the command line parser (Fire).

## 6. Findings

Each is a theorem with a concrete witness, named in `MANIFEST.json`.

* `OrderedFrozenSet`: equal sets can have different hashes (C04).
* `Tree.is_valid` accepts lists of nodes that are not trees (C05).
* Greedy: a draw of exactly 0 accepts a move that raises the cost (C17).
* Finite width: with the sparse model and new slices the width limit can be
  exceeded (C22); `prng() % 0` if every index to slice is skipped (C25);
  `max_number_new_slices` is lost by pickling (C26).
* `contract` never sums an index that is in one tensor only (C31);
  `tensordot` does not notice disagreeing shapes (C32).
* `decompose_hyper_inds` loses the dimension of an index that vanishes, and can
  leave a tensor with a repeated index (C33).
* `get_symbol` returns surrogates for 55156 to 55295 (C35).
* `svd` loops for ever if the seed gives a name in use (C36).
* `load` of circuits does not check unitarity; other matrices change value with
  `simplify` (C37) or `decompose` (C38).
* A repeated qubit in `qubit_order` gives extra zero bits (C39); the precedence
  slip in `is_classical_operation` accepts matrices of wrong shape (C40).
* `Parallel` leaks segments and a waiting timer whenever the core raises (C42).
* With `verbose >= 2` on a platform that rounds shared memory up to pages, `Parallel` never returns: the display waits for slots of `completed` that belong to no run (C83).
* Annealing: the cost of disconnected networks is understated and joined outputs
  can exceed `max_width` (C43); sparse indices missing from a part are a
  `ValueError`, `betas` without length a `TypeError` after the first update,
  `update_slices=0` a `ZeroDivisionError` (C55).
* `TensorNetwork` counts an index repeated within a tensor as a hyper-index (C45).
* `isinf` and `signbit` return `isnan`; NaN equals everything (C47). The
  zero flag and the alignment `=` of format specifiers are ignored (C54).
* `DimsCache` of one common dimension does not check indices (C48).
* Tensors without indices are dropped from the connected components (C49).
* Compression without a file name is accepted, `.gz` is not compressed,
  the file name `''` is a `FileExistsError`, indented lines of the text format
  are not recognised (C50).
* A path given as an iterator loses its first step (C51).
* A buffer is longer than the sequence where blocks are rounded to pages (C53).
* Raw dumps cannot be read by `load_file`, whose branch for binary files cannot
  be reached (C56).
* `load_tn` changes the value of a network, or rejects it, where the
  decomposition makes indices vanish or repeats them (C57).
* The cost models of Python raise `AttributeError` for unsupported types, accept
  `n_projs=2.0` but fail when it is used, and cannot add indices (C58).
* `generate_random_tensors` always gives up for one index and `n_tensors = k`,
  and its components are not connected for `k = 1` (C60).
* `is_valid_contraction_tree` fails with an assertion for every tree of two
  tensors, and never accepts tensors given as an iterator (C61).
* `load_tn` raises `IndexError`, `KeyError` or `OverflowError` for lists with
  empty members, dictionaries or infinite entries, takes empty objects and empty
  circuits for a list of indices, recurses without end on a file with its own
  name as text, and does not look at files with names such as `2026` (C63).
* `svd` cannot split a tensor with an axis of length 0 (C64).
* With one common dimension, costs of `2^1024` and more are infinite in every
  cost type and only 53 bits are right, since `std::pow` of integers is a
  `double` (C66).
* Widths are `float32` by default. If the skipped indices have exactly the width
  `max_width` and the dimensions are not powers of two, an update can divide by
  zero. The Python constructor compares the rounded width with the unrounded
  `max_width` and can reject such indices; an index more than needed can be
  sliced; `max_width` itself is rounded, possibly up (C67).
* `==` of trees ignores which tensors of the list are contracted; equal trees can
  have different paths. `==` of finite-width optimizers ignores
  `max_number_new_slices`. Comparing a finite-width with an infinite-memory
  optimizer on the same tree raises `AttributeError`, the other way round is
  `False`; comparing an optimizer with `None` raises `TypeError` (C68).
* Qubits of a cirq circuit that are only measured are missing in the network and
  in sampled bitstrings; a cirq sub-circuit with a measurement is dropped with
  its gates. The matrices of qiskit are little-endian but read as big-endian: a
  CNOT is loaded with control and target exchanged. Sampling from a qiskit
  circuit calls `load` and always raises `TypeError` (C69).
* `==` of tensors, and of networks, raises `ValueError` if two arrays have shapes
  that NumPy does not combine, such as 2 and 3; `==` of a tensor and anything
  else raises `AttributeError`. It is not transitive (C70).
* The JSON output leaves out the tags of the network and `disconnected_costs`.
  Complex entries and costs become strings, and an index of qiskit
  raises `TypeError` (C71).
* Costs reach Python as text with six significant digits, for all types but
  `float1024`; sums have 28. A cost of 1000003 is reported as 1000000, one of
  1000006 as 1000010, and results whose costs agree in six digits are in the
  order of the seeds, so the first one need not be the cheapest (C72).
* `==` of two probabilities of different classes or cost types, or of one and
  another object, raises `TypeError` (C73).
* The reported cost and path are those of the network after fusing, which is on
  by default with width 4. `2 A B` and `2 B C` give cost 0 and an empty path. The
  path of the fused tensors is a tag of the network, which the JSON leaves out;
  only the nested tags of the tensors tell how to bracket them. Arrays made while
  fusing are not limited by `max_width` (C74).
* `float1024(2**53 + 1)` is `2**53` and `float1024(2**1024)` a `TypeError`, though
  both fit; `float1024("abc")` is 0 and `float1024("1,5")` is 1; `float(x)` rounds
  twice; `str(x)` loses digits below 1; after `y = x`, `x += 1` changes `y`;
  `x == None` raises `TypeError` (C75).
* An update starts at a leaf and climbs to the root, and exchanges on the way can
  change which contractions lie on it. Each exchange is balanced, but updates as a
  whole prefer some trees to others of the same cost, at any temperature (C76).
* The greedy probability never leaves a tree whose exchanges all cost more, even if
  a tree two exchanges away costs less (C77).
* With `max_number_new_slices = 0` (the default, and what the annealing app uses) the
  finite-width search can be trapped at its first tree for good, at any temperature:
  all trees one exchange away are too wide, while better trees further away fit (C79).
* The path step `(-2, -1)` contracts other tensors than the last two or raises
  `IndexError`; `ContractionTree` and `merge_contraction_paths` accept a step with
  two equal positions; `split_contraction_path` fails for paths the others accept
  (C86).
* Seeds are taken modulo `2^32`. Every text is accepted as a seed: all texts that do
  not begin with a number give the same generator, `seed="42"` is not `seed=42`, and
  a text of zeros gives a generator of zeros, with which `Greedy` accepts worse
  trees (C87) and a finite-width optimizer hangs, and a text with words of more than
  32 bits makes it write outside an array (C88).
* The apps, whose generator is Python's, ignore the sign of a seed, and the seeds `a`
  and `a + (a - 1) * 2^32` give the same results (C89).
* Bitsets of different sizes are not rejected: `Bitset('0') | Bitset('01')` prints as
  `0` but has a bit at position 1, and if the right operand has fewer words than the
  left one, memory outside of it is read. `p in b` is not whether position `p` is
  set (C91).
* One cost has several texts: the only part of a result may have the cost
  `1.23457E+6` and the result `1234570`, and in JSON a cost is `"8"`,
  `"8.000000000000000000000000000"` for `float1024`, or the number `0` (C92).
* Between two calls with `update_slices` the finite-width optimizer never gives up a
  slice, so moves that add slices cannot be undone there (C93).
* `MetropolisHastings` shows `beta` with six digits, so different probabilities have the
  same `repr`; equal cost models may have different ones (C94).
* `get_slices` does not look back: slices taken for one tensor may be superfluous once
  those for the next ones are taken, and the cost is multiplied by their dimensions.
  Without `update_slices` the reported best tree may need none of its slices (C95).

Read but not stated as theorems: `float1024` has no `__bool__` (zero is true) and
cannot be hashed; tensors and networks cannot be hashed, although
`TensorNetwork` is a frozen data class; `load_tn` ignores `fuse` and
`decompose_hyper_inds` for circuits;
`Path(filename).exists` is never called; with a `long double` of 64 bits the name
`float64` would be registered twice; `BaseOptimizer` itself cannot be
instantiated, since it is frozen and its `__post_init__` assigns an attribute;
calling `optimize` twice on one object draws other seeds the second time (the calls
themselves are in C82).

## 7. Tests of the theorems

`tools/mutations.py` lists wrong programs: one edit of one definition of the
model each. `tools/mutate.py` applies each in a scratch copy, builds, and logs
in `seeded/LOG.jsonl` which theorems fail. Survivors led to new theorems, listed
under `tightened`; edits that change nothing observable are marked in `note`.

{"id": "C01", "title": "Symmetry values form an ordered abelian group", "statement": "For each of the six symmetry types, + is commutative and associative, the default-constructed value is its identity, unary minus gives the inverse, and ==,!=,<,<=,>,>= are one consistent total order (exactly one of a<b, a==b, b<a; == is equality of all fields).", "quantifier": "for all symmetry values a, b, c of each type", "why_tests_cant": "The value space (int32 x int16) is far too large to enumerate in triples; the laws must hold for every combination because block selection and map lookup rely on them.", "anchors": ["include/TAT/symmetry.hpp: operator+, operator+=, operator-, comparison macros, information()"]}
{"id": "C02", "title": "Fermion parity is a homomorphism", "statement": "A symmetry value is odd exactly when its fermion number is odd (also for negative numbers); the parity of a sum is the xor of parities and negation keeps parity, including at the wrap-around limits of the 16-bit fermion number.", "quantifier": "for all pairs of fermionic symmetry values", "why_tests_cant": "C++ % on negative values and int16 wrap-around make this depend on every value; sampling misses limits.", "anchors": ["include/TAT/symmetry.hpp: fermi_symmetry, bool(fermi % 2)"]}
{"id": "C03", "title": "Sign of reversing edges", "statement": "Reversing a set of edges multiplies a block by -1 once per reversed edge with odd symmetry that is not excluded; so reversing the same set twice gives no sign and reversing disjoint sets composes multiplicatively.", "quantifier": "for all symmetry tuples, flag vectors and masks of any rank", "why_tests_cant": "Holds for unbounded rank and every flag pattern.", "anchors": ["include/TAT/symmetry.hpp: get_reverse_parity"]}
{"id": "C04", "title": "Sign of permuting edges", "statement": "The sign of a transpose is the sign of the permutation restricted to the odd edges: identity gives +, and the sign of doing permutation p and then q equals the sign of p on the original order times the sign of q on the permuted order; a transpose followed by its inverse gives +.", "quantifier": "for all ranks, all permutations p,q and all symmetry tuples", "why_tests_cant": "The cocycle law is quantified over all pairs of permutations of every rank.", "anchors": ["include/TAT/symmetry.hpp: get_transpose_parity"]}
{"id": "C05", "title": "Sign of merging and splitting edges", "statement": "The sign applied when merging or splitting is, for each non-excluded group, the sign of fully reversing the order of the edges in the group (the parity of the number of odd-odd pairs), so it is independent of other groups, is + for groups of at most one edge and cancels between merge and split of the same group.", "quantifier": "for all groupings and symmetry tuples whose integer arithmetic does not overflow", "why_tests_cant": "The closed formula ((sum)^2-sum of squares)/2 must agree with pair counting for all integers and lengths.", "anchors": ["include/TAT/symmetry.hpp: get_split_merge_parity"]}
{"id": "C06", "title": "Enumeration of symmetry combinations", "statement": "Enumerating the blocks of a list of edges visits every combination of one symmetry per edge exactly once, in lexicographic order with the last edge fastest, and the position hint handed to the visitor never skips a position whose symmetry changed since the visitor last refreshed its cache.", "quantifier": "for every list of edges (any rank, any number of symmetries per edge, including empty edges and rank 0)", "why_tests_cant": "Odometer correctness with a lazily refreshed cache depends on the whole history of visits.", "anchors": ["include/TAT/edge.hpp: loop_edge"]}
{"id": "C07", "title": "Blocks of a new tensor", "statement": "A newly constructed tensor has a block for a tuple of symmetries exactly when every symmetry belongs to its edge and they sum to zero; each block holds exactly the product of the corresponding dimensions.", "quantifier": "for every list of edges of any rank", "why_tests_cant": "Universally quantified over edges; the incremental size computation must agree with the full product for all enumeration histories.", "anchors": ["include/TAT/edge.hpp: initialize_block_symmetries_with_check", "include/TAT/core.hpp: Core::Core"]}
{"id": "C08", "title": "Edges are pruned to the symmetries in use", "statement": "After construction an edge lists a symmetry exactly when some block uses it, with its original dimension and arrow; constructing again from the pruned edges gives the same edges and the same blocks.", "quantifier": "for every list of edges", "why_tests_cant": "A fixpoint statement over all shapes.", "anchors": ["include/TAT/core.hpp: Core::Core"]}
{"id": "C09", "title": "Name list validation", "statement": "Constructing a tensor from names and edges succeeds exactly when there are as many names as edges and no name occurs twice; otherwise an error is raised.", "quantifier": "for all name lists and ranks", "why_tests_cant": "Must hold for every list of names.", "anchors": ["include/TAT/name.hpp: check_valid_name, construct_name_to_index"]}
{"id": "C10", "title": "Edge-name interning", "statement": "Over any history of creating names, loading a saved name dataset and looking names up, two names compare equal exactly when their strings are equal, converting a name to its string and back gives the same name, identifiers are never reused, and saving and loading the dataset restores every name.", "quantifier": "for all finite histories of name creation and dataset save/load", "why_tests_cant": "State-dependent: a statement about all histories of a global table.", "anchors": ["include/TAT/name.hpp: fast_name_dataset_t, FastName", "include/TAT/io.hpp: operator<, operator> for fast_name_dataset_t"]}
{"id": "C11", "title": "Element addressing is a bijection", "statement": "Within a block, distinct in-range index tuples address distinct elements, every in-range tuple stays inside the block and every element of the block is addressed by some tuple (row-major order).", "quantifier": "for all ranks, dimensions and index tuples", "why_tests_cant": "Unbounded rank and dimensions.", "anchors": ["include/TAT/get_item.hpp: get_block_symmetries_and_offset, get_offset_for_get_item (at, const_at)"]}
{"id": "C12", "title": "Writing an element", "statement": "After writing a value at a position given by edge names, reading that position returns the value and reading any other valid position of any block returns what it held before; positions may be given with names in any order.", "quantifier": "for all tensors, positions and values", "why_tests_cant": "Framing statement over all other positions.", "anchors": ["include/TAT/get_item.hpp: at, const_at, block, const_block"]}
{"id": "C13", "title": "Copy-on-write isolation", "statement": "Copying, renaming or no-op transposing a tensor may share storage, yet a later in-place modification through one handle is never visible through another handle, for any interleaving of copies, renames, destruction and in-place updates.", "quantifier": "for all finite histories of copy, rename, destroy, transform/set/zero/at-write and scale operations on any number of handles", "why_tests_cant": "Aliasing bugs need particular histories; unit tests fix one history.", "anchors": ["include/TAT/tensor.hpp: transform, set, zero, copy, core shared_ptr", "include/TAT/get_item.hpp: block, at", "include/TAT/scalar.hpp: in-place operators", "include/TAT/edge_miscellaneous.hpp: edge_rename"]}
{"id": "C14", "title": "Data transpose moves every element to its place", "statement": "The strided transpose copies, for every index tuple in the box, the source element to the destination address given by the permuted strides (negated if the sign is odd) and writes nothing else.", "quantifier": "for all ranks, permutations, dimensions (including 0 and 1) and strides", "why_tests_cant": "Odometer loops with incremental pointers must be right for unbounded shapes.", "anchors": ["include/TAT/transpose.hpp: tensor_transpose_kernel, simple_transpose, do_transpose, matrix_transpose"]}
{"id": "C15", "title": "Cache-blocked transpose equals simple transpose", "statement": "The choice between the simple and the cache-blocked algorithm, and between copying element by element or in contiguous lines, never changes the result; the stride that is read one position before the array when a single line covers everything does not influence the result.", "quantifier": "for all shapes, strides, permutations, element sizes and cache sizes", "why_tests_cant": "Agreement of two different loop nests on every shape.", "anchors": ["include/TAT/transpose.hpp: simple_transpose, inturn_transpose, do_transpose"]}
{"id": "C16", "title": "Transpose preserves elements by name", "statement": "After transposing a tensor to a new order of names, the element at a position given by name equals the original element at that position times the fermionic exchange sign of the odd edges (no sign for bosonic types); no element is lost or duplicated.", "quantifier": "for every tensor of every symmetry type, every permutation of its names, every position", "why_tests_cant": "All shapes, permutations and block structures.", "anchors": ["include/TAT/edge_operator.hpp: edge_operator", "include/TAT/edge_miscellaneous.hpp: transpose"]}
{"id": "C17", "title": "Transposes compose", "statement": "Transposing to order p and then to order q gives exactly the tensor obtained by transposing directly to q, in particular transposing back restores the original, including all fermionic signs.", "quantifier": "for all tensors and all orders p, q", "why_tests_cant": "Pairs of permutations over all shapes.", "anchors": ["include/TAT/edge_operator.hpp: edge_operator", "include/TAT/edge_miscellaneous.hpp: transpose"]}
{"id": "C18", "title": "Reversing arrows twice is the identity", "statement": "Reversing a set of fermionic edges flips exactly their arrows and multiplies each element by -1 per reversed odd edge (subject to the exclusion options); doing it twice restores the tensor; for bosonic tensors it changes nothing.", "quantifier": "for all tensors, sets of edges and exclusion sets", "why_tests_cant": "All block structures.", "anchors": ["include/TAT/edge_miscellaneous.hpp: reverse_edge", "include/TAT/edge_operator.hpp: edge_operator"]}
{"id": "C19", "title": "Merging is injective and total", "statement": "When edges are merged, the dimension of each merged symmetry is the sum over all tuples of symmetries with that total of the product of dimensions; every combination of positions on the merged edges maps to exactly one position of the merged edge and every position of the merged edge is hit exactly once.", "quantifier": "for all lists of edges merged and all positions", "why_tests_cant": "Offset tables accumulated over an enumeration; overlap would silently corrupt data only for particular shapes.", "anchors": ["include/TAT/edge_operator.hpp: edge_operator (merge offsets)", "include/TAT/edge_miscellaneous.hpp: merge_edge"]}
{"id": "C20", "title": "Merge followed by split restores the tensor", "statement": "Merging a group of edges and then splitting the merged edge back into the same edges restores all elements and signs (up to the order of edges).", "quantifier": "for all tensors and groups of edges with a common arrow", "why_tests_cant": "Round trip over all shapes and symmetries.", "anchors": ["include/TAT/edge_operator.hpp: edge_operator", "include/TAT/edge_miscellaneous.hpp: merge_edge, split_edge"]}
{"id": "C21", "title": "Inconsistent name lists are rejected", "statement": "Transposing (or any edge operation) with a list of target names that is not exactly the set of available names, each once, raises an error and never returns a tensor.", "quantifier": "for all tensors and all target name lists", "why_tests_cant": "Quantified over every wrong list; the shortcut for unchanged names must agree with the general path.", "anchors": ["include/TAT/edge_operator.hpp: is_same_vector, edge_operator"]}
{"id": "C22", "title": "Combined edge operation equals its steps", "statement": "Renaming, splitting, reversing, transposing and merging in one call gives the same tensor as doing the steps one call at a time.", "quantifier": "for all tensors and all consistent arguments", "why_tests_cant": "Product space of five operations over all shapes.", "anchors": ["include/TAT/edge_operator.hpp: edge_operator"]}
{"id": "C23", "title": "Renaming edges", "statement": "Renaming edges keeps the order, shape and every element; the element at a position under the new names equals the element under the old names; unlisted edges keep their names, and names in the rename table that do not occur are ignored.", "quantifier": "for all tensors and rename tables", "why_tests_cant": "All tables and tensors.", "anchors": ["include/TAT/edge_miscellaneous.hpp: edge_rename"]}
{"id": "C24", "title": "Tensor arithmetic is element-wise by name", "statement": "a op b (op in + - * /) for tensors with the same set of names yields, at each position by name, the op of both elements, where a symmetry block present in only one operand counts as zero in the other; the result has the edge order of the left operand.", "quantifier": "for all compatible tensors and positions", "why_tests_cant": "All shapes, orders and block patterns.", "anchors": ["include/TAT/scalar.hpp: TAT_DEFINE_SCALAR_OPERATOR"]}
{"id": "C25", "title": "In-place arithmetic equals out-of-place", "statement": "a op= b leaves a equal to a op b (for operands of equal shape up to edge order), never changes b, and raises an error on different edges; the same for scalars.", "quantifier": "for all tensors and scalars, including when a and b share storage", "why_tests_cant": "Aliased operands and all shapes.", "anchors": ["include/TAT/scalar.hpp: in-place operators"]}
{"id": "C26", "title": "Conjugation is an involution", "statement": "conjugate negates every symmetry of every edge, flips every fermionic arrow, complex-conjugates every element (at the negated symmetries) and applying it twice restores the tensor.", "quantifier": "for all tensors", "why_tests_cant": "All block structures.", "anchors": ["include/TAT/tensor_miscellaneous.hpp: conjugate"]}
{"id": "C27", "title": "Contraction without symmetry is the index sum", "statement": "For tensors without symmetry, contract gives at each position of the remaining edges the sum over the contracted indices of the products, where edges of the same name that are not contracted are kept once and taken element-wise equal (batched); remaining edges come in the documented order: common, then left, then right.", "quantifier": "for all shapes, all sets of contracted name pairs with matching dimensions", "why_tests_cant": "Index bookkeeping over all ranks, orders and dimensions (including 0).", "anchors": ["include/TAT/contract.hpp: contract_with_fuse, gemm_batch"]}
{"id": "C28", "title": "Contraction with symmetry is the block-wise index sum", "statement": "For symmetric tensors, contract gives at every symmetry-allowed position of the remaining edges the sum over all pairs of contracted positions carrying opposite symmetry and equal index, with the fermionic sign.", "quantifier": "for all tensors and sets of contracted pairs", "why_tests_cant": "All block structures; ordering of symmetries inside merged edges matters only for several contracted edges with non-self-inverse symmetries.", "anchors": ["include/TAT/contract.hpp: contract_without_fuse"]}
{"id": "C29", "title": "Contraction precondition errors", "statement": "Contracting with pairs whose names do not occur in the tensors ignores those pairs; for symmetric tensors contracted edges of different dimension for a common symmetry or equal arrows raise an error, and edges left with equal names raise an error.", "quantifier": "for all tensors and pair sets", "why_tests_cant": "All error combinations.", "anchors": ["include/TAT/contract.hpp: contract_without_fuse, find_in_contract_names"]}
{"id": "C30", "title": "Trace is the diagonal sum", "statement": "trace over pairs of edges yields at each position of the remaining edges the sum of the elements with equal indices on each pair (opposite symmetries for symmetric tensors).", "quantifier": "for all tensors and disjoint pair sets with matching dimensions", "why_tests_cant": "All shapes.", "anchors": ["include/TAT/trace.hpp: trace"]}
{"id": "C31", "title": "Scaling along an edge", "statement": "multiple by a singular-value table scales every element by the table entry selected by its position on the named edge; multiplying and dividing by a table of non-zero entries restores the tensor; an absent edge leaves the tensor unchanged.", "quantifier": "for all tensors, edges and tables", "why_tests_cant": "All ranks and edge positions (strides).", "anchors": ["include/TAT/tensor_miscellaneous.hpp: multiple"]}
{"id": "C32", "title": "Shrink selects a slice", "statement": "shrink with fixed positions for some edges returns the sub-tensor of those positions over the remaining edges (plus an optional edge carrying the removed symmetry).", "quantifier": "for all tensors and configurations", "why_tests_cant": "All shapes and configurations.", "anchors": ["include/TAT/shrink_and_expand.hpp: shrink"]}
{"id": "C33", "title": "Expand places the tensor into a slice", "statement": "expand with fixed positions for new edges returns a tensor that equals the original at those positions and is zero elsewhere; shrink of the result with the same positions returns the original.", "quantifier": "for all tensors and configurations, in particular with nonzero symmetry on the new edges", "why_tests_cant": "All shapes and configurations.", "anchors": ["include/TAT/shrink_and_expand.hpp: expand"]}
{"id": "C34", "title": "Singular value truncation keeps the largest", "statement": "svd with a cut of k keeps exactly min(k, total) singular values, none of the dropped ones exceeds any kept one, within each symmetry sector a prefix of the descending list is kept, and sectors with nothing kept disappear.", "quantifier": "for all lists of sectors with descending positive singular values and all k", "why_tests_cant": "Greedy selection over arbitrarily many sectors with ties.", "anchors": ["include/TAT/svd.hpp: svd (cut)"]}
{"id": "C35", "title": "SVD reconstructs the tensor", "statement": "Contracting U, the singular values and V returned by svd without a cut gives back the tensor, with the chosen edges on the correct factor, given that the matrix routine factorises each matrix block.", "quantifier": "for all tensors and choices of free edges, for every conforming matrix routine", "why_tests_cant": "All shapes and block structures; floating point aside.", "anchors": ["include/TAT/svd.hpp: svd"]}
{"id": "C36", "title": "QR reconstructs the tensor", "statement": "Contracting Q and R returned by qr gives back the tensor, the chosen edges are on the requested factor, and the new edges have dimension min(m,n) per sector, given that the matrix routine factorises each block.", "quantifier": "for all tensors and edge choices", "why_tests_cant": "All shapes and block structures; floating point aside.", "anchors": ["include/TAT/qr.hpp: qr, calculate_qr"]}
{"id": "C37", "title": "Identity tensor", "statement": "identity with pairs of edges gives one where each pair has opposite symmetries and equal indices and zero elsewhere, so contracting a tensor with it over one side returns the tensor.", "quantifier": "for all tensors and pairings", "why_tests_cant": "All shapes, ranks and sector structures.", "anchors": ["include/TAT/tensor_miscellaneous.hpp: identity, set_to_identity"]}
{"id": "C38", "title": "Binary dump and load", "statement": "Loading a binary dump yields a tensor with equal names, edges (with arrows) and blocks, leaves the stream exactly after the dump, and a sequence of dumps is read back in order.", "quantifier": "for all tensors of each scalar and symmetry type, and all following bytes", "why_tests_cant": "All contents of the stream and all shapes; concatenation property.", "anchors": ["include/TAT/io.hpp: operator<, operator>, dump, load"]}
{"id": "C39", "title": "Text output can be read back", "statement": "Reading the text written for a tensor yields an equal tensor when scalars are printed exactly, with names and numbers delimited correctly, for every valid name.", "quantifier": "for all tensors with valid names", "why_tests_cant": "All names, shapes and numbers, including signs, emptiness and colour codes.", "anchors": ["include/TAT/io.hpp: text operators, scan_complex, scan_string_for_name"]}
{"id": "C40", "title": "Lazy nodes return up-to-date values", "statement": "After any history of creating roots, nodes and paths, setting and resetting roots and reading values, get on a node returns the value of its function applied to the current values of its arguments.", "quantifier": "for all finite histories and all acyclic dependency graphs", "why_tests_cant": "Cache invalidation over all histories.", "anchors": ["include/lazy.hpp: root, node, path, unset, Node, Root, Path"]}
{"id": "C41", "title": "Snapshots restore lazy graphs", "statement": "Loading a snapshot restores the value every recorded root and node had when it was taken, so reads of recorded nodes afterwards return the values valid at snapshot time.", "quantifier": "for all histories between taking and loading the snapshot", "why_tests_cant": "All histories; nodes created after the snapshot are the difficult case.", "anchors": ["include/lazy.hpp: Graph::dump, Graph::load"]}
{"id": "C42", "title": "Broadcast reaches every process", "statement": "broadcast finishes on every process with the value of the chosen root process, each non-root process receives exactly once, for any number of processes and any root and under any message schedule.", "quantifier": "for all process counts, roots and schedules", "why_tests_cant": "Deadlock and delivery under all schedules and sizes.", "anchors": ["include/TAT/mpi.hpp: broadcast"]}
{"id": "C43", "title": "Reduce combines every process once", "statement": "reduce delivers at the root the combination of the values of all processes, each exactly once (in rank order rotated to the root for a non-commutative function), for any number of processes and any schedule.", "quantifier": "for all process counts, roots, associative functions and schedules", "why_tests_cant": "All sizes and schedules.", "anchors": ["include/TAT/mpi.hpp: reduce"]}
{"id": "C44", "title": "Arena allocator hands out disjoint memory", "statement": "Blocks handed out by the monotonic resource between resets are inside a live buffer, correctly aligned and pairwise disjoint, for every sequence of allocations; releasing frees every upstream buffer exactly once.", "quantifier": "for all request sequences (sizes, alignments up to the platform maximum)", "why_tests_cant": "Safety over all allocation histories including address arithmetic limits.", "anchors": ["include/TAT/pmr_resource.hpp: monotonic_buffer_resource"]}
{"id": "C45", "title": "Default memory resource is restored", "statement": "After a scope using a scoped memory resource ends, normally or by exception, the default resource is the one that was current before, for any nesting of scopes.", "quantifier": "for all properly nested sequences of scopes", "why_tests_cant": "All nestings.", "anchors": ["include/TAT/pmr_resource.hpp: scope_resource, get_default_resource, set_default_resource"]}
{"id": "C46", "title": "Timer accounting", "statement": "Each nested timed region adds its elapsed time to its own total, and time in inner timed regions is not counted in the self time of the outer one; the self times of all regions add up to the time of the outermost regions.", "quantifier": "for all well nested sequences of timed regions and clock readings", "why_tests_cant": "All nestings and recursion patterns.", "anchors": ["include/TAT/timer.hpp: timer guards"]}
{"id": "C47", "title": "Dispatch to compile-time constants keeps the value", "statement": "Turning a run-time integer into a compile-time constant within a range and visiting it calls the function with exactly that value, and falls back to the run-time value outside the range.", "quantifier": "for all values and ranges", "why_tests_cant": "All values.", "anchors": ["include/TAT/const_integral.hpp: to_const_integral"]}
{"id": "C48", "title": "Norms", "statement": "The p-norm functions combine every stored element exactly once: norm<-1> is the maximum modulus, norm<0> counts the elements, and other orders are the root of the sum of powers; norms do not depend on edge order or fermionic signs.", "quantifier": "for all tensors", "why_tests_cant": "All shapes and orders.", "anchors": ["include/TAT/tensor.hpp: norm"]}
{"id": "C49", "title": "Automatic arrow assignment", "statement": "Constructing a fermionic tensor with automatic reversal flips the arrow of exactly those edges having a symmetry with negative fermion number; an arrow is meaningful exactly when some fermion number is non-zero.", "quantifier": "for all edge lists", "why_tests_cant": "All symmetry sets.", "anchors": ["include/TAT/edge.hpp: possible_reverse, arrow_valid", "include/TAT/core.hpp: Core::Core"]}
{"id": "C50", "title": "Whole-tensor element maps", "statement": "map/transform/set/zero/to visit every stored element exactly once in block order and keep shape and names; transforming with f then g equals transforming with g after f; conversion keeps every element.", "quantifier": "for all tensors and functions", "why_tests_cant": "All shapes; quantified over functions.", "anchors": ["include/TAT/tensor.hpp: map, transform, set, zero, test, to"]}
{"id": "C51", "title": "SVD with a cut is a restriction", "statement": "svd with a cut returns the factors it returns without one, restricted on the common edge to the kept singular values: as many as demanded, in every sector the first ones, none dropped exceeding one kept; elements at the remaining positions are unchanged and the common edges of both factors have the dimensions of the table.", "quantifier": "for all tensors, edge choices and cuts, for every conforming matrix routine with descending values", "why_tests_cant": "All shapes, block structures and value patterns; the cut is chosen across sectors.", "anchors": ["include/TAT/svd.hpp: svd"]}
{"id": "C52", "title": "Matrix exponential is the Pad\u00e9 approximant", "statement": "matrix_exponential computes, for a matrix scaled by a power of two, the diagonal Pad\u00e9 approximant of the exponential of the demanded order and squares it back: the denominator polynomial times the result before squaring is the numerator polynomial. The approximant agrees with the exponential series up to order 2q, and the result is exactly the exponential for matrices with a vanishing power not above 2q+1.", "quantifier": "for all matrices, orders and conforming BLAS/LAPACK routines over a field of characteristic zero", "why_tests_cant": "A test compares floating point results on a few matrices; the order of the approximation and the coefficients are statements about all matrices.", "anchors": ["include/TAT/exponential.hpp: matrix_exponential"]}
{"id": "C53", "title": "Tensor exponential acts on every sector", "statement": "exponential returns a tensor with the given pairs as its edges, in which the matrix of every symmetry sector, read with the rows of the sector as columns through the pairs, is the exponential (Pad\u00e9 approximant) of the matrix of the given tensor in this sector.", "quantifier": "for all tensors, symmetries, pairings and orders", "why_tests_cant": "All block structures, edge orders and signs of fermionic reorderings.", "anchors": ["include/TAT/exponential.hpp: exponential"]}
{"id": "C54", "title": "Ergodic enumeration of spin configurations", "statement": "Decoding the counters 0, 1, \u2026, total-1 with _ergodic_spin visits every spin configuration of the lattice exactly once.", "quantifier": "for all lattices and physical dimensions", "why_tests_cant": "All lattices and dimensions.", "anchors": ["include/square/sampling_gradient_lattice.hpp: _ergodic_spin, ergodic"]}
{"id": "C55", "title": "Element tables of operators", "statement": "The tables of non-zero elements and of hoppings list, for every input configuration, exactly the output configurations with a non-zero element, each once with its value; rows without such are absent; cached tables are those of the tensor they were made from.", "quantifier": "for all operators with any number of sites and any dimensions", "why_tests_cant": "All operators, dimensions and numbers of sites.", "anchors": ["include/square/sampling_gradient_lattice.hpp: _find_element, _find_hopping_element"]}
{"id": "C56", "title": "Ergodic observation computes the expectation value", "statement": "Running over all configurations with weights |psi|^2 and summing the ratios of amplitudes gives <psi|H|psi>/<psi|psi>.", "quantifier": "for all lattices, amplitudes without zeros and operators, real or complex", "why_tests_cant": "Quantified over amplitudes and operators.", "anchors": ["include/square/sampling_gradient_lattice.hpp: ergodic, spin_t::operator()"]}
{"id": "C57", "title": "Markov chain samples the squared amplitude", "statement": "Each hopping of the Markov chain satisfies detailed balance for |psi|^2, so that this weight is stationary for every term and for whole sweeps, and the estimator of an observable has the expectation value as its mean in the stationary distribution.", "quantifier": "for all lattices, amplitudes and symmetric operators, real or complex", "why_tests_cant": "A statement about probabilities over all random draws.", "anchors": ["include/square/sampling_gradient_lattice.hpp: markov, equilibrate, _markov_spin, _markov_single_term"]}
{"id": "C58", "title": "Every term of the Hamiltonian is used exactly once", "statement": "The sequence of the Markov sampling and the groups of the simple update contain every term exactly once or the function throws; terms of one group share no site.", "quantifier": "for all sets of terms and lattice sizes", "why_tests_cant": "All Hamiltonians.", "anchors": ["include/square/sampling_gradient_lattice.hpp: _markov_sampling_positions_sequence", "include/square/simple_update_lattice.hpp: _simple_update_positions_sequence"]}
{"id": "C59", "title": "Parallel simple update equals the sequential one", "statement": "On any number of processes the simple update leaves all processes with the lattice which one process gets by applying one term after the other.", "quantifier": "for all numbers of processes, Hamiltonians, numbers of steps and updates of tensors", "why_tests_cant": "All numbers of processes and all interleavings within a group.", "anchors": ["include/square/simple_update_lattice.hpp: update, _single_group_simple_update, _single_term_simple_update, _get_related_environment"]}
{"id": "C60", "title": "Dumps of lattices are read back", "statement": "Writing a lattice in binary and reading it gives the same lattice: sizes, dimensions, site tensors, environments, spins and state vector are equal, every term has the same operator, and two terms share one operator afterwards exactly if they did before.", "quantifier": "for all lattices, numbers of terms and ways of sharing operators, for all four kinds of lattice, with any bytes following", "why_tests_cant": "Quantified over lattices and over aliasing patterns between terms.", "anchors": ["include/square/abstract_lattice.hpp: operator<, operator>", "include/square/abstract_network_lattice.hpp: operator<, operator>", "include/square/simple_update_lattice.hpp: operator<, operator>", "include/square/sampling_gradient_lattice.hpp: operator<, operator>, initialize_spin", "include/square/exact_lattice.hpp: operator<, operator>"]}
{"id": "C61", "title": "Exact lattice: power iteration and observation", "statement": "The constructor of the exact lattice gives a state vector whose largest modulus is one; n steps of update replace the state psi by (a-H)^n psi divided by its largest modulus, where H is the sum of all terms acting on their sites, and return a minus the ratio of the last two moduli per site, so an eigenstate of energy E below a gives E; denominator, observe and observe_energy are the sums over all spin configurations.", "quantifier": "for all lattice sizes, dimensions, sets of terms on any number of distinct sites, operators, states and numbers of steps", "why_tests_cant": "Quantified over lattices, operators, states and steps; the renaming of edges per term must be right for any positions.", "anchors": ["include/square/exact_lattice.hpp: ExactLattice, update, denominator, observe, observe_energy"]}
{"id": "C62", "title": "Auxiliary tensors compute the value of the network", "statement": "If the dimension cut of the auxiliaries is large enough, or there is none, the call without replacement gives the sum over all indices of the edges of the product of all sites; with one replaced tensor, or two replaced neighbours in a row or column, it gives this number for the lattice with the replacements, whichever hint is given; with a hole it gives the tensor with the edges of the site whose contraction with any tensor is this number; other positions and other numbers of replacements are refused.", "quantifier": "for all lattice sizes, dimensions of edges, tensors, positions and hints", "why_tests_cant": "Quantified over lattices and tensors; the sweeps in four directions with renamed edges, QR and SVD must fit together for every size.", "anchors": ["include/square/auxiliaries_system.hpp: SquareAuxiliariesSystem, operator(), _two_line_to_one_line, _collect_line"]}
{"id": "C63", "title": "Conversions between lattices keep the state", "statement": "The sampling lattice made from the lattice of a simple update, the exact lattice made from either, and the simple update lattice made from a sampling lattice have the same amplitude for every configuration up to one factor which is not zero; if all amplitudes vanish the code divides by zero.", "quantifier": "for all lattice sizes, dimensions of edges and of spins, tensors and environments", "why_tests_cant": "Quantified over lattices, tensors and environments; names with numbers must not collide and the environments must be attached once per edge.", "anchors": ["include/square/conversion.hpp: SamplingGradientLattice(SimpleUpdateLattice), SimpleUpdateLattice(SamplingGradientLattice), ExactLattice(SamplingGradientLattice), ExactLattice(SimpleUpdateLattice)", "include/square/simple_update_lattice.hpp: try_multiple"]}
{"id": "C64", "title": "The auxiliaries sample the state of the network", "statement": "Setting spins in any order leaves the auxiliaries with the slices of the spins set last; without cutting, the value of a configuration, and the value with spins replaced, is the sum over all indices of the products of the elements of the tensors at these spins; so ergodic observation gives the expectation value in this state and the Markov chain is the one for its squared amplitude.", "quantifier": "for all lattice sizes, dimensions, tensors, sequences of settings, replacements, operators and random numbers", "why_tests_cant": "Quantified over lattices, tensors and histories of settings; an auxiliary kept after a change or a replacement at a wrong site only shows for some histories.", "anchors": ["include/square/sampling_gradient_lattice.hpp: SpinConfiguration, ergodic, _ergodic_spin, _markov_spin, _markov_single_term", "include/square/auxiliaries_system.hpp: SquareAuxiliariesSystem"]}
{"id": "C65", "title": "The simple update applies the terms to the state", "statement": "Without truncation, updating a term multiplies the state of the lattice (the sum over all indices with the environments) by the operator of the term, exactly for one site and up to one non-zero factor for a bond; a whole update, on any number of processes, multiplies it by all operators in the sequence of the groups. This fails only by a division by zero, which happens if an environment around the bond has a zero or the operators annihilate the state.", "quantifier": "for all lattice sizes, dimensions, tensors, environments, operators, sequences of terms and numbers of processes", "why_tests_cant": "Quantified over lattices, tensors and sequences; an environment attached or removed at the wrong edge gives a plausible lattice with wrong amplitudes.", "anchors": ["include/square/simple_update_lattice.hpp: update, _single_term_simple_update, _single_term_simple_update_single_site, _single_term_simple_update_horizontal_bond, _single_term_simple_update_vertical_bond, try_multiple", "include/square/conversion.hpp: ExactLattice(SimpleUpdateLattice)"]}
{"id": "C66", "title": "The simple update with a cut keeps the first indices of the edge", "statement": "With a dimension D that cuts, updating a bond gives, up to one non-zero factor, the state of the untruncated result with the sum over the edge of the bond restricted to its first D indices; if the singular values beyond D vanish this is the state multiplied with the operator. After any sequence of terms, on any number of processes, the tensors and environments fit together, the edge of every term has a dimension of at most D, and no other edge has changed; or the lattice is spoiled by a division by zero.", "quantifier": "for all lattice sizes, dimensions, tensors, environments, operators, sequences of terms, numbers of processes and dimensions of at least one", "why_tests_cant": "Quantified over lattices, tensors, cuts and sequences; a cut of only one of the two factors or of the wrong indices gives plausible lattices.", "anchors": ["include/square/simple_update_lattice.hpp: update, _single_term_simple_update, _single_term_simple_update_horizontal_bond, _single_term_simple_update_vertical_bond, try_multiple", "include/TAT/svd.hpp: svd (cut)"]}
{"id": "C67", "title": "The gradient of the sampling is the derivative of the energy", "statement": "Without truncation, if markov returns then the configurations after its steps are those of the Markov chain, its results are the means of the local values of the observables over them, the second results are the sums of the squared deviations divided by n(n-1), and the gradient of every site has the edges of the site and its inner product with any tensor d of that shape is 2<conj(E) w_d/w> - 2 conj<E> <w_d/w>, with the local energy E, the amplitude w, the amplitude w_d of the network with d at the site and the mean < > over the visited configurations. If the frequencies of the configurations tend to the squares of the amplitudes, the real part of this tends to the derivative of the energy along d, for a hermitian hamiltonian and nonzero amplitudes.", "quantifier": "for all lattice sizes, dimensions, tensors, observables, hamiltonians, random numbers, numbers of steps, sites and directions", "why_tests_cant": "Quantified over networks, directions and executions; the gradient is a random estimate, so a test can only compare it with a finite difference up to statistical errors, and a missing conjugation does not show for real scalars.", "anchors": ["include/square/sampling_gradient_lattice.hpp: markov, _markov_spin", "include/TAT/tensor_miscellaneous.hpp: conjugate", "include/TAT/shrink_and_expand.hpp: expand"]}
{"id": "C68", "title": "A new lattice is a network and the setters give every bond one term", "statement": "A new lattice of tensors has at every site a tensor with the edge P of dimension d and one edge of dimension D for every neighbour, in the order P, U, L, D, R, filled with the random numbers divided by the largest modulus, so that neighbouring tensors fit together; the construction fails exactly if all random numbers of a site are zero. Without environments its amplitudes are those of the network of its tensors. After any calls of set_all_site, set_all_vertical_bond and set_all_horizontal_bond the term of a site or bond is that of the last call which covers it, no site or bond has two terms, and the sequences of the sampling and of the update exist.", "quantifier": "for all M, N, D, d, random numbers, sequences of calls of the setters and tensors", "why_tests_cant": "Quantified over sizes, numbers and call sequences; the edges differ at the borders and corners, and an index shifted by one only shows at some borders of some sizes.", "anchors": ["include/square/abstract_network_lattice.hpp: AbstractNetworkLattice(int, int, Size, Size)", "include/square/abstract_lattice.hpp: set_all_site, set_all_vertical_bond, set_all_horizontal_bond"]}
{"id": "C69", "title": "The spin operators and the Heisenberg term", "statement": "Sx, Sy and Sz are operators on one spin with the matrices of Pauli divided by two, where Sy is transposed if the edges I are the input; their squares are a quarter, and the commutators from I to O have the sign opposite to that of spins. SS is an operator on two spins which on every pair of different sites of every lattice acts as half of the exchange of the two spins minus a quarter.", "quantifier": "for all name types, fields with a square root of -1, lattices, pairs of sites and states", "why_tests_cant": "Quantified over states and lattices; a sign in Sy or a wrong pairing of the edges of the product does not change the shape, and a test on one energy checks one number.", "anchors": ["include/square/basic.hpp: Common::Sx, Sy, Sz, SxSx, SySy, SzSz, SS"]}
{"id": "C70", "title": "The orthogonal factors are isometries", "statement": "The factor of a QR decomposition which takes the direction 'q', and both factors U and V of a singular value decomposition with any cut, are isometries: the product of the factor with its complex conjugate, summed over all edges but the new one, is the unit matrix of the new edge.", "quantifier": "for all symmetries including fermionic ones, ranks, orders of edges, choices of edges, directions, cuts and tensors", "why_tests_cant": "Quantified over tensors and block structures; a block transposed twice or a sign depending on the free edges keeps the product of the factors and only breaks the orthogonality of some blocks.", "anchors": ["include/TAT/qr.hpp: qr, calculate_qr, calculate_qr_kernel", "include/TAT/svd.hpp: svd, calculate_svd, calculate_svd_kernel"]}
{"id": "C71", "title": "The singular values have the norm of the tensor and a cut loses what it drops", "statement": "The sum of the squares of all elements of a tensor is the sum of the squares of its singular values. After a decomposition with a cut, the distance between the tensor and the product of U, the remaining singular values and V has as its square the sum of the squares of the singular values dropped.", "quantifier": "for all symmetries including fermionic ones, ranks, orders of edges, choices of edges, cuts for which there are enough positive values, and tensors", "why_tests_cant": "An exact statement about every tensor; a cut which drops a wrong value in one sector gives a slightly worse approximation, which a tolerance hides.", "anchors": ["include/TAT/svd.hpp: svd, calculate_svd", "include/TAT/contract.hpp: contract", "include/TAT/tensor_miscellaneous.hpp: multiple"]}
{"id": "C72", "title": "A decomposition with a cut is the best approximation", "statement": "After a singular value decomposition with a cut, no sum of at most as many products of a function of the edges of U and a function of the edges of V, with or without symmetry, is nearer to the tensor than the product of U, the remaining singular values and V.", "quantifier": "for all symmetries including fermionic ones, ranks, orders of edges, choices of edges, cuts for which there are enough positive values, tensors over the real or complex numbers and other approximations", "why_tests_cant": "Quantified over all approximations; a choice of values which is the best in every sector but not over all of them is only worse for some spectra.", "anchors": ["include/TAT/svd.hpp: svd, the choice of the values after a cut", "include/TAT/contract.hpp: contract", "include/TAT/tensor_miscellaneous.hpp: multiple"]}
{"id": "C73", "title": "Laws of contraction", "statement": "Where contractions succeed on tensors to which the description of their result applies (the sectors of the contracted edges do not collide when they are merged; always so with one edge between two tensors), the order of two contractions in a chain of three tensors does not matter; exchanging the arguments transposes the result; transposing the arguments transposes the result; reversing contracted edges on both sides, with the sign on one of them, changes nothing. Without fermions and with one edge between neighbours, or without symmetry, matching edges suffice for both orders to succeed; in general one order may throw while the other does not.", "quantifier": "for all symmetries including fermionic ones, ranks, orders of edges, sets of contracted edges, dimensions, sectors and tensors", "why_tests_cant": "Equations between compositions of calls over all block structures; a sign or a pruned sector wrong in one of the orders appears only for particular parities and sectors.", "anchors": ["include/TAT/contract.hpp: contract, contract_without_fuse", "include/TAT/edge_operator.hpp: edge_operator", "include/TAT/transpose.hpp: transpose"]}
{"id": "C74", "title": "Laws of the trace", "statement": "Tracing a contraction over pairs of edges, one of each tensor, is contracting these edges as well; tracing a trace is tracing all the pairs at once; tracing a transposed tensor transposes the trace; the trace of a product does not depend on the order of the factors up to a transposition of the edges left, when what is contracted in one order is traced in the other. Traces over one pair after the other compute the sum over the diagonals of all pairs, and contracting one edge and tracing the others one after the other computes the contraction of all of them, for any number of pairs and without the restriction on sectors that one call needs.", "quantifier": "for all symmetries including fermionic ones, ranks, orders of edges, numbers of pairs, dimensions, sectors and tensors", "why_tests_cant": "Equations between compositions of calls over all block structures; the fermionic sign of each depends on the parities, arrows and places of all the edges.", "anchors": ["include/TAT/trace.hpp: trace", "include/TAT/contract.hpp: contract", "include/TAT/transpose.hpp: transpose"]}
{"id": "C75", "title": "The means of the Markov chain tend to the expectation values", "statement": "A step of markov and equilibrate is a sweep through all terms of the hamiltonian and back. After many steps the probability of a configuration tends to the square of the absolute value of its amplitude, normalised over the configurations which the chain can reach, and the means of the local values of an observable tend to its expectation value in the state, with a mean square deviation of at most a constant over the number of steps. equilibrate leaves the spins in the last configuration of the chain. Configurations joined by hoppings are reached.", "quantifier": "for all sizes of the lattice, numbers of spin states, amplitudes, hermitian terms on sites and neighbours, observables, starting configurations and numbers of steps; probabilities over independent uniform draws", "why_tests_cant": "A statement about limits and about the probability of all sequences of random numbers; a test sees one sequence of one length, and cannot tell slow convergence from convergence to something else.", "anchors": ["include/square/sampling_gradient_lattice.hpp: markov, equilibrate, _markov_spin, _markov_single_term"]}
{"id": "C76", "title": "Contraction and trace are linear and commute with conjugation", "statement": "Contracting the sum or difference of two tensors with a third is the sum or difference of the contractions, on either side; contracting multiples of tensors is the product of the factors times the contraction; contracting the conjugates of two tensors is the conjugate of the contraction. The same holds for traces. For tensors without symmetry all calls succeed.", "quantifier": "for all symmetries including fermionic ones, ranks, orders of edges (the summands may have theirs in different orders), contracted edges, sectors, dimensions, factors and tensors", "why_tests_cant": "Equations between compositions of calls over all block structures; the signs of a conjugation, of a transposition inside a sum and of a contraction have to cancel for all parities, arrows and places of edges.", "anchors": ["include/TAT/contract.hpp: contract", "include/TAT/trace.hpp: trace", "include/TAT/tensor_miscellaneous.hpp: conjugate", "include/TAT/scalar.hpp: TAT_DEFINE_SCALAR_OPERATOR"]}
{"id": "C77", "title": "Contracting a tensor with its conjugate gives the square of its norm", "statement": "contract_all_edge() without argument contracts all edges of a tensor with those of its conjugate. The result has no edges and its only element is the sum of the squares of the absolute values of all elements of the tensor, the square of what norm<2>() returns.", "quantifier": "for all symmetries including fermionic ones, ranks, arrows, sectors, dimensions and elements", "why_tests_cant": "The pairing of blocks with blocks of the conjugate and the signs depend on the order of all symmetries, on parities and on arrows; a test with one block, with one edge or without symmetry does not see them.", "anchors": ["include/TAT/tensor.hpp: contract_all_edge, norm", "include/TAT/contract.hpp: contract", "include/TAT/tensor_miscellaneous.hpp: conjugate"]}
{"id": "C78", "title": "Processes split their random numbers and agree again afterwards", "statement": "random::seed with the same argument on all processes leaves all of them with the same engine. From engines which are the same, split_seed gives every process an engine of its own, different from those of all others, and after merge_seed (so also after markov) all processes have the same engine again, whatever they did in between.", "quantifier": "for all engines, seeds, numbers of processes, numbers drawn between the calls", "why_tests_cant": "Which common numbers make two of many processes share an engine depends on the modulus of the engine and on the wrap of the 32-bit sum; a random run meets one of them with a chance of about one in a billion per process.", "anchors": ["include/square/basic.hpp: random::get_seed, seed, split_seed, merge_seed", "include/square/sampling_gradient_lattice.hpp: markov"]}
{"id": "C79", "title": "A block view in Python shows the elements of the tensor in the order asked for", "statement": "tensor.block[position] is a strided view of one block. For a position given as a map the axes are the edges in the order of the tensor, for a list they are the edges in the order of the list. Reading or writing the view at an index reads or writes the element of the tensor with the same names, symmetries and indices; different indices are different elements and no index leads outside the block. A position that does not describe a block is refused.", "quantifier": "for all tensors, symmetries, scalar sizes, positions, indices", "why_tests_cant": "Which byte an index addresses depends on rank, dimensions and order of the axes; tests use a few small tensors, and reading past a short list or outside a block need not crash.", "anchors": ["PyTAT/PyTAT.cpp: def_buffer of unordered_block_of_tensor and ordered_block_of_tensor, generate_vector_of_name_and_symmetry", "include/TAT/get_item.hpp: Tensor::block"]}
{"id": "C80", "title": "A text selects the tensor class its words ask for", "statement": "TAT(...) returns a tensor class exactly when the text of its arguments asks for one scalar type, one symmetry, and fermions or not; it then is a declared class, every declared class can be selected, and contradicting or missing words are refused. When a class is selected, Tensor.to with the same text converts to the scalar type of that class.", "quantifier": "for all texts", "why_tests_cant": "The words are looked up anywhere in an arbitrary text and contain each other (float in float32), so the cases interact in ways a list of test words does not cover.", "anchors": ["PyTAT/PyTAT.cpp: hub, to, declare_tensor"]}
{"id": "C81", "title": "Sampling after a step of gradient descent uses the changed lattice", "statement": "A step of gradient descent replaces every tensor by its difference with the step size times the gradient, divided by its largest modulus, and keeps the edges. After any history of setting spins and changing the tensors of a sampling lattice, if nothing is cut, the value of the configuration and the values of hoppings are amplitudes of the lattice as it is now.", "quantifier": "for all lattices, histories of set and of assignments to the tensors, configurations, gradients, step sizes", "why_tests_cant": "The cached slices are replaced one by one as spins flip, so a run still produces plausible energies; the error depends on which spins have flipped since each step of the descent.", "anchors": ["examples/heisenberg.cpp: command gradient", "include/square/sampling_gradient_lattice.hpp: SpinConfiguration::set, operator(), initialize_spin, set_dimension_cut"]}
{"id": "C82", "title": "A block view kept by a Python program shows and changes its tensor only", "statement": "A view `tensor.block[...]` keeps its tensor alive. As long as the view is alive, it shows the elements the tensor has now, a write through it changes this tensor and no other, and neither reads nor writes through it touch freed memory, whatever the program does meanwhile. An assignment `tensor.block[...] = x` changes this tensor and no other.", "quantifier": "for all histories of library calls, of taking, writing and deleting views, and of deleting names, for all numbers of tensors and views", "why_tests_cant": "Tensors share their data until one is changed, so whether a view still belongs to its tensor depends on the order of copies, renames and changes; reading freed memory usually still gives the old numbers.", "anchors": ["PyTAT/PyTAT.cpp: try_get_numpy_array, try_set_numpy_array, unordered_block_of_tensor, ordered_block_of_tensor, def_buffer", "include/TAT/get_item.hpp: Tensor::block", "include/TAT/tensor.hpp: core"]}
{"id": "C83", "title": "Contraction and trace do not depend on when scalars are converted", "statement": "Contracting two tensors with different scalars (real and complex, say) succeeds exactly where the contraction of the converted tensors does and gives the converted result of any other order of conversions: real tensors contracted and then made complex are the contraction of the complex ones, whichever of the two was converted, and a part (real or imaginary) of the contraction of a real with a complex tensor is the contraction with that part. The trace commutes with every additive conversion.", "quantifier": "for all well-formed tensors, symmetries, scalars, edges contracted or traced, and conversions that are additive and take products to products", "why_tests_cant": "Tests contract tensors of one scalar type, or compare one pair of types; signs, sectors and orders of sums are those of the conversion-free case only because the numbers never decide anything.", "anchors": ["include/TAT/tensor.hpp: Tensor::contract (two scalars), Tensor::to", "include/TAT/contract.hpp: Tensor::contract", "include/TAT/trace.hpp: Tensor::trace"]}
{"id": "C84", "title": "The energy of a matrix product state is that of the state", "statement": "For a chain of tensors of any length, with any bonds and any two-site Hamiltonian, the number that energy in the matrix product example calculates with its left and right parts is the sum over all bonds of the expectation value of the Hamiltonian at the two sites, divided by the square of the norm and by the number of sites. It depends on the amplitudes of the state alone, up to a factor, not on the tensors which represent it; a Hamiltonian that multiplies by a number contributes that number for every bond; and what the constructor makes for two sites or more is such a chain.", "quantifier": "for all chains of n >= 1 tensors with matching bonds, physical dimensions, orders of edges, Hamiltonians and fields of scalars", "why_tests_cant": "The recorded output has the energies of one chain of one length; an exchange of the two sides, a bond left out at an end, or a Hamiltonian applied to exchanged sites goes unnoticed for the symmetric Hamiltonian of the program.", "anchors": ["examples/mps.cpp: MPS::energy, MPS::MPS", "include/TAT/contract.hpp: Tensor::contract", "include/TAT/tensor.hpp: Tensor::edge_rename"]}
{"id": "C85", "title": "Updating a matrix product state applies the operator to every bond, in both directions", "statement": "If no singular value is cut, update_once of the matrix product example turns a chain into a chain of the same length whose state is, up to a factor, the old state with the operator applied to all bonds from the left to the right and then to all bonds from the right to the left, each time with its first site on the left as in energy. update does this any number of times with 1 - delta_t * H, where H is the Hamiltonian which was given to the constructor. A bond dimension of d^(n-1) suffices for nothing to be cut. If a tensor becomes zero on the way, the state to be reached is zero. With any other dimension but zero the result is a chain of the same length in which no bond is above the dimension.", "quantifier": "for all chains of n >= 1 tensors with matching bonds, physical dimensions, operators, numbers of steps, singular value decompositions and fields of scalars", "why_tests_cant": "The recorded output has one chain and one Hamiltonian which is symmetric under the exchange of its sites, and floating point noise hides which factor is left where.", "anchors": ["examples/mps.cpp: MPS::update_once, MPS::update, MPS::MPS", "include/TAT/svd.hpp: Tensor::svd", "include/TAT/multiple.hpp: Tensor::multiple"]}
{"id": "C86", "title": "A lattice contracted row by row gives the value of the lattice", "statement": "For a lattice of tensors of any size with open boundaries, get_exact of the example is the sum over the indices of all edges of the product of the elements of all tensors. contract_with_two_line_to_one_line gives the same number if no singular value is cut, and so does every choice of the cut that is large enough. two_line_to_one_line, with any names for the four directions, turns two rows into one row which stands for their product: the sum over the indices between them. With any cut but zero the result is a row with the same edges below it and no bond above the cut, and the contraction gives a number. Rows of different lengths are an error. The constructor makes such a lattice, with an edge of the given dimension between all neighbours and none at the border, and fills it in the order of the sites.", "quantifier": "for all lattices of L x L tensors, L >= 0, with matching edges of any dimensions in any order, rows of any length, cuts, singular value decompositions, generators and fields of scalars", "why_tests_cant": "The recorded output has one lattice of four rows, printed with a few digits, and the approximation by the cut hides an error in one of its many steps; that the result does not depend on the decomposition which LAPACK chooses cannot be tested.", "anchors": ["examples/tools.hpp: two_line_to_one_line", "examples/OBC.cpp: PBC::get_exact, PBC::contract_with_two_line_to_one_line, PBC::PBC", "include/TAT/svd.hpp: Tensor::svd"]}
{"id": "C87", "title": "The example with one tensor for all sites evolves the state and measures its energy", "statement": "For any number of sites and any list of links of two different sites, update of the example applies 1 - delta_t h to all links in the order of the list, n times: the amplitudes of the result are those of this state multiplied with one factor which is not zero, for which the largest modulus is one, and the amplitudes whose modulus is not above the threshold are zero. If the state becomes zero on the way so is the state which should be reached, and only then is there a division by zero. energy is the product of the state with the sum of h over all links applied to it, divided by the product of the state with itself. It does not depend on the order of the edges, which every link changes. create_vector and set_state give one amplitude for every configuration, in the order in which the generator is called. The first call of set_h gives the operator in the list; its counter is static, and a second call reads after the end of the list.", "quantifier": "for all numbers of sites, lists of links, steps, operators, states, generators, thresholds and fields of scalars", "why_tests_cant": "The recorded output has one chain of a few sites with an operator which is symmetric in its sites and in its indices, so that an exchange of them is not seen; the static counter does no harm in a program with one object.", "anchors": ["examples/diag.cpp: lattice::update, lattice::energy, lattice::create_vector, lattice::set_h, lattice::set_state", "include/TAT/contract.hpp: contract", "include/TAT/scalar.hpp: operator+="]}
{"id": "C88", "title": "A lattice on a torus contracted site by site gives the value of the lattice", "statement": "For a lattice of tensors of any size whose rows and columns are closed to rings, get_exact of the example is the sum over the indices of all edges of the product of the elements of all tensors: each edge between neighbours is joined once, those around the border included, and no edge is left over. The constructor makes such a lattice with edges of the given dimension and fills it in the order of the sites.", "quantifier": "for all lattices of L x L tensors with matching edges of any dimensions in any order, generators and fields of scalars", "why_tests_cant": "The example is run for one size and prints one number with a few digits; which of the four pairs of names is known at a site depends on its place, and the cases at the border differ from size to size.", "anchors": ["examples/PBC.cpp: PBC::get_exact, PBC::PBC", "include/TAT/contract.hpp: Tensor::contract"]}
{"id": "C89", "title": "The example for the Heisenberg model finds the largest eigenvalue of a - H by powers", "statement": "The constructor makes a state of all sites with the numbers of the generator; set_bond adds an operator on two sites to the Hamiltonian H; one update divides the state by its largest modulus and applies a - H to it, so N updates give a multiple of (a - H)^N of the first state, and the energy is a without the quotient of the largest moduli of the last two powers. For an eigenvector with eigenvalue x it is a - |a - x|, and for a sum of eigenvectors of which one is further from a than the others it converges to this for real numbers. The lattice in the program has the operator on all pairs of neighbours, each once.", "quantifier": "for all sets of sites with different names, bonds, operators, states, numbers of updates, sizes of the lattice, generators and fields of scalars", "why_tests_cant": "The example prints approximations of an energy for one random state and one lattice; a bond which is missing, joined twice or with its sites exchanged changes the printed digits and no test knows the right ones.", "anchors": ["examples/square_heisenberg_ed.cpp: SpinLattice, SquareSpinLattice, fired_main", "include/TAT/contract.hpp: Tensor::contract_all_edge"]}
{"id": "C90", "title": "The contraction of lines on a torus gives the value of the lattice", "statement": "contract_with_two_line_to_one_line of PBC.cpp, with a cut that removes nothing, gives the sum over all edges of the product of the elements of all sites. Each step makes of two rows closed to rings one ring, with one edge in the place of two also between its last and its first site, which stands for the product of the two rows; the last ring is closed by traces over the edges above and below each site and over the edge between last and first. It is the same number as that of get_exact for at least two rows, also right for one site, and an error without sites. With any other cut but zero every line is still a ring between the edges above the first row and below the last one taken in, no edge between its sites is above the cut, and the result is a number.", "quantifier": "for all sizes of the lattice, dimensions of the edges, sites, orders of their edges, cuts and fields of scalars", "why_tests_cant": "The example prints two floating point numbers for one random lattice to be compared by eye; a pair of edges joined wrongly at the seam between last and first site keeps all shapes right.", "anchors": ["examples/PBC.cpp: contract_with_two_line_to_one_line", "examples/tools.hpp: two_line_to_one_line", "include/TAT/trace.hpp: Tensor::trace"]}

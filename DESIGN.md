# Formal model of TAT in Lean 4: design

Target: the header-only C++17 tensor library in `/repo/include` (pinned commit).
The C++ code is read as text only; it is neither built nor run.

## Trusted base

* The Lean 4.33.0 kernel.
* The axioms used by the theorems: at most `propext`, `Classical.choice`,
  `Quot.sound` (the standard axioms of Lean/Mathlib).  No axiom is added, there
  is no `sorry`, no `native_decide` and no `bv_decide`.
* The faithfulness of the model to the C++ text (each definition cites file and
  lines).  This is argued by reading, not proved.
* Lean's elaborator only produces terms; the kernel checks them.

## Layout

`lean/Verif/<Topic>/`

* `Model.lean` - total, executable Lean functions following the C++ functions.
* `Spec.lean` - small independent definitions used to state the properties.
* `Lemmas.lean` - helper lemmas.
* `Props.lean` - the property theorems, named `Cnn_...`, each followed by an
  `example` showing that a concrete non-trivial case satisfies its hypotheses.

`MANIFEST.json` maps properties to theorem names; `seeded/LOG.jsonl` records the
mutation experiments (edits of the model in a scratch copy and what failed).

Reading `seeded/LOG.jsonl`: a failed build alone is weak evidence.  Helper lemmas
that describe a definition fail under almost any edit, harmless ones included,
and the property theorems above them are then not built at all.  The `evidence`
field therefore tells four cases apart: `property theorem or example` (a `Cxx_`
theorem or an example beside it failed), `property statement refuted on the
mutant by a closed instance` (a concrete instance of the statement holds on the
model and is refuted on the edited one), `helper only` (nothing is known yet about
the property statement) and `control` (the edit does not break the claim).  Of
the first 384 entries 149 are of the first kind, 199 of the second, 23 are `helper
only` and 13 are controls.

## Modelling conventions

* Scalars are an arbitrary type with the algebraic structure the statement
  needs (commutative ring, ring with involution, linear order).  Floating-point
  rounding is not modelled.
* `std::map`/`std::set` are association lists kept in ascending key order with
  the C++ insertion semantics (`OMap`).
* `Rank`, `Nums`, `Size` (uint16/32/64) are `Nat`: ranks below 65536 and sizes
  below 2^64 are assumed.  `Z2` is `Bool`.  `Fermi` is a 16-bit two's complement
  integer with wrap-around (which is what the C++ narrowing conversion does),
  `U1` is a 32-bit one (C++ overflow is undefined there; the model wraps, so
  statements speak about the code when no U1 sum overflows).
* A C++ exception is the outcome `error`, an undefined behaviour that the model
  can see (out-of-range read, empty-container `begin()` dereference, null
  dereference) is the distinct outcome `ub`.
* Uninitialised memory (`vector<ScalarType>(size)` with the non-initialising
  allocator, an unset `Arrow`) is an arbitrary parameter of the model; theorems
  quantify over it.
* BLAS/LAPACK calls are parameters; what is assumed about them is a hypothesis
  of the theorem.
* Of the Python bindings (`PyTAT`) only the block views (C79, C82) and the choice of a class by
  text (C80) are modelled.  Not modelled at all: the rest of `PyTAT`, timers' use of the real clock,
  memory exhaustion, iostream formatting of floating point numbers, MKL-only
  code paths, compile-time template dispatch, multithreading.

## Properties and plan

| id | model | how proved |
|----|-------|-----------|
| C01 | six symmetry types with their `+`, `-`, comparisons | instances `AddCommGroup`, `LinearOrder` built from the C++ operations; theorems per type |
| C02 | `fermi % 2` with C++ remainder on 16-bit values | parity of `BitVec`/`Int` arithmetic |
| C03 | `get_reverse_parity` loop | fold = xor-sum over positions; algebra of xor |
| C04 | `get_transpose_parity` double loop | sum over pairs in `ZMod 2`, reindexing by the permutation |
| C05 | `get_split_merge_parity` with flag scanning | closed formula = pair count mod 2 by induction; grouping lemma |
| C06 | `loop_edge` odometer as a step function with an abstract visitor | visits = Cartesian product; soundness of `minimum_changed` by invariant |
| C07, C08, C49 | `initialize_block_symmetries_with_check`, `Core::Core` | refinement of the enumeration to filter-of-product; pruning as filter |
| C09 | `check_valid_name`, `construct_name_to_index` | decision logic, `List.Nodup` |
| C10 | `fast_name_dataset_t` as a state machine | invariant over all histories |
| C11, C12 | `get_item.hpp` | mixed-radix bijection; frame lemma |
| C13 | heap of cores with reference counts, handles | invariant by induction over histories, refinement to value semantics |
| C14, C15 | `transpose.hpp` line by line | loop invariants; both algorithms meet the same specification |
| C16-C23 | `edge_operator` and its wrappers | element-level specification by fine coordinates; corollaries |
| C24, C25 | `scalar.hpp` | element-wise lemma on blocks |
| C26, C31, C37, C50, C48 | `tensor_miscellaneous.hpp`, `tensor.hpp` | block-wise lemmas |
| C27-C29 | `contract.hpp` | via `edge_operator` specification and matrix product |
| C30 | `trace.hpp` | via `edge_operator` specification |
| C32, C33 | `shrink_and_expand.hpp` | via contraction with a unit tensor |
| C34 | cut plan of `svd.hpp` | greedy invariant |
| C35, C36, C51 | `svd.hpp`, `qr.hpp` | LAPACK as hypothesis; block-wise reconstruction |
| C52, C53 | `exponential.hpp` | loop invariant in terms of polynomials of the matrix; power series identity; sector matrices |
| C38, C39 | `io.hpp` | printer/parser round trip with arbitrary suffix |
| C40, C41 | `lazy.hpp` graph state machine | cache-validity invariant over histories |
| C42, C43 | `mpi.hpp` per-process programs, small-step network semantics | induction on process count / rank tree; schedule independence |
| C44, C45 | `pmr_resource.hpp` state machine | invariant over request sequences |
| C46 | `timer.hpp` guards | induction over nested regions |
| C47 | `const_integral.hpp` | case analysis |
| C54-C57 | `square/sampling_gradient_lattice.hpp` | mixed-radix bijection; invariant of the element loop; sums over configurations; detailed balance with uniform draws |
| C58, C59 | `square/simple_update_lattice.hpp`, order of the Markov chain | permutations of filtered lists; cells written and read by a term, independence inside a group |
| C60 | `operator<`, `operator>` of the lattices in `square/` | composition of the lemmas of C38; the pool of operators is a list of distinct addresses in order of first use |
| C61 | `square/exact_lattice.hpp` | tensors without symmetry as functions of indices by name; a term is a sum over configurations equal off its sites; induction over terms and steps |
| C62 | `square/auxiliaries_system.hpp` | tensors as functions of labelled indices; a network as a chain of rows and a row as a chain of columns; four directions by renaming labels |
| C63 | `square/conversion.hpp`, `try_multiple` | the vector after each site is a partial sum over the rows above; invariant over the double loop |
| C64 | `sampling_gradient_lattice.hpp` with its auxiliaries | invariant of `set`; the run with auxiliaries simulates the run with a given amplitude |
| C65 | tensors of `simple_update_lattice.hpp` | one bond: QR, product, SVD and division give back the state times the operator; induction over the sequence of terms |
| C66 | the same with a cut, `svd.hpp` | the factors of a cut are the first indices of those without; dimensions as an invariant of the sequence |
| C67 | `markov` with statistics and gradient, `sampling_gradient_lattice.hpp` | invariant of the sums over the steps; the hole of a site as a linear form; derivative of a quotient of quadratic forms |
| C68 | constructor of `AbstractNetworkLattice`, setters of `AbstractLattice` | every site by its borders; the map after any calls by induction over the calls |
| C69 | `Common` in `basic.hpp` | elements of the operators, product by `contract` without pairs, action on states |
| C70 | `qr.hpp`, `svd.hpp` | orthonormal rows or columns of every block through merging, splitting and cutting |
| C71 | `svd.hpp`, `multiple`, `contract` | norm of a sum of products of orthonormal factors |
| C72 | the same | projection onto the span of the other products, Bessel's inequality, the choice of the values of C34 |
| C73 | `contract` composed with itself, `transpose`, `reverse_edge` | a contraction that succeeds is the graded sum over the contracted edges (`ok_isContraction`); laws of these sums with signs; no sector is pruned with one edge per bond |
| C74 | `trace` composed with `contract`, itself and `transpose` | a trace that succeeds is the graded sum over the diagonal (`ok_isTrace`); induction over the pairs |
| C75 | `markov`, `equilibrate` as a chain of sweeps | a sweep is a palindrome of reversible kernels: reversible and never without a way to stay; Doeblin's argument on the class that can be reached; bound of the mean square deviation |
| C76 | `contract`, `trace` composed with `conjugate`, sums and multiples | linearity of graded sums; a sum may have more symmetries than its summands, where the elements are zero; the reversal signs of conjugation against the sign of a contraction |
| C77 | `contract_all_edge()` | the sum over all positions is the sum over all blocks (`total_sum`); all signs but those of the arrows cancel |
| C78 | `random::seed`, `get_seed`, `split_seed`, `merge_seed` | the engines of all processes as a function of the rank; arithmetic of `std::minstd_rand0` |
| C79 | `PyTAT.cpp` block views | a view is a block, a shape and distances in bytes; numpy reads and writes through it |
| C80 | `PyTAT.cpp` `hub`, `to` | words in a list of characters |
| C81 | `examples/heisenberg.cpp` command `gradient`, `SpinConfiguration::set` | histories of `set` and of assignments to the tensors; the last change of a spin decides which tensor its slice is of |
| C82 | `PyTAT.cpp` block views kept by a program | a view is a tensor and the address of a core in the heap of C13; careful programs simulate tensors with values of their own |
| C83 | `contract` of tensors with two scalars, `to` | sums commute with additive maps; success of a call is decided by edges and names, never by numbers |
| C84 | `examples/mps.cpp` `energy` and the constructor | each contraction is a sum over the labels of its pairs; left parts are moved across one site at a time by exchanging sums |
| C85 | `examples/mps.cpp` `update_once`, `update` | one step replaces two neighbouring sites so that their product is a multiple of the operator applied to the old product; induction over the sweep with a bound for the bonds |
| C86 | `examples/tools.hpp` `two_line_to_one_line`, `examples/OBC.cpp` | the names with the suffixes of `tools.hpp` are carried over to the labels of the auxiliaries of `square`, a row is then a chain of sites whose value each step keeps; `get_exact` keeps a sum over the rows above and a part of the row |
| C87 | `examples/diag.cpp` `update`, `energy`, `create_vector`, `set_h` | labels for the sites and for the edges of the operator; linearity carries the factors of all normalisations to the front; sums over the names of edges are sums over configurations |
| C88 | `examples/PBC.cpp` `get_exact`, constructor | the result after some sites is a sum over the edges both sites of which are done, as a function of the open ones; each site closes the edges whose second end it is |
| C89 | `examples/square_heisenberg_ed.cpp` | a bond is contracted with the state and its edges renamed, as in C87; induction over the bonds and the updates; the factors cancel in the energy; the names of sites are different since a dot is not a digit |
| C90 | `examples/PBC.cpp` `contract_with_two_line_to_one_line` | the steps of C86 for lines that end in two edges, site by site; the product of last and first site does not change when the two edges between them become one; a ring is the trace of a product of matrices; induction over the rows; with any cut the same for the edges only |

Findings where the code does not satisfy the full property are proved as
negations on concrete witnesses, the positive theorem then carries the suffix
`_partial`.

## Findings in the code

Proved of the model, with the theorem that shows each.

* Contracting two or more edges of U1, Fermi or FermiU1 tensors multiplies the
  wrong elements: the two tensors are merged in the same order of edge names but
  the sectors of the merged edges are enumerated in opposite directions
  (`C28_two_edges_wrong`).  The witness is the tensor pair of the repository's own
  `test/simple_test.cpp`; the model reproduces the output recorded in
  `test/simple_test.out` (line 110, for example the entry 2107), while the index
  sum is 2003.
* Contracting bosonic edges with different sets of symmetries fails although the
  code prepares a `delete` list for it (`C28_sectors_must_match`).  For fermions it
  works or fails depending on whether some edge happens to need a reversal
  (`C28_fermi_one_edge`, `C28_fermi_must_match`), and with two contracted edges a block
  that should be zero may be missing (`C28_fermi_must_reach`).
* The order of contractions matters for whether they succeed: with two edges between
  neighbours the first contraction removes symmetries from an edge, which then differs
  from its partner in the third tensor and the second contraction throws, while the
  other order succeeds (`C73_order_may_throw`).  For fermions exchanging the arguments
  may make a contraction throw (`C73_exchange_may_throw`).  If no edge of a merged group
  has a nonzero symmetry the arrow of the merged edge is an uninitialised variable; it is
  handed to the edges of the result and decides whether a later contraction throws
  (`C73_arrow_uninitialised`).
* What one call gets wrong for several pairs of edges (`C28_two_edges_wrong`,
  `C30_two_pairs_wrong`) is right when one edge is contracted and the other pairs are
  traced one after the other (`C74_contract_one_by_one`, `C74_one_by_one`).
* `contract_all_edge()`, the contraction of a tensor with its conjugate, is not the square of the
  norm for tensors with more than one block unless the symmetry is Z2: the blocks of the
  conjugate are in the opposite order (`C77_wrong`, 29 instead of 38).  For fermions with edges
  of both directions blocks are subtracted and the value may be negative (`C77_negative`);
  a tensor without blocks throws (`C77_no_block`).
- `split_seed` seeds the processes with consecutive numbers modulo 2^32.  The engine of the GNU library
  (`std::minstd_rand0`) reduces them modulo 2^31 - 1 and replaces 0 by 1, so that for `2n - 1` of the
  2^32 - 1 common numbers two of `n` processes have the same engine (`C78_shared_count`, `C78_shared`).  Also otherwise
  the streams are not independent: the first numbers of neighbours are 16807 apart on a circle of
  2^31 - 1 (`C78_neighbours`), so that their first random indices are nearly always the same.
- `tensor.block[["L"]]` of a dense tensor with more than one edge reads the list of names beyond its end
  (`C79_short`); `tensor.block[["L", "L"]]` is a view with elements outside the block (`C79_repeated`, with
  symmetry `C79_repeated_symmetry`).
- After a step of gradient descent (`examples/heisenberg.cpp`) the auxiliaries keep the slices of the old tensors until a
  spin changes: the amplitude is that of the old lattice, and the quotient of a hopping mixes the old and the new one
  (`C81_stale`).  `initialize_spin` with the same spins does not help (`C81_initialize`), `set_dimension_cut` does
  (`C81_renew`).
- The counters with which `examples/mps.cpp` and `examples/diag.cpp` fill the Hamiltonian are static: a second lattice in
  the same program reads after the end of the list (`C85_second`, `C87_second`).  A link of `examples/diag.cpp` to a
  site which does not exist is not an error (`C87_no_site`).
- `get_exact` of `examples/PBC.cpp` for a lattice with one site is an error: `contract` does not join two edges of one
  tensor, so that all four edges are left over (`C88_single`, and `C88_one` for all lattices with one site).
  `contract_with_two_line_to_one_line` is right for such a lattice (`C90_one`); without sites it is an error (`C90_zero`).
- The energy in `examples/square_heisenberg_ed.cpp` is `a - |a - x|` for an eigenvector with eigenvalue `x`.  For `x`
  greater than `a` this is `2 a - x`: with `a = 0`, the default of the constructor, a state with energy 1/4 gets -1/4
  (`C89_sign`).  The program itself uses `a = 1`.  If `x = a` the state becomes zero, and the next update divides by
  zero: two rows and two columns with all spins the same are such a case (beside the theorems).
- A view `v = t.block[...]` has the address of the core `t` has at that moment.  If `t` is copied or renamed while `v` is
  alive, a write through `v` changes the new tensor too (`C82_shared_write`), a change of `t` is not seen in `v`
  (`C82_stale`), and when the other tensor goes `v` reads freed memory (`C82_dangling_counterexample`); after `t.load(...)`
  it does so at once (`C82_dangling`).
- `to("complex64")` converts to pairs of doubles, numpy's `complex64` are pairs of floats (`C80_numpy`).
* The comparison of two name vectors skips the first name
  (`C21_first_name_unchecked`, `C24_first_name_unchecked`); duplicated names in a
  merge list are not noticed (`C21_merge_duplicate_unchecked`).
* Splitting and merging in one call may give another arrow and other signs than two
  calls: a part of a split edge with an odd symmetry that no block has still decides the
  arrow of the merged edge (`C22_unused_arrow`).
* Loading an older name dataset makes two names share an id
  (`C10_older_dataset_counterexample`).
* `identity` of rank 4 or more with symmetry is not the identity
  (`C37_not_opposite`), of rank 0 or with a zero dimension it is undefined
  (`C37_undefined`).
* `matrix_transpose` of an empty matrix is undefined
  (`C14_matrix_transpose_empty_counterexample`).
* A reference kept from `at`/`block` past a later copy breaks copy-on-write
  (`C13_kept_reference_counterexample`).
* Contracting tensors without symmetry does not compare the dimensions of the
  contracted edges (`C27_dimension_unchecked`).
* Out-of-place arithmetic ignores arrows (`C24_arrow_unchecked`).
* Tracing two or more pairs of U1, Fermi or FermiU1 edges adds the wrong elements,
  for the same reason as contraction (`C30_two_pairs_wrong`: the trace 4 of an
  identity comes out as 2).  Both are correct if no two combinations of symmetries of
  the contracted edges have the same total (`Separated`), or for Z2.
* The trace reads the first block of an empty map when the free edges admit no
  block (`C30_no_zero_block`); it compares neither the dimensions nor the arrows of
  a pair (`C30_dimension_unchecked`, `C30_arrow_unchecked`).
* `shrink` of a bosonic edge with two or more symmetries never succeeds
  (`C32_bosonic_fails`), nor that of a fermionic one if all arrows of the tensor are
  `false` (`C32_fermi_fails`); the index is not checked, so that a wrong slice may be
  returned (`C32_index_unchecked`).
* `expand` never adds up the symmetries of the new edges: a nonzero total is undefined
  behaviour (`C33_nonzero_undefined`) and an old edge of nonzero symmetry is rejected
  whatever the new edges are (`C33_old_nonzero`).  For fermions `shrink` after
  `expand` may give the negative tensor (`C33_round_trip_sign`).
* The truncation of singular values counts a symmetry whose values are all zero as the
  default symmetry: it throws or makes the result larger (`C34_zero_throws`,
  `C34_zero_grows`).
* `reduce` does not combine in the order of ranks (`C43_not_rank_order`); processes
  without sons return an unset value (`C43_leaf_unset`).
* The memory resource hands out memory behind its buffer after a request of zero bytes
  if the buffer does not end at a multiple of 16 (`C44_zero_bytes_overrun`), and does
  not respect alignments above 16 (`C44_over_aligned`).
* Loading a snapshot does not clear nodes made after it was taken: they keep values
  computed from the roots before they were restored (`C41_later_node_stale`).

* The text written for a Z2, U1 or Fermi tensor that has a block cannot be read back:
  the reader takes the bracket inside of the colour code `ESC[33m` for the beginning of
  the key and the loop then fills memory (`C39_console_fails`, `C39_counterexample`);
  the same happens to singular values (`C39_singular_fails`) and to tensors of the
  other symmetries without edges (`C39_rank_zero_fails`).  The repository's test reads
  text without colours only, which works (`C39_plain`).
* A tensor whose only name is empty cannot be read back from text
  (`C39_single_empty_name`); reading a name of 256 characters overruns a buffer
  (`C39_long_name`).  The closing brace of singular values is not looked at: text that ends before it, or has
  another character there, gives the same values (`C39_singular_brace`).

* `exponential` of a tensor one sector of which is zero converts `log2(0)` to an integer,
  which is undefined (`C52_zero_undefined`, `C53_zero_undefined`); the zero tensor is
  the simplest case.  The same holds for a tensor with one edge
  (`C53_one_edge_undefined`).
* `matrix_exponential` scales by the largest element instead of a norm, so the Padé
  denominator may be singular (`C52_singular`: the 4x4 matrix of halves with one step).
* `exponential` of an operator on two sites orders rows and columns of a sector
  differently, so it multiplies wrong elements (`C53_two_pairs_wrong`), unless every
  symmetry is its own opposite.

* `Sy` is the transpose of the usual matrix if the edges "I" are the input, as they are
  everywhere else: the commutators have the opposite sign (`C69_commutators`).  `SySy` and
  `SS` do not depend on it.
* `random::normal<T>(0, 1)` for complex `T` makes the imaginary part with a deviation of
  zero, which `std::normal_distribution` does not allow; in effect complex lattices begin
  with real numbers.  (Observed, not modelled.)

* An operator with a zero row has no entry for it, and `.at(current_spin)` throws
  (`C55_zero_row`): raising operators or hopping terms cannot be observed.  The tables
  are cached by the address of the tensor and go stale (`C55_cache_stale`).
* `ergodic` divides by amplitudes that may be zero although the expectation value exists
  (`C56_ergodic_zero_amplitude`).
* The Markov sampling accepts bonds that leave the lattice to the right or below
  (`C58_markov_outside`) and then reads outside of it.
* A bond listed in both orders is updated by two processes at the same time and one
  result is lost (`C59_both_orders`).  The order of the two sites of a bond is ignored,
  so an operator which is not symmetric under exchange, listed as right-left, is applied
  the wrong way round (`C59_order_ignored`).
* Writing a lattice with a null pointer among its terms dereferences it (`C60_null_pointer`).
* `ExactLattice::denominator` and `observe` contract the vector with itself without
  conjugation, so with complex scalars a vector such as `(1, i)` has denominator zero
  (`C61_not_conjugated`).
* `ExactLattice::update` returns `a` less the norm of the vector after the step, which is
  the energy only for a state below `a`, the modulus of the approximate energy; above it the
  value is `2 a - E` (second case of `C61_eigen`).

* A step of the Markov chain goes through the terms and then back.  If a hopping never changes
  the absolute value of the amplitude and every row of a term has at most one hopping (as for
  the exchange of two spins), every proposal is accepted and the second half of the step undoes
  the first: the configuration never changes, whatever the random numbers are
  (`C75_frozen`).  `markov` then returns the local values of the configuration it started
  with as expectation values (`C75_not_always`: 1 for an observable whose expectation value is 0).

* `SquareAuxiliariesSystem` called with two neighbours of which one is just outside of the
  lattice passes the checks of `map::at` and reads a vector outside of its bounds
  (`C62_two_reads_outside`); all other positions outside throw (`C62_outside`).

Seen in reading, not modelled: the branch of `auxiliaries_system` for a vertical pair in
reversed order swaps its indices and is never reached; its copy constructor gives `set` a
pointer and its `operator=` returns a pointer; `square::conj` calls a member
which does not exist; `spin_t::operator=` returns a pointer; `total_step` of `ergodic` is
computed with `std::pow`; a group of merged edges that is empty reads an uninitialised arrow.

## Combined edge operations

`EdgeMisc/StepProps.lean` compares one call of `edge_operator` with the five wrappers
called one after the other.  Unused symmetries are dropped between the steps;
`EdgeMisc/Prune.lean` and `EdgeMisc/Steps.lean` show that this changes neither the
dimensions nor the order inside a merged edge.

## Contraction modules

`Contract/Model.lean` follows `contract.hpp`; `gemm` is a parameter and `GemmOk`
(`Contract/Spec.lean`) is what is assumed of it, met by `refGemm`.  `Gemm`,
`Product`, `Merged`, `Sign`, `Sum`, `Plan`, `Elements`, `Body`, `Main`, `Errors`,
`Unit`, `Fuse` and `Ident` are helper modules; `Props` (symmetric tensors) and
`FuseProps` (tensors without symmetry, identities) have the property theorems.
`Restrict` and `Sectors` show that contracting fermionic edges with different symmetries
is contracting the tensors without the symmetries the partner lacks; `FermiProps` has the
theorems.  `Laws` and `Laws2` have the laws of graded sums, `WhenOk` shows that a contraction
that succeeds computes such a sum, `LawProps` and `LawCases` have C73.
The same files of `Trace` have C74.  `Linear`, `LinearProps` and `LinearCases` have C76,
`ConjModel`, `Total`, `Inner` and `InnerProps` have C77.
`Square.SeedModel` and `Square.SeedProps` have C78.  `Py.BlockModel`, `Py.BlockProps` and
`Py.BlockCases` have C79, `Py.DispatchModel` and `Py.DispatchProps` have C80,
`Contract.Mixed`, `MixedProps` and `MixedCases` have C83.
`Py.ViewModel`, `Py.ViewProps` and `Py.ViewCases` have C82 on the heap of `Cow.Model`.
`Square.DescentModel`, `Square.DescentProps` and `Square.DescentCases` have C81.
`Mps.Model`, `Mps.Spec`, `Mps.Props` and `Mps.Cases` have C84, with the helper modules `Mps.Legs`, `Mps.Sums` and
`Mps.Chain`.  `Mps.UpdateModel`, `Mps.UpdateSpec`, `Mps.UpdateProps` and `Mps.UpdateCases` have C85, with the helper
modules `Mps.UpdateLegs`, `Mps.UpdateChain` and `Mps.UpdateCut`.  `Grid.Model`, `Grid.Spec`, `Grid.Props` and
`Grid.Cases` have C86, with the helper modules `Grid.Line`, `Grid.Transfer`, `Grid.Lines`, `Grid.Exact` and `Grid.Cut`.
`Diag.Model`, `Diag.Spec`, `Diag.Props` and `Diag.Cases` have C87, with the helper modules `Diag.Apply` and
`Diag.Lemmas`.  Of `examples` the step of the descent (C81), the energy of the chain (C84) and its updates (C85), the
lattice with open boundaries (C86), the state with one tensor (C87) and the lattice on a torus (C88, and C90 for the
contraction of lines) are modelled.  `Torus.Model`, `Torus.Spec`, `Torus.Props`, `Torus.Single` and `Torus.Cases` have C88, with the helper
modules `Torus.Net`, `Torus.Exact`, `Torus.ExactMain` and `Torus.Loop`.  `Torus.LinesModel`, `Torus.LinesSpec`,
`Torus.LinesProps` and `Torus.LinesCases` have C90, with the helper modules `Torus.Trace`, `Torus.Path`, `Torus.Sites`,
`Torus.Ring`, `Torus.Steps`, `Torus.Chain`, `Torus.Close`, `Torus.LineStep` and `Torus.LinesCut`.  It assumes of LAPACK and of the names what C86
does, that the names inside of `svd` are not those of edges, and that those inside of `trace` are different from each
other.

`examples/square_heisenberg_ed.cpp` (C89) is modelled but for the making of the operator `SS`, which is an argument, and
the output.  `Ed.Model`, `Ed.Spec`, `Ed.Props` and `Ed.Cases` have C89, with the helper modules `Ed.Lemmas` and
`Ed.Grid`.  `Ed.Limit` has what the energy converges to if the scalars are the real numbers, and `Ed.LimitCases` an
instance of it.

## Trace modules

`Trace/Model.lean` follows `trace.hpp`.  `Pairs` (the loop that finds the pairs),
`Diag` (the diagonal of the merged edges), `Merge`, `Total`, `Main` and `Errors` are
helper modules, `Spec` defines the sum over the diagonal and `Props` has the property
theorems.

## Shrink and expand modules

`Shrink/Model.lean` follows `shrink_and_expand.hpp`: both functions contract with a
helper tensor which is one at a single position.  `Unit` says what the helper is and
joins the two contraction functions, `Main` says what the contraction with it gives,
`Slots` and `Expand` are about the helper's edges, `Spec` has the vocabulary of the
statements and `Props` the property theorems.

## Singular value truncation

`Svd/Cut.lean` follows the loop of `svd.hpp` that picks how many singular values of each
symmetry are kept, `CutLemmas` and `CutProps` have its invariant and the theorems.

## Decompositions

`Svd/Model.lean` and `Qr/Model.lean` follow `svd.hpp` and `qr.hpp`; the part they share is
`Decomp/Model.lean`.  LAPACK is a parameter: `LapackQrOk` (`Qr/Kernel.lean`) and `GesvdOk`
(`Svd/Kernel.lean`) are what is assumed, only that the factors returned make up the matrix;
`exists_lapackQrOk` and `refGesvd_ok` show that this can be met.  The queries for the size
of the workspace and error flags of LAPACK are not modelled.  C70 and C71 also assume that
LAPACK returns orthonormal rows and columns (`LapackQrOrtho`, `GesvdOrtho`) and, for the
order of the values, that they are descending and not negative (`GesvdValues`);
`exists_lapackQrOrtho` (Gram and Schmidt) and `exists_gesvdOrtho` (the spectral theorem) show
that all of it can be met over the real and complex numbers.  `Decomp/Isometry` carries the
orthonormality from the blocks to the factors, `Svd/Norm` has the norm,
`Svd/Best` and `Svd/BestProps` that nothing of the same rank is nearer.  `Decomp/Merge` says what the
merged tensor is, `Factor` what the loop over its blocks gives, `Unfold` what a factor is
after it was split, `Join` what the contraction of two factors is, `Whole` and `Sides` put
them together.  `Svd/Parts.lean` says what `svd` returns for every cut.  Tensors
without blocks are excluded.

## Exponential

`Expo/Model.lean` follows `exponential.hpp`; gemm, gesv, the absolute value and the
integer part of log2 are parameters (`ExpoLib`), `GesvOk` (`Expo/Spec.lean`) is what is assumed of gesv
and `refExpo` meets it over the rationals.  `Matrix`, `Pade` and `Run` are about the loop of
`matrix_exponential`, `Pairs`, `Scatter`, `Blocks` and `Whole` about the tensor,
`Props` and `Witness` have the property theorems.

## Processes, memory, timers

`Mpi/Model.lean` has the programs of `broadcast` and `reduce` for one process and a
small-step semantics of a network with ordered channels.  `NetStep` allows every
schedule; `NetMust` are the steps MPI cannot refuse (receiving a stored message, a send
meeting its receive).  `Ranks`, `Broadcast` and `Reduce` have the invariants.
`Pmr/Model.lean` is the monotonic resource with the wrap-around of `size_t`; the
upstream resource is any function with `UpstreamOk`.  `Pmr/Scope.lean` runs programs
with nested scopes and exceptions.  `Misc/Timer.lean` and `Misc/Const.lean` are the timer
guards and the dispatch to constants.

## Lazy graphs

`Lazy/Model.lean` follows `lazy.hpp` with one graph; values sit in numbered cells so
that references to a value that was cleared meanwhile are noticed.  `Spec` defines the
value an object should have from the history of operations alone (`LazyHist.Value`),
and which objects are known to be up to date after snapshots were loaded
(`lazyTrack`).  `Lemmas`, `Get`, `Ops` and `Hist` have the invariant, `Props` the
theorems.

## Square lattices

`Square/Model.lean` follows the sampling of `sampling_gradient_lattice.hpp`.  The amplitude
of a configuration is a parameter; `SpinModel.lean` has the same functions with the slices
and the auxiliary tensors, and `SpinRun.lean` shows that they compute the same with the
amplitude of the network as the parameter.  `replaceSpins`, `replaceable` say which
changes of spins are supported.  `Table*`, `Ergodic*` and `Markov*` have lemmas and theorems
about the tables, the run over all configurations and the Markov chain.  In
`markovProb` the draws of one hopping are a uniform index and a number uniform in
`[0,1)`; a chain is the composition of the kernels of its terms, that is, the draws are
assumed independent.  `UpdateModel.lean` follows the order of the terms and the simple
update on several processes; `UpdateOps` is what is done with the tensors of one term.
`Order*` and `Update*` have the theorems.  The output to the console is not modelled.
`SeedModel.lean` has the random engines of all processes.
`DumpModel.lean` follows the binary dumps of the lattices; the pointers to operators are
addresses in a heap, `Dump*` have lemmas and theorems.

`Dense.lean`, `DenseArith.lean`, `DenseNew.lean` and `DenseDecomp.lean` describe tensors
without symmetry: `leg t n` is the dimension of the edge with a name, `val t x` the element
at indices given by name, and each operation of the tensor modules has a lemma in these
terms.  `ExactModel.lean` follows `exact_lattice.hpp`; `ExactApply.lean` shows what a term
does to the amplitudes, `ExactProps.lean` has the theorems.

`AuxModel.lean` follows `auxiliaries_system.hpp`.  The nodes of the lazy graph are replaced
by the values they compute; a call with an invalid position is found when the value is
asked for.  The other three directions of a sweep are the same function with other names.
`netVal` (`AuxSum.lean`) is the specification: the sum over all indices of all edges of the
product of all sites.  `AuxLegs.lean` describes tensors whose names come from a fixed set
of labels; `AuxLine.lean` shows that `_two_line_to_one_line` keeps the value of two lines
if the cut does not remove anything, `AuxStack.lean` does this for the rows above or below
a row, `AuxLadder.lean`, `AuxWindow.lean` follow the sweeps along three lines,
`AuxCalls.lean`, `AuxGrid.lean` the calls.  `AuxProps.lean` has the theorems.  How large an
error a smaller cut makes is not stated.

`NetModel.lean` follows the tensors of the simple update (`simple_update_lattice.hpp` 199-324)
and `conversion.hpp`.  `NetSpec.lean` says what a lattice stands for: `sitesAmp` and
`networkAmp` are sums over all indices of all edges, with the singular value of every edge
that has an environment as a factor.  `inf` and `nan` from a division by zero are the outcome
`error`.  `NetSum.lean` takes the sum apart by rows, sites and bonds; `NetLegs.lean` has the
operations in terms of labels; `Conv*` have the conversions, `NetExample.lean` the cases.

`BondAlgebra`, `BondCore` and `BondUpdate` follow the update of a bond on its two tensors;
`UpdateNet`, `UpdateStep` and `UpdateBond` put it into the lattice; `SimpleRun` and
`SimpleProps` have the sequences of terms (C65), `SimpleExample` the cases.  `DenseCut` says
what the decomposition of a tensor without symmetry returns for a dimension that cuts: the
first indices of the factors.  `CutProps` has what the update makes of it (C66).

`GradModel` follows `markov` (`sampling_gradient_lattice.hpp` 154-272): means, squares of
their errors and the gradient.  `GradSpec` defines the local value of an observable, the
inner product of two tensors of a site and the configurations of a chain; `GradHole` has the
hole of a site, `GradRun` the invariant of the steps, `GradProps` the theorems.
`GradDerivative` compares the estimate with the derivative of the energy over the real or
complex numbers: they agree in the limit if the frequencies of the configurations tend to
the squares of the amplitudes, and that the frequencies do is an assumption there.
`GradExample` and `GradReal` have the cases.

`MixLemmas` has finite chains with given probabilities (`iterProb` after some steps,
`chainMean` the mean over all sequences of steps), `MixClass` reversible ones on the
configurations that can be reached, `MixProps` applies both to the probabilities of a sweep
(C75), `MixRun` follows `equilibrate`, `MixGrad` has the gradient of `markov` (the frequencies
which C67 assumes are met with a probability that is bounded), `MixExample` and `MixGradCase`
have the cases.  A chain is again a
composition of kernels: the draws are assumed independent and uniform.

`StartModel` has the constructor of the tensors of a lattice, the setters of the
hamiltonian and the spin operators of `Common`; `StartProps` (C68) shows that a new lattice
is a network in the sense of the other properties and which term every bond has, and
`PauliProps` (C69) what the operators do with a state.  `StartExample` has the cases.

## Recorded output

`Recorded.lean` is a test of the model and no claim rests on it.  It runs the model on the
inputs of `test/simple_test.cpp` and compares the printed text with the recorded output
`test/simple_test.out` (`#guard`).  Of the 116 lines with output, 68 are compared and agree;
the head of the file lists the other 48 and why they are left out (numbers that are not
whole, LAPACK, complex numbers, binary reading).  It is evidence that the functions for
creating, filling, transposing, splitting, merging, reversing, contracting and printing
follow the code, on these inputs only.

## Input and output

`Io/Binary.lean` follows the binary operators of `io.hpp` byte by byte: scalars are
their bits (`float`, `double` and their complex numbers are `BitVec 32`, `64`, `64`,
`128`), numbers are little endian, structs have arbitrary padding bytes, and reading
past the end of the stream is undefined.  `BinaryLemmas` has one lemma per reader and
writer (`ReadsBack`), `BinaryProps` the theorems.

`Io/Text.lean` follows the text operators character by character; a stream that is not
good is `none`.  Integers are printed and scanned concretely (C locale); scalars are a
parameter with the assumption `LawfulScalar`: a value that is printed exactly is read
back.  `wholeReal` shows that the assumption can be met.  `TextLemmas`, `TextTensor` and
`TextProps` have the proofs, `TextMore` names read by another program and the text of shapes, `TextTail` singular values without their closing brace.  Not modelled: `FastName` text inside of other modules,
the Python `str`.

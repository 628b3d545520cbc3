{
 "claims": [
  {
   "property": "C01",
   "status": "proved",
   "theorems": [
    "TAT.C01_noSymmetry",
    "TAT.C01_z2Symmetry",
    "TAT.C01_u1Symmetry",
    "TAT.C01_fermiSymmetry",
    "TAT.C01_fermiZ2Symmetry",
    "TAT.C01_fermiU1Symmetry"
   ],
   "note": "Integers are 16/32-bit words; the U1 case treats 32-bit wrap-around as the group law (signed overflow is undefined in C++)."
  },
  {
   "property": "C02",
   "status": "proved",
   "theorems": [
    "TAT.C02_odd_iff",
    "TAT.C02_parity_add",
    "TAT.C02_parity_neg"
   ],
   "note": ""
  },
  {
   "property": "C03",
   "status": "proved",
   "theorems": [
    "TAT.C03_reverse_sign",
    "TAT.C03_reverse_disjoint"
   ],
   "note": ""
  },
  {
   "property": "C04",
   "status": "proved",
   "theorems": [
    "TAT.C04_transpose_sign",
    "TAT.C04_compose",
    "TAT.C04_identity",
    "TAT.C04_inverse",
    "TAT.C04_adjacent"
   ],
   "note": ""
  },
  {
   "property": "C05",
   "status": "proved",
   "theorems": [
    "TAT.C05_merge_split_sign",
    "TAT.C05_trivial_groups",
    "TAT.C05_no_overflow"
   ],
   "note": "Parity arithmetic on unbounded integers; C05_no_overflow gives the range in which the C++ int computation agrees."
  },
  {
   "property": "C06",
   "status": "proved",
   "theorems": [
    "TAT.C06_loop_edge",
    "TAT.C06_degenerate",
    "TAT.C06_fuel_irrelevant",
    "TAT.C06_visits",
    "TAT.C06_hint_sound"
   ],
   "note": ""
  },
  {
   "property": "C07",
   "status": "proved",
   "theorems": [
    "TAT.C07_blocks",
    "TAT.C07_block_list"
   ],
   "note": ""
  },
  {
   "property": "C08",
   "status": "proved",
   "theorems": [
    "TAT.C08_pruned",
    "TAT.C08_idempotent"
   ],
   "note": ""
  },
  {
   "property": "C09",
   "status": "proved",
   "theorems": [
    "TAT.C09_names_checked",
    "TAT.C09_name_to_index"
   ],
   "note": ""
  },
  {
   "property": "C10",
   "status": "partial",
   "theorems": [
    "TAT.C10_interning_partial",
    "TAT.C10_ids_not_reused_partial",
    "TAT.C10_save_load",
    "TAT.C10_older_dataset_counterexample"
   ],
   "note": "Proved for histories whose loads extend the known names; for a load of an older dataset the claim is false of the code, with a concrete counterexample."
  },
  {
   "property": "C11",
   "status": "proved",
   "theorems": [
    "TAT.C11_addressing",
    "TAT.C11_row_major"
   ],
   "note": ""
  },
  {
   "property": "C12",
   "status": "proved",
   "theorems": [
    "TAT.C12_read",
    "TAT.C12_write",
    "TAT.C12_names_any_order",
    "TAT.C12_missing_name"
   ],
   "note": "The code does not check index bounds (out of range is undefined behaviour); statements are for valid positions, which the property asks for."
  },
  {
   "property": "C13",
   "status": "proved",
   "theorems": [
    "TAT.Cow.C13_step",
    "TAT.Cow.C13_value_semantics",
    "TAT.Cow.C13_isolation",
    "TAT.Cow.C13_no_leak",
    "TAT.Cow.C13_kept_reference_counterexample"
   ],
   "note": "In-place operations are atomic events; a reference kept from at/block beyond a later copy is outside the property and shown to break isolation."
  },
  {
   "property": "C14",
   "status": "proved",
   "theorems": [
    "TAT.C14_transpose_moves",
    "TAT.C14_transpose_tuples",
    "TAT.C14_matrix_transpose",
    "TAT.C14_matrix_transpose_empty_counterexample"
   ],
   "note": "matrix_transpose lacks a guard for empty matrices (undefined behaviour, shown by the counterexample); its claim is for non-empty matrices. do_transpose is covered for every dimension including 0."
  },
  {
   "property": "C15",
   "status": "proved",
   "theorems": [
    "TAT.C15_simple_eq_inturn",
    "TAT.C15_line_eq_point",
    "TAT.C15_platform_independent"
   ],
   "note": ""
  },
  {
   "property": "C16",
   "status": "proved",
   "theorems": [
    "TAT.C16_transpose"
   ],
   "note": ""
  },
  {
   "property": "C17",
   "status": "proved",
   "theorems": [
    "TAT.C17_transpose_transpose",
    "TAT.C17_transpose_back"
   ],
   "note": ""
  },
  {
   "property": "C18",
   "status": "proved",
   "theorems": [
    "TAT.C18_reverse",
    "TAT.C18_reverse_twice",
    "TAT.C18_reverse_bosonic"
   ],
   "note": ""
  },
  {
   "property": "C19",
   "status": "proved",
   "theorems": [
    "TAT.C19_merge",
    "TAT.C19_merge_places"
   ],
   "note": "Stated for merge_edge, whose arguments must use every existing edge at most once (MergeOk). C19_merge_places says where the merged edges stand, which arrows they get and which sign the elements get, without the functions of the model that compute the target names."
  },
  {
   "property": "C20",
   "status": "proved",
   "theorems": [
    "TAT.C20_merge_split"
   ],
   "note": "Equality up to the arrow field of edges on which the arrow has no meaning (bosonic types and edges without fermions)."
  },
  {
   "property": "C21",
   "status": "partial",
   "theorems": [
    "TAT.C21_transpose_partial",
    "TAT.C21_edge_operator_partial",
    "TAT.C21_first_name_unchecked",
    "TAT.C21_merge_duplicate_unchecked"
   ],
   "note": "False of the code as stated: the comparison of name vectors skips the first entry, and duplicates in merge lists are not noticed; both are shown by concrete counterexamples. Rejection is proved for every other mismatch."
  },
  {
   "property": "C22",
   "status": "partial",
   "theorems": [
    "TAT.C22_steps_partial",
    "TAT.C22_bose",
    "TAT.C22_unused_arrow"
   ],
   "note": "Proved for every bosonic symmetry, and for fermions when every edge that has an odd symmetry after the split has one that takes part in a block; without this it is false of the code (C22_unused_arrow). Merge groups must not be empty: those take an uninitialised arrow."
  },
  {
   "property": "C23",
   "status": "proved",
   "theorems": [
    "TAT.C23_rename",
    "TAT.C23_unused_entries",
    "TAT.C23_rename_type"
   ],
   "note": ""
  },
  {
   "property": "C24",
   "status": "proved",
   "theorems": [
    "TAT.C24_binary",
    "TAT.C24_rank",
    "TAT.C24_incompatible",
    "TAT.C24_number",
    "TAT.C24_first_name_unchecked",
    "TAT.C24_arrow_unchecked"
   ],
   "note": "Where neither operand has a block the code stores zero. A mismatch of the first names goes unnoticed when all other names agree, and out-of-place operators ignore arrows; both shown by concrete cases."
  },
  {
   "property": "C25",
   "status": "proved",
   "theorems": [
    "TAT.C25_inplace",
    "TAT.C25_inplace_different",
    "TAT.C25_alias",
    "TAT.C25_number",
    "TAT.Cow.C13_isolation"
   ],
   "note": "Sharing of storage is the event `combine` of the copy-on-write model (C13_isolation): no other handle changes. The loops are modelled without the __restrict promise, which `a += a` on an unshared tensor breaks."
  },
  {
   "property": "C26",
   "status": "proved",
   "theorems": [
    "TAT.C26_conjugate",
    "TAT.C26_involution"
   ],
   "note": "The code also multiplies every element of a fermionic tensor by the sign of reversing the order of its odd edges; C26_conjugate states this sign explicitly (conjSign). conj is a parameter with conj(conj x)=x and conj(-x)=-conj x."
  },
  {
   "property": "C27",
   "status": "proved",
   "theorems": [
    "TAT.C27_contract",
    "TAT.C27_shared_dimensions",
    "TAT.C27_dimension_unchecked"
   ],
   "note": "For tensors with their block (an edge with no sector at all is not a NoSymmetry tensor the constructors make) whose contracted edges have equal dimensions; shared edges of different dimensions are rejected. The dimensions of contracted edges are not compared by this code path (C27_dimension_unchecked). gemm is a parameter assumed to compute the matrix product (GemmOk)."
  },
  {
   "property": "C28",
   "status": "partial",
   "theorems": [
    "TAT.C28_contract_partial",
    "TAT.C28_two_edges_wrong",
    "TAT.C28_sectors_must_match",
    "TAT.C28_fermi_sectors_partial",
    "TAT.C28_fermi_must_match",
    "TAT.C28_fermi_must_reach",
    "TAT.C28_fermi_one_edge"
   ],
   "note": "False of the code as stated: with two or more contracted edges and a symmetry other than Z2 parity the merged rows of the two tensors are ordered differently and wrong elements are multiplied (C28_two_edges_wrong: the tensors of the repository's own test, whose recorded output is wrong). Proved, with the fermionic sign, for edges whose sectors match when no two combinations of symmetries of the contracted edges have the same total (Separated; in particular for a single edge) or every symmetry is its own inverse. For bosons, edges whose sectors do not match make contract fail (C28_sectors_must_match). For fermions such edges are covered, too: the elements are the sums when each tensor with a sector the partner lacks has an edge that contract reverses (C28_fermi_sectors_partial) and contract never succeeds otherwise (C28_fermi_must_match); for one contracted edge this is an equivalence (C28_fermi_one_edge)."
  },
  {
   "property": "C29",
   "status": "proved",
   "theorems": [
    "TAT.C29_missing_ignored",
    "TAT.C29_repeated",
    "TAT.C29_unfit",
    "TAT.C29_equal_names",
    "TAT.C29_equal_names_throw"
   ],
   "note": "A contracted name that does not exist is only warned about in the default build and the pair is dropped; equal remaining names never give a result (C29_equal_names)."
  },
  {
   "property": "C30",
   "status": "partial",
   "theorems": [
    "TAT.C30_trace_partial",
    "TAT.C30_no_zero_block",
    "TAT.C30_half_missing",
    "TAT.C30_too_many",
    "TAT.C30_unknown_ignored",
    "TAT.C30_two_pairs_wrong",
    "TAT.C30_dimension_unchecked",
    "TAT.C30_arrow_unchecked"
   ],
   "note": "Proved for pairs no two combinations of symmetries of which have the same total (Separated; in particular one pair) and for any pairs when every symmetry is its own negative (NoSymmetry, Z2). The remaining case is false of the code: C30_two_pairs_wrong is the witness. The error and undefined outcomes are separate theorems."
  },
  {
   "property": "C31",
   "status": "proved",
   "theorems": [
    "TAT.C31_multiple",
    "TAT.C31_restore",
    "TAT.C31_absent",
    "TAT.C31_direction",
    "TAT.C31_table"
   ],
   "note": "The product with a singular value and its inverse are parameters. A table not fitting the edge and an unknown direction are shown to be errors. TAT_USE_SINGULAR_MATRIX variant not modelled."
  },
  {
   "property": "C32",
   "status": "partial",
   "theorems": [
    "TAT.C32_shrink_partial",
    "TAT.C32_noSymmetry",
    "TAT.C32_bosonic_fails",
    "TAT.C32_fermi_fails",
    "TAT.C32_missing_symmetry",
    "TAT.C32_need_new_edge",
    "TAT.C32_index_unchecked"
   ],
   "note": "Proved in full for tensors without symmetry. With symmetry proved when every fixed edge has one sector or, for fermions, when some arrow is true. The remaining cases are false of the code: shrink never succeeds (C32_bosonic_fails, C32_fermi_fails). The index is not checked by the code (C32_index_unchecked)."
  },
  {
   "property": "C33",
   "status": "partial",
   "theorems": [
    "TAT.C33_expand_partial",
    "TAT.C33_nonzero_undefined",
    "TAT.C33_old_nonzero",
    "TAT.C33_old_not_one",
    "TAT.C33_shrink_expand",
    "TAT.C33_round_trip_sign"
   ],
   "note": "Proved when the symmetries of the new edges add up to zero. Otherwise false of the code: undefined behaviour (C33_nonzero_undefined) or an error (C33_old_nonzero). The way back by shrink is proved with its sign, which is 1 for bosons and may be -1 for fermions (C33_round_trip_sign)."
  },
  {
   "property": "C34",
   "status": "proved",
   "theorems": [
    "TAT.C34_cut",
    "TAT.C34_no_cut",
    "TAT.C34_zero_throws",
    "TAT.C34_zero_grows"
   ],
   "note": "For a cut not larger than the number of positive singular values; what zero values do is shown separately (an exception or a result that grows)."
  },
  {
   "property": "C35",
   "status": "proved",
   "theorems": [
    "TAT.C35_svd",
    "TAT.C35_large_cut",
    "TAT.C35_values"
   ],
   "note": "For every tensor with a block, all symmetries. Both ways of applying the singular values (multiple on U or on V) are covered. gesvd is assumed to factorise (GesvdOk, met by refGesvd)."
  },
  {
   "property": "C36",
   "status": "proved",
   "theorems": [
    "TAT.C36_qr",
    "TAT.C36_direction"
   ],
   "note": "For every tensor with a block, all symmetries, both directions, whichever factor comes first; the elements of Q*R are those of the tensor with the sign of the new order of its edges. LAPACK is assumed to factorise (LapackQrOk; exists_lapackQrOk shows that the assumption can be met over every field). Any other direction letter is refused."
  },
  {
   "property": "C37",
   "status": "partial",
   "theorems": [
    "TAT.C37_elements",
    "TAT.C37_identity_partial",
    "TAT.C37_noSymmetry",
    "TAT.C37_matrix",
    "TAT.C37_not_opposite",
    "TAT.C37_undefined",
    "TAT.C37_contract",
    "TAT.C37_contract_bosonic",
    "TAT.C37_identity_contract"
   ],
   "note": "C37_elements says exactly what identity computes. The property itself fails for two or more pairs with a non-trivial symmetry (C37_not_opposite, a concrete witness); it is proved when paired symmetries are opposite in every block, which holds without symmetry and for a single pair. Rank 0 and zero dimensions are undefined behaviour (C37_undefined). Contracting a tensor with one side of an identity is proved to return the tensor with the edges replaced (with the fermionic sign of the contraction)."
  },
  {
   "property": "C38",
   "status": "proved",
   "theorems": [
    "TAT.C38_round_trip",
    "TAT.C38_sequence",
    "TAT.C38_fast_names",
    "TAT.C38_string_names",
    "TAT.C38_singular",
    "TAT.C38_dataset",
    "TAT.C38_names_checked"
   ],
   "note": "For every tensor whose sizes fit into 64 bits, all scalar types as bits and all six symmetries, arbitrary padding bytes and following bytes."
  },
  {
   "property": "C39",
   "status": "partial",
   "theorems": [
    "TAT.C39_round_trip_partial",
    "TAT.C39_no_symmetry",
    "TAT.C39_parens",
    "TAT.C39_fermiZ2",
    "TAT.C39_fermiU1",
    "TAT.C39_plain",
    "TAT.C39_no_blocks",
    "TAT.C39_fast_names",
    "TAT.C39_fast_name",
    "TAT.C39_other_dataset",
    "TAT.C39_shape",
    "TAT.C39_single_empty_name",
    "TAT.C39_long_name",
    "TAT.C39_console_fails",
    "TAT.C39_rank_zero_fails",
    "TAT.C39_counterexample",
    "TAT.C39_singular_no_symmetry",
    "TAT.C39_singular_parens",
    "TAT.C39_singular_plain",
    "TAT.C39_singular_fails",
    "TAT.C39_singular_brace",
    "TAT.C39_complex",
    "TAT.C39_whole_numbers"
   ],
   "note": "False for Z2, U1 and Fermi tensors with blocks (C39_console_fails), for rank 0 with FermiZ2, FermiU1, and for a single empty name; proved without symmetry, for FermiZ2 and FermiU1 with an edge, for tensors without blocks, and for all symmetries if the text has no colour codes. C39_other_dataset: a tensor written by one program and read by another, which need not know the names, has the same names as strings."
  },
  {
   "property": "C40",
   "status": "proved",
   "theorems": [
    "TAT.C40_up_to_date",
    "TAT.C40_up_to_date_snapshots",
    "TAT.C40_defined"
   ],
   "note": "All histories of creating, setting, unsetting, reading and destroying objects of one graph; reading is undefined behaviour exactly if a needed root is unset."
  },
  {
   "property": "C41",
   "status": "proved",
   "theorems": [
    "TAT.C41_restored",
    "TAT.C41_reads",
    "TAT.C41_later_node_stale"
   ],
   "note": "For all recorded objects. An object made after the snapshot may keep a stale value (C41_later_node_stale)."
  },
  {
   "property": "C42",
   "status": "proved",
   "theorems": [
    "TAT.C42_broadcast",
    "TAT.C42_completes",
    "TAT.C42_invalid_root"
   ],
   "note": "Messages are values (that a dump is read back as the same value is C38). Every send may be stored or wait for its receive; progress is proved with only the steps MPI cannot refuse."
  },
  {
   "property": "C43",
   "status": "partial",
   "theorems": [
    "TAT.C43_reduce_partial",
    "TAT.C43_order",
    "TAT.C43_completes",
    "TAT.C43_commutative",
    "TAT.C43_not_rank_order",
    "TAT.C43_leaf_unset"
   ],
   "note": "Proved for commutative associative functions in full, and for associative ones with the order of the tree (C43_order: every process once). The order of ranks claimed for non-commutative functions is false of the code (C43_not_rank_order, four processes)."
  },
  {
   "property": "C44",
   "status": "partial",
   "theorems": [
    "TAT.C44_arena_partial",
    "TAT.C44_destroyed_partial",
    "TAT.C44_zero_bytes_overrun",
    "TAT.C44_over_aligned"
   ],
   "note": "Proved for every sequence of requests of at least one byte, and of zero bytes if the initial buffer ends at a multiple of 16. A zero-byte request otherwise makes the arena hand out memory behind its buffer (C44_zero_bytes_overrun)."
  },
  {
   "property": "C45",
   "status": "proved",
   "theorems": [
    "TAT.C45_restored"
   ],
   "note": ""
  },
  {
   "property": "C46",
   "status": "proved",
   "theorems": [
    "TAT.C46_accounting",
    "TAT.C46_self_sum",
    "TAT.C46_program"
   ],
   "note": "Clock readings are arbitrary integers."
  },
  {
   "property": "C47",
   "status": "proved",
   "theorems": [
    "TAT.C47_visit",
    "TAT.C47_static",
    "TAT.C47_dynamic"
   ],
   "note": ""
  },
  {
   "property": "C48",
   "status": "proved",
   "theorems": [
    "TAT.C48_max",
    "TAT.C48_count",
    "TAT.C48_sum",
    "TAT.C48_invariant"
   ],
   "note": "std::abs/std::norm/std::pow are parameters."
  },
  {
   "property": "C49",
   "status": "proved",
   "theorems": [
    "TAT.C49_auto_reverse",
    "TAT.C49_arrow_valid",
    "TAT.C49_bose"
   ],
   "note": ""
  },
  {
   "property": "C50",
   "status": "proved",
   "theorems": [
    "TAT.C50_map",
    "TAT.C50_transform",
    "TAT.C50_set",
    "TAT.C50_zero_test",
    "TAT.C50_to"
   ],
   "note": ""
  },
  {
   "property": "C51",
   "status": "proved",
   "theorems": [
    "TAT.C51_cut"
   ],
   "note": "For a cut not larger than the number of positive singular values and descending values in each sector (what zero values do is C34_zero_throws, C34_zero_grows)."
  },
  {
   "property": "C52",
   "status": "proved",
   "theorems": [
    "TAT.C52_pade",
    "TAT.C52_order",
    "TAT.C52_nilpotent",
    "TAT.C52_zero_undefined",
    "TAT.C52_singular"
   ],
   "note": "Exact arithmetic over a field of characteristic zero; gesv is assumed to solve regular systems (GesvOk, met by refGesv), the denominator is assumed regular (C52_singular: the code's scaling by the largest element does not ensure it). A zero matrix is undefined behaviour (C52_zero_undefined)."
  },
  {
   "property": "C53",
   "status": "partial",
   "theorems": [
    "TAT.C53_exponential_partial",
    "TAT.C53_matrix_unique",
    "TAT.C53_two_pairs_wrong",
    "TAT.C53_zero_undefined",
    "TAT.C53_one_edge_undefined"
   ],
   "note": "Proved, with the fermionic sign, for pairs no two combinations of symmetries of which have the same total (in particular one pair) and for any pairs when every symmetry is its own negative. The remaining case is false of the code (C53_two_pairs_wrong); a sector with only zeros and a tensor with one edge are undefined behaviour."
  },
  {
   "property": "C54",
   "status": "proved",
   "theorems": [
    "TAT.C54_ergodic_enumeration",
    "TAT.C54_ergodic_forgets"
   ],
   "note": "Steps are natural numbers; the code takes the total from std::pow, which is exact below 2^53."
  },
  {
   "property": "C55",
   "status": "proved",
   "theorems": [
    "TAT.C55_elements",
    "TAT.C55_hoppings",
    "TAT.C55_zero_row",
    "TAT.C55_no_sites",
    "TAT.C55_cache",
    "TAT.C55_cache_stale"
   ],
   "note": "For operators on at least one site; without sites undefined (C55_no_sites). Cached tables are keyed by the address of the tensor and go stale when it is changed in place or another one is stored there (C55_cache_stale)."
  },
  {
   "property": "C56",
   "status": "proved",
   "theorems": [
    "TAT.C56_real_laws",
    "TAT.C56_complex_laws",
    "TAT.C56_ergodic",
    "TAT.C56_ergodic_zero_amplitude",
    "TAT.C56_ergodic_returns"
   ],
   "note": "Exact arithmetic; the amplitude is any function of the configuration; C64_ergodic has it for the amplitude which the auxiliaries compute. Needs nonzero amplitudes: with a zero one the code divides by zero (C56_ergodic_zero_amplitude). C56_ergodic_returns says when the run does not throw."
  },
  {
   "property": "C57",
   "status": "proved",
   "theorems": [
    "TAT.C57_real_laws",
    "TAT.C57_complex_laws",
    "TAT.C57_amplitude",
    "TAT.C57_detailed_balance",
    "TAT.C57_stochastic",
    "TAT.C57_stationary",
    "TAT.C57_never_zero",
    "TAT.C57_chain_reversed",
    "TAT.C57_sweep_reversible",
    "TAT.C57_chain_stationary",
    "TAT.C57_estimator"
   ],
   "note": "Random draws are independent, the index uniform and u uniform on [0,1) (measure theory of Mathlib). Operators whose zero pattern is symmetric (hermitian ones are). Convergence to the stationary distribution is not claimed: it depends on the terms connecting all configurations. C64_markov connects the amplitude with the auxiliaries."
  },
  {
   "property": "C58",
   "status": "proved",
   "theorems": [
    "TAT.C58_markov_each_once",
    "TAT.C58_markov_supported",
    "TAT.C58_markov_outside",
    "TAT.C58_groups_each_once",
    "TAT.C58_groups_supported",
    "TAT.C58_groups_disjoint"
   ],
   "note": ""
  },
  {
   "property": "C59",
   "status": "proved",
   "theorems": [
    "TAT.C59_parallel_is_sequential",
    "TAT.C59_twice_per_step",
    "TAT.C59_order_ignored",
    "TAT.C59_missing_updater",
    "TAT.C59_both_orders"
   ],
   "note": "What is done with the tensors of a term is a parameter. No bond may be listed in both orders; then the claim is false (C59_both_orders). The order of the two sites of a bond is ignored (C59_order_ignored). Broadcast is the one proved correct in C42."
  },
  {
   "property": "C60",
   "status": "proved",
   "theorems": [
    "TAT.C60_lattice",
    "TAT.C60_network",
    "TAT.C60_simple_update",
    "TAT.C60_sampling",
    "TAT.C60_exact",
    "TAT.C60_null_pointer"
   ],
   "note": "Scalars are their bits, padding bytes are arbitrary. A null pointer among the terms is undefined behaviour (C60_null_pointer). The rest of the stream is left for the next reader."
  },
  {
   "property": "C61",
   "status": "proved",
   "theorems": [
    "TAT.C61_step",
    "TAT.C61_update",
    "TAT.C61_eigen",
    "TAT.C61_denominator",
    "TAT.C61_observe",
    "TAT.C61_observe_energy",
    "TAT.C61_new",
    "TAT.C61_not_conjugated"
   ],
   "note": "Exact arithmetic in any field with a modulus; GEMM is assumed correct; names of edges injective in their strings. Division by zero is an error. The vector is contracted with itself without conjugation, so for complex scalars denominators are wrong (C61_not_conjugated); an eigenstate above the approximate energy returns 2a-E (C61_eigen)."
  },
  {
   "property": "C62",
   "status": "proved",
   "theorems": [
    "TAT.C62_value",
    "TAT.C62_one",
    "TAT.C62_two_row",
    "TAT.C62_two_column",
    "TAT.C62_hole",
    "TAT.C62_outside",
    "TAT.C62_unsupported",
    "TAT.C62_two_reads_outside"
   ],
   "note": "For a dimension_cut not below a bound depending on the lattice, or no cut; exact arithmetic; GEMM, QR and SVD of LAPACK are assumed to multiply and factorise. Two neighbours one of which is just outside of the lattice read a vector outside of its bounds (C62_two_reads_outside)."
  },
  {
   "property": "C63",
   "status": "proved",
   "theorems": [
    "TAT.C63_exact_of_sampling",
    "TAT.C63_exact_of_update",
    "TAT.C63_sampling_of_update",
    "TAT.C63_update_of_sampling",
    "TAT.C63_both_ways"
   ],
   "note": "Exact arithmetic in any field with a modulus; GEMM is assumed correct; names of edges injective in their strings. Amplitudes are sums over all indices of all edges, defined independently. A division by zero (inf or nan in the code) is an error, and happens only if all amplitudes vanish."
  },
  {
   "property": "C64",
   "status": "proved",
   "theorems": [
    "TAT.C64_set",
    "TAT.C64_value",
    "TAT.C64_replace",
    "TAT.C64_ergodic",
    "TAT.C64_markov"
   ],
   "note": "For a dimension_cut not below a bound depending on the lattice, or no cut; the tensors of the lattice are not changed after the spins are set (set keeps a slice when the spin stays the same). Exact arithmetic; GEMM, QR and SVD of LAPACK are assumed to multiply and factorise. Replacements other than one site or two neighbours are an error, as in the code."
  },
  {
   "property": "C65",
   "status": "proved",
   "theorems": [
    "TAT.C65_single",
    "TAT.C65_term",
    "TAT.C65_commutes",
    "TAT.C65_zero_environment",
    "TAT.C65_run",
    "TAT.C65_parallel",
    "TAT.C65_reversed_not_applied"
   ],
   "note": "Without truncation: for a dimension not below a bound depending on the lattice, or no cut. Exact arithmetic; GEMM, QR and SVD are assumed to multiply and factorise. The factor is explicit in neither the code nor the theorem, only that it is not zero. A zero in an environment around the bond, or an operator that annihilates the state, makes the code divide by zero; this is proved to spoil the lattice for every dimension of at least one. A term whose sites are listed against the reading order is applied as if listed in it (C65_reversed_not_applied)."
  },
  {
   "property": "C66",
   "status": "proved",
   "theorems": [
    "TAT.C66_term",
    "TAT.C66_lossless",
    "TAT.C66_run",
    "TAT.C66_parallel"
   ],
   "note": "Any dimension of at least one. The amplitudes after a cut are those of the untruncated result with the sum over the edge restricted to the first D indices (the singular values are in descending order, C34). Exact arithmetic; GEMM, QR and SVD are assumed to multiply and factorise. That the restricted sum is the best approximation of this rank is not stated: the environments make it one of the two sites with their surroundings replaced by the environments, not of the state. The dimension zero leaves no index and is not covered."
  },
  {
   "property": "C67",
   "status": "proved",
   "theorems": [
    "TAT.C67_hole",
    "TAT.C67_markov",
    "TAT.C67_returns",
    "TAT.C67_no_energy",
    "TAT.C67_no_steps",
    "TAT.C67_derivative",
    "TAT.C67_zero_amplitude",
    "TAT.C67_gradient"
   ],
   "note": "For a dimension_cut not below a bound depending on the lattice, or no cut. Exact arithmetic; GEMM, QR and SVD are assumed to multiply and factorise. Random numbers are any sequence; that the frequencies of the configurations tend to the squared amplitudes is a hypothesis of C67_gradient (C57 has the stationarity). A configuration with amplitude zero which the hamiltonian or the direction would reach spoils the estimate (C67_zero_amplitude). C67_returns says when the run does not throw; energy without steps or hamiltonians throws (C67_no_steps, C67_no_energy). With one step the error is 0/0. Printing and the seeds are left out."
  },
  {
   "property": "C68",
   "status": "proved",
   "theorems": [
    "TAT.C68_site",
    "TAT.C68_lattice",
    "TAT.C68_network",
    "TAT.C68_setter",
    "TAT.C68_terms"
   ],
   "note": "For positive D and d. The random numbers are arbitrary; the modulus of a number divided by a positive number is assumed to be the quotient. random::normal for complex scalars makes the imaginary part with deviation zero, which the standard does not allow; the distribution is not modelled. The vector of an exact lattice is made the same way."
  },
  {
   "property": "C69",
   "status": "proved",
   "theorems": [
    "TAT.C69_matrices",
    "TAT.C69_exchange",
    "TAT.C69_heisenberg",
    "TAT.C69_commutators"
   ],
   "note": "Exact arithmetic; GEMM is assumed to multiply; the conversion of complex to real numbers is assumed to keep 0, 1/4 and -1/4. The static caches of the operators are left out."
  },
  {
   "property": "C70",
   "status": "proved",
   "theorems": [
    "TAT.C70_qr",
    "TAT.C70_svd"
   ],
   "note": "Exact arithmetic. LAPACK is assumed to factorise and to return orthonormal rows and columns (LapackQrOrtho, GesvdOrtho); both assumptions are proved satisfiable over the real and complex numbers. The sums have no fermionic signs: they are those of the elements."
  },
  {
   "property": "C71",
   "status": "proved",
   "theorems": [
    "TAT.C71_norm",
    "TAT.C71_cut"
   ],
   "note": "Exact arithmetic; LAPACK is assumed to factorise with orthonormal rows and columns, GEMM to multiply. C71_cut has the hypotheses of C51: descending values (C35_values derives this from LAPACK) and at least cut positive ones, and a cut of at least one. That nothing of this rank is nearer is C72."
  },
  {
   "property": "C72",
   "status": "proved",
   "theorems": [
    "TAT.C72_best"
   ],
   "note": "Over the real or complex numbers with exact arithmetic. LAPACK is assumed to factorise with orthonormal rows and columns and values that are descending and not negative, GEMM to multiply; exists_gesvdOrtho shows that this can be met. The cut is at least one and there are at least as many positive values (otherwise see C34, C51)."
  },
  {
   "property": "C73",
   "status": "proved",
   "theorems": [
    "TAT.C73_associative",
    "TAT.C73_chain",
    "TAT.C73_chain_bosons",
    "TAT.C73_nosym_associative",
    "TAT.C73_exchange",
    "TAT.C73_nosym_exchange",
    "TAT.C73_transpose",
    "TAT.C73_reverse",
    "TAT.C73_order_may_throw",
    "TAT.C73_exchange_may_throw",
    "TAT.C73_arrow_uninitialised"
   ],
   "note": "GEMM is assumed to multiply. The hypothesis Sound (sectors do not collide, every shared sector is reached, blocks exist) is met by every pair of tensors with blocks joined by one edge (sound_single). C73_order_may_throw and C73_exchange_may_throw are inputs for which one of the two ways throws; in C73_arrow_uninitialised this depends on uninitialised memory."
  },
  {
   "property": "C74",
   "status": "proved",
   "theorems": [
    "TAT.C74_trace_of_contraction",
    "TAT.C74_trace_of_trace",
    "TAT.C74_one_by_one",
    "TAT.C74_contract_one_by_one",
    "TAT.C74_transpose",
    "TAT.C74_cyclic"
   ],
   "note": "GEMM is assumed to multiply. Traceable has the hypotheses of C30 (distinct names, matching edges, sectors that do not collide when merged; the last is free for one pair). The cases show that the trace of C30_two_pairs_wrong and the contraction of C28_two_edges_wrong are right one pair after the other."
  },
  {
   "property": "C75",
   "status": "partial",
   "theorems": [
    "TAT.C75_limit",
    "TAT.C75_mean",
    "TAT.C75_reached",
    "TAT.C75_estimate_reached",
    "TAT.C75_estimate_partial",
    "TAT.C75_probability_partial",
    "TAT.C75_gradient_reached",
    "TAT.C75_gradient_partial",
    "TAT.C75_equilibrate",
    "TAT.C75_frozen",
    "TAT.C75_not_always"
   ],
   "note": "False of the code in general: the second half of a sweep undoes the first, so if hoppings keep the absolute value of the amplitude and every row of a term has at most one hopping, every step leads back to its start whatever the random numbers are (C75_frozen), and the means stay at the local value of the first configuration (C75_not_always). What holds for every chain: limit and means over the configurations that can be reached (C75_limit, C75_mean). Missing in the _partial theorems: they assume that no hopping joins configurations of the same weight; C75_estimate_reached and C75_gradient_reached assume instead that the chain reaches all configurations. The gradient theorems discharge the assumption of C67_gradient about frequencies. Draws are independent and uniform; chainMean is the mean over the sequences of a chain with the probabilities of C57."
  },
  {
   "property": "C76",
   "status": "proved",
   "theorems": [
    "TAT.C76_conjugate",
    "TAT.C76_left",
    "TAT.C76_right",
    "TAT.C76_multiple",
    "TAT.C76_nosym_conjugate",
    "TAT.C76_nosym_left",
    "TAT.C76_nosym_multiple",
    "TAT.C76_trace_conjugate",
    "TAT.C76_trace_sum",
    "TAT.C76_trace_multiple"
   ],
   "note": "GEMM is assumed to multiply. For tensors with symmetry the calls are assumed to succeed (which do is the subject of C28, C29 and C30) and to be Sound or Traceable as in C73 and C74; without symmetry the theorems show that they succeed. Sum and difference are the operations op a b = a + e * b."
  },
  {
   "property": "C77",
   "status": "partial",
   "theorems": [
    "TAT.C77_norm_partial",
    "TAT.C77_signed_partial",
    "TAT.C77_two_norm_partial",
    "TAT.C77_one_by_one",
    "TAT.C77_wrong",
    "TAT.C77_negative",
    "TAT.C77_no_block"
   ],
   "note": "False of the code: for symmetries other than Z2 contract_all_edge() pairs the blocks of a tensor with those of its conjugate in the wrong order (C77_wrong, 29 instead of 38), for fermions blocks with odd edges of different directions are subtracted (C77_negative), and a tensor without blocks throws (C77_no_block). The _partial theorems exclude exactly these: combinations of symmetries with equal totals, fermionic edges of both directions, no blocks. C77_one_by_one has all symmetries, with one edge contracted and the others traced one by one. GEMM is assumed to multiply."
  },
  {
   "property": "C78",
   "status": "partial",
   "theorems": [
    "TAT.C78_seed",
    "TAT.C78_seed_same",
    "TAT.C78_merge",
    "TAT.C78_markov",
    "TAT.C78_split_partial",
    "TAT.C78_split_lcg_partial",
    "TAT.C78_shared_count",
    "TAT.C78_shared",
    "TAT.C78_streams",
    "TAT.C78_neighbours"
   ],
   "note": "False of the code with std::minstd_rand0, the std::default_random_engine of the GNU library: with the common number 4294967294 four processes have the same engine (C78_shared); C78_split_lcg_partial says exactly for which numbers no two processes do, C78_shared_count counts the others (2n-1 of 2^32-1 for n processes). The seeds themselves are always different (C78_split_partial). C78_streams and C78_neighbours: the streams of two processes always differ by a fixed multiple of the difference of the ranks. MPI_Bcast is a call of all processes and std::uniform_int_distribution returns a number within its bounds."
  },
  {
   "property": "C79",
   "status": "partial",
   "theorems": [
    "TAT.C79_ordered_partial",
    "TAT.C79_inside_partial",
    "TAT.C79_distinct_partial",
    "TAT.C79_names_partial",
    "TAT.C79_unordered",
    "TAT.C79_missing",
    "TAT.C79_no_block",
    "TAT.C79_short",
    "TAT.C79_repeated",
    "TAT.C79_repeated_symmetry"
   ],
   "note": "False of the code for lists which do not name every edge once: without symmetry a list with fewer names than edges is read beyond its end (C79_short), and a name given twice makes a view some of whose elements lie outside the block (C79_repeated, C79_repeated_symmetry). Missing in the _partial theorems: they assume that the list names every edge once. numpy computes addresses from shape and strides and checks indices against the shape; that is modelled, not numpy itself. A view kept while the program goes on is the subject of C82."
  },
  {
   "property": "C80",
   "status": "proved",
   "theorems": [
    "TAT.C80_hub",
    "TAT.C80_declared",
    "TAT.C80_agree",
    "TAT.C80_total",
    "TAT.C80_letters",
    "TAT.C80_reached",
    "TAT.C80_refused",
    "TAT.C80_numpy"
   ],
   "note": "The text Python makes of the arguments is the parameter. C80_numpy records that complex64, in numpy a pair of floats, selects pairs of doubles. Calling TAT() without arguments prints a message and is not modelled."
  },
  {
   "property": "C81",
   "status": "partial",
   "theorems": [
    "TAT.C81_fresh_partial",
    "TAT.C81_taken",
    "TAT.C81_unique",
    "TAT.C81_value",
    "TAT.C81_replace",
    "TAT.C81_initialize",
    "TAT.C81_renew",
    "TAT.C81_descend",
    "TAT.C81_descend_zero",
    "TAT.C81_stale"
   ],
   "note": "False of the code: set takes a new slice only when a spin changes, and nothing else is told that the tensors have changed, so after a step of the descent the value is the amplitude of the old lattice and the quotient of a hopping mixes both lattices (C81_stale, a hopping that the new lattice always accepts gets a probability below one tenth). C81_value and C81_replace say exactly which lattice is sampled after any history: every site has the tensor of the time when its spin changed last. C81_fresh_partial: if all spins have changed since then, the lattice is the present one; C81_renew: set_dimension_cut or copying the lattice makes it so. C81_initialize: initialize_spin with the same spins does not. GEMM, QR and SVD are assumed as in C62."
  },
  {
   "property": "C82",
   "status": "partial",
   "theorems": [
    "TAT.C82_careful_partial",
    "TAT.C82_keeps",
    "TAT.C82_read",
    "TAT.C82_write",
    "TAT.C82_setitem",
    "TAT.C82_shared_write",
    "TAT.C82_stale",
    "TAT.C82_dangling",
    "TAT.C82_shared_write_counterexample",
    "TAT.C82_two_views_counterexample",
    "TAT.C82_dangling_counterexample"
   ],
   "note": "False of the code: a view has the address of the core its tensor has when the view is made. If the tensor is copied or renamed while the view is alive, writes through the view change the copy too (C82_shared_write) and changes of the tensor are not seen (C82_stale); after load, or when the copy goes, the view reads freed memory (C82_dangling, C82_dangling_counterexample). C82_careful_partial: if no tensor is copied, renamed, assigned or loaded while a view of it is alive, everything is as expected. What holds for all histories: the view keeps its tensor alive (C82_keeps), it shows the value of the tensors that have the core now (C82_read) and writes change exactly these (C82_write), assignments to blocks are always right (C82_setitem). The content of a core is opaque; which elements a view covers is C79. numpy and the reference counts of Python are modelled, not verified."
  },
  {
   "property": "C83",
   "status": "proved",
   "theorems": [
    "TAT.C83_contract",
    "TAT.C83_succeeds",
    "TAT.C83_nosym_contract",
    "TAT.C83_widen",
    "TAT.C83_part",
    "TAT.C83_trace"
   ],
   "note": "Exact numbers, as everywhere; the description is that of C28 and C30, hence the hypotheses Sound and Traceable. Results are compared by names and elements (Agree)."
  },
  {
   "property": "C84",
   "status": "proved",
   "theorems": [
    "TAT.C84_energy",
    "TAT.C84_norm",
    "TAT.C84_same_state",
    "TAT.C84_multiple",
    "TAT.C84_constructed"
   ],
   "note": "Over a field; rounding is not modelled, and a norm of zero is an error instead of an infinite number. left_pool and right_pool are never written in the code and left out. GEMM is assumed to multiply matrices. A chain of one site made by the constructor has an edge on its right and energy throws (Mps.Cases); update_once is not part of this claim."
  },
  {
   "property": "C85",
   "status": "partial",
   "theorems": [
    "TAT.C85_update_once_partial",
    "TAT.C85_update_once",
    "TAT.C85_updater",
    "TAT.C85_run",
    "TAT.C85_cut",
    "TAT.C85_run_cut",
    "TAT.C85_empty",
    "TAT.C85_exchanged",
    "TAT.C85_second"
   ],
   "note": "False of the code: in the sweep to the left the tensors are contracted in the other order, so the operator acts with its two sites exchanged (C85_update_once says so exactly; C85_exchanged has a case where the states differ), and the counter with which the constructor reads the Hamiltonian is static, so a second object reads after the end of the list (C85_second). C85_update_once_partial: both directions apply the operator if the exchange of its sites does not change it, as for the Hamiltonian of the program. C85_run: any number of steps of update with 1 - delta_t H for the first object. Over a field, without rounding; a division by a norm of zero is an error. GEMM and SVD are assumed as in C62. If singular values are cut, nothing is claimed about the state, but the result is a chain of the same length with no bond above the dimension (C85_cut, C85_run_cut). What update prints is not modelled."
  },
  {
   "property": "C86",
   "status": "proved",
   "theorems": [
    "TAT.Grid.C86_two_lines",
    "TAT.Grid.C86_two_lines_cut",
    "TAT.Grid.C86_length",
    "TAT.Grid.C86_exact",
    "TAT.Grid.C86_contract",
    "TAT.Grid.C86_same",
    "TAT.Grid.C86_contract_cut",
    "TAT.Grid.C86_new"
   ],
   "note": "Rows have no edges at their ends and the upper row none above, as in the program. The cut large enough exists for every lattice (C86_contract); that the default 2^64-1 removes nothing is C86_same. With the cut zero the program reads an element which is not there, see the case beside the theorems. The elements are those of a field, not floating point numbers."
  },
  {
   "property": "C87",
   "status": "proved",
   "theorems": [
    "TAT.Diag.C87_new",
    "TAT.Diag.C87_set_h",
    "TAT.Diag.C87_second",
    "TAT.Diag.C87_apply",
    "TAT.Diag.C87_update",
    "TAT.Diag.C87_energy",
    "TAT.Diag.C87_same_site",
    "TAT.Diag.C87_no_site"
   ],
   "note": "The numbers of sites in links are not negative. Two equal sites in a link are an error (C87_same_site), and a site which is not there leaves an edge of the operator over (C87_no_site). A division by zero is an error in the model. The elements are those of a field, not floating point numbers; what update prints and main are not modelled."
  },
  {
   "property": "C88",
   "status": "partial",
   "theorems": [
    "TAT.Torus.C88_exact_partial",
    "TAT.Torus.C88_exact",
    "TAT.Torus.C88_one",
    "TAT.Torus.C88_new",
    "TAT.Torus.C88_single"
   ],
   "note": "For lattices with one site the property is false of the code: the four edges are left over and the conversion to a number is an error, unless all edges have dimension one (C88_one for all such lattices, C88_single is a case). C88_exact says what get_exact gives for all sizes. contract_with_two_line_to_one_line of PBC.cpp is C90; main is not modelled. The elements are those of a field, not floating point numbers."
  },
  {
   "property": "C89",
   "status": "proved",
   "theorems": [
    "TAT.Ed.C89_new",
    "TAT.Ed.C89_set_bond",
    "TAT.Ed.C89_update",
    "TAT.Ed.C89_steps",
    "TAT.Ed.C89_energy",
    "TAT.Ed.C89_eigen",
    "TAT.Ed.C89_square",
    "TAT.Ed.C89_run",
    "TAT.Ed.C89_sign",
    "TAT.Ed.C89_limit",
    "TAT.Ed.C89_lowest"
   ],
   "note": "The operator SS is an argument with edges I1, I2, O1, O2 in this order, as in the program. A division by zero is an error in the model. a - |a - x| is not x if x is greater than a (C89_sign). The elements are those of a field, not floating point numbers; what is printed is not modelled."
  },
  {
   "property": "C90",
   "status": "proved",
   "theorems": [
    "TAT.Torus.C90_step",
    "TAT.Torus.C90_ring",
    "TAT.Torus.C90_contract",
    "TAT.Torus.C90_contract_cut",
    "TAT.Torus.C90_one",
    "TAT.Torus.C90_zero",
    "TAT.Torus.C90_same"
   ],
   "note": "The cut removes nothing: there is a bound from which on the result is exact, and 2^64-1 (no cut) always is. With a smaller cut (not zero) only the shape of the lines and that there is a result is said, not how far it is from the value of the lattice. The elements are those of a field, not floating point numbers; the output is not modelled."
  }
 ]
}

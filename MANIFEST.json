{
 "claims": [
  {
   "property": "C01",
   "status": "proved",
   "theorems": [
    "QLDPC.Props.C01_contains",
    "QLDPC.Props.C01_equiv",
    "QLDPC.Props.C01_canonicalized",
    "QLDPC.Props.C01_idempotent",
    "QLDPC.Props.C01_independent"
   ],
   "note": "Any field, any rows."
  },
  {
   "property": "C02",
   "status": "proved",
   "theorems": [
    "QLDPC.Props.C02_generator",
    "QLDPC.Props.C02_cached",
    "QLDPC.Props.C02_dimension"
   ],
   "note": "For codes whose generator was not replaced by set_generator; dimension against finrank of the solution space."
  },
  {
   "property": "C03",
   "status": "proved",
   "theorems": [
    "QLDPC.Props.C03_iter_words",
    "QLDPC.Props.C03_skip_zero",
    "QLDPC.Props.C03_dependent_generator_disagreement"
   ],
   "note": "For codes whose generator rows form a basis (always unless set_generator was called with dependent rows, see C03_dependent_generator_disagreement)."
  },
  {
   "property": "C04",
   "status": "proved",
   "theorems": [
    "QLDPC.Props.C04_dual",
    "QLDPC.Props.C04_dual_dual",
    "QLDPC.Props.C04_dimension",
    "QLDPC.Props.C04_from_generator",
    "QLDPC.Props.C04_dual_after_set"
   ],
   "note": "Also after an accepted set_generator."
  },
  {
   "property": "C05",
   "status": "proved",
   "theorems": [
    "QLDPC.Props.C05_set_generator"
   ],
   "note": "Acceptance iff the rows span exactly the code."
  },
  {
   "property": "C06",
   "status": "proved",
   "theorems": [
    "QLDPC.Props.C06_tensor",
    "QLDPC.Props.C06_dimension"
   ],
   "note": "Row-major reshape with explicit index arithmetic."
  },
  {
   "property": "C07",
   "status": "proved",
   "theorems": [
    "QLDPC.Props.C07_puncture"
   ],
   "note": "All lists of positions."
  },
  {
   "property": "C08",
   "status": "partial",
   "theorems": [
    "QLDPC.Props.C08_shorten_partial",
    "QLDPC.Props.C08_shorten_disagreement"
   ],
   "note": "Proved for distinct positions on which the code takes independent values; the code as written loses words otherwise (C08_shorten_disagreement)."
  },
  {
   "property": "C09",
   "status": "proved",
   "theorems": [
    "QLDPC.Props.C09_stack",
    "QLDPC.Props.C09_dimension",
    "QLDPC.Props.C09_distance"
   ],
   "note": "Blocks at explicit offsets, dimension and minimum distance."
  },
  {
   "property": "C10",
   "status": "partial",
   "theorems": [
    "QLDPC.Props.C10_exact_width",
    "QLDPC.Props.C10_exact",
    "QLDPC.Props.C10_exact_bitwise_count_partial",
    "QLDPC.Props.C10_vector",
    "QLDPC.Props.C10_dependent_generator_disagreement"
   ],
   "note": "Full for 64-bit kernels, all fields, with and without vector, along any call sequence with truthful caches; with np.bitwise_count below 256 bits. After set_generator with dependent rows the result is wrong (C10_dependent_generator_disagreement)."
  },
  {
   "property": "C11",
   "status": "proved",
   "theorems": [
    "QLDPC.Props.C11_bound",
    "QLDPC.Props.C11_cutoff"
   ],
   "note": "All random streams, decoder answers, trial counts and cutoffs."
  },
  {
   "property": "C12",
   "status": "proved",
   "theorems": [
    "QLDPC.Props.C12_hamming",
    "QLDPC.Props.C12_symplectic",
    "QLDPC.Props.C12_symplectic_eq_hamming"
   ],
   "note": "All 2^64 words; the SWAR code is modelled operation by operation on BitVec 64."
  },
  {
   "property": "C13",
   "status": "proved",
   "theorems": [
    "QLDPC.Props.C13_pack_xor",
    "QLDPC.Props.C13_pack_injective",
    "QLDPC.Props.C13_hamming",
    "QLDPC.Props.C13_symplectic",
    "QLDPC.Props.C13_hamming_wraps"
   ],
   "note": "Any row length; the integer width of the row sum must hold the row length (64-bit kernels: always). C13_hamming_wraps shows the 8-bit dtype of np.bitwise_count wraps at 256 bits."
  },
  {
   "property": "C14",
   "status": "proved",
   "theorems": [
    "QLDPC.Props.C14_gray",
    "QLDPC.Props.C14_ctz"
   ],
   "note": "Every k; each subset exactly once."
  },
  {
   "property": "C15",
   "status": "partial",
   "theorems": [
    "QLDPC.Props.C15_homogeneous_width",
    "QLDPC.Props.C15_homogeneous",
    "QLDPC.Props.C15_homogeneous_bitwise_count_partial",
    "QLDPC.Props.C15_symplectic",
    "QLDPC.Props.C15_uint8_disagreement"
   ],
   "note": "Full for the repository's own 64-bit kernels and every block size. With np.bitwise_count (numpy>=2) the first block is summed in 8 bits: proved below 256 bits, C15_uint8_disagreement is a counterexample at 256 bits."
  },
  {
   "property": "C16",
   "status": "proved",
   "theorems": [
    "QLDPC.Props.C16_product",
    "QLDPC.Props.C16_form",
    "QLDPC.Props.C16_exchange",
    "QLDPC.Props.C16_commute",
    "QLDPC.Props.C16_symmetric"
   ],
   "note": "Stated against actual clock/shift operators built from an additive character."
  },
  {
   "property": "C17",
   "status": "proved",
   "theorems": [
    "QLDPC.Props.C17_subsystem",
    "QLDPC.Props.C17_css"
   ],
   "note": ""
  },
  {
   "property": "C18",
   "status": "partial",
   "theorems": [
    "QLDPC.Props.C18_from_strings",
    "QLDPC.Props.C18_get_strings",
    "QLDPC.Props.C18_round_trip",
    "QLDPC.Props.C18_no_checks_disagreement",
    "QLDPC.Props.C18_op_to_string"
   ],
   "note": "from_strings and get_strings proved for all matrices and texts, round trip for every code with at least one check, any field whose elements are numbered. Full claim fails for a code with no checks: from_strings raises (C18_no_checks_disagreement)."
  },
  {
   "property": "C19",
   "status": "partial",
   "theorems": [
    "QLDPC.Props.C19_from_string",
    "QLDPC.Props.C19_round_trip",
    "QLDPC.Props.C19_injective",
    "QLDPC.Props.C19_negative_disagreement",
    "QLDPC.Props.C19_repeated_disagreement",
    "QLDPC.Props.C19_empty_disagreement"
   ],
   "note": "Accepted texts characterised exactly, round trip and injectivity for all nonnegative exponents. Full claim fails: operators with negative exponents print a text that is rejected (C19_negative_disagreement); repeated factors are accepted (C19_repeated_disagreement)."
  },
  {
   "property": "C20",
   "status": "proved",
   "theorems": [
    "QLDPC.Props.C20_logicals",
    "QLDPC.Props.C20_default",
    "QLDPC.Props.C20_nontrivial_complete"
   ],
   "note": "Any field, any commuting checks, including redundant rows; completeness of the basis included."
  },
  {
   "property": "C21",
   "status": "partial",
   "theorems": [
    "QLDPC.Props.C21_accepted_partial",
    "QLDPC.Props.C21_accepts",
    "QLDPC.Props.C21_disagreement"
   ],
   "note": "What the accepted operators are guaranteed to satisfy, and that every symplectic basis is accepted. Full claim fails: X-X and Z-Z relations are not checked (C21_disagreement)."
  },
  {
   "property": "C22",
   "status": "proved",
   "theorems": [
    "QLDPC.Props.C22_logicals",
    "QLDPC.Props.C22_symplectic",
    "QLDPC.Props.C22_complete"
   ],
   "note": "Any field; includes completeness of the operators and the symplectic form of the result."
  },
  {
   "property": "C23",
   "status": "proved",
   "theorems": [
    "QLDPC.Props.C23_css_stabilizers",
    "QLDPC.Props.C23_stabilizers",
    "QLDPC.Props.C23_independent"
   ],
   "note": "General codes, and CSS codes with their own formula."
  },
  {
   "property": "C24",
   "status": "partial",
   "theorems": [
    "QLDPC.Props.C24_conjugated_partial",
    "QLDPC.Props.C24_all_qudits",
    "QLDPC.Props.C24_disagreement"
   ],
   "note": "Proved for characteristic two and for conjugating every qudit; fails for odd characteristic because no sign is applied (C24_disagreement)."
  },
  {
   "property": "C25",
   "status": "proved",
   "theorems": [
    "QLDPC.Props.C25_stack",
    "QLDPC.Props.C25_stack_fresh",
    "QLDPC.Props.C25_commute",
    "QLDPC.Props.C25_distance"
   ],
   "note": "Any list of codes with right logical operators (every stabilizer code qualifies), stabilizer and subsystem, any field; checks and logical operators at explicit offsets, dimension, and distance as the least distance of the blocks. CSSCode.stack is not covered by these theorems."
  },
  {
   "property": "C26",
   "status": "partial",
   "theorems": [
    "QLDPC.Props.C26_default_wiring",
    "QLDPC.Props.C26_concatenate",
    "QLDPC.Props.C26_disagreement",
    "QLDPC.Props.C26_distance"
   ],
   "note": "Any field, any permutation wiring and the default wiring, stabilizer and subsystem codes: size, checks, dimension, complete set of logical operators, with any numbers of inner and outer copies; distance at least the product of distances for wirings that spread outer blocks, which the default wiring does. The claim that the inputs are unchanged fails when one inner copy is used (C26_disagreement); proved that the inner code is unchanged otherwise and stays valid in any case."
  },
  {
   "property": "C27",
   "status": "proved",
   "theorems": [
    "QLDPC.Props.C27_exact_width",
    "QLDPC.Props.C27_exact",
    "QLDPC.Props.C27_stabilizer_definition",
    "QLDPC.Props.C27_bound",
    "QLDPC.Props.C27_cutoff"
   ],
   "note": "Exact X-, Z- and overall distance (against the least weight of any nontrivial Pauli string, mixed ones included), stabilizer and subsystem codes, any field, along any call sequence with truthful caches; randomized bounds for all draws and decoder answers. Weights wider than the integer type excluded as in C15."
  },
  {
   "property": "C28",
   "status": "partial",
   "theorems": [
    "QLDPC.Props.C28_reduce_partial",
    "QLDPC.Props.C28_weight",
    "QLDPC.Props.C28_weight_disagreement"
   ],
   "note": "Logical action and all relations preserved for all decoders; weight never increases proved for decoders of minimal weight. Full claim fails: a heavier valid answer is accepted (C28_weight_disagreement)."
  },
  {
   "property": "C29",
   "status": "proved",
   "theorems": [
    "QLDPC.Props.C29_edges",
    "QLDPC.Props.C29_nodes",
    "QLDPC.Props.C29_classical",
    "QLDPC.Props.C29_qudit",
    "QLDPC.Props.C29_zero_lines",
    "QLDPC.Props.C29_disagreement",
    "QLDPC.Props.C29_graph"
   ],
   "note": "Edges and nodes exactly; the round trip holds if and only if no row or column is zero, classical and qudit codes (CSS codes inherit the qudit functions). With zero rows or columns it fails (C29_disagreement)."
  },
  {
   "property": "C30",
   "status": "partial",
   "theorems": [
    "QLDPC.Props.C30_repetition",
    "QLDPC.Props.C30_ring_partial",
    "QLDPC.Props.C30_ring_disagreement"
   ],
   "note": "Proved for RepetitionCode, all n >= 1, and RingCode, n >= 2, over any field. RingCode(1) fails: its check is -1, so the code is {0} but dimension 1 is advertised (C30_ring_disagreement)."
  },
  {
   "property": "C31",
   "status": "proved",
   "theorems": [
    "QLDPC.Props.C31_columns",
    "QLDPC.Props.C31_dimension",
    "QLDPC.Props.C31_no_light_word",
    "QLDPC.Props.C31_distance",
    "QLDPC.Props.C31_rank_one_disagreement"
   ],
   "note": "Any field, any rank; includes the length and that every syndrome is a multiple of exactly one column. The advertised distance of rank 1 is wrong (C31_rank_one_disagreement) but not part of the statement."
  },
  {
   "property": "C32",
   "status": "partial",
   "theorems": [
    "QLDPC.Props.C32_parameters_partial",
    "QLDPC.Props.C32_generator",
    "QLDPC.Props.C32_dual",
    "QLDPC.Props.C32_order_zero_disagreement"
   ],
   "note": "Any 1 <= r <= m, dimension and distance over any field, dual over the field with two elements. At r = 0 the constructor raises, because the generator is a 1-D array (C32_order_zero_disagreement)."
  },
  {
   "property": "C33",
   "status": "proved",
   "theorems": [
    "QLDPC.Props.C33_parameters",
    "QLDPC.Props.C33_distance",
    "QLDPC.Props.C33_reed_muller",
    "QLDPC.Props.C33_words"
   ],
   "note": "All ranks; includes equality with the Reed-Muller code bit by bit."
  },
  {
   "property": "C34",
   "status": "proved",
   "theorems": [
    "QLDPC.Props.C34_exists",
    "QLDPC.Props.C34_words",
    "QLDPC.Props.C34_all_words",
    "QLDPC.Props.C34_directed",
    "QLDPC.Props.C34_undirected",
    "QLDPC.Props.C34_again_disagreement"
   ],
   "note": "Directed half-regular graphs with any sort keys, undirected regular graphs, any field. Beyond the statement: building the code from an undirected graph removes the sort attributes from the caller's graph (C34_again_disagreement)."
  },
  {
   "property": "C35",
   "status": "proved",
   "theorems": [
    "QLDPC.Props.C35_regular_mul",
    "QLDPC.Props.C35_regular_one",
    "QLDPC.Props.C35_regular_inv",
    "QLDPC.Props.C35_regular_injective",
    "QLDPC.Props.C35_perm_mul",
    "QLDPC.Props.C35_perm_one_inv",
    "QLDPC.Props.C35_perm_acts",
    "QLDPC.Props.C35_tensor"
   ],
   "note": "Any finite group enumerated without repetition; also faithful. Permutation matrices for the product of sympy, and the direct product of permutations."
  },
  {
   "property": "C36",
   "status": "proved",
   "theorems": [
    "QLDPC.Props.C36_add",
    "QLDPC.Props.C36_mul",
    "QLDPC.Props.C36_one",
    "QLDPC.Props.C36_scalar",
    "QLDPC.Props.C36_member",
    "QLDPC.Props.C36_transpose",
    "QLDPC.Props.C36_regular",
    "QLDPC.Props.C36_array_mul",
    "QLDPC.Props.C36_array_add",
    "QLDPC.Props.C36_array_transpose",
    "QLDPC.Props.C36_array_transpose_mul",
    "QLDPC.Props.C36_array_regular"
   ],
   "note": "Ring members for any lift that is a representation (and sends inverses to transposes, for the transpose), the regular lift qualifies; arrays of any shape. Lifts built by from_table and from_generating_mats do not qualify, see C40."
  },
  {
   "property": "C37",
   "status": "proved",
   "theorems": [
    "QLDPC.Props.C37_operations",
    "QLDPC.Props.C37_closed",
    "QLDPC.Props.C37_equality",
    "QLDPC.Props.C37_ring_laws",
    "QLDPC.Props.C37_power",
    "QLDPC.Props.C37_negative_power_disagreement",
    "QLDPC.Props.C37_from_vector",
    "QLDPC.Props.C37_vectors"
   ],
   "note": "Dictionaries of terms against coefficient functions, whose product is that of Mathlib's MonoidAlgebra. Negative powers are one (C37_negative_power_disagreement); x - g for a group member g raises."
  },
  {
   "property": "C38",
   "status": "proved",
   "theorems": [
    "QLDPC.Props.C38_inverse"
   ],
   "note": "Any finite group and field, both directions. The enumeration of the group must start with the identity, as sympy's does."
  },
  {
   "property": "C39",
   "status": "partial",
   "theorems": [
    "QLDPC.Props.C39_hash_partial",
    "QLDPC.Props.C39_disagreement",
    "QLDPC.Props.C39_equivalence"
   ],
   "note": "Equality is an equivalence relation; hashes of equal groups agree for all hash functions exactly if enumeration and lift agree too. The full claim fails (C39_disagreement)."
  },
  {
   "property": "C40",
   "status": "partial",
   "theorems": [
    "QLDPC.Props.C40_table_rows",
    "QLDPC.Props.C40_table_isomorphic",
    "QLDPC.Props.C40_table_lift_reverses",
    "QLDPC.Props.C40_table_lift_iff",
    "QLDPC.Props.C40_mats",
    "QLDPC.Props.C40_mats_terminates",
    "QLDPC.Props.C40_mats_generated",
    "QLDPC.Props.C40_mats_lift_reverses",
    "QLDPC.Props.C40_mats_lift_partial",
    "QLDPC.Props.C40_mats_isomorphic",
    "QLDPC.Props.C40_quaternion_table",
    "QLDPC.Props.C40_quaternion_relations",
    "QLDPC.Props.C40_quaternion_lift",
    "QLDPC.Props.C40_table_disagreement",
    "QLDPC.Props.C40_mats_disagreement",
    "QLDPC.Props.C40_duplicate_disagreement"
   ],
   "note": "Tables and matrices: the group built is isomorphic to the one given, all sizes; the loop over matrices ends if they generate finitely many. The lift is proved to reverse products, so it is a representation exactly if the matrices commute (or the integer lift reverses products, as for QuaternionGroup, proved in full). The full claim fails (C40_table_disagreement, C40_mats_disagreement); a matrix given twice makes from_generating_mats raise (C40_duplicate_disagreement)."
  },
  {
   "property": "C41",
   "status": "proved",
   "theorems": [
    "QLDPC.Props.C41_symmetric_subset",
    "QLDPC.Props.C41_raises_iff",
    "QLDPC.Props.C41_returns",
    "QLDPC.Props.C41_never_returns",
    "QLDPC.Props.C41_small_group_disagreement"
   ],
   "note": "All groups, random streams and sort orders; raises exactly for sizes out of range, and returns once every member was drawn if and only if such a subset exists. A SmallGroup with index 1 never returns without the identity (C41_small_group_disagreement)."
  },
  {
   "property": "C42",
   "status": "partial",
   "theorems": [
    "QLDPC.Props.C42_power_product",
    "QLDPC.Props.C42_multiplication",
    "QLDPC.Props.C42_generate_partial",
    "QLDPC.Props.C42_identity_first_partial",
    "QLDPC.Props.C42_lift",
    "QLDPC.Props.C42_lift_regular_partial",
    "QLDPC.Props.C42_lift_direct_sum",
    "QLDPC.Props.C42_cyclic_lift",
    "QLDPC.Props.C42_cyclic_lift_mul",
    "QLDPC.Props.C42_disagreement",
    "QLDPC.Props.C42_docstring_disagreement"
   ],
   "note": "All lists of orders without 1 (with at most one 1 if sympy keeps identity generators), any length: multiplication, enumeration, both lifts, cyclic groups. The full claim fails for AbelianGroup(1, 1, 3) (C42_disagreement); the docstring of CyclicGroup states the opposite shift (C42_docstring_disagreement)."
  },
  {
   "property": "C43",
   "status": "partial",
   "theorems": [
    "QLDPC.Props.C43_module_le",
    "QLDPC.Props.C43_module_eq",
    "QLDPC.Props.C43_nonzero",
    "QLDPC.Props.C43_pivots_partial",
    "QLDPC.Props.C43_field",
    "QLDPC.Props.C43_pivot_disagreement",
    "QLDPC.Props.C43_module_disagreement"
   ],
   "note": "Rows stay in the left module always, the module is preserved for abelian groups; rows with an invertible entry at their turn become pivots; in full for the trivial group. The full claim fails: rows that become invertible later are not reduced again (C43_pivot_disagreement), and rows get lost for groups that are not abelian (C43_module_disagreement)."
  },
  {
   "property": "C44",
   "status": "proved",
   "theorems": [
    "QLDPC.Props.C44_annihilates",
    "QLDPC.Props.C44_complete",
    "QLDPC.Props.C44_raises",
    "QLDPC.Props.C44_disagreement"
   ],
   "note": "All groups; for abelian groups also complete. The call raises exactly if there is no nonzero null vector (C44_raises, C44_disagreement)."
  },
  {
   "property": "C45",
   "status": "proved",
   "theorems": [
    "QLDPC.Props.C45_accepted",
    "QLDPC.Props.C45_blocks",
    "QLDPC.Props.C45_checks_commute"
   ],
   "note": "Any matrices over any field, both cases of validation."
  },
  {
   "property": "C46",
   "status": "proved",
   "theorems": [
    "QLDPC.Props.C46_matrix_x",
    "QLDPC.Props.C46_matrix_z",
    "QLDPC.Props.C46_checks_commute",
    "QLDPC.Props.C46_logicals",
    "QLDPC.Props.C46_complete",
    "QLDPC.Props.C46_redundant_generator_disagreement"
   ],
   "note": "Entries of both matrices, commutation, dimension and the product logical operators for all classical codes whose generator is the computed one. With rows set by set_generator that are dependent the advertised operators are not a basis (C46_redundant_generator_disagreement)."
  },
  {
   "property": "C47",
   "status": "proved",
   "theorems": [
    "QLDPC.Props.C47_graph",
    "QLDPC.Props.C47_edges",
    "QLDPC.Props.C47_matrix",
    "QLDPC.Props.C47_zero_column_disagreement"
   ],
   "note": "networkx cartesian_product and relabel_nodes are modelled; exponents are field elements until the end; the zero-column case is shown to differ"
  },
  {
   "property": "C48",
   "status": "proved",
   "theorems": [
    "QLDPC.Props.C48_stabilizers",
    "QLDPC.Props.C48_generator",
    "QLDPC.Props.C48_logicals",
    "QLDPC.Props.C48_matrices"
   ],
   "note": "Stabilizers, gauge generators, logical operators for all classical codes."
  },
  {
   "property": "C49",
   "status": "partial",
   "theorems": [
    "QLDPC.Props.C49_iff",
    "QLDPC.Props.C49_abelian_partial",
    "QLDPC.Props.C49_nonabelian_disagreement"
   ],
   "note": "Proved for abelian groups, and an iff for all groups: the checks commute exactly if the entries of A commute with the transposed entries of B. The full claim fails for nonabelian groups (C49_nonabelian_disagreement)."
  },
  {
   "property": "C50",
   "status": "proved",
   "theorems": [
    "QLDPC.Props.C50_validate",
    "QLDPC.Props.C50_ops",
    "QLDPC.Props.C50_transpose",
    "QLDPC.Props.C50_tensor_product",
    "QLDPC.Props.C50_tensor_complex",
    "QLDPC.Props.C50_tensor_ring",
    "QLDPC.Props.C50_hypergraph",
    "QLDPC.Props.C50_nonabelian_disagreement"
   ],
   "note": "All lengths, all commutative rings, with an entry-wise specification; for two maps over any ring an iff. Over the algebra of a nonabelian group the tensor product need not be a complex (C50_nonabelian_disagreement)."
  },
  {
   "property": "C51",
   "status": "partial",
   "theorems": [
    "QLDPC.Props.C51_loop_ends_iff",
    "QLDPC.Props.C51_symbols",
    "QLDPC.Props.C51_nontermination_disagreement",
    "QLDPC.Props.C51_code",
    "QLDPC.Props.C51_constructor_partial",
    "QLDPC.Props.C51_order_one_disagreement"
   ],
   "note": "Polynomials and orders of any number. The loop ends exactly if there is at most one more order than symbols (C51_loop_ends_iff), so the claim fails for more (C51_nontermination_disagreement); the code exists and its checks commute for all orders above 1. An order of 1 raises (C51_order_one_disagreement)."
  },
  {
   "property": "C52",
   "status": "proved",
   "theorems": [
    "QLDPC.Props.C52_labels",
    "QLDPC.Props.C52_positions",
    "QLDPC.Props.C52_folded",
    "QLDPC.Props.C52_addresses"
   ],
   "note": "All orders and polynomials: labels and positions are bijections, addressing in terms of labels, folded distances."
  },
  {
   "property": "C53",
   "status": "partial",
   "theorems": [
    "QLDPC.Props.C53_order",
    "QLDPC.Props.C53_modular_inverse",
    "QLDPC.Props.C53_valid_basis",
    "QLDPC.Props.C53_canonical_exponent",
    "QLDPC.Props.C53_canonical_form_partial",
    "QLDPC.Props.C53_coefficient_disagreement",
    "QLDPC.Props.C53_monomial_disagreement"
   ],
   "note": "Orders, inverses and bases in full. Canonical forms only for at least two terms with coefficients that equal their power; otherwise the claim fails (C53_coefficient_disagreement, C53_monomial_disagreement)."
  },
  {
   "property": "C54",
   "status": "proved",
   "theorems": [
    "QLDPC.Props.C54_surface",
    "QLDPC.Props.C54_surface_rejects",
    "QLDPC.Props.C54_toric",
    "QLDPC.Props.C54_toric_rejects"
   ],
   "note": "All side lengths and finite fields: checks commute, check weights, dimension, exact X and Z distances as recorded by the constructor, and all straight rows and columns are nontrivial logical operators; single rows or columns and odd toric lattices are rejected. Covers the rotated branches."
  },
  {
   "property": "C55",
   "status": "proved",
   "theorems": [
    "QLDPC.Props.C55_bipartite",
    "QLDPC.Props.C55_quadripartite",
    "QLDPC.Props.C55_rejects"
   ],
   "note": "All finite groups, nonempty symmetric subsets and codes over any field, both kinds of complexes, every order in which nodes are popped: the loop ends, qudits are exactly the faces, words of both codes are characterised by local views, and all checks commute."
  },
  {
   "property": "C56",
   "status": "partial",
   "theorems": [
    "QLDPC.Props.C56_roundtrip_partial",
    "QLDPC.Props.C56_injective",
    "QLDPC.Props.C56_equality",
    "QLDPC.Props.C56_comparisons",
    "QLDPC.Props.C56_equality_disagreement",
    "QLDPC.Props.C56_no_rows_disagreement"
   ],
   "note": "Round trip for all data whose seed codes have at least one check and one bit, any headers. A seed code without checks cannot be loaded (C56_no_rows_disagreement). Equality fails: __eq__ compares other with itself, so that any two QTCodes are equal (C56_equality, C56_equality_disagreement)."
  },
  {
   "property": "C57",
   "status": "partial",
   "theorems": [
    "QLDPC.Props.C57_least_partial",
    "QLDPC.Props.C57_nonzero",
    "QLDPC.Props.C57_unique",
    "QLDPC.Props.C57_default",
    "QLDPC.Props.C57_disagreement",
    "QLDPC.Props.C57_pauli_partial",
    "QLDPC.Props.C57_corrects"
   ],
   "note": "Any field, classical and Pauli errors: least weight among the nonzero errors, exact correction below half the distance, correction up to stabilizers for codes. The full claim fails for the zero syndrome if max_weight reaches the distance (C57_disagreement)."
  },
  {
   "property": "C58",
   "status": "partial",
   "theorems": [
    "QLDPC.Props.C58_classical_partial",
    "QLDPC.Props.C58_pauli_partial",
    "QLDPC.Props.C58_solvable",
    "QLDPC.Props.C58_pauli_solvable",
    "QLDPC.Props.C58_zero_row_disagreement"
   ],
   "note": "Any field, classical and Pauli errors: termination and the exact answer for every syndrome that can be explained, without conditions (C58_solvable, C58_pauli_solvable), and zero for other syndromes if zero rows have zero syndrome. Otherwise the decoder raises (C58_zero_row_disagreement)."
  },
  {
   "property": "C59",
   "status": "partial",
   "theorems": [
    "QLDPC.Props.C59_sound",
    "QLDPC.Props.C59_binary",
    "QLDPC.Props.C59_optimal",
    "QLDPC.Props.C59_flags",
    "QLDPC.Props.C59_complete_partial",
    "QLDPC.Props.C59_raises",
    "QLDPC.Props.C59_disagreement"
   ],
   "note": "Sound for every modulus; for q = 2 feasible points are exactly the explanations and optimal points those of least weight. For q > 2 complete only for small row sums; the full claim fails (C59_disagreement)."
  },
  {
   "property": "C60",
   "status": "proved",
   "theorems": [
    "QLDPC.Props.C60_block",
    "QLDPC.Props.C60_shape",
    "QLDPC.Props.C60_solves",
    "QLDPC.Props.C60_direct_word",
    "QLDPC.Props.C60_direct_recovers"
   ],
   "note": "Any base decoder."
  },
  {
   "property": "C61",
   "status": "partial",
   "theorems": [
    "QLDPC.Props.C61_tableau",
    "QLDPC.Props.C61_basis",
    "QLDPC.Props.C61_stored",
    "QLDPC.Props.C61_stabilizer",
    "QLDPC.Props.C61_css",
    "QLDPC.Props.C61_shp_disagreement",
    "QLDPC.Props.C61_returned",
    "QLDPC.Props.C61_subsystem_disagreement"
   ],
   "note": "Proved for all qubit stabilizer codes and all CSS codes (stabilizer and subsystem) with computed stabilizers, and for any reduced stabilizers with given logical and gauge operators (C61_tableau, C61_stored); the rows are a basis of all Pauli strings. For general (non-CSS) subsystem codes whenever the call returns (C61_returned); as their logical operators are wrong in general (C70), it may raise (C61_subsystem_disagreement). Stored stabilizers that pass _is_canonicalized without being reduced break the claim (C61_shp_disagreement)."
  },
  {
   "property": "C62",
   "status": "proved",
   "theorems": [
    "QLDPC.Props.C62_moves",
    "QLDPC.Props.C62_exists_iff",
    "QLDPC.Props.C62_automorphism"
   ],
   "note": "All permutations; a circuit exists exactly if the qubits are sent to different places. Automorphisms generated by the gate set always have one."
  },
  {
   "property": "C63",
   "status": "partial",
   "theorems": [
    "QLDPC.Props.C63_clifford",
    "QLDPC.Props.C63_iff",
    "QLDPC.Props.C63_checks",
    "QLDPC.Props.C63_transversal",
    "QLDPC.Props.C63_deform_partial",
    "QLDPC.Props.C63_deform_disagreement"
   ],
   "note": "Without deform_code: all codes, gate sets and generated permutations, as an equivalence, plus commutation relations and the group of the checks, modulo signs. With deform_code only for gate sets without S and SQRT_X (C63_deform_partial); with S the claim fails (C63_deform_disagreement). Signs and Pauli corrections are not modelled."
  },
  {
   "property": "C64",
   "status": "partial",
   "theorems": [
    "QLDPC.Props.C64_transparent",
    "QLDPC.Props.C64_iff",
    "QLDPC.Props.C64_default_key",
    "QLDPC.Props.C64_default_transparent_partial",
    "QLDPC.Props.C64_key_func",
    "QLDPC.Props.C64_key_disagreement"
   ],
   "note": "All histories and cache contents: the decorated function agrees with the function exactly if the stored values do, for keys that determine the arguments. The default key does for calls whose positional arguments do not look like keyword pairs; it does not in general (C64_key_disagreement). C64_iff holds for every type of keys and every key function, hence also for the bytes that diskcache compares and for keys that identify 1 and True."
  },
  {
   "property": "C65",
   "status": "proved",
   "theorems": [
    "QLDPC.Props.C65_strict_total_order",
    "QLDPC.Props.C65_data_first",
    "QLDPC.Props.C65_hash"
   ],
   "note": "Strict total order, data nodes first, hash respects equality."
  },
  {
   "property": "C66",
   "status": "partial",
   "theorems": [
    "QLDPC.Props.C66_terminates",
    "QLDPC.Props.C66_allocation_partial",
    "QLDPC.Props.C66_deterministic",
    "QLDPC.Props.C66_disagreement",
    "QLDPC.Props.C66_no_samples_disagreement"
   ],
   "note": "Exact arithmetic instead of floating point. Proved: termination, nonnegative, none for weight 0, positive and descending up to the last weight, at least the requested total. Full claim fails: the total may exceed the request (C66_disagreement); a request of 0 raises."
  },
  {
   "property": "C67",
   "status": "proved",
   "theorems": [
    "QLDPC.Props.C67_order",
    "QLDPC.Props.C67_list",
    "QLDPC.Props.C67_slice_mem",
    "QLDPC.Props.C67_slice_order",
    "QLDPC.Props.C67_slice",
    "QLDPC.Props.C67_default",
    "QLDPC.Props.C67_zero_step"
   ],
   "note": "All slices and lists; either sign of the step."
  },
  {
   "property": "C68",
   "status": "proved",
   "theorems": [
    "QLDPC.Props.C68_known",
    "QLDPC.Props.C68_reachable",
    "QLDPC.Props.C68_other_fields"
   ],
   "note": "For every binary parity check matrix whose group is found in the table, every generator maps exactly code words to code words; every entry is reached; codes over other fields never use the table. The disk cache in front of the lookup is C64."
  },
  {
   "property": "C69",
   "status": "proved",
   "theorems": [
    "QLDPC.Props.C69_parse",
    "QLDPC.Props.C69_to_gap_cycles",
    "QLDPC.Props.C69_round_trip",
    "QLDPC.Props.C69_lines"
   ],
   "note": "All permutations; every text of cycles that GAP prints on one line. Line wrapping of GAP is not modelled."
  },
  {
   "property": "C70",
   "status": "partial",
   "theorems": [
    "QLDPC.Props.C70_checks_disagreement",
    "QLDPC.Props.C70_xx_disagreement",
    "QLDPC.Props.C70_pair_partial"
   ],
   "note": "Proved: number of operators, pairing and commutation of the Z-type operators. The full claim fails: C70_checks_disagreement and C70_xx_disagreement are two-generator gauge groups for which the returned operators violate it."
  },
  {
   "property": "C71",
   "status": "proved",
   "theorems": [
    "QLDPC.Props.C71_logicals",
    "QLDPC.Props.C71_complete"
   ],
   "note": "Any two matrices over any field, no hypotheses; includes that the inverse exists and that the operators are complete."
  },
  {
   "property": "C72",
   "status": "proved",
   "theorems": [
    "QLDPC.Props.C72_exact",
    "QLDPC.Props.C72_bound"
   ],
   "note": "Stabilizer codes over any field, along any call sequence with truthful caches, against the least number of qudits of a nontrivial logical operator. Subsystem codes: C104."
  },
  {
   "property": "C73",
   "status": "proved",
   "theorems": [
    "QLDPC.Props.C73_gauge_ops"
   ],
   "note": "Any field, any known set of valid logical operators."
  },
  {
   "property": "C74",
   "status": "proved",
   "theorems": [
    "QLDPC.Props.C74_random_logical",
    "QLDPC.Props.C74_random_logical_complete"
   ],
   "note": "All draws."
  },
  {
   "property": "C75",
   "status": "proved",
   "theorems": [
    "QLDPC.Props.C75_exists",
    "QLDPC.Props.C75_parameters"
   ],
   "note": "All six tabulated polynomials; the words are reduced to 2^k shift register sequences, which are checked in the kernel."
  },
  {
   "property": "C76",
   "status": "proved",
   "theorems": [
    "QLDPC.Props.C76_probs",
    "QLDPC.Props.C76_value",
    "QLDPC.Props.C76_bounds",
    "QLDPC.Props.C76_zero",
    "QLDPC.Props.C76_perfect",
    "QLDPC.Props.C76_fidelity",
    "QLDPC.Props.C76_samples"
   ],
   "note": "Exact arithmetic instead of floating point, all outcomes of the samples."
  },
  {
   "property": "C77",
   "status": "proved",
   "theorems": [
    "QLDPC.Props.C77_hgp_x",
    "QLDPC.Props.C77_hgp_z",
    "QLDPC.Props.C77_shp_x",
    "QLDPC.Props.C77_shp_z",
    "QLDPC.Props.C77_shp",
    "QLDPC.Props.C77_hgp",
    "QLDPC.Props.C77_hgp_independent"
   ],
   "note": "All matrices over all finite fields; exact characterisation of both distances including the case where no logical operators exist."
  },
  {
   "property": "C78",
   "status": "partial",
   "theorems": [
    "QLDPC.Props.C78_surface",
    "QLDPC.Props.C78_toric_partial",
    "QLDPC.Props.C78_toric_disagreement",
    "QLDPC.Props.C78_bacon_shor",
    "QLDPC.Props.C78_shyps"
   ],
   "note": "All side lengths, except that ToricCode(rows, cols, rotated=False) needs sides of at least 2: with a side of 1 RingCode(1) has no words and the recorded dimension and distance are wrong (C78_toric_disagreement). Everything else in full."
  },
  {
   "property": "C79",
   "status": "proved",
   "theorems": [
    "QLDPC.Props.C79_five_qubit",
    "QLDPC.Props.C79_steane",
    "QLDPC.Props.C79_c6",
    "QLDPC.Props.C79_alternative",
    "QLDPC.Props.C79_iceberg",
    "QLDPC.Props.C79_iceberg_one",
    "QLDPC.Props.C79_c4"
   ],
   "note": "All sizes >= 1 of IcebergCode; the single codes are proved through the verified exact distance algorithm evaluated in the kernel. IcebergCode(0) records the dimension -2; it is outside the claim."
  },
  {
   "property": "C80",
   "status": "proved",
   "theorems": [
    "QLDPC.Props.C80_stack",
    "QLDPC.Props.C80_stack_fresh",
    "QLDPC.Props.C80_stack_distance",
    "QLDPC.Props.C80_concatenate",
    "QLDPC.Props.C80_distance",
    "QLDPC.Props.C80_default_spread",
    "QLDPC.Props.C80_disagreement"
   ],
   "note": "Distances of concatenated codes are bounded from below for wirings that spread each outer block over different inner blocks, which the default wiring does. As in C26, with one inner copy the caller's inner code is changed; C80_disagreement is the witness, and input immutability is not part of this claim."
  },
  {
   "property": "C81",
   "status": "partial",
   "theorems": [
    "QLDPC.Props.C81_deform_css_iff",
    "QLDPC.Props.C81_deform_subsystem_disagreement",
    "QLDPC.Props.C81_stabilizer",
    "QLDPC.Props.C81_css",
    "QLDPC.Props.C81_deform",
    "QLDPC.Props.C81_deform_iff",
    "QLDPC.Props.C81_logical_tableau",
    "QLDPC.Props.C81_logical_tableau_css",
    "QLDPC.Props.C81_unique",
    "QLDPC.Props.C81_returned",
    "QLDPC.Props.C81_returned_css",
    "QLDPC.Props.C81_disagreement"
   ],
   "note": "Whenever the call returns: all codes on qubits, stabilizer or subsystem, CSS or not, with and without deformation, signs included (C81_returned, C81_returned_css). That it returns: stabilizer codes with and without deformation, CSS or not, as an equivalence (C81_deform_iff, C81_deform_css_iff), CSS subsystem codes without deformation. With deformation the call raises for subsystem codes, even for the trivial automorphism (C81_deform_subsystem_disagreement). The signs are those of the row-reduced stabilizers; with the signs of the given parity checks the claim is false (C81_disagreement)."
  },
  {
   "property": "C82",
   "status": "proved",
   "theorems": [
    "QLDPC.Props.C82_circuits",
    "QLDPC.Props.C82_circuits_css",
    "QLDPC.Props.C82_succeeds",
    "QLDPC.Props.C82_succeeds_css",
    "QLDPC.Props.C82_early_exit",
    "QLDPC.Props.C82_single",
    "QLDPC.Props.C82_comparisons",
    "QLDPC.Props.C82_ops",
    "QLDPC.Props.C82_ops_css"
   ],
   "note": "All codes on qubits, stabilizer or subsystem, CSS or not, with and without deformation, for all lists of permutations (the enumeration of the automorphism group by sympy, MAGMA or GAP), including the early exit. Without deformation the search does not raise (C82_succeeds, C82_succeeds_css). Signs of stabilizers are those of the row-reduced stabilizers (C81_disagreement)."
  },
  {
   "property": "C83",
   "status": "proved",
   "theorems": [
    "QLDPC.Props.C83_gates",
    "QLDPC.Props.C83_circuits",
    "QLDPC.Props.C83_isometry",
    "QLDPC.Props.C83_unique",
    "QLDPC.Props.C83_dimension",
    "QLDPC.Props.C83_dimension_css",
    "QLDPC.Props.C83_encoder",
    "QLDPC.Props.C83_transversal",
    "QLDPC.Props.C83_search",
    "QLDPC.Props.C83_css"
   ],
   "note": "In full for stabilizer codes, with and without deformation; for CSS stabilizer and subsystem codes the dimension and the action on code states and logical operators. Signs of stabilizers are those of the row-reduced stabilizers (C81_disagreement). The matrices of the gates are those of Stim's documentation."
  },
  {
   "property": "C84",
   "status": "partial",
   "theorems": [
    "QLDPC.Props.C84_generators",
    "QLDPC.Props.C84_raises",
    "QLDPC.Props.C84_linear",
    "QLDPC.Props.C84_regular",
    "QLDPC.Props.C84_order",
    "QLDPC.Props.C84_isomorphic",
    "QLDPC.Props.C84_iter",
    "QLDPC.Props.C84_lift_reverses",
    "QLDPC.Props.C84_lift_disagreement"
   ],
   "note": "All dimensions and finite fields: generation, order, isomorphism, both representations, iter_mats. The lift maps the permutation of a matrix to that matrix but reverses products, so that it is not a representation for any d >= 2 (C84_lift_reverses, C84_lift_disagreement)."
  },
  {
   "property": "C85",
   "status": "partial",
   "theorems": [
    "QLDPC.Props.C85_linear",
    "QLDPC.Props.C85_isomorphic",
    "QLDPC.Props.C85_lift_partial",
    "QLDPC.Props.C85_lift_raises_disagreement",
    "QLDPC.Props.C85_order",
    "QLDPC.Props.C85_iter",
    "QLDPC.Props.C85_lift_disagreement",
    "QLDPC.Props.C85_regular_large_disagreement",
    "QLDPC.Props.C85_regular_iff",
    "QLDPC.Props.C85_regular_terminates",
    "QLDPC.Props.C85_regular_partial",
    "QLDPC.Props.C85_regular_three_partial",
    "QLDPC.Props.C85_regular_two",
    "QLDPC.Props.C85_regular_disagreement"
   ],
   "note": "The linear representation in full: the group, its order, iter_mats (as flat arrays), for all iteration orders. The lift only if 1 is the only d-th root of unity; otherwise it raises for some iteration orders (C85_lift_raises_disagreement) and for PSL(2, 3) never is a representation (C85_lift_disagreement). linear_rep=False in full: it is the projective special linear group exactly if d = 2 or q <= 3 (C85_regular_iff, C85_regular_two), and another group for all d >= 3, q > 3 (C85_regular_large_disagreement)."
  },
  {
   "property": "C86",
   "status": "partial",
   "theorems": [
    "QLDPC.Props.C86_bits",
    "QLDPC.Props.C86_qudits",
    "QLDPC.Props.C86_bias",
    "QLDPC.Props.C86_classical",
    "QLDPC.Props.C86_css",
    "QLDPC.Props.C86_single_sample_disagreement",
    "QLDPC.Props.C86_classical_failure",
    "QLDPC.Props.C86_checks",
    "QLDPC.Props.C86_failure",
    "QLDPC.Props.C86_unmatched_disagreement"
   ],
   "note": "All codes, finite fields, decoders, biases and numbers of samples: distribution of the sampled errors, expected value of the rate and of the squared uncertainty, and the criterion for failures if decoders match the syndrome. If they do not, an error that is not corrected may count as a success (C86_unmatched_disagreement); with one sample per weight the uncertainty is always zero (C86_single_sample_disagreement)."
  },
  {
   "property": "C87",
   "status": "partial",
   "theorems": [
    "QLDPC.Props.C87_parse",
    "QLDPC.Props.C87_members",
    "QLDPC.Props.C87_unique",
    "QLDPC.Props.C87_idempotent",
    "QLDPC.Props.C87_semisimple",
    "QLDPC.Props.C87_subfield_disagreement"
   ],
   "note": "Reading of the text and the resulting members for all outputs whose coefficients are powers of the generators of the field or of its prime field. Coefficients in other subfields are misread, and what is returned is then not idempotent (C87_subfield_disagreement)."
  },
  {
   "property": "C88",
   "status": "partial",
   "theorems": [
    "QLDPC.Props.C88_surface",
    "QLDPC.Props.C88_toric_partial",
    "QLDPC.Props.C88_dimension",
    "QLDPC.Props.C88_toric_disagreement"
   ],
   "note": "Number of qudits, commutation, dimension and both distances for all sizes (from 2 if periodic), dimensions and fields. Periodic lattices of size 1 have no logical qudits at all (C88_toric_disagreement)."
  },
  {
   "property": "C89",
   "status": "proved",
   "theorems": [
    "QLDPC.Props.C89_lifted",
    "QLDPC.Props.C89_subsystem_lifted",
    "QLDPC.Props.C89_two_block",
    "QLDPC.Props.C89_scalar",
    "QLDPC.Props.C89_choice",
    "QLDPC.Props.C89_hgp_choice"
   ],
   "note": "All rings, lifts that map 0 to 0 and preserve negatives and transposes, arrays of all shapes. The stabilizers and logical operators that SHPCode records are those of C48."
  },
  {
   "property": "C90",
   "status": "partial",
   "theorems": [
    "QLDPC.Props.C90_first",
    "QLDPC.Props.C90_default",
    "QLDPC.Props.C90_single",
    "QLDPC.Props.C90_plain",
    "QLDPC.Props.C90_nonbinary_solves",
    "QLDPC.Props.C90_passed_on",
    "QLDPC.Props.C90_disagreement",
    "QLDPC.Props.C90_truth"
   ],
   "note": "Choice, precedence and arguments handed on for all dictionaries of arguments. The claim on false selectors fails: C90_passed_on and C90_disagreement show that a later selector, even a false one, is handed on to the lookup and Union-Find constructors, which raise a TypeError."
  },
  {
   "property": "C91",
   "status": "partial",
   "theorems": [
    "QLDPC.Props.C91_length",
    "QLDPC.Props.C91_default",
    "QLDPC.Props.C91_disagreement",
    "QLDPC.Props.C91_code",
    "QLDPC.Props.C91_success",
    "QLDPC.Props.C91_reed_solomon"
   ],
   "note": "Proved for all lengths over fields with at most ten elements. Over larger fields the test refuses every length, also those of the form q**m - 1 (C91_disagreement): the decimal text of q - 1 has two characters, digits of np.base_repr have one. The matrices of galois are a parameter."
  },
  {
   "property": "C92",
   "status": "partial",
   "theorems": [
    "QLDPC.Props.C92_lift",
    "QLDPC.Props.C92_round_trip",
    "QLDPC.Props.C92_prime",
    "QLDPC.Props.C92_bits",
    "QLDPC.Props.C92_disagreement",
    "QLDPC.Props.C92_products",
    "QLDPC.Props.C92_products_lift"
   ],
   "note": "Proved for prime fields, for matrices of 0s and 1s over all fields, and in general exactly for those fields in which every element is the multiple of 1 by its number (C92_round_trip). Over every field whose order is not prime some 1 x 1 matrix is not given back (C92_disagreement)."
  },
  {
   "property": "C93",
   "status": "partial",
   "theorems": [
    "QLDPC.Props.C93_abelian",
    "QLDPC.Props.C93_ring_abelian",
    "QLDPC.Props.C93_nilpotent",
    "QLDPC.Props.C93_semisimple",
    "QLDPC.Props.C93_ring_eq",
    "QLDPC.Props.C93_hash_disagreement"
   ],
   "note": "Commutativity and semisimplicity are proved for all finite groups and fields (Maschke's theorem and its converse). Equal rings may have different hashes (C93_hash_disagreement), since the hash of a group depends on its lift."
  },
  {
   "property": "C94",
   "status": "proved",
   "theorems": [
    "QLDPC.Props.C94_members",
    "QLDPC.Props.C94_unique",
    "QLDPC.Props.C94_order",
    "QLDPC.Props.C94_mul",
    "QLDPC.Props.C94_assoc",
    "QLDPC.Props.C94_pow",
    "QLDPC.Props.C94_product"
   ],
   "note": "All permutation groups. The product of sympy is modelled by its generators; sympy's removal of duplicates, which does not change the group, is left out."
  },
  {
   "property": "C95",
   "status": "partial",
   "theorems": [
    "QLDPC.Props.C95_state_seed",
    "QLDPC.Props.C95_seed",
    "QLDPC.Props.C95_state",
    "QLDPC.Props.C95_state_code",
    "QLDPC.Props.C95_deterministic",
    "QLDPC.Props.C95_deterministic_code",
    "QLDPC.Props.C95_array",
    "QLDPC.Props.C95_array_seed",
    "QLDPC.Props.C95_code",
    "QLDPC.Props.C95_possible",
    "QLDPC.Props.C95_disagreement",
    "QLDPC.Props.C95_word",
    "QLDPC.Props.C95_word_fresh"
   ],
   "note": "Proved for all generators of random numbers, which are parameters; the quality of the random numbers is not a subject. ClassicalCode.random never returns if exactly one of the numbers of bits and checks is zero (C95_disagreement), and can return for all other shapes (C95_possible)."
  },
  {
   "property": "C96",
   "status": "partial",
   "theorems": [
    "QLDPC.Props.C96_eq_classical",
    "QLDPC.Props.C96_eq_qudit",
    "QLDPC.Props.C96_eq_css",
    "QLDPC.Props.C96_eq_classical_quantum",
    "QLDPC.Props.C96_eq_mixed",
    "QLDPC.Props.C96_refl",
    "QLDPC.Props.C96_symm",
    "QLDPC.Props.C96_sound",
    "QLDPC.Props.C96_symm_disagreement",
    "QLDPC.Props.C96_class_disagreement",
    "QLDPC.Props.C96_copy_classical",
    "QLDPC.Props.C96_copy_qudit",
    "QLDPC.Props.C96_css_disagreement",
    "QLDPC.Props.C96_fresh",
    "QLDPC.Props.C96_field_disagreement",
    "QLDPC.Props.C96_css",
    "QLDPC.Props.C96_css_rebuild",
    "QLDPC.Props.C96_stale_disagreement"
   ],
   "note": "Equality is characterized for all pairs of classes. It is symmetric for the classes of the library, but not with a subclass of QuditCode that is no CSSCode and has a matrix of CSS form (C96_symm_disagreement). The same checks in different classes of CSS codes are unequal (C96_class_disagreement). CSS codes cannot be passed to QuditCode or ClassicalCode (C96_css_disagreement), a contradicting field is ignored for galois arrays (C96_field_disagreement), and a classical code made into a quantum code keeps its classical dimension and distance (C96_stale_disagreement). QTCode.__eq__ is part of C56."
  },
  {
   "property": "C97",
   "status": "partial",
   "theorems": [
    "QLDPC.Props.C97_known",
    "QLDPC.Props.C97_gap_first",
    "QLDPC.Props.C97_gap",
    "QLDPC.Props.C97_unavailable",
    "QLDPC.Props.C97_url",
    "QLDPC.Props.C97_page",
    "QLDPC.Props.C97_groupnames",
    "QLDPC.Props.C97_prefix_disagreement",
    "QLDPC.Props.C97_number",
    "QLDPC.Props.C97_number_complete",
    "QLDPC.Props.C97_small_group",
    "QLDPC.Props.C97_small_groups",
    "QLDPC.Props.C97_structure",
    "QLDPC.Props.C97_structure_name",
    "QLDPC.Props.C97_address",
    "QLDPC.Props.C97_gap_error",
    "QLDPC.Props.C97_name"
   ],
   "note": "Proved for all pages with the stated layout. Without GAP, text after SmallGroup(n,k) is ignored (C97_prefix_disagreement), so that the name of a quotient gives the group itself. GAP and the web are parameters."
  },
  {
   "property": "C98",
   "status": "partial",
   "theorems": [
    "QLDPC.Props.C98_parameters",
    "QLDPC.Props.C98_commute",
    "QLDPC.Props.C98_surface",
    "QLDPC.Props.C98_toric",
    "QLDPC.Props.C98_surface_disagreement",
    "QLDPC.Props.C98_toric_disagreement",
    "QLDPC.Props.C98_hgp_commute",
    "QLDPC.Props.C98_hgp",
    "QLDPC.Props.C98_hgp_disagreement",
    "QLDPC.Props.C98_default"
   ],
   "note": "Fields of characteristic two: all sizes, all codes, all qudits. Over every field of odd characteristic the conjugated checks of rotated surface and toric codes of every size do not commute, although the result is reported as a stabilizer code (C98_surface_disagreement, C98_toric_disagreement); for hypergraph products they commute exactly if one of the seed matrices is zero (C98_hgp_commute, C98_hgp_disagreement)."
  },
  {
   "property": "C99",
   "status": "partial",
   "theorems": [
    "QLDPC.Props.C99_init",
    "QLDPC.Props.C99_init_raises",
    "QLDPC.Props.C99_lengths_disagreement",
    "QLDPC.Props.C99_default",
    "QLDPC.Props.C99_random",
    "QLDPC.Props.C99_one_subset_bipartite",
    "QLDPC.Props.C99_seed",
    "QLDPC.Props.C99_finishes",
    "QLDPC.Props.C99_small_group_disagreement"
   ],
   "note": "Proved except for the lengths of the seed codes: only their product is compared with the number of faces at a node, so seed codes in the wrong order are accepted (C99_lengths_disagreement; all other lengths raise, C99_init_raises, except for two codes on one bit), and SmallGroup(order, 1).random, which always returns the identity, so that the method never returns (C99_small_group_disagreement)."
  },
  {
   "property": "C100",
   "status": "proved",
   "theorems": [
    "QLDPC.Props.C100_equiv",
    "QLDPC.Props.C100_logical",
    "QLDPC.Props.C100_canonicalized",
    "QLDPC.Props.C100_rank",
    "QLDPC.Props.C100_weight",
    "QLDPC.Props.C100_weight_css",
    "QLDPC.Props.C100_num_qubits"
   ],
   "note": "All combinations of QuditCode and CSSCode, all fields and matrices."
  },
  {
   "property": "C101",
   "status": "partial",
   "theorems": [
    "QLDPC.Props.C101_commands",
    "QLDPC.Props.C101_program",
    "QLDPC.Props.C101_output",
    "QLDPC.Props.C101_installed",
    "QLDPC.Props.C101_not_installed",
    "QLDPC.Props.C101_package",
    "QLDPC.Props.C101_install_disagreement",
    "QLDPC.Props.C101_code",
    "QLDPC.Props.C101_no_checks",
    "QLDPC.Props.C101_raises",
    "QLDPC.Props.C101_from_name",
    "QLDPC.Props.C101_spaces",
    "QLDPC.Props.C101_white_space",
    "QLDPC.Props.C101_automorphism_text",
    "QLDPC.Props.C101_automorphism",
    "QLDPC.Props.C101_automorphism_length",
    "QLDPC.Props.C101_automorphism_disagreement"
   ],
   "note": "Proved except for two points: everything that git writes to the standard error counts as a failed installation, also the message with which git clone begins (C101_install_disagreement), and codes without nonzero checks have the same name for every length (C101_automorphism_disagreement). GAP, git and ast.literal_eval are parameters."
  },
  {
   "property": "C102",
   "status": "partial",
   "theorems": [
    "QLDPC.Props.C102_vector_bound",
    "QLDPC.Props.C102_vector_exact",
    "QLDPC.Props.C102_vector_cutoff",
    "QLDPC.Props.C102_vector_disagreement",
    "QLDPC.Props.C102_dispatch",
    "QLDPC.Props.C102_dispatch_qudit",
    "QLDPC.Props.C102_params",
    "QLDPC.Props.C102_params_bound",
    "QLDPC.Props.C102_params_stabilizer",
    "QLDPC.Props.C102_params_css",
    "QLDPC.Props.C102_params_css_bound"
   ],
   "note": "Proved with the assumption on the decoder in the case of a vector; without it the result may be below the distance (C102_vector_disagreement). The parameters of general subsystem codes that are not CSS are C105 (number of logical qudits) and C104 (distance)."
  },
  {
   "property": "C103",
   "status": "partial",
   "theorems": [
    "QLDPC.Props.C103_positional",
    "QLDPC.Props.C103_keyword_partial",
    "QLDPC.Props.C103_qubits",
    "QLDPC.Props.C103_no_logical_qubits_disagreement",
    "QLDPC.Props.C103_letters",
    "QLDPC.Props.C103_keyword_disagreement"
   ],
   "note": "Proved for positional arguments, and for six of the eight functions for keyword arguments. get_encoding_tableau(code=...) and get_transversal_automorphism_group(code=...) do not check (C103_keyword_disagreement)."
  },
  {
   "property": "C104",
   "status": "partial",
   "theorems": [
    "QLDPC.Props.C104_subsystem_partial",
    "QLDPC.Props.C104_wrong_disagreement",
    "QLDPC.Props.C104_raises_disagreement",
    "QLDPC.Props.C104_nan",
    "QLDPC.Props.C104_right_partial"
   ],
   "note": "False in general: the distance of a locally rotated Bacon-Shor code comes out as 1 instead of 2 (C104_wrong_disagreement), and for another rotation the call raises (C104_raises_disagreement). True whenever the logical operators that the code computes satisfy the relations of a logical basis and the gauge operators are products of the generators satisfying the relations of qudits (C104_right_partial, C104_subsystem_partial); the nan case is right for all codes (C104_nan). CSS subsystem codes are C27."
  },
  {
   "property": "C105",
   "status": "proved",
   "theorems": [
    "QLDPC.Props.C105_logical",
    "QLDPC.Props.C105_gauge",
    "QLDPC.Props.C105_total",
    "QLDPC.Props.C105_stabilizer",
    "QLDPC.Props.C105_default",
    "QLDPC.Props.C105_params"
   ],
   "note": "Proved for new codes with the default or explicit is_subsystem_code. An explicit is_subsystem_code=False for noncommuting checks is outside (the caller asserts that the checks commute)."
  },
  {
   "property": "C106",
   "status": "proved",
   "theorems": [
    "QLDPC.Props.C106_equal_distances",
    "QLDPC.Props.C106_consistent",
    "QLDPC.Props.C106_exact",
    "QLDPC.Props.C106_dimension"
   ],
   "note": "The isometry is explicit: block exchange, inversion of all plaquettes, and a sign on one block."
  },
  {
   "property": "C107",
   "status": "partial",
   "theorems": [
    "QLDPC.Props.C107_equivalent_partial",
    "QLDPC.Props.C107_complete_partial",
    "QLDPC.Props.C107_parameters_partial",
    "QLDPC.Props.C107_connected_partial",
    "QLDPC.Props.C107_disconnected",
    "QLDPC.Props.C107_symbols_disagreement",
    "QLDPC.Props.C107_coefficient_disagreement",
    "QLDPC.Props.C107_modulo_disagreement",
    "QLDPC.Props.C107_monomial_disagreement"
   ],
   "note": "The hypotheses on symbols, coefficients, monomials modulo orders and the number of terms are needed: without each of them the claim fails (C107_symbols_disagreement, C107_coefficient_disagreement, C107_modulo_disagreement, C107_monomial_disagreement). For qudits of odd characteristic the equivalence may include an overall sign of the Z checks (when the two polynomials are exchanged). Whether the Tanner graph is connected is a parameter; C107_connected_partial shows that a correct answer loses no layouts."
  },
  {
   "property": "C108",
   "status": "proved",
   "theorems": [
    "QLDPC.Props.C108_classical",
    "QLDPC.Props.C108_hgp_checks",
    "QLDPC.Props.C108_hgp_qudits",
    "QLDPC.Props.C108_hgp_weight",
    "QLDPC.Props.C108_shp",
    "QLDPC.Props.C108_lp_checks",
    "QLDPC.Props.C108_lp_qudits",
    "QLDPC.Props.C108_lp_regular",
    "QLDPC.Props.C108_qc",
    "QLDPC.Props.C108_tanner",
    "QLDPC.Props.C108_qt"
   ],
   "note": "Exact weights for quasi-cyclic codes assume that no two terms of a polynomial agree modulo the orders and that no coefficient vanishes in the field (otherwise the number of terms is an upper bound, which is also proved). The bound for quantum Tanner codes excludes |A||B| = 1, where numpy broadcasts the subcode."
  },
  {
   "property": "C109",
   "status": "proved",
   "theorems": [
    "QLDPC.Props.C109_dimension",
    "QLDPC.Props.C109_trivial",
    "QLDPC.Props.C109_even"
   ],
   "note": "Orders and polynomials satisfy the conditions of C51 (positive orders, distinct symbols, coefficients in the field)."
  },
  {
   "property": "C110",
   "status": "proved",
   "theorems": [
    "QLDPC.Props.C110_tanner",
    "QLDPC.Props.C110_bipartite",
    "QLDPC.Props.C110_quadripartite",
    "QLDPC.Props.C110_default"
   ],
   "note": "Same assumptions on subsets, order of members and fresh seed codes as C55."
  },
  {
   "property": "C111",
   "status": "proved",
   "theorems": [
    "QLDPC.Props.C111_classical",
    "QLDPC.Props.C111_lookup",
    "QLDPC.Props.C111_lookup_bounded",
    "QLDPC.Props.C111_css"
   ],
   "note": "Rates are rational numbers; floating point is not modelled. Rates above max_error_rate raise and are no values."
  },
  {
   "property": "C112",
   "status": "proved",
   "theorems": [
    "QLDPC.Props.C112_hamming",
    "QLDPC.Props.C112_symplectic",
    "QLDPC.Props.C112_search",
    "QLDPC.Props.C112_loops",
    "QLDPC.Props.C112_alias_needed"
   ],
   "note": "The arrays of a call are assumed to be different arrays, as those of np.empty_like are; C112_alias_needed shows why."
  }
 ]
}

CLAIMS = {
 "C01": ("proved", "Any field, any rows."),
 "C02": ("proved", "For codes whose generator was not replaced by set_generator; dimension against finrank of the solution space."),
 "C03": ("proved", "For codes whose generator rows form a basis (always unless set_generator was called with dependent rows, see C03_dependent_generator_disagreement)."),
 "C04": ("proved", "Also after an accepted set_generator."),
 "C05": ("proved", "Acceptance iff the rows span exactly the code."),
 "C06": ("proved", "Row-major reshape with explicit index arithmetic."),
 "C07": ("proved", "All lists of positions."),
 "C08": ("partial", "Proved for distinct positions on which the code takes independent values; the code as written loses words otherwise (C08_shorten_disagreement)."),
 "C09": ("proved", "Blocks at explicit offsets, dimension and minimum distance."),
 "C10": ("partial", "Full for 64-bit kernels, all fields, with and without vector, along any call sequence with truthful caches; with np.bitwise_count below 256 bits. After set_generator with dependent rows the result is wrong (C10_dependent_generator_disagreement)."),
 "C11": ("proved", "All random streams, decoder answers, trial counts and cutoffs."),
 "C12": ("proved", "All 2^64 words; the SWAR code is modelled operation by operation on BitVec 64."),
 "C13": ("proved", "Any row length; the integer width of the row sum must hold the row length (64-bit kernels: always). C13_hamming_wraps shows the 8-bit dtype of np.bitwise_count wraps at 256 bits."),
 "C14": ("proved", "Every k; each subset exactly once."),
 "C15": ("partial", "Full for the repository's own 64-bit kernels and every block size. With np.bitwise_count (numpy>=2) the first block is summed in 8 bits: proved below 256 bits, C15_uint8_disagreement is a counterexample at 256 bits."),
 "C16": ("proved", "Stated against actual clock/shift operators built from an additive character."),
 "C17": ("proved", ""),
 "C20": ("proved", "Any field, any commuting checks, including redundant rows; completeness of the basis included."),
 "C21": ("partial", "What the accepted operators are guaranteed to satisfy, and that every symplectic basis is accepted. Full claim fails: X-X and Z-Z relations are not checked (C21_disagreement)."),
 "C22": ("proved", "Any field; includes completeness of the operators and the symplectic form of the result."),
 "C23": ("proved", "General codes, and CSS codes with their own formula."),
 "C24": ("partial", "Proved for characteristic two and for conjugating every qudit; fails for odd characteristic because no sign is applied (C24_disagreement)."),
 "C71": ("proved", "Any two matrices over any field, no hypotheses; includes that the inverse exists and that the operators are complete."),
 "C70": ("partial", "Proved: number of operators, pairing and commutation of the Z-type operators. The full claim fails: C70_checks_disagreement and C70_xx_disagreement are two-generator gauge groups for which the returned operators violate it."),
 "C27": ("proved", "Exact X-, Z- and overall distance (against the least weight of any nontrivial Pauli string, mixed ones included), stabilizer and subsystem codes, any field, along any call sequence with truthful caches; randomized bounds for all draws and decoder answers. Weights wider than the integer type excluded as in C15."),
 "C28": ("partial", "Logical action and all relations preserved for all decoders; weight never increases proved for decoders of minimal weight. Full claim fails: a heavier valid answer is accepted (C28_weight_disagreement)."),
 "C73": ("proved", "Any field, any known set of valid logical operators."),
 "C74": ("proved", "All draws."),
 "C72": ("proved", "Stabilizer codes over any field, along any call sequence with truthful caches, against the least number of qudits of a nontrivial logical operator. Subsystem codes: C104."),
 "C25": ("proved", "Any list of codes with right logical operators (every stabilizer code qualifies), stabilizer and subsystem, any field; checks and logical operators at explicit offsets, dimension, and distance as the least distance of the blocks. CSSCode.stack is not covered by these theorems."),
 "C26": ("partial", "Any field, any permutation wiring and the default wiring, stabilizer and subsystem codes: size, checks, dimension, complete set of logical operators, with any numbers of inner and outer copies; distance at least the product of distances for wirings that spread outer blocks, which the default wiring does. The claim that the inputs are unchanged fails when one inner copy is used (C26_disagreement); proved that the inner code is unchanged otherwise and stays valid in any case."),
 "C30": ("partial", "Proved for RepetitionCode, all n >= 1, and RingCode, n >= 2, over any field. RingCode(1) fails: its check is -1, so the code is {0} but dimension 1 is advertised (C30_ring_disagreement)."),
 "C31": ("proved", "Any field, any rank; includes the length and that every syndrome is a multiple of exactly one column. The advertised distance of rank 1 is wrong (C31_rank_one_disagreement) but not part of the statement."),
 "C32": ("partial", "Any 1 <= r <= m, dimension and distance over any field, dual over the field with two elements. At r = 0 the constructor raises, because the generator is a 1-D array (C32_order_zero_disagreement)."),
 "C33": ("proved", "All ranks; includes equality with the Reed-Muller code bit by bit."),
 "C34": ("proved", "Directed half-regular graphs with any sort keys, undirected regular graphs, any field. Beyond the statement: building the code from an undirected graph removes the sort attributes from the caller's graph (C34_again_disagreement)."),
 "C75": ("proved", "All six tabulated polynomials; the words are reduced to 2^k shift register sequences, which are checked in the kernel."),
 "C18": ("partial", "from_strings and get_strings proved for all matrices and texts, round trip for every code with at least one check, any field whose elements are numbered. Full claim fails for a code with no checks: from_strings raises (C18_no_checks_disagreement)."),
 "C19": ("partial", "Accepted texts characterised exactly, round trip and injectivity for all nonnegative exponents. Full claim fails: operators with negative exponents print a text that is rejected (C19_negative_disagreement); repeated factors are accepted (C19_repeated_disagreement)."),
 "C29": ("proved", "Edges and nodes exactly; the round trip holds if and only if no row or column is zero, classical and qudit codes (CSS codes inherit the qudit functions). With zero rows or columns it fails (C29_disagreement)."),
 "C65": ("proved", "Strict total order, data nodes first, hash respects equality."),
 "C69": ("proved", "All permutations; every text of cycles that GAP prints on one line. Line wrapping of GAP is not modelled."),
 "C66": ("partial", "Exact arithmetic instead of floating point. Proved: termination, nonnegative, none for weight 0, positive and descending up to the last weight, at least the requested total. Full claim fails: the total may exceed the request (C66_disagreement); a request of 0 raises."),
 "C67": ("proved", "All slices and lists; either sign of the step."),
 "C76": ("proved", "Exact arithmetic instead of floating point, all outcomes of the samples."),
 "C57": ("partial", "Any field, classical and Pauli errors: least weight among the nonzero errors, exact correction below half the distance, correction up to stabilizers for codes. The full claim fails for the zero syndrome if max_weight reaches the distance (C57_disagreement)."),
 "C58": ("partial", "Any field, classical and Pauli errors: termination and the exact answer for every syndrome that can be explained, without conditions (C58_solvable, C58_pauli_solvable), and zero for other syndromes if zero rows have zero syndrome. Otherwise the decoder raises (C58_zero_row_disagreement)."),
 "C59": ("partial", "Sound for every modulus; for q = 2 feasible points are exactly the explanations and optimal points those of least weight. For q > 2 complete only for small row sums; the full claim fails (C59_disagreement)."),
 "C60": ("proved", "Any base decoder."),
 "C35": ("proved", "Any finite group enumerated without repetition; also faithful. Permutation matrices for the product of sympy, and the direct product of permutations."),
 "C36": ("proved", "Ring members for any lift that is a representation (and sends inverses to transposes, for the transpose), the regular lift qualifies; arrays of any shape. Lifts built by from_table and from_generating_mats do not qualify, see C40."),
 "C37": ("proved", "Dictionaries of terms against coefficient functions, whose product is that of Mathlib's MonoidAlgebra. Negative powers are one (C37_negative_power_disagreement); x - g for a group member g raises."),
 "C38": ("proved", "Any finite group and field, both directions. The enumeration of the group must start with the identity, as sympy's does."),
 "C39": ("partial", "Equality is an equivalence relation; hashes of equal groups agree for all hash functions exactly if enumeration and lift agree too. The full claim fails (C39_disagreement)."),
 "C43": ("partial", "Rows stay in the left module always, the module is preserved for abelian groups; rows with an invertible entry at their turn become pivots; in full for the trivial group. The full claim fails: rows that become invertible later are not reduced again (C43_pivot_disagreement), and rows get lost for groups that are not abelian (C43_module_disagreement)."),
 "C44": ("proved", "All groups; for abelian groups also complete. The call raises exactly if there is no nonzero null vector (C44_raises, C44_disagreement)."),
 "C40": ("partial", "Tables and matrices: the group built is isomorphic to the one given, all sizes; the loop over matrices ends if they generate finitely many. The lift is proved to reverse products, so it is a representation exactly if the matrices commute (or the integer lift reverses products, as for QuaternionGroup, proved in full). The full claim fails (C40_table_disagreement, C40_mats_disagreement); a matrix given twice makes from_generating_mats raise (C40_duplicate_disagreement)."),
 "C41": ("proved", "All groups, random streams and sort orders; raises exactly for sizes out of range, and returns once every member was drawn if and only if such a subset exists. A SmallGroup with index 1 never returns without the identity (C41_small_group_disagreement)."),
 "C42": ("partial", "All lists of orders without 1 (with at most one 1 if sympy keeps identity generators), any length: multiplication, enumeration, both lifts, cyclic groups. The full claim fails for AbelianGroup(1, 1, 3) (C42_disagreement); the docstring of CyclicGroup states the opposite shift (C42_docstring_disagreement)."),
 "C45": ("proved", "Any matrices over any field, both cases of validation."),
 "C46": ("proved", "Entries of both matrices, commutation, dimension and the product logical operators for all classical codes whose generator is the computed one. With rows set by set_generator that are dependent the advertised operators are not a basis (C46_redundant_generator_disagreement)."),
 "C48": ("proved", "Stabilizers, gauge generators, logical operators for all classical codes."),
 "C49": ("partial", "Proved for abelian groups, and an iff for all groups: the checks commute exactly if the entries of A commute with the transposed entries of B. The full claim fails for nonabelian groups (C49_nonabelian_disagreement)."),
 "C50": ("proved", "All lengths, all commutative rings, with an entry-wise specification; for two maps over any ring an iff. Over the algebra of a nonabelian group the tensor product need not be a complex (C50_nonabelian_disagreement)."),
 "C62": ("proved", "All permutations; a circuit exists exactly if the qubits are sent to different places. Automorphisms generated by the gate set always have one."),
 "C63": ("partial", "Without deform_code: all codes, gate sets and generated permutations, as an equivalence, plus commutation relations and the group of the checks, modulo signs. With deform_code only for gate sets without S and SQRT_X (C63_deform_partial); with S the claim fails (C63_deform_disagreement). Signs and Pauli corrections are not modelled."),
 "C64": ("partial", "All histories and cache contents: the decorated function agrees with the function exactly if the stored values do, for keys that determine the arguments. The default key does for calls whose positional arguments do not look like keyword pairs; it does not in general (C64_key_disagreement). C64_iff holds for every type of keys and every key function, hence also for the bytes that diskcache compares and for keys that identify 1 and True."),
 "C61": ("partial", "Proved for all qubit stabilizer codes and all CSS codes (stabilizer and subsystem) with computed stabilizers, and for any reduced stabilizers with given logical and gauge operators (C61_tableau, C61_stored); the rows are a basis of all Pauli strings. For general (non-CSS) subsystem codes whenever the call returns (C61_returned); as their logical operators are wrong in general (C70), it may raise (C61_subsystem_disagreement). Stored stabilizers that pass _is_canonicalized without being reduced break the claim (C61_shp_disagreement)."),
 "C51": ("partial", "Polynomials and orders of any number. The loop ends exactly if there is at most one more order than symbols (C51_loop_ends_iff), so the claim fails for more (C51_nontermination_disagreement); the code exists and its checks commute for all orders above 1. An order of 1 raises (C51_order_one_disagreement)."),
 "C52": ("proved", "All orders and polynomials: labels and positions are bijections, addressing in terms of labels, folded distances."),
 "C53": ("partial", "Orders, inverses and bases in full. Canonical forms only for at least two terms with coefficients that equal their power; otherwise the claim fails (C53_coefficient_disagreement, C53_monomial_disagreement)."),
 "C55": ("proved", "All finite groups, nonempty symmetric subsets and codes over any field, both kinds of complexes, every order in which nodes are popped: the loop ends, qudits are exactly the faces, words of both codes are characterised by local views, and all checks commute."),
 "C56": ("partial", "Round trip for all data whose seed codes have at least one check and one bit, any headers. A seed code without checks cannot be loaded (C56_no_rows_disagreement). Equality fails: __eq__ compares other with itself, so that any two QTCodes are equal (C56_equality, C56_equality_disagreement)."),
    "C54": ("proved", "All side lengths and finite fields: checks commute, check weights, dimension, exact X and Z distances as recorded by the constructor, and all straight rows and columns are nontrivial logical operators; single rows or columns and odd toric lattices are rejected. Covers the rotated branches."),
    "C68": ("proved", "For every binary parity check matrix whose group is found in the table, every generator maps exactly code words to code words; every entry is reached; codes over other fields never use the table. The disk cache in front of the lookup is C64."),
    "C47": ("proved", "networkx cartesian_product and relabel_nodes are modelled; exponents are field elements until the end; the zero-column case is shown to differ"),
    "C77": ("proved", "All matrices over all finite fields; exact characterisation of both distances including the case where no logical operators exist."),
    "C78": ("partial", "All side lengths, except that ToricCode(rows, cols, rotated=False) needs sides of at least 2: with a side of 1 RingCode(1) has no words and the recorded dimension and distance are wrong (C78_toric_disagreement). Everything else in full."),
    "C79": ("proved", "All sizes >= 1 of IcebergCode; the single codes are proved through the verified exact distance algorithm evaluated in the kernel. IcebergCode(0) records the dimension -2; it is outside the claim."),
    "C80": ("proved", "Distances of concatenated codes are bounded from below for wirings that spread each outer block over different inner blocks, which the default wiring does. As in C26, with one inner copy the caller's inner code is changed; C80_disagreement is the witness, and input immutability is not part of this claim."),
    "C81": ("partial", "Whenever the call returns: all codes on qubits, stabilizer or subsystem, CSS or not, with and without deformation, signs included (C81_returned, C81_returned_css). That it returns: stabilizer codes with and without deformation, CSS or not, as an equivalence (C81_deform_iff, C81_deform_css_iff), CSS subsystem codes without deformation. With deformation the call raises for subsystem codes, even for the trivial automorphism (C81_deform_subsystem_disagreement). The signs are those of the row-reduced stabilizers; with the signs of the given parity checks the claim is false (C81_disagreement)."),
    "C82": ("proved", "All codes on qubits, stabilizer or subsystem, CSS or not, with and without deformation, for all lists of permutations (the enumeration of the automorphism group by sympy, MAGMA or GAP), including the early exit. Without deformation the search does not raise (C82_succeeds, C82_succeeds_css). Signs of stabilizers are those of the row-reduced stabilizers (C81_disagreement)."),
    "C83": ("proved", "In full for stabilizer codes, with and without deformation; for CSS stabilizer and subsystem codes the dimension and the action on code states and logical operators. Signs of stabilizers are those of the row-reduced stabilizers (C81_disagreement). The matrices of the gates are those of Stim's documentation."),
    "C84": ("partial", "All dimensions and finite fields: generation, order, isomorphism, both representations, iter_mats. The lift maps the permutation of a matrix to that matrix but reverses products, so that it is not a representation for any d >= 2 (C84_lift_reverses, C84_lift_disagreement)."),
    "C85": ("partial", "The linear representation in full: the group, its order, iter_mats (as flat arrays), for all iteration orders. The lift only if 1 is the only d-th root of unity; otherwise it raises for some iteration orders (C85_lift_raises_disagreement) and for PSL(2, 3) never is a representation (C85_lift_disagreement). linear_rep=False in full: it is the projective special linear group exactly if d = 2 or q <= 3 (C85_regular_iff, C85_regular_two), and another group for all d >= 3, q > 3 (C85_regular_large_disagreement)."),
    "C86": ("partial", "All codes, finite fields, decoders, biases and numbers of samples: distribution of the sampled errors, expected value of the rate and of the squared uncertainty, and the criterion for failures if decoders match the syndrome. If they do not, an error that is not corrected may count as a success (C86_unmatched_disagreement); with one sample per weight the uncertainty is always zero (C86_single_sample_disagreement)."),
    "C87": ("partial", "Reading of the text and the resulting members for all outputs whose coefficients are powers of the generators of the field or of its prime field. Coefficients in other subfields are misread, and what is returned is then not idempotent (C87_subfield_disagreement)."),
    "C88": ("partial", "Number of qudits, commutation, dimension and both distances for all sizes (from 2 if periodic), dimensions and fields. Periodic lattices of size 1 have no logical qudits at all (C88_toric_disagreement)."),
    "C89": ("proved", "All rings, lifts that map 0 to 0 and preserve negatives and transposes, arrays of all shapes. The stabilizers and logical operators that SHPCode records are those of C48."),
    "C90": ("partial", "Choice, precedence and arguments handed on for all dictionaries of arguments. The claim on false selectors fails: C90_passed_on and C90_disagreement show that a later selector, even a false one, is handed on to the lookup and Union-Find constructors, which raise a TypeError."),
    "C91": ("partial", "Proved for all lengths over fields with at most ten elements. Over larger fields the test refuses every length, also those of the form q**m - 1 (C91_disagreement): the decimal text of q - 1 has two characters, digits of np.base_repr have one. The matrices of galois are a parameter."),
    "C92": ("partial", "Proved for prime fields, for matrices of 0s and 1s over all fields, and in general exactly for those fields in which every element is the multiple of 1 by its number (C92_round_trip). Over every field whose order is not prime some 1 x 1 matrix is not given back (C92_disagreement)."),
    "C93": ("partial", "Commutativity and semisimplicity are proved for all finite groups and fields (Maschke's theorem and its converse). Equal rings may have different hashes (C93_hash_disagreement), since the hash of a group depends on its lift."),
    "C94": ("proved", "All permutation groups. The product of sympy is modelled by its generators; sympy's removal of duplicates, which does not change the group, is left out."),
    "C95": ("partial", "Proved for all generators of random numbers, which are parameters; the quality of the random numbers is not a subject. ClassicalCode.random never returns if exactly one of the numbers of bits and checks is zero (C95_disagreement), and can return for all other shapes (C95_possible)."),
    "C96": ("partial", "Equality is characterized for all pairs of classes. It is symmetric for the classes of the library, but not with a subclass of QuditCode that is no CSSCode and has a matrix of CSS form (C96_symm_disagreement). The same checks in different classes of CSS codes are unequal (C96_class_disagreement). CSS codes cannot be passed to QuditCode or ClassicalCode (C96_css_disagreement), a contradicting field is ignored for galois arrays (C96_field_disagreement), and a classical code made into a quantum code keeps its classical dimension and distance (C96_stale_disagreement). QTCode.__eq__ is part of C56."),
    "C97": ("partial", "Proved for all pages with the stated layout. Without GAP, text after SmallGroup(n,k) is ignored (C97_prefix_disagreement), so that the name of a quotient gives the group itself. GAP and the web are parameters."),
    "C98": ("partial", "Fields of characteristic two: all sizes, all codes, all qudits. Over every field of odd characteristic the conjugated checks of rotated surface and toric codes of every size do not commute, although the result is reported as a stabilizer code (C98_surface_disagreement, C98_toric_disagreement); for hypergraph products they commute exactly if one of the seed matrices is zero (C98_hgp_commute, C98_hgp_disagreement)."),
    "C99": ("partial", "Proved except for the lengths of the seed codes: only their product is compared with the number of faces at a node, so seed codes in the wrong order are accepted (C99_lengths_disagreement; all other lengths raise, C99_init_raises, except for two codes on one bit), and SmallGroup(order, 1).random, which always returns the identity, so that the method never returns (C99_small_group_disagreement)."),
    "C100": ("proved", "All combinations of QuditCode and CSSCode, all fields and matrices."),
    "C101": ("partial", "Proved except for two points: everything that git writes to the standard error counts as a failed installation, also the message with which git clone begins (C101_install_disagreement), and codes without nonzero checks have the same name for every length (C101_automorphism_disagreement). GAP, git and ast.literal_eval are parameters."),
    "C102": ("partial", "Proved with the assumption on the decoder in the case of a vector; without it the result may be below the distance (C102_vector_disagreement). The parameters of general subsystem codes that are not CSS are C105 (number of logical qudits) and C104 (distance)."),
    "C103": ("partial", "Proved for positional arguments, and for six of the eight functions for keyword arguments. get_encoding_tableau(code=...) and get_transversal_automorphism_group(code=...) do not check (C103_keyword_disagreement)."),
    "C104": ("partial", "False in general: the distance of a locally rotated Bacon-Shor code comes out as 1 instead of 2 (C104_wrong_disagreement), and for another rotation the call raises (C104_raises_disagreement). True whenever the logical operators that the code computes satisfy the relations of a logical basis and the gauge operators are products of the generators satisfying the relations of qudits (C104_right_partial, C104_subsystem_partial); the nan case is right for all codes (C104_nan). CSS subsystem codes are C27."),
    "C105": ("proved", "Proved for new codes with the default or explicit is_subsystem_code. An explicit is_subsystem_code=False for noncommuting checks is outside (the caller asserts that the checks commute)."),
    "C106": ("proved", "The isometry is explicit: block exchange, inversion of all plaquettes, and a sign on one block."),
    "C107": ("partial", "The hypotheses on symbols, coefficients, monomials modulo orders and the number of terms are needed: without each of them the claim fails (C107_symbols_disagreement, C107_coefficient_disagreement, C107_modulo_disagreement, C107_monomial_disagreement). For qudits of odd characteristic the equivalence may include an overall sign of the Z checks (when the two polynomials are exchanged). Whether the Tanner graph is connected is a parameter; C107_connected_partial shows that a correct answer loses no layouts."),
    "C108": ("proved", "Exact weights for quasi-cyclic codes assume that no two terms of a polynomial agree modulo the orders and that no coefficient vanishes in the field (otherwise the number of terms is an upper bound, which is also proved). The bound for quantum Tanner codes excludes |A||B| = 1, where numpy broadcasts the subcode."),
    "C109": ("proved", "Orders and polynomials satisfy the conditions of C51 (positive orders, distinct symbols, coefficients in the field)."),
    "C110": ("proved", "Same assumptions on subsets, order of members and fresh seed codes as C55."),
    "C111": ("proved", "Rates are rational numbers; floating point is not modelled. Rates above max_error_rate raise and are no values."),
    "C112": ("proved", "The arrays of a call are assumed to be different arrays, as those of np.empty_like are; C112_alias_needed shows why."),
}

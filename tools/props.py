#!/usr/bin/env python3
"""Regenerate /verif/properties.jsonl from the table below (id is assigned by position)."""
import json, os
P = []
def p(title, statement, quantifier, why, *anchors):
    P.append(dict(id=f"C{len(P)+1:02d}", title=title, statement=statement, quantifier=quantifier,
                  why_tests_cant=why, anchors=list(anchors)))
INF = "the input space is infinite (all sizes, all field orders, all entries); a test fixes finitely many matrices"
CL = "qldpc/codes/common.py:ClassicalCode"
QD = "qldpc/codes/common.py:QuditCode"
CS = "qldpc/codes/common.py:CSSCode"

p("Code equivalence decides equality of code spaces",
  "ClassicalCode.equiv(a, b) returns True exactly when a and b (same field, same length) contain the same words; canonicalizing a code never changes which words it contains and is idempotent.",
  "all pairs of parity check matrices with any numbers of rows over any finite field, including zero or dependent rows", INF,
  "qldpc/codes/common.py:AbstractCode.equiv", CL+".canonicalized")
p("Generator is a basis of the code space",
  "The rows of code.generator are linearly independent, each satisfies every parity check, every word satisfying all checks is a combination of them, and there are len(code) - rank of them, where rank is the number of rows of the canonicalized matrix.",
  "all parity check matrices over all finite fields", INF, CL+".generator", CL+".dimension", CL+".rank")
p("Enumeration of code words is complete and duplicate free",
  "iter_words yields every code word exactly once (q**dimension of them); with skip_zero=True it yields exactly the nonzero ones.",
  "all codes over all finite fields", "number of words is exponential and unbounded", CL+".iter_words")
p("Dual code",
  "A word is in ~C iff it is orthogonal to every word of C; ~~C has the same words as C; dim C + dim ~C = len(C); from_generator(G) contains exactly the combinations of rows of G.",
  "all codes over all finite fields", INF, CL+".dual", CL+".from_generator")
p("set_generator accepts exactly the generating sets",
  "set_generator(G) succeeds iff the rows of G span exactly the code space; otherwise it raises and the stored generator is unchanged.",
  "all codes and all candidate generator matrices", INF, CL+".set_generator")
p("Tensor product of classical codes",
  "A word of tensor_product(A, B), reshaped to len(A) x len(B), is in the product code iff all its columns are words of A and all its rows are words of B; dimensions multiply.",
  "all pairs of codes over the same field", INF, CL+".tensor_product")
p("Puncturing",
  "The words of code.puncture(bits) are exactly the words of the code with the given positions deleted.",
  "all codes, all sets of positions", INF, CL+".puncture")
p("Shortening",
  "The words of code.shorten(bits) are exactly the words of the code that vanish on the given positions, with these positions deleted.",
  "all codes, all lists of positions", "the failing inputs (a position on which every word vanishes) are not in the test sample", CL+".shorten")
p("Stacking classical codes",
  "A word of stack(c1, ..., cm) is a code word iff its consecutive blocks are words of c1, ..., cm; dimensions add up; the minimum distance is the minimum of the distances.",
  "all finite lists of codes", "unbounded number of codes and sizes", CL+".stack")
p("Exact classical distance",
  "get_distance_exact (bound=None, field order 2 or not) returns the least Hamming weight of a nonzero code word whenever the code has one; with a vector it returns the least Hamming distance from that vector to a code word.",
  "all codes of positive dimension over all fields, all vectors", "exponentially many words for unbounded lengths", CL+".get_distance_exact", "qldpc/codes/distance.py:get_distance_classical")
p("Randomized classical distance bound is an upper bound",
  "Whatever words the random generator draws and whatever the decoder returns, if get_distance_bound returns for a code of positive dimension, the result is at least the minimum distance and at most the block length. A positive cutoff ends the search after the first trial with which the smallest weight found so far is at most the cutoff, and otherwise changes nothing.",
  "all codes, all random streams, all decoder behaviours, all cutoffs and trial counts", "quantifies over random streams and decoders", CL+".get_distance_bound", CL+".get_one_distance_bound")
p("Bit-trick weight kernels",
  "The 64-bit popcount kernel returns the number of one bits, and the symplectic kernel the number of nonzero adjacent bit pairs, of every 64-bit word.",
  "all 2**64 words", "2**64 inputs", "qldpc/codes/distance.py:_hamming_weight", "qldpc/codes/distance.py:_symplectic_weight")
p("Bit packing",
  "Packing rows of bits into 64-bit integers loses nothing: XOR of packed rows is the packing of the XOR, and the summed popcount of the packed words is the Hamming weight; riffling X and Z halves puts the X and Z bit of each qubit in one pair, so the packed symplectic weight is the number of qubits acted on.",
  "all row lengths (any multiple or non-multiple of 64) and all contents", "unbounded lengths", "qldpc/codes/distance.py:_rows_to_ints", "qldpc/codes/distance.py:_riffle")
p("Gray-code enumeration visits every combination",
  "Flipping the generator indexed by the number of trailing zeros of a counter running from 1 to 2**k - 1 visits every combination of k generators exactly once (all nonzero ones after the start).",
  "all k, all generator lists", "exponential, unbounded k", "qldpc/codes/distance.py:get_distance_classical", "qldpc/codes/distance.py:_count_trailing_zeros")
p("Binary quantum distance kernel",
  "get_distance_quantum(logicals, stabilizers) returns the least weight (Hamming, or symplectic when homogeneous is False) over all products of a nonidentity combination of logicals and any combination of stabilizers, capped by the number of bits it starts from.",
  "all binary logical/stabilizer matrices and block sizes", "exponential and unbounded", "qldpc/codes/distance.py:get_distance_quantum", "qldpc/codes/distance.py:_inplace_rowsum")
p("Symplectic conjugation and commutation",
  "symplectic_conjugate turns the dot product into the symplectic form: the product matrix a @ symplectic_conjugate(b).T is bilinear, antisymmetric, zero on the diagonal; conjugating twice negates; two Pauli strings commute iff this form vanishes, and the relation is symmetric.",
  "all lengths and all field orders", INF, "qldpc/math.py:symplectic_conjugate")
p("Subsystem detection",
  "QuditCode(matrix) reports is_subsystem_code=False iff all pairs of its parity checks commute (when the user does not override it); a CSS code is a stabilizer code iff matrix_x @ matrix_z.T = 0.",
  "all matrices of even width over all fields", INF, QD+".__init__", CS+".__init__")
p("Pauli strings round trip",
  "QuditCode.from_strings(code.get_strings()) reproduces the parity check matrix; from_strings accepts exactly well-formed equal-length strings.",
  "all qubit and qudit codes of any size", "unbounded sizes and field orders", QD+".get_strings", QD+".from_strings")
p("Qudit operator text round trip",
  "QuditOperator.from_string(str(op)) == op for every operator with nonnegative exponents; from_string rejects text which is not such a product.",
  "all exponents, all strings", "infinitely many exponents and strings", "qldpc/objects.py:QuditOperator.from_string", "qldpc/objects.py:QuditOperator.__str__")
p("Canonical logical operators of a stabilizer code",
  "For every stabilizer code get_logical_ops returns k = n - rank pairs of operators that commute with all parity checks, with X_i and Z_j having symplectic product delta_ij, and all X_i (and all Z_i) mutually commuting; no nontrivial combination is a product of parity checks.",
  "all commuting sets of checks over any prime-power field", INF, QD+".get_logical_ops", QD+".get_standard_form_data")
p("Validation of user-supplied logical operators",
  "If set_logical_ops(ops) with validation succeeds then ops is a set of canonical logical operators: commuting with all checks, X_i and Z_j paired by delta_ij, X_i mutually commuting, Z_i mutually commuting, right number.",
  "all codes and all candidate operators", INF, QD+".set_logical_ops")
p("CSS logical operators",
  "For every CSS stabilizer code get_logical_ops gives X operators satisfying all Z checks, Z operators satisfying all X checks, with pairing matrix equal to the identity, n - rank_x - rank_z of them.",
  "all pairs of matrices with H_x H_z^T = 0 over any field", INF, CS+".get_logical_ops", CS+".get_standard_form_data_xz")
p("Stabilizer operators of a subsystem code",
  "get_stabilizer_ops returns operators in the span of the gauge generators that commute with every gauge generator, and spans all of these.",
  "all parity check (gauge generator) matrices", INF, QD+".get_stabilizer_ops")
p("Conjugating (Hadamard-transforming) qudits preserves the code relations",
  "Conjugating any subset of the qudits of a code preserves which pairs of parity checks and logical operators commute and keeps the pairing of logical operators.",
  "all codes over all fields, all subsets of qudits", "tests sample qubit codes and a few subsets", QD+".conjugated")
p("Stacking quantum codes",
  "Stacking quantum codes gives a code whose checks, restricted to each block, are those of the block; commutation is preserved; the number of qudits and logical qudits add up.",
  "all finite lists of codes", "unbounded", QD+".stack", CS+".stack")
p("Concatenation",
  "The concatenation of an inner and an outer stabilizer code is a stabilizer code whose number of qudits is the product of block counts, encodes the outer logical qudits, and its logical operators inherit the outer pairing; if the physical qudits of each outer block are logical qudits of different inner blocks (as with the default wiring), its distance is at least the product of the distances; the input code objects are observably unchanged.",
  "all inner and outer codes, all wiring permutations", "state and unbounded sizes", QD+".concatenate", QD+"._standardize_concatenation_inputs")
p("CSS distances",
  "The distance reported for a CSS code is the minimum of X- and Z-distance; the X-distance is the least weight of an operator that satisfies all Z checks (commutes with the stabilizers) and is not a product of stabilizers; bounds returned by the randomized algorithms are upper bounds on it.",
  "all CSS codes, decoders and random streams", INF, CS+".get_distance_exact", CS+".get_one_distance_bound", CS+".get_distance_bound")
p("Logical operator reduction preserves the operator class",
  "reduce_logical_op never changes the logical class of an operator and never increases its weight; afterwards the set of logical operators still satisfies the canonical relations.",
  "all codes, operators, decoders", "quantifies over decoders", CS+".reduce_logical_op", CS+".reduce_logical_ops")
p("Tanner graph round trip",
  "graph_to_matrix(matrix_to_graph(H)) == H for every parity check matrix without zero rows or columns, for classical, qudit and CSS codes.",
  "all matrices", INF, CL+".matrix_to_graph", CL+".graph_to_matrix", QD+".matrix_to_graph", QD+".graph_to_matrix")
p("Repetition and ring codes",
  "RepetitionCode(n) and RingCode(n) contain exactly the constant words, so their dimension is 1 and distance n as advertised.",
  "all n >= 1 and all fields", "all n", "qldpc/codes/classical.py:RepetitionCode", "qldpc/codes/classical.py:RingCode")
p("Hamming codes",
  "HammingCode(r, q) has no nonzero word of weight below 3 and, for r >= 2, has one of weight 3; its columns are pairwise independent and cover every syndrome direction; dimension is n - r.",
  "all ranks and fields", "all r, q", "qldpc/codes/classical.py:HammingCode")
p("Reed-Muller codes",
  "ReedMullerCode(r, m) has dimension sum_{i<=r} C(m, i), minimum distance 2**(m-r) and its binary dual is ReedMullerCode(m-r-1, m).",
  "all 0 <= r <= m", "all r, m", "qldpc/codes/classical.py:ReedMullerCode")
p("Extended Hamming code",
  "Every word of ExtendedHammingCode(r) has even weight, the advertised distance 4 is attained and is the minimum for r >= 2, and dimension is 2**r - r - 1; for r >= 3 it is the code ReedMullerCode(r-2, r).",
  "all r", "all r", "qldpc/codes/classical.py:ExtendedHammingCode")
p("Classical Tanner codes",
  "A word is in TannerCode(G, C) iff for every source vertex the bits on its neighbours, read in the sorted order, form a word of C.",
  "all half-regular graphs and subcodes", "all graphs", "qldpc/codes/classical.py:TannerCode")
p("Group lifts are representations",
  "The regular lift and the permutation-matrix lift satisfy lift(g*h) = lift(g) @ lift(h), lift(identity) = identity, lift(~g) = lift(g).T.",
  "all finite permutation groups and members", "infinitely many groups", "qldpc/abstract.py:GroupMember.to_matrix", "qldpc/abstract.py:Group.regular_lift")
p("Lifting the group algebra",
  "Lifting respects sums, products, scalar multiples and transposition: lift(a*b) = lift(a) @ lift(b), lift(a.T) = lift(a).T, and RingArray.lift is multiplicative on matrix products.",
  "all groups, fields, ring members and arrays", INF, "qldpc/abstract.py:RingMember.lift", "qldpc/abstract.py:RingArray.lift", "qldpc/abstract.py:RingMember.T")
p("Group algebra laws",
  "Ring members obey the ring laws (associativity, distributivity, unit), equality is extensional (ignores zero terms and term order), powers are iterated products, and from_vector / to_vector are mutually inverse.",
  "all groups and fields", INF, "qldpc/abstract.py:RingMember.__mul__", "qldpc/abstract.py:RingMember.__pow__", "qldpc/abstract.py:RingMember.from_vector")
p("Inverse in the group algebra",
  "x.inverse() returns y with x*y = y*x = 1 whenever x is invertible and None otherwise.",
  "all ring members", INF, "qldpc/abstract.py:RingMember.inverse")
p("Equal groups hash equally",
  "Two groups that compare equal have equal hashes.",
  "all groups and lifts", "all pairs of groups", "qldpc/abstract.py:Group.__eq__", "qldpc/abstract.py:Group.__hash__")
p("Group from a multiplication table or generating matrices",
  "Group.from_table(t) and from_generating_mats(mats) produce a group isomorphic to the one given, and its lift is a representation: lift(g*h) = lift(g) @ lift(h).",
  "all tables and matrix groups", "non-abelian instances are not covered by the commutative samples", "qldpc/abstract.py:Group.from_table", "qldpc/abstract.py:Group.from_generating_mats")
p("Random symmetric subsets",
  "random_symmetric_subset(size) returns, for any random stream, a set of exactly the requested size that contains the inverse of each of its members and not the identity, if it returns.",
  "all groups, sizes, random streams", "random streams", "qldpc/abstract.py:Group.random_symmetric_subset")
p("Cyclic and abelian groups",
  "AbelianGroup(n1, ..., nm) multiplies by adding exponents modulo the orders, generate() lists every element exactly once starting with the identity, and the lift of an element is the Kronecker product of the cyclic shift matrices.",
  "all lists of orders", "all orders", "qldpc/abstract.py:AbelianGroup", "qldpc/abstract.py:CyclicGroup")
p("Row reduction of ring arrays",
  "RingArray.row_reduce preserves the left row module, and after it every row either has an invertible pivot (alone in its column) or contains no invertible entry.",
  "all matrices over all group algebras", INF, "qldpc/abstract.py:RingArray.row_reduce", "qldpc/abstract.py:RingArray._reduce_rows_with_invertible_entries")
p("Null space of ring arrays",
  "RingArray.null_space returns rows annihilated by the array: self @ null_space.T = 0.",
  "all matrices over all group algebras", INF, "qldpc/abstract.py:RingArray.null_space")
p("Two-block codes",
  "TBCode(A, B) is accepted iff A and B commute, and then its X and Z parity checks commute.",
  "all square matrices over all fields", INF, "qldpc/codes/quantum.py:TBCode")
p("Hypergraph product codes are valid with the canonical logical operators",
  "HGPCode(A, B): X and Z checks commute; the advertised logical operators satisfy the checks of the opposite type, are paired by the identity matrix, and their number is k_A k_B + k_A^T k_B^T = n - rank_x - rank_z.",
  "all pairs of parity check matrices over any field", INF, "qldpc/codes/quantum.py:HGPCode.get_matrix_product", "qldpc/codes/quantum.py:HGPCode.get_canonical_logical_ops")
p("Graph and matrix hypergraph product agree",
  "The Tanner graph product of two Tanner graphs, with its node relabelling, is the Tanner graph of the matrix hypergraph product.",
  "all pairs of matrices without zero rows/columns", INF, "qldpc/codes/quantum.py:HGPCode.get_graph_product", "qldpc/codes/quantum.py:HGPCode.get_product_node_map")
p("Subsystem hypergraph product codes",
  "SHPCode(A, B): the stored stabilizers lie in the gauge group, commute with it and generate its centre; canonical logical operators commute with all gauge generators and are paired by the identity; there are k_A k_B of them.",
  "all pairs of codes over any field", INF, "qldpc/codes/quantum.py:SHPCode")
p("Lifted product codes are valid",
  "LPCode(A, B) yields commuting X and Z checks.",
  "all pairs of ring arrays over a common group algebra", INF, "qldpc/codes/quantum.py:LPCode")
p("Tensor product of chain complexes",
  "The tensor product of two chain complexes is a chain complex (consecutive boundary operators compose to zero) with modules of dimension sum over i+j=k of dim A_i * dim B_j; in degree-1 complexes it reproduces the hypergraph product.",
  "all chain complexes of any length over any field", "unbounded lengths", "qldpc/objects.py:ChainComplex.tensor_product")
p("Quasi-cyclic codes: construction terminates and is valid",
  "QCCode(orders, a, b) terminates for every list of at least as many orders as symbols, and its checks commute.",
  "all orders and polynomials", "non-termination cannot be observed by a finite run; infinitely many polynomials", "qldpc/codes/quantum.py:QCCode.__init__")
p("Bivariate bicycle layout",
  "Node labels are a bijection between qubits and (sector, a, b); qubit positions are injective into the 2R_x x 2R_y grid, also in the folded layout; an X check addresses exactly the L qubits shifted by the exponents of A and R qubits by those of B, a Z check the opposite shifts; in the folded layout cyclically adjacent columns are at distance at most 2.",
  "all orders and polynomials", "all orders", "qldpc/codes/quantum.py:BBCode.get_node_label", "qldpc/codes/quantum.py:BBCode.get_qubit_pos")
p("Toric layout arithmetic",
  "get_order(v) is the least positive multiple bringing v to the origin of the torus; is_valid_basis(g, h) iff every plaquette is uniquely a g + b h with a < ord g, b < ord h; modular_inverse returns a solution iff one exists; get_canonical_form represents the same ring element.",
  "all torus sizes, vectors and polynomials", "all sizes", "qldpc/codes/quantum.py:BBCode.get_order", "qldpc/codes/quantum.py:BBCode.is_valid_basis", "qldpc/codes/quantum.py:BBCode.modular_inverse", "qldpc/codes/quantum.py:QCCode.get_canonical_form")
p("Surface and toric codes",
  "The rotated surface code and rotated toric code checks of opposite type commute for all sizes and fields; straight rows/columns are logical operators of the advertised weight; the recorded dimension (1 and 2) and the recorded X and Z distances are exact.",
  "all rows, cols, field orders", "all sizes", "qldpc/codes/quantum.py:SurfaceCode", "qldpc/codes/quantum.py:ToricCode")
p("Quantum Tanner codes are valid",
  "For every pair of symmetric generating subsets (satisfying total no-conjugacy in the bipartite case) and every pair of classical codes of matching length, the X and Z checks of QTCode commute.",
  "all finite groups, subsets, codes", "all groups", "qldpc/codes/quantum.py:QTCode.get_subgraphs", "qldpc/objects.py:CayleyComplex")
p("Quantum Tanner code persistence and equality",
  "QTCode.load(save(code)) has the same generating data; two QTCodes compare equal iff their generating data are equal.",
  "all codes", "all codes", "qldpc/codes/quantum.py:QTCode.save", "qldpc/codes/quantum.py:QTCode.load", "qldpc/codes/quantum.py:QTCode.__eq__")
p("Lookup decoder",
  "LookupDecoder.decode(s) returns an error with syndrome s of least weight among errors of weight at most max_weight whenever such an error exists; if 2*max_weight is below the distance, every error of weight at most max_weight is returned exactly.",
  "all matrices, fields, weights, syndromes", "exponential tables, unbounded sizes", "qldpc/decoders.py:LookupDecoder")
p("Generalized union-find decoder",
  "GUFDecoder.decode(s) terminates, and returns an error with syndrome s whenever one exists (zero otherwise); with max_weight, the result has weight at most max_weight if any error supported in the final region does.",
  "all matrices (no zero rows), fields, syndromes", "all graphs", "qldpc/decoders.py:GUFDecoder.decode")
p("Integer program decoder encodes the decoding problem",
  "The constraints built for a syndrome are satisfied by exactly those variable assignments (extended by slack variables) with matrix @ x = syndrome mod q.",
  "all prime moduli, matrices, syndromes", "all sizes; failing instances need q > 2 and large sums", "qldpc/decoders.py:ILPDecoder.cvxpy_constraints_for_syndrome")
p("Block and direct decoders",
  "BlockDecoder applies the base decoder to each consecutive block; if the base decoder solves each block then the result solves the block-diagonal problem. DirectDecoder returns a code word whenever the indirect decoder returns a solution.",
  "all decoders, block counts, words", "quantifies over decoders", "qldpc/decoders.py:BlockDecoder", "qldpc/decoders.py:DirectDecoder.from_indirect")
p("Encoding tableau is symplectic",
  "get_encoding_tableau produces operator lists obeying all canonical relations: destabilizers are dual to stabilizers, commute with logical and gauge operators and with each other, so the rows form a symplectic basis.",
  "all qubit stabilizer and subsystem codes", INF, "qldpc/circuits.py:get_encoding_tableau")
p("SWAP circuits implement the permutation",
  "The sequence of SWAPs emitted for an automorphism moves the content of each qubit q to automorphism(q) mod n.",
  "all permutations of all sizes", "n! permutations, all n", "qldpc/circuits.py:_get_swap_circuit")
p("Transversal automorphisms preserve the code",
  "Every permutation of the instrumental code's columns that preserves it and is generated by sector permutations and qudit swaps induces, through the emitted local gates and SWAPs, a Clifford mapping the set of Paulis commuting with all checks to itself.",
  "all qubit codes, all automorphisms", "all codes", "qldpc/circuits.py:get_transversal_automorphism_group", "qldpc/circuits.py:_get_pauli_permutation_circuit")
p("Disk cache transparency",
  "A cached pure function returns the same values as the uncached one, for any sequence of calls and any cache contents produced by earlier calls.",
  "all call histories", "histories are unbounded", "qldpc/cache.py:use_disk_cache")
p("Node order",
  "Node comparison is a strict total order placing all data nodes before all check nodes, consistent with equality and hashing.",
  "all nodes", "infinitely many nodes", "qldpc/objects.py:Node")
p("Sample allocation",
  "_get_sample_allocation distributes exactly num_samples samples among nonzero weights, none negative.",
  "all sample budgets, lengths, error rates", "all inputs, floating point", "qldpc/codes/common.py:_get_sample_allocation")
p("Joining index sets",
  "_join_slices lists the integers of its slices/lists in order.",
  "all slices", "all slices", "qldpc/codes/common.py:_join_slices")
p("Tabulated automorphism groups",
  "Every generator stored in the table of known groups is an automorphism of the code named by its key.",
  "every entry of the table, every code word", "quantifies over code words of each code", "qldpc/external/groups.py:KNOWN_GROUPS")
p("GAP permutation text",
  "Parsing the text GAP prints for a permutation (1-based cycles) gives that permutation with indices shifted by one.",
  "all cycle lists", "all permutations", "qldpc/external/groups.py:get_generators_with_gap", "qldpc/abstract.py:GroupMember.to_gap_cycles")
p("Logical operators of a general subsystem code",
  "For every subsystem QuditCode, get_logical_ops returns operators that commute with every gauge generator, pair as conjugate Paulis, and commute within each sector.",
  "all parity check matrices of subsystem codes over all fields", "the matrix space is infinite; small CSS examples do not reach the failing sectors", "qldpc/codes/common.py:QuditCode.get_logical_ops", "qldpc/codes/common.py:QuditCode.get_standard_form_data")
p("Logical operators of a CSS subsystem code",
  "For every CSSCode that is a subsystem code, get_logical_ops returns n minus the rank of the Z checks minus the number of independent X stabilizers conjugate pairs; the X operators commute with all Z gauge generators and the Z operators with all X gauge generators; the matrix inverse it computes always exists.",
  "all pairs of check matrices over all fields", "all pairs of matrices", "qldpc/codes/common.py:CSSCode.get_logical_ops", "qldpc/codes/common.py:CSSCode.get_standard_form_data_xz")
p("Exact distance of a general stabilizer code",
  "QuditCode.get_distance_exact of a stabilizer code that encodes at least one qudit is the least weight of a Pauli string that commutes with all checks and is not a product of checks.",
  "all stabilizer matrices over all fields", "minimum over an exponential set, all codes", "qldpc/codes/common.py:QuditCode.get_distance_exact")
p("Gauge operators of a CSS subsystem code",
  "get_gauge_ops of a CSSCode that is a subsystem code returns conjugate pairs that commute with all stabilizers and all logical operators, and that together with the stabilizers generate exactly the X-type (Z-type) gauge group.",
  "all pairs of check matrices over all fields, all valid sets of known logical operators", "all pairs of matrices", "qldpc/codes/common.py:QuditCode.get_gauge_ops", "qldpc/codes/common.py:CSSCode.get_gauge_ops", "qldpc/codes/common.py:CSSCode.get_dual_subsystem_code")
p("Random logical operators of a CSS code",
  "get_random_logical_op(pauli) returns an operator that commutes with all checks; every such operator can occur; with ensure_nontrivial=True it is never a product of checks.",
  "all CSS codes, all random draws", "all codes and all outcomes of the random number generator", "qldpc/codes/common.py:CSSCode.get_random_logical_op")
p("Simplex codes",
  "SimplexCode(k) has 2**k - 1 bits and dimension k, and every nonzero word has weight exactly 2**(k-1), for each of the polynomials tabulated.",
  "all k for which the constructor succeeds, all words", "quantifies over all words, and depends on each tabulated polynomial being primitive", "qldpc/codes/classical.py:SimplexCode")
p("Logical error rate function", "The function returned by ClassicalCode.get_logical_error_rate_func raises above max_error_rate; otherwise it returns sum_k P(weight k) (1 - F_k) over the sampled weights plus the probability of a weight above them, where F_k is the fraction of the samples of weight k that were decoded correctly and F_0 = 1. This is a probability, an upper bound on the true rate if the F_k are exact, too large by at most the probability of unsampled weights, and 0 at error rate 0. No division by zero occurs.",
  "all lengths, error rates and outcomes of the samples", "all outcomes of random sampling",
  "qldpc/codes/common.py:ClassicalCode.get_logical_error_rate_func", "qldpc/codes/common.py:ClassicalCode._estimate_decoding_fidelity_and_variance", "qldpc/codes/common.py:_get_error_probs_by_weight")

p("Distances of hypergraph products",
  "The X-distance of HGPCode(A, B) is the least weight of a nonzero word of B (if A has a nonzero word) or of the transpose of A (if the transpose of B has one); likewise for Z with A and B exchanged. The distances of SHPCode(A, B) are those of B and A: it is an [n1 n2, k1 k2, min(d1, d2)] code.",
  "all pairs of parity check matrices over all fields", "distance is a minimum over exponentially many operators, for infinitely many codes",
  "qldpc/codes/quantum.py:HGPCode", "qldpc/codes/quantum.py:SHPCode")
p("Unrotated surface and toric codes, Bacon-Shor codes, SHYPS codes",
  "SurfaceCode(rows, cols, rotated=False), ToricCode(rows, cols, rotated=False), BaconShorCode(rows, cols) and SHYPSCode(dim_x, dim_z) have the number of qudits, the dimension and the X and Z distances that their constructors record.",
  "all side lengths, all fields", "recorded values are returned without any check, for infinitely many sizes",
  "qldpc/codes/quantum.py:SurfaceCode", "qldpc/codes/quantum.py:ToricCode", "qldpc/codes/quantum.py:BaconShorCode", "qldpc/codes/quantum.py:SHYPSCode")

p("Named codes",
  "FiveQubitCode() is a [5, 1, 3] stabilizer code; SteaneCode() is [7, 1, 3], C4Code() [4, 2, 2], C6Code() [6, 2, 2] and IcebergCode(m) [2m, 2m-2, 2]: recorded dimensions, X and Z distances and logical operators are right, and construction does not raise. IcebergCode(1) reports no distance.",
  "all sizes m >= 1, with and without alternative logical operators; every word of each code", "the size is unbounded, and distances are minima over all operators",
  "qldpc/codes/quantum.py:FiveQubitCode", "qldpc/codes/quantum.py:SteaneCode", "qldpc/codes/quantum.py:IcebergCode", "qldpc/codes/quantum.py:C4Code", "qldpc/codes/quantum.py:C6Code")

p("Stacked and concatenated CSS codes",
  "CSSCode.stack puts the X and Z checks and logical operators of the codes on disjoint qudits; sizes and dimensions add, X and Z distances are minima, and the inherited promise of equal distances is true. CSSCode.concatenate replaces outer qudits by inner logical qudits along the wiring: checks, a complete set of logical operators and the dimension are as documented, and if each outer block is spread over different inner blocks, as with the default wiring, X and Z distances are at least the products.",
  "all lists of CSS codes (stabilizer or subsystem, any field), all inner and outer codes, all wirings that are permutations of matching length", "codes, wirings and numbers of copies are unbounded; distances are minima over all operators",
  "qldpc/codes/common.py:CSSCode.stack", "qldpc/codes/common.py:CSSCode.concatenate", "qldpc/codes/common.py:CSSCode.set_logical_ops_xz")

p("Logical tableaus and Pauli corrections of transversal circuits",
  "The circuit computed for an automorphism (a local Clifford and SWAP circuit behind a Pauli correction) maps the stabilizer group of the code to itself with signs (to that of the deformed code if deform_code is set), and maps every logical Pauli operator to the logical operator that the returned tableau says, up to stabilizers and with signs. get_logical_tableau(code, circuit) succeeds precisely for circuits that preserve the code up to signs, and then is the logical action of the circuit. The logical action of a circuit is unique. Signs are those of the row-reduced stabilizers and of the code's logical operators.",
  "all qubit stabilizer codes and CSS (also subsystem) codes of any length, all gate sets, all automorphisms, all Clifford circuits", "codes, automorphisms and circuits are unbounded; the tests compare a few logical gates of a few codes",
  "qldpc/circuits.py:get_logical_tableau", "qldpc/circuits.py:_get_logical_tableau_from_code_data", "qldpc/circuits.py:get_encoder_and_decoder", "qldpc/circuits.py:_get_transversal_automorphism_data", "qldpc/circuits.py:_get_pauli_correction", "qldpc/codes/common.py:QuditCode.deformed")

p("Searches for transversal logical gates",
  "get_transversal_circuits returns, for each requested logical tableau, either a circuit that implements exactly this tableau on the code, signs included, and that is made of the allowed gates behind Pauli gates; or None, and then no circuit of a searched automorphism behind any Pauli gates implements it. get_transversal_ops(remove_redundancies=True) returns no logical Pauli operators, no two gates that differ by a Pauli operator, and loses no generator except up to Pauli operators; without, it returns the gates of all generators.",
  "all qubit stabilizer codes and CSS codes, all gate sets, all lists of automorphisms and all target tableaus", "exhaustive search claims (None) quantify over all circuits; codes and targets are unbounded",
  "qldpc/circuits.py:get_transversal_ops", "qldpc/circuits.py:get_transversal_circuit", "qldpc/circuits.py:get_transversal_circuits", "qldpc/circuits.py:_is_pauli_tableau", "qldpc/circuits.py:_tableaus_equivalent_mod_paulis")

p("Codes and transversal circuits in Hilbert space",
  "The joint +1 eigenspace of the stabilizers has dimension 2^code.dimension (2^(dimension + gauge_dimension) for subsystem codes). Any unitary with the tableau get_encoding_tableau(code) encodes the first code.dimension qubits into it, with X_j and Z_j becoming the code's logical operators. The unitary of a transversal circuit maps code states to code states and acts on the encoded qubits as a unitary whose tableau is the reported one, which determines it up to a phase; if a search returns None, no searched circuit does so for the requested gate.",
  "all qubit stabilizer codes and CSS codes of any length, all circuits of the emitted gates, all states", "states are vectors in spaces of exponential dimension; simulation settles single codes and small sizes only",
  "qldpc/circuits.py:get_encoding_tableau", "qldpc/circuits.py:get_encoding_circuit", "qldpc/circuits.py:get_transversal_ops", "qldpc/circuits.py:get_transversal_circuits", "qldpc/codes/common.py:QuditCode.dimension")

p("Special linear groups",
  "SpecialLinearGroup(d, q) is the group of d x d matrices of determinant 1 over GF(q), with linear_rep=True and False: get_generating_mats generates exactly these matrices, the group has their number of members and is isomorphic to theirs, group.lift maps members to their matrices and is a representation, and iter_mats yields each matrix once. Dimensions 0 and 1 are rejected.",
  "all dimensions and finite fields (of order at most 256 for the linear representation)", "groups grow exponentially with the dimension; tests compare orders for the smallest groups",
  "qldpc/abstract.py:SpecialLinearGroup.__init__", "qldpc/abstract.py:SpecialLinearGroup.get_generating_mats", "qldpc/abstract.py:SpecialLinearGroup.iter_mats")

p("Projective special linear groups",
  "ProjectiveSpecialLinearGroup(d, q) is the group of d x d matrices of determinant 1 over GF(q) modulo multiples of the identity, with linear_rep=True and False and in whichever order python iterates over sets; its lift is a representation up to multiples of the identity; iter_mats yields one matrix for each member.",
  "all dimensions, finite fields (of order at most 256 for the linear representation) and iteration orders of sets", "the iteration order of sets of bytes changes between runs; tests look at the orders of the smallest groups",
  "qldpc/abstract.py:ProjectiveSpecialLinearGroup.__init__", "qldpc/abstract.py:ProjectiveSpecialLinearGroup.get_generating_mats", "qldpc/abstract.py:ProjectiveSpecialLinearGroup.iter_mats")

p("Sampling of errors and logical error rates",
  "The functions returned by get_logical_error_rate_func of classical and CSS codes estimate the probability that an error, with independent errors on all bits or qudits at the given rate and bias, is decoded to a logical error: drawing a weight and then an error as the code does is the same as independent noise; the expected value of the returned rate is at least that probability and exceeds it by at most the probability of the weights that are not sampled; a sample counts as a failure exactly if the residual error is a nontrivial logical operator, for stabilizer and subsystem codes; the expected squared uncertainty is the variance up to the factor 1 - 1/N.",
  "all codes, fields, decoders, sample numbers, error rates and biases", "random estimates are only compared with loose tolerances in tests; their expected values and all decoders cannot be enumerated",
  "qldpc/codes/common.py:ClassicalCode.get_logical_error_rate_func", "qldpc/codes/common.py:ClassicalCode._estimate_decoding_fidelity_and_variance", "qldpc/codes/common.py:CSSCode.get_logical_error_rate_func", "qldpc/codes/common.py:CSSCode._estimate_decoding_fidelity_and_variance")

p("Primitive central idempotents",
  "GroupRing.get_primitive_central_idempotents returns exactly the members of the group algebra that GAP prints, in order: all sums and all terms of the output are found whatever text surrounds them, coefficients Z(p^k)^m denote the same elements of the field, cycles the same permutations; so the returned members are idempotent and orthogonal if those of GAP are; algebras that are not semisimple are refused.",
  "all outputs of GAP in its format for members of a group algebra, all fields and degrees", "tests read one short output over one field",
  "qldpc/abstract.py:GroupRing.get_primitive_central_idempotents", "qldpc/external/groups.py:get_primitive_central_idempotents")

p("Surface and toric codes in any dimension",
  "GeneralizedSurfaceCode(size, dim, field, periodic=...) builds a code on size^dim + (dim-1)(size-1)^2 size^(dim-2) qudits (open boundaries) or dim * size^dim qudits (periodic) whose X and Z checks commute, with 1 (open) or dim (periodic) logical qudits, and the distances it records, size^(dim-1) for X and size for Z, are the least weights of nontrivial logical operators.  Fewer than two dimensions are refused.",
  "all sizes, all dimensions of the lattice, all fields, open and periodic boundaries", "the distances are noted as known without source; computing them takes exponential time, and tests look at one small case",
  "qldpc/codes/quantum.py:GeneralizedSurfaceCode", "qldpc/objects.py:ChainComplex.tensor_product")

p("How product codes are related",
  "LPCode of 1x1 arrays is the two-block code of the lift of the first entry and the transposed lift of the second (Z checks negated); LPCode and SLPCode with entries that lift to 1x1 matrices are HGPCode and SHPCode of the lifted arrays, with the same sector sizes; SHPCode depends only on the two classical codes, not on the choice of their parity check matrices: gauge group, stabilizers, logical operators and dimension are the same.",
  "all rings, lifts, arrays of all shapes, all fields, all choices of parity check matrices", "the docstrings state this for all inputs; tests compare single examples",
  "qldpc/codes/quantum.py:LPCode", "qldpc/codes/quantum.py:SLPCode", "qldpc/codes/quantum.py:SHPCode", "qldpc/codes/quantum.py:TBCode")

p("Choice of decoders",
  "get_decoder(matrix, **args) makes the decoder of the first selector, in the order decoder_constructor, static_decoder, with_lookup, with_GUF, with_ILP, with_MWPM, with_BF, with_BP_LSD, whose value is true, and hands it exactly the arguments that are not selectors up to this one; without a true selector it makes the BP-OSD decoder for binary and the generalized Union-Find decoder for all other fields, and the latter returns an error with the measured syndrome for every reachable syndrome.  Selectors that are present but false should be harmless.",
  "all dictionaries of arguments, in every order and with values of every type", "tests call each selector once on one matrix; combinations are exponentially many",
  "qldpc/decoders.py:get_decoder", "qldpc/decoders.py:decode", "qldpc/decoders.py:get_decoder_GUF", "qldpc/decoders.py:get_decoder_lookup", "qldpc/decoders.py:GUFDecoder.__init__", "qldpc/decoders.py:LookupDecoder.__init__")

p("Block lengths of BCH codes",
  "BCHCode(length, dimension, field) accepts exactly the block lengths field**m - 1 with m >= 1 (the error message says so), raises ValueError for all others, and otherwise returns the code of galois with the requested dimension; ReedSolomonCode reports the requested dimension, too.",
  "all integers as lengths, all field orders", "infinitely many lengths and fields; tests use the binary field only",
  "qldpc/codes/classical.py:BCHCode", "qldpc/codes/classical.py:ReedSolomonCode")

p("Matrices as arrays over the trivial group",
  "TrivialGroup.to_ring_array(data).lift() is data again: same shape, same entries; hence LPCode and SLPCode of converted matrices are HGPCode and SHPCode of the matrices.",
  "all shapes, all matrices, all finite fields", "tests use a matrix of 0s and 1s over the binary field",
  "qldpc/abstract.py:TrivialGroup.to_ring_array", "qldpc/abstract.py:TrivialGroup._trivial_lift", "qldpc/abstract.py:RingArray.lift")

p("Tests on groups and group rings",
  "Group.is_abelian and GroupRing.is_abelian are true exactly if all members commute; GroupRing.is_semisimple is true exactly if the group algebra is semisimple; equal rings are interchangeable as keys of dictionaries.",
  "all finite groups with any generators, all finite fields", "the statements quantify over all pairs of members and over all modules of the ring",
  "qldpc/abstract.py:Group.is_abelian", "qldpc/abstract.py:GroupRing.is_abelian", "qldpc/abstract.py:GroupRing.is_semisimple", "qldpc/abstract.py:GroupRing.__eq__", "qldpc/abstract.py:GroupRing.__hash__")

p("Direct products of groups",
  "The members of G * H are exactly the g @ h with g in G and h in H, each from one pair only, multiplied factor by factor; the order of a product, of group ** k and of Group.product(*groups, repeat=k) is the product of the orders; the product is associative; powers that are not positive and empty products are refused.",
  "all permutation groups, all generators, all powers and repetitions", "tests compare orders of two small groups",
  "qldpc/abstract.py:Group.__mul__", "qldpc/abstract.py:Group.__pow__", "qldpc/abstract.py:Group.product", "qldpc/abstract.py:GroupMember.__matmul__")

p("Random codes and random words",
  "ClassicalCode.random(bits, checks, field, seed=s) returns a code with the requested shape, no zero row and no zero column (so no word of weight one); with a seed the result depends on the seed alone, and numpy's global random state is left as it was; get_random_word returns a code word, and every word comes from exactly one array of coefficients.",
  "all shapes, fields, seeds, random generators and states", "tests draw a few small codes; independence of the global state and of earlier draws is a statement about all of them",
  "qldpc/codes/common.py:get_scrambled_seed", "qldpc/codes/common.py:get_random_array", "qldpc/codes/common.py:ClassicalCode.random", "qldpc/codes/common.py:ClassicalCode.get_random_word")

p("Codes from codes, and equality of codes",
  "A code constructed from a code is equal to it and keeps its field, matrix and everything known about it; a contradicting field is an error; CSSCode(code_x, code_z) has the given checks and refuses codes of different lengths or fields; == on codes is reflexive, symmetric and implies equal fields and parity check matrices.",
  "all codes, all classes that inherit from the three base classes, all fields", "tests compare a few objects; dispatch of == depends on pairs of classes",
  "qldpc/codes/common.py:AbstractCode.__init__", "qldpc/codes/common.py:ClassicalCode.__init__", "qldpc/codes/common.py:QuditCode.__init__", "qldpc/codes/common.py:CSSCode.__init__", "qldpc/codes/common.py:ClassicalCode.__eq__", "qldpc/codes/common.py:QuditCode.__eq__", "qldpc/codes/common.py:CSSCode.__eq__")

p("Groups by name",
  "get_generators asks the table of known groups, then GAP, and only without GAP GroupNames.org; SmallGroup(order, index) has the generators on the page behind the link for exactly this order and index, counted from zero; the number of groups of an order is the largest index listed; SmallGroup.generator runs through all groups of an order; other names are refused without GAP.",
  "all names, all pages with the layout of the site, all answers of GAP", "tests mock single pages and names",
  "qldpc/external/groups.py:get_generators", "qldpc/external/groups.py:get_generators_with_gap", "qldpc/external/groups.py:get_generators_from_groupnames", "qldpc/external/groups.py:get_group_url", "qldpc/external/groups.py:get_small_group_number", "qldpc/external/groups.py:get_small_group_structure", "qldpc/abstract.py:SmallGroup")

p("Conjugated codes with the default qudits",
  "Calling conjugated() without arguments on a rotated surface code, a rotated toric code or a hypergraph product code returns a stabilizer code with the same number of logical qudits and the same distance. Its checks have the mixed shape that is expected: powers of X on one class of qudits and powers of Z on the other one. Explicit qudits take precedence over the default ones, and a code without default qudits is returned unchanged.",
  "for all fields, all sizes of the lattices, all pairs of classical codes and all lists of qudits",
  "Tests conjugate a few small qubit codes and compare the matrices; whether the checks of the result commute depends on the characteristic of the field, which is 2 in these tests.",
  "qldpc/codes/common.py:QuditCode.conjugated",
  "qldpc/codes/quantum.py:SurfaceCode.__init__",
  "qldpc/codes/quantum.py:ToricCode.__init__",
  "qldpc/codes/quantum.py:HGPCode.__init__")
p("Default and random quantum Tanner codes",
  "QTCode(subset_a, subset_b, code_a) takes the dual of code_a for the second subset if both subsets have the same size, and raises an exception otherwise. QTCode.random(group, code_a, code_b) returns the quantum Tanner code of two symmetric subsets of the group that have as many members as the codes have bits; with one_subset both are the same one. It raises an exception if the lengths of the codes do not fit the group, or if a bipartite complex is requested and the subsets have conjugate members, and it finishes once every member of the group has been drawn. With a seed, the code does not depend on earlier random numbers. Seed codes of the wrong lengths raise an exception.",
  "for all finite groups, all subsets, all seed codes, all states of the random number generator and all orders in which a set is traversed",
  "Tests build one random code with fixed seeds; they see neither the other outcomes of the random numbers nor the other groups.",
  "qldpc/codes/quantum.py:QTCode.__init__",
  "qldpc/codes/quantum.py:QTCode.random",
  "qldpc/abstract.py:Group.random_symmetric_subset")
p("Equivalence, canonical form, rank and weight of quantum codes",
  "QuditCode.equiv and CSSCode.equiv agree and hold exactly if the parity checks of the two codes generate the same group, equivalently if the same Pauli strings commute with all checks, whichever of the two codes are CSS codes. canonicalized is a code of the same kind, marked as a subsystem code exactly if the original is, with independent checks that generate the same group, and is its own canonical form. rank is the number of independent checks. get_weight is the largest number of qudits that a check acts on, and raises an exception exactly if there are no checks. num_qubits raises an exception unless the qudits are qubits.",
  "for all fields, all numbers of qudits and all parity check matrices",
  "Tests compare a few codes with their canonical forms; agreement of the two tests of equivalence and with the commutant concerns all pairs of matrices.",
  "qldpc/codes/common.py:AbstractCode.equiv",
  "qldpc/codes/common.py:CSSCode.equiv",
  "qldpc/codes/common.py:QuditCode.canonicalized",
  "qldpc/codes/common.py:CSSCode.canonicalized",
  "qldpc/codes/common.py:AbstractCode.rank",
  "qldpc/codes/common.py:CSSCode.rank",
  "qldpc/codes/common.py:QuditCode.get_weight",
  "qldpc/codes/common.py:QuditCode.num_qubits")
p("Codes by name and the communication with GAP",
  "ClassicalCode.from_name(name) is the code whose parity checks and field GAP prints for that name; the code keeps the name as given, and spaces in the name do not matter otherwise. An exception is raised if GAP is not installed, if it reports an error, if a line of its answer cannot be read or if there are no checks. Commands are sent unchanged except that every Print( is redirected to a stream without line breaks. A missing package is installed if the user agrees. Two codes of the same length ask for the same automorphism group exactly if they have the same code words, and codes of different lengths never do.",
  "for all names, all answers of GAP with the stated layout, all lists of commands and all pairs of matrices over all fields",
  "Tests replace GAP by a stub with a few fixed answers.",
  "qldpc/external/codes.py:get_code",
  "qldpc/external/gap.py:is_installed",
  "qldpc/external/gap.py:sanitize_commands",
  "qldpc/external/gap.py:get_output",
  "qldpc/external/gap.py:require_package",
  "qldpc/codes/common.py:ClassicalCode.from_name",
  "qldpc/codes/common.py:ClassicalCode.get_automorphism_group")
p("Distances to vectors, get_distance(bound=...) and code parameters",
  "get_distance() without bound, or with bound 0 or False, is exact; with another bound it runs that many trials (True is one trial). With a vector and trials, the result is never below the Hamming distance between the vector and the code and never above the block length, provided the decoder returns errors with the given syndrome; if the decoder returns errors of least weight, one trial gives the exact value. get_code_params() returns the block length, the number of logical (qu)dits and the distance, the latter replaced by an upper bound if trials are requested, for classical, stabilizer and CSS codes, subsystem codes included.",
  "for all codes, all fields, all vectors, all numbers of trials, all cutoffs, all random draws and decoders, and all states of the caches that tell the truth",
  "Tests evaluate parameters of a few small codes and one vector with one decoder; an unsound bound shows only for decoders that fail.",
  "qldpc/codes/common.py:ClassicalCode.get_distance",
  "qldpc/codes/common.py:ClassicalCode.get_distance_bound",
  "qldpc/codes/common.py:ClassicalCode.get_one_distance_bound",
  "qldpc/codes/common.py:ClassicalCode.get_code_params",
  "qldpc/codes/common.py:QuditCode.get_code_params",
  "qldpc/codes/common.py:QuditCode.get_distance",
  "qldpc/codes/common.py:CSSCode.get_distance")
p("Circuit functions accept codes on qubits and refuse all others",
  "Every circuit function (encoding tableau and circuit, encoder and decoder, logical tableau, transversal automorphism group, transversal operations and circuits) raises if it is given a code that is not on qubits, whichever way the code is passed, and for codes on qubits the check changes nothing. Writing operators as Pauli letters for Stim loses nothing for codes on qubits.",
  "for all codes, all other arguments, all ways of passing the code, and whatever the functions compute",
  "Tests pass one qutrit code as a positional argument to one function; the check of keyword arguments and of nested calls is a property of all calls.",
  "qldpc/circuits.py:restrict_to_qubits",
  "qldpc/circuits.py:get_encoding_tableau",
  "qldpc/circuits.py:get_encoding_circuit",
  "qldpc/circuits.py:get_encoder_and_decoder",
  "qldpc/circuits.py:get_logical_tableau",
  "qldpc/circuits.py:get_transversal_automorphism_group",
  "qldpc/circuits.py:get_transversal_ops",
  "qldpc/circuits.py:get_transversal_circuits",
  "qldpc/circuits.py:get_transversal_circuit",
  "qldpc/math.py:op_to_string")
p("Exact distance of a general subsystem code",
  "get_distance_exact of a QuditCode with noncommuting parity checks returns the least number of qudits on which a dressed nontrivial logical operator acts: an operator that commutes with all stabilizers and is not a product of gauge operators.",
  "for all numbers of qudits, all fields and all lists of gauge generators with at least one logical qudit",
  "The tests compute distances of subsystem codes that are CSS codes or happen to come out right; whether the operators used in the enumeration generate the right cosets depends on the gauge group.",
  "qldpc/codes/common.py:QuditCode.get_distance_exact",
  "qldpc/codes/common.py:QuditCode.get_logical_ops",
  "qldpc/codes/common.py:QuditCode.get_gauge_ops",
  "qldpc/codes/common.py:QuditCode.get_standard_form_data")
p("Numbers of logical and gauge qudits of a general code",
  "For a QuditCode with any list of parity checks or gauge generators: dimension is the greatest number of pairs of operators that commute with all generators and satisfy the relations of qudits, gauge_dimension is the greatest number of such pairs in the gauge group, these and the number of stabilizer generators add up to the number of qudits, and get_code_params reports the number of logical qudits so defined.",
  "for all numbers of qudits, all fields, all lists of generators, commuting or not",
  "The tests compare the numbers for a few codes; that rank formulas count independent qudits for every gauge group is a theorem about symplectic spaces.",
  "qldpc/codes/common.py:QuditCode.dimension",
  "qldpc/codes/common.py:QuditCode.gauge_dimension",
  "qldpc/codes/common.py:QuditCode.get_stabilizer_ops",
  "qldpc/codes/common.py:QuditCode.get_code_params")
p("Quasi-cyclic codes have equal X and Z distances",
  "QCCode (and so BBCode) promises promise_equal_distance_xz=True to CSSCode. The promise is true: exchanging the two blocks of data qudits and reversing all shifts maps X checks to Z checks up to sign, so the X and Z distances agree. Hence get_distance_exact, which then computes only one of the two distances, returns the true distance, and the two check matrices have equal rank, so the number of logical qudits is twice the number of plaquettes minus twice that rank.",
  "all prime-power fields, lists of orders, polynomials with known symbols and coefficients in the field",
  "The library's tests compare distances of a handful of small codes; that the promise is true for all orders and polynomials is a symmetry argument about every code of the family.",
  "qldpc/codes/quantum.py: QCCode.__init__, TBCode.__init__, BBCode",
  "qldpc/codes/common.py: CSSCode.get_distance_exact, CSSCode.dimension")
p("Toric layouts of bivariate bicycle codes are equivalent codes",
  "BBCode.get_equivalent_toric_layout_code_data returns, for a connected code, lists of orders and polynomials such that BBCode(orders, poly_a, poly_b) is the given code up to a permutation of data qudits and checks (so it has the same length, dimension and distances), poly_a contains the terms 1 and x, poly_b contains the terms 1 and y, exponents are canonical, the first order is at least the second, and no data are listed twice. Every choice of two monomials in each polynomial whose quotients generate the torus is represented, no exception is raised, and there is nothing to return for disconnected codes.",
  "all fields, orders, and polynomials with at least two terms whose monomials differ modulo the orders, whose coefficients survive squaring, for codes whose symbols are in order",
  "The tests check a few published codes (and compare parameters only); equivalence for all orders and polynomials needs the change of basis on the torus to be a bijection that intertwines all monomials.",
  "qldpc/codes/quantum.py:BBCode.get_equivalent_toric_layout_code_data",
  "qldpc/codes/quantum.py:BBCode.change_poly_basis",
  "qldpc/codes/quantum.py:BBCode.as_exponent_vector",
  "qldpc/codes/quantum.py:BBCode.modular_inverse",
  "qldpc/codes/quantum.py:BBCode.is_valid_basis")
p("Product codes are as sparse as their ingredients",
  "ClassicalCode.get_weight is the largest weight of a parity check. Every check of HGPCode(A, B) has the weight of a check of one code plus the number of checks that contain a bit of the other, so QuditCode.get_weight of the product is max(row weight of A + column weight of B, row weight of B + column weight of A); each qudit is in as many checks as its bit or as its check has bits. Gauge generators of SHPCode have the weights of the checks of the ingredients. Checks of LPCode act on as many qudits as there are group elements in a row of one array and a column of the other. Checks of a quasi-cyclic or bivariate bicycle code act on exactly as many qudits as the two polynomials have terms, and each qudit is in as many X (Z) checks as one polynomial has terms. Checks of TannerCode have the weights of checks of the subcode, and those of QTCode at most |A||B|.",
  "all fields, parity check matrices, arrays over group algebras, polynomials, orders, graphs and subcodes",
  "Tests check the weights of a few codes; that a construction keeps checks sparse for all inputs, with exact weights, is the defining property of an LDPC family.",
  "qldpc/codes/common.py:ClassicalCode.get_weight",
  "qldpc/codes/common.py:QuditCode.get_weight",
  "qldpc/codes/quantum.py:HGPCode",
  "qldpc/codes/quantum.py:SHPCode",
  "qldpc/codes/quantum.py:LPCode",
  "qldpc/codes/quantum.py:QCCode",
  "qldpc/codes/quantum.py:QTCode",
  "qldpc/codes/classical.py:TannerCode")
p("Quasi-cyclic codes have two logical qudits per function annihilated by both polynomials",
  "The dimension of a QCCode (and so of a BBCode) is twice the dimension of the space of functions on the torus of its orders that both polynomials annihilate, where a monomial acts by moving the argument. There are no logical qudits exactly if only the zero function is annihilated, and there are at least two if the coefficients of each polynomial sum to zero in the field.",
  "all fields, symbols, orders and polynomials with which the constructor succeeds",
  "Tests compare the dimension of a few bivariate bicycle codes with published numbers; the formula for all polynomials and orders is a statement about infinitely many codes.",
  "qldpc/codes/quantum.py:QCCode",
  "qldpc/codes/quantum.py:BBCode",
  "qldpc/codes/common.py:CSSCode.dimension")
p("Tanner codes and quantum Tanner codes have at least the dimension that counting checks promises",
  "TannerCode(graph, subcode).dimension is at least the number of sinks minus, for each source, the number of independent checks of the subcode. A QTCode has as many nodes with Z checks as nodes with X checks, say V; twice its number of qudits is V |A| |B|; and its dimension is at least the number of qudits minus V (k_A k_B + (|A| - k_A)(|B| - k_B)), where k_A and k_B are the dimensions of code_a and code_b. With the default code_b = ~code_a, its dimension is at least V (|A| - 2 k_A)^2 / 2, so the rate is bounded below by (1 - 2 k_A / |A|)^2.",
  "all fields, directed graphs, subcodes, finite groups, accepted symmetric subsets (bipartite and quadripartite), codes, and orders in which nodes are visited",
  "Constant rate of quantum Tanner codes is a statement about all groups and subsets; tests build a few small codes and compare parameters with stored numbers.",
  "qldpc/codes/classical.py:TannerCode",
  "qldpc/codes/quantum.py:QTCode",
  "qldpc/codes/quantum.py:QTCode.get_subcodes",
  "qldpc/codes/quantum.py:QTCode.get_subgraphs",
  "qldpc/codes/common.py:CSSCode.dimension")
p("Reported logical error rates respect the distance, whatever errors are sampled",
  "Let p be a physical error rate in [0, 1] and let r be the rate that code.get_logical_error_rate_func(...)(p) reports. If the decoder of a ClassicalCode finds every error of weight at most t, then r is at most the probability that more than t errors happen (or more than the largest sampled weight), for every outcome of the random sampling. With the lookup decoder and its default max_weight, t is (d - 1) // 2 for the code distance d. For a CSSCode (also a subsystem code): if both decoders infer errors of weight at most t with the given syndrome whenever there are any, as the lookup decoder with max_weight = t does, and 2 t is below the X- and Z-distances, then the same bound holds.",
  "all finite fields, parity checks, CSS codes and subsystem codes, decoders, sampled errors, numbers of samples, and physical error rates in [0, 1]",
  "Rates are random; tests can only look at a few outcomes of the sampling for a few codes. That no outcome exceeds the bound is a statement about all outcomes.",
  "qldpc/codes/common.py:ClassicalCode.get_logical_error_rate_func",
  "qldpc/codes/common.py:ClassicalCode._estimate_decoding_fidelity_and_variance",
  "qldpc/codes/common.py:CSSCode.get_logical_error_rate_func",
  "qldpc/codes/common.py:CSSCode._estimate_decoding_fidelity_and_variance",
  "qldpc/decoders/custom.py:LookupDecoder")
p("The distance search gets the same weights from every kernel, and buffers do no harm",
  "get_distance_quantum chooses one of several weight functions, depending on use_numba and on whether numpy has bitwise_count. Each choice, called with the number of buffers returned with it or with none, yields for each 64-bit word its number of ones (or its number of pairs of adjacent bits that are not both zero), whatever the buffers and the array for the result held before. It changes no other array. Hence the weights in the loops of the search are those of the words with the operators added so far, for every choice, and the loops end with the same array and minimum as the loops on values (C15). A new array of weights has 8-bit integers exactly if np.bitwise_count is used, and 64-bit integers otherwise.",
  "all arrays of 64-bit words, sequences of operators, contents of the buffers, and choices of the kernel",
  "Tests run with one version of numpy, so they only see one of the kernels without numba, and they cannot try all words or all contents of uninitialised buffers.",
  "qldpc/codes/distance.py:_hamming_weight",
  "qldpc/codes/distance.py:_symplectic_weight",
  "qldpc/codes/distance.py:_get_hamming_weight_fn",
  "qldpc/codes/distance.py:_get_symplectic_weight_fn",
  "qldpc/codes/distance.py:get_distance_quantum")
if __name__ == "__main__":
    with open(os.path.join(os.path.dirname(__file__), "..", "properties.jsonl"), "w") as f:
        for q in P: f.write(json.dumps(q, ensure_ascii=False) + "\n")
    print(len(P))
    for q in P: print(q["id"], q["title"])

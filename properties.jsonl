{"id": "C01", "title": "Code equivalence decides equality of code spaces", "statement": "ClassicalCode.equiv(a, b) returns True exactly when a and b (same field, same length) contain the same words; canonicalizing a code never changes which words it contains and is idempotent.", "quantifier": "all pairs of parity check matrices with any numbers of rows over any finite field, including zero or dependent rows", "why_tests_cant": "the input space is infinite (all sizes, all field orders, all entries); a test fixes finitely many matrices", "anchors": ["qldpc/codes/common.py:AbstractCode.equiv", "qldpc/codes/common.py:ClassicalCode.canonicalized"]}
{"id": "C02", "title": "Generator is a basis of the code space", "statement": "The rows of code.generator are linearly independent, each satisfies every parity check, every word satisfying all checks is a combination of them, and there are len(code) - rank of them, where rank is the number of rows of the canonicalized matrix.", "quantifier": "all parity check matrices over all finite fields", "why_tests_cant": "the input space is infinite (all sizes, all field orders, all entries); a test fixes finitely many matrices", "anchors": ["qldpc/codes/common.py:ClassicalCode.generator", "qldpc/codes/common.py:ClassicalCode.dimension", "qldpc/codes/common.py:ClassicalCode.rank"]}
{"id": "C03", "title": "Enumeration of code words is complete and duplicate free", "statement": "iter_words yields every code word exactly once (q**dimension of them); with skip_zero=True it yields exactly the nonzero ones.", "quantifier": "all codes over all finite fields", "why_tests_cant": "number of words is exponential and unbounded", "anchors": ["qldpc/codes/common.py:ClassicalCode.iter_words"]}
{"id": "C04", "title": "Dual code", "statement": "A word is in ~C iff it is orthogonal to every word of C; ~~C has the same words as C; dim C + dim ~C = len(C); from_generator(G) contains exactly the combinations of rows of G.", "quantifier": "all codes over all finite fields", "why_tests_cant": "the input space is infinite (all sizes, all field orders, all entries); a test fixes finitely many matrices", "anchors": ["qldpc/codes/common.py:ClassicalCode.dual", "qldpc/codes/common.py:ClassicalCode.from_generator"]}
{"id": "C05", "title": "set_generator accepts exactly the generating sets", "statement": "set_generator(G) succeeds iff the rows of G span exactly the code space; otherwise it raises and the stored generator is unchanged.", "quantifier": "all codes and all candidate generator matrices", "why_tests_cant": "the input space is infinite (all sizes, all field orders, all entries); a test fixes finitely many matrices", "anchors": ["qldpc/codes/common.py:ClassicalCode.set_generator"]}
{"id": "C06", "title": "Tensor product of classical codes", "statement": "A word of tensor_product(A, B), reshaped to len(A) x len(B), is in the product code iff all its columns are words of A and all its rows are words of B; dimensions multiply.", "quantifier": "all pairs of codes over the same field", "why_tests_cant": "the input space is infinite (all sizes, all field orders, all entries); a test fixes finitely many matrices", "anchors": ["qldpc/codes/common.py:ClassicalCode.tensor_product"]}
{"id": "C07", "title": "Puncturing", "statement": "The words of code.puncture(bits) are exactly the words of the code with the given positions deleted.", "quantifier": "all codes, all sets of positions", "why_tests_cant": "the input space is infinite (all sizes, all field orders, all entries); a test fixes finitely many matrices", "anchors": ["qldpc/codes/common.py:ClassicalCode.puncture"]}
{"id": "C08", "title": "Shortening", "statement": "The words of code.shorten(bits) are exactly the words of the code that vanish on the given positions, with these positions deleted.", "quantifier": "all codes, all lists of positions", "why_tests_cant": "the failing inputs (a position on which every word vanishes) are not in the test sample", "anchors": ["qldpc/codes/common.py:ClassicalCode.shorten"]}
{"id": "C09", "title": "Stacking classical codes", "statement": "A word of stack(c1, ..., cm) is a code word iff its consecutive blocks are words of c1, ..., cm; dimensions add up; the minimum distance is the minimum of the distances.", "quantifier": "all finite lists of codes", "why_tests_cant": "unbounded number of codes and sizes", "anchors": ["qldpc/codes/common.py:ClassicalCode.stack"]}
{"id": "C10", "title": "Exact classical distance", "statement": "get_distance_exact (bound=None, field order 2 or not) returns the least Hamming weight of a nonzero code word whenever the code has one; with a vector it returns the least Hamming distance from that vector to a code word.", "quantifier": "all codes of positive dimension over all fields, all vectors", "why_tests_cant": "exponentially many words for unbounded lengths", "anchors": ["qldpc/codes/common.py:ClassicalCode.get_distance_exact", "qldpc/codes/distance.py:get_distance_classical"]}
{"id": "C11", "title": "Randomized classical distance bound is an upper bound", "statement": "Whatever words the random generator draws and whatever the decoder returns, if get_distance_bound returns for a code of positive dimension, the result is at least the minimum distance and at most the block length. A positive cutoff ends the search after the first trial with which the smallest weight found so far is at most the cutoff, and otherwise changes nothing.", "quantifier": "all codes, all random streams, all decoder behaviours, all cutoffs and trial counts", "why_tests_cant": "quantifies over random streams and decoders", "anchors": ["qldpc/codes/common.py:ClassicalCode.get_distance_bound", "qldpc/codes/common.py:ClassicalCode.get_one_distance_bound"]}
{"id": "C12", "title": "Bit-trick weight kernels", "statement": "The 64-bit popcount kernel returns the number of one bits, and the symplectic kernel the number of nonzero adjacent bit pairs, of every 64-bit word.", "quantifier": "all 2**64 words", "why_tests_cant": "2**64 inputs", "anchors": ["qldpc/codes/distance.py:_hamming_weight", "qldpc/codes/distance.py:_symplectic_weight"]}
{"id": "C13", "title": "Bit packing", "statement": "Packing rows of bits into 64-bit integers loses nothing: XOR of packed rows is the packing of the XOR, and the summed popcount of the packed words is the Hamming weight; riffling X and Z halves puts the X and Z bit of each qubit in one pair, so the packed symplectic weight is the number of qubits acted on.", "quantifier": "all row lengths (any multiple or non-multiple of 64) and all contents", "why_tests_cant": "unbounded lengths", "anchors": ["qldpc/codes/distance.py:_rows_to_ints", "qldpc/codes/distance.py:_riffle"]}
{"id": "C14", "title": "Gray-code enumeration visits every combination", "statement": "Flipping the generator indexed by the number of trailing zeros of a counter running from 1 to 2**k - 1 visits every combination of k generators exactly once (all nonzero ones after the start).", "quantifier": "all k, all generator lists", "why_tests_cant": "exponential, unbounded k", "anchors": ["qldpc/codes/distance.py:get_distance_classical", "qldpc/codes/distance.py:_count_trailing_zeros"]}
{"id": "C15", "title": "Binary quantum distance kernel", "statement": "get_distance_quantum(logicals, stabilizers) returns the least weight (Hamming, or symplectic when homogeneous is False) over all products of a nonidentity combination of logicals and any combination of stabilizers, capped by the number of bits it starts from.", "quantifier": "all binary logical/stabilizer matrices and block sizes", "why_tests_cant": "exponential and unbounded", "anchors": ["qldpc/codes/distance.py:get_distance_quantum", "qldpc/codes/distance.py:_inplace_rowsum"]}
{"id": "C16", "title": "Symplectic conjugation and commutation", "statement": "symplectic_conjugate turns the dot product into the symplectic form: the product matrix a @ symplectic_conjugate(b).T is bilinear, antisymmetric, zero on the diagonal; conjugating twice negates; two Pauli strings commute iff this form vanishes, and the relation is symmetric.", "quantifier": "all lengths and all field orders", "why_tests_cant": "the input space is infinite (all sizes, all field orders, all entries); a test fixes finitely many matrices", "anchors": ["qldpc/math.py:symplectic_conjugate"]}
{"id": "C17", "title": "Subsystem detection", "statement": "QuditCode(matrix) reports is_subsystem_code=False iff all pairs of its parity checks commute (when the user does not override it); a CSS code is a stabilizer code iff matrix_x @ matrix_z.T = 0.", "quantifier": "all matrices of even width over all fields", "why_tests_cant": "the input space is infinite (all sizes, all field orders, all entries); a test fixes finitely many matrices", "anchors": ["qldpc/codes/common.py:QuditCode.__init__", "qldpc/codes/common.py:CSSCode.__init__"]}
{"id": "C18", "title": "Pauli strings round trip", "statement": "QuditCode.from_strings(code.get_strings()) reproduces the parity check matrix; from_strings accepts exactly well-formed equal-length strings.", "quantifier": "all qubit and qudit codes of any size", "why_tests_cant": "unbounded sizes and field orders", "anchors": ["qldpc/codes/common.py:QuditCode.get_strings", "qldpc/codes/common.py:QuditCode.from_strings"]}
{"id": "C19", "title": "Qudit operator text round trip", "statement": "QuditOperator.from_string(str(op)) == op for every operator with nonnegative exponents; from_string rejects text which is not such a product.", "quantifier": "all exponents, all strings", "why_tests_cant": "infinitely many exponents and strings", "anchors": ["qldpc/objects.py:QuditOperator.from_string", "qldpc/objects.py:QuditOperator.__str__"]}
{"id": "C20", "title": "Canonical logical operators of a stabilizer code", "statement": "For every stabilizer code get_logical_ops returns k = n - rank pairs of operators that commute with all parity checks, with X_i and Z_j having symplectic product delta_ij, and all X_i (and all Z_i) mutually commuting; no nontrivial combination is a product of parity checks.", "quantifier": "all commuting sets of checks over any prime-power field", "why_tests_cant": "the input space is infinite (all sizes, all field orders, all entries); a test fixes finitely many matrices", "anchors": ["qldpc/codes/common.py:QuditCode.get_logical_ops", "qldpc/codes/common.py:QuditCode.get_standard_form_data"]}
{"id": "C21", "title": "Validation of user-supplied logical operators", "statement": "If set_logical_ops(ops) with validation succeeds then ops is a set of canonical logical operators: commuting with all checks, X_i and Z_j paired by delta_ij, X_i mutually commuting, Z_i mutually commuting, right number.", "quantifier": "all codes and all candidate operators", "why_tests_cant": "the input space is infinite (all sizes, all field orders, all entries); a test fixes finitely many matrices", "anchors": ["qldpc/codes/common.py:QuditCode.set_logical_ops"]}
{"id": "C22", "title": "CSS logical operators", "statement": "For every CSS stabilizer code get_logical_ops gives X operators satisfying all Z checks, Z operators satisfying all X checks, with pairing matrix equal to the identity, n - rank_x - rank_z of them.", "quantifier": "all pairs of matrices with H_x H_z^T = 0 over any field", "why_tests_cant": "the input space is infinite (all sizes, all field orders, all entries); a test fixes finitely many matrices", "anchors": ["qldpc/codes/common.py:CSSCode.get_logical_ops", "qldpc/codes/common.py:CSSCode.get_standard_form_data_xz"]}
{"id": "C23", "title": "Stabilizer operators of a subsystem code", "statement": "get_stabilizer_ops returns operators in the span of the gauge generators that commute with every gauge generator, and spans all of these.", "quantifier": "all parity check (gauge generator) matrices", "why_tests_cant": "the input space is infinite (all sizes, all field orders, all entries); a test fixes finitely many matrices", "anchors": ["qldpc/codes/common.py:QuditCode.get_stabilizer_ops"]}
{"id": "C24", "title": "Conjugating (Hadamard-transforming) qudits preserves the code relations", "statement": "Conjugating any subset of the qudits of a code preserves which pairs of parity checks and logical operators commute and keeps the pairing of logical operators.", "quantifier": "all codes over all fields, all subsets of qudits", "why_tests_cant": "tests sample qubit codes and a few subsets", "anchors": ["qldpc/codes/common.py:QuditCode.conjugated"]}
{"id": "C25", "title": "Stacking quantum codes", "statement": "Stacking quantum codes gives a code whose checks, restricted to each block, are those of the block; commutation is preserved; the number of qudits and logical qudits add up.", "quantifier": "all finite lists of codes", "why_tests_cant": "unbounded", "anchors": ["qldpc/codes/common.py:QuditCode.stack", "qldpc/codes/common.py:CSSCode.stack"]}
{"id": "C26", "title": "Concatenation", "statement": "The concatenation of an inner and an outer stabilizer code is a stabilizer code whose number of qudits is the product of block counts, encodes the outer logical qudits, and its logical operators inherit the outer pairing; if the physical qudits of each outer block are logical qudits of different inner blocks (as with the default wiring), its distance is at least the product of the distances; the input code objects are observably unchanged.", "quantifier": "all inner and outer codes, all wiring permutations", "why_tests_cant": "state and unbounded sizes", "anchors": ["qldpc/codes/common.py:QuditCode.concatenate", "qldpc/codes/common.py:QuditCode._standardize_concatenation_inputs"]}
{"id": "C27", "title": "CSS distances", "statement": "The distance reported for a CSS code is the minimum of X- and Z-distance; the X-distance is the least weight of an operator that satisfies all Z checks (commutes with the stabilizers) and is not a product of stabilizers; bounds returned by the randomized algorithms are upper bounds on it.", "quantifier": "all CSS codes, decoders and random streams", "why_tests_cant": "the input space is infinite (all sizes, all field orders, all entries); a test fixes finitely many matrices", "anchors": ["qldpc/codes/common.py:CSSCode.get_distance_exact", "qldpc/codes/common.py:CSSCode.get_one_distance_bound", "qldpc/codes/common.py:CSSCode.get_distance_bound"]}
{"id": "C28", "title": "Logical operator reduction preserves the operator class", "statement": "reduce_logical_op never changes the logical class of an operator and never increases its weight; afterwards the set of logical operators still satisfies the canonical relations.", "quantifier": "all codes, operators, decoders", "why_tests_cant": "quantifies over decoders", "anchors": ["qldpc/codes/common.py:CSSCode.reduce_logical_op", "qldpc/codes/common.py:CSSCode.reduce_logical_ops"]}
{"id": "C29", "title": "Tanner graph round trip", "statement": "graph_to_matrix(matrix_to_graph(H)) == H for every parity check matrix without zero rows or columns, for classical, qudit and CSS codes.", "quantifier": "all matrices", "why_tests_cant": "the input space is infinite (all sizes, all field orders, all entries); a test fixes finitely many matrices", "anchors": ["qldpc/codes/common.py:ClassicalCode.matrix_to_graph", "qldpc/codes/common.py:ClassicalCode.graph_to_matrix", "qldpc/codes/common.py:QuditCode.matrix_to_graph", "qldpc/codes/common.py:QuditCode.graph_to_matrix"]}
{"id": "C30", "title": "Repetition and ring codes", "statement": "RepetitionCode(n) and RingCode(n) contain exactly the constant words, so their dimension is 1 and distance n as advertised.", "quantifier": "all n >= 1 and all fields", "why_tests_cant": "all n", "anchors": ["qldpc/codes/classical.py:RepetitionCode", "qldpc/codes/classical.py:RingCode"]}
{"id": "C31", "title": "Hamming codes", "statement": "HammingCode(r, q) has no nonzero word of weight below 3 and, for r >= 2, has one of weight 3; its columns are pairwise independent and cover every syndrome direction; dimension is n - r.", "quantifier": "all ranks and fields", "why_tests_cant": "all r, q", "anchors": ["qldpc/codes/classical.py:HammingCode"]}
{"id": "C32", "title": "Reed-Muller codes", "statement": "ReedMullerCode(r, m) has dimension sum_{i<=r} C(m, i), minimum distance 2**(m-r) and its binary dual is ReedMullerCode(m-r-1, m).", "quantifier": "all 0 <= r <= m", "why_tests_cant": "all r, m", "anchors": ["qldpc/codes/classical.py:ReedMullerCode"]}
{"id": "C33", "title": "Extended Hamming code", "statement": "Every word of ExtendedHammingCode(r) has even weight, the advertised distance 4 is attained and is the minimum for r >= 2, and dimension is 2**r - r - 1; for r >= 3 it is the code ReedMullerCode(r-2, r).", "quantifier": "all r", "why_tests_cant": "all r", "anchors": ["qldpc/codes/classical.py:ExtendedHammingCode"]}
{"id": "C34", "title": "Classical Tanner codes", "statement": "A word is in TannerCode(G, C) iff for every source vertex the bits on its neighbours, read in the sorted order, form a word of C.", "quantifier": "all half-regular graphs and subcodes", "why_tests_cant": "all graphs", "anchors": ["qldpc/codes/classical.py:TannerCode"]}
{"id": "C35", "title": "Group lifts are representations", "statement": "The regular lift and the permutation-matrix lift satisfy lift(g*h) = lift(g) @ lift(h), lift(identity) = identity, lift(~g) = lift(g).T.", "quantifier": "all finite permutation groups and members", "why_tests_cant": "infinitely many groups", "anchors": ["qldpc/abstract.py:GroupMember.to_matrix", "qldpc/abstract.py:Group.regular_lift"]}
{"id": "C36", "title": "Lifting the group algebra", "statement": "Lifting respects sums, products, scalar multiples and transposition: lift(a*b) = lift(a) @ lift(b), lift(a.T) = lift(a).T, and RingArray.lift is multiplicative on matrix products.", "quantifier": "all groups, fields, ring members and arrays", "why_tests_cant": "the input space is infinite (all sizes, all field orders, all entries); a test fixes finitely many matrices", "anchors": ["qldpc/abstract.py:RingMember.lift", "qldpc/abstract.py:RingArray.lift", "qldpc/abstract.py:RingMember.T"]}
{"id": "C37", "title": "Group algebra laws", "statement": "Ring members obey the ring laws (associativity, distributivity, unit), equality is extensional (ignores zero terms and term order), powers are iterated products, and from_vector / to_vector are mutually inverse.", "quantifier": "all groups and fields", "why_tests_cant": "the input space is infinite (all sizes, all field orders, all entries); a test fixes finitely many matrices", "anchors": ["qldpc/abstract.py:RingMember.__mul__", "qldpc/abstract.py:RingMember.__pow__", "qldpc/abstract.py:RingMember.from_vector"]}
{"id": "C38", "title": "Inverse in the group algebra", "statement": "x.inverse() returns y with x*y = y*x = 1 whenever x is invertible and None otherwise.", "quantifier": "all ring members", "why_tests_cant": "the input space is infinite (all sizes, all field orders, all entries); a test fixes finitely many matrices", "anchors": ["qldpc/abstract.py:RingMember.inverse"]}
{"id": "C39", "title": "Equal groups hash equally", "statement": "Two groups that compare equal have equal hashes.", "quantifier": "all groups and lifts", "why_tests_cant": "all pairs of groups", "anchors": ["qldpc/abstract.py:Group.__eq__", "qldpc/abstract.py:Group.__hash__"]}
{"id": "C40", "title": "Group from a multiplication table or generating matrices", "statement": "Group.from_table(t) and from_generating_mats(mats) produce a group isomorphic to the one given, and its lift is a representation: lift(g*h) = lift(g) @ lift(h).", "quantifier": "all tables and matrix groups", "why_tests_cant": "non-abelian instances are not covered by the commutative samples", "anchors": ["qldpc/abstract.py:Group.from_table", "qldpc/abstract.py:Group.from_generating_mats"]}
{"id": "C41", "title": "Random symmetric subsets", "statement": "random_symmetric_subset(size) returns, for any random stream, a set of exactly the requested size that contains the inverse of each of its members and not the identity, if it returns.", "quantifier": "all groups, sizes, random streams", "why_tests_cant": "random streams", "anchors": ["qldpc/abstract.py:Group.random_symmetric_subset"]}
{"id": "C42", "title": "Cyclic and abelian groups", "statement": "AbelianGroup(n1, ..., nm) multiplies by adding exponents modulo the orders, generate() lists every element exactly once starting with the identity, and the lift of an element is the Kronecker product of the cyclic shift matrices.", "quantifier": "all lists of orders", "why_tests_cant": "all orders", "anchors": ["qldpc/abstract.py:AbelianGroup", "qldpc/abstract.py:CyclicGroup"]}
{"id": "C43", "title": "Row reduction of ring arrays", "statement": "RingArray.row_reduce preserves the left row module, and after it every row either has an invertible pivot (alone in its column) or contains no invertible entry.", "quantifier": "all matrices over all group algebras", "why_tests_cant": "the input space is infinite (all sizes, all field orders, all entries); a test fixes finitely many matrices", "anchors": ["qldpc/abstract.py:RingArray.row_reduce", "qldpc/abstract.py:RingArray._reduce_rows_with_invertible_entries"]}
{"id": "C44", "title": "Null space of ring arrays", "statement": "RingArray.null_space returns rows annihilated by the array: self @ null_space.T = 0.", "quantifier": "all matrices over all group algebras", "why_tests_cant": "the input space is infinite (all sizes, all field orders, all entries); a test fixes finitely many matrices", "anchors": ["qldpc/abstract.py:RingArray.null_space"]}
{"id": "C45", "title": "Two-block codes", "statement": "TBCode(A, B) is accepted iff A and B commute, and then its X and Z parity checks commute.", "quantifier": "all square matrices over all fields", "why_tests_cant": "the input space is infinite (all sizes, all field orders, all entries); a test fixes finitely many matrices", "anchors": ["qldpc/codes/quantum.py:TBCode"]}
{"id": "C46", "title": "Hypergraph product codes are valid with the canonical logical operators", "statement": "HGPCode(A, B): X and Z checks commute; the advertised logical operators satisfy the checks of the opposite type, are paired by the identity matrix, and their number is k_A k_B + k_A^T k_B^T = n - rank_x - rank_z.", "quantifier": "all pairs of parity check matrices over any field", "why_tests_cant": "the input space is infinite (all sizes, all field orders, all entries); a test fixes finitely many matrices", "anchors": ["qldpc/codes/quantum.py:HGPCode.get_matrix_product", "qldpc/codes/quantum.py:HGPCode.get_canonical_logical_ops"]}
{"id": "C47", "title": "Graph and matrix hypergraph product agree", "statement": "The Tanner graph product of two Tanner graphs, with its node relabelling, is the Tanner graph of the matrix hypergraph product.", "quantifier": "all pairs of matrices without zero rows/columns", "why_tests_cant": "the input space is infinite (all sizes, all field orders, all entries); a test fixes finitely many matrices", "anchors": ["qldpc/codes/quantum.py:HGPCode.get_graph_product", "qldpc/codes/quantum.py:HGPCode.get_product_node_map"]}
{"id": "C48", "title": "Subsystem hypergraph product codes", "statement": "SHPCode(A, B): the stored stabilizers lie in the gauge group, commute with it and generate its centre; canonical logical operators commute with all gauge generators and are paired by the identity; there are k_A k_B of them.", "quantifier": "all pairs of codes over any field", "why_tests_cant": "the input space is infinite (all sizes, all field orders, all entries); a test fixes finitely many matrices", "anchors": ["qldpc/codes/quantum.py:SHPCode"]}
{"id": "C49", "title": "Lifted product codes are valid", "statement": "LPCode(A, B) yields commuting X and Z checks.", "quantifier": "all pairs of ring arrays over a common group algebra", "why_tests_cant": "the input space is infinite (all sizes, all field orders, all entries); a test fixes finitely many matrices", "anchors": ["qldpc/codes/quantum.py:LPCode"]}
{"id": "C50", "title": "Tensor product of chain complexes", "statement": "The tensor product of two chain complexes is a chain complex (consecutive boundary operators compose to zero) with modules of dimension sum over i+j=k of dim A_i * dim B_j; in degree-1 complexes it reproduces the hypergraph product.", "quantifier": "all chain complexes of any length over any field", "why_tests_cant": "unbounded lengths", "anchors": ["qldpc/objects.py:ChainComplex.tensor_product"]}
{"id": "C51", "title": "Quasi-cyclic codes: construction terminates and is valid", "statement": "QCCode(orders, a, b) terminates for every list of at least as many orders as symbols, and its checks commute.", "quantifier": "all orders and polynomials", "why_tests_cant": "non-termination cannot be observed by a finite run; infinitely many polynomials", "anchors": ["qldpc/codes/quantum.py:QCCode.__init__"]}
{"id": "C52", "title": "Bivariate bicycle layout", "statement": "Node labels are a bijection between qubits and (sector, a, b); qubit positions are injective into the 2R_x x 2R_y grid, also in the folded layout; an X check addresses exactly the L qubits shifted by the exponents of A and R qubits by those of B, a Z check the opposite shifts; in the folded layout cyclically adjacent columns are at distance at most 2.", "quantifier": "all orders and polynomials", "why_tests_cant": "all orders", "anchors": ["qldpc/codes/quantum.py:BBCode.get_node_label", "qldpc/codes/quantum.py:BBCode.get_qubit_pos"]}
{"id": "C53", "title": "Toric layout arithmetic", "statement": "get_order(v) is the least positive multiple bringing v to the origin of the torus; is_valid_basis(g, h) iff every plaquette is uniquely a g + b h with a < ord g, b < ord h; modular_inverse returns a solution iff one exists; get_canonical_form represents the same ring element.", "quantifier": "all torus sizes, vectors and polynomials", "why_tests_cant": "all sizes", "anchors": ["qldpc/codes/quantum.py:BBCode.get_order", "qldpc/codes/quantum.py:BBCode.is_valid_basis", "qldpc/codes/quantum.py:BBCode.modular_inverse", "qldpc/codes/quantum.py:QCCode.get_canonical_form"]}
{"id": "C54", "title": "Surface and toric codes", "statement": "The rotated surface code and rotated toric code checks of opposite type commute for all sizes and fields; straight rows/columns are logical operators of the advertised weight; the recorded dimension (1 and 2) and the recorded X and Z distances are exact.", "quantifier": "all rows, cols, field orders", "why_tests_cant": "all sizes", "anchors": ["qldpc/codes/quantum.py:SurfaceCode", "qldpc/codes/quantum.py:ToricCode"]}
{"id": "C55", "title": "Quantum Tanner codes are valid", "statement": "For every pair of symmetric generating subsets (satisfying total no-conjugacy in the bipartite case) and every pair of classical codes of matching length, the X and Z checks of QTCode commute.", "quantifier": "all finite groups, subsets, codes", "why_tests_cant": "all groups", "anchors": ["qldpc/codes/quantum.py:QTCode.get_subgraphs", "qldpc/objects.py:CayleyComplex"]}
{"id": "C56", "title": "Quantum Tanner code persistence and equality", "statement": "QTCode.load(save(code)) has the same generating data; two QTCodes compare equal iff their generating data are equal.", "quantifier": "all codes", "why_tests_cant": "all codes", "anchors": ["qldpc/codes/quantum.py:QTCode.save", "qldpc/codes/quantum.py:QTCode.load", "qldpc/codes/quantum.py:QTCode.__eq__"]}
{"id": "C57", "title": "Lookup decoder", "statement": "LookupDecoder.decode(s) returns an error with syndrome s of least weight among errors of weight at most max_weight whenever such an error exists; if 2*max_weight is below the distance, every error of weight at most max_weight is returned exactly.", "quantifier": "all matrices, fields, weights, syndromes", "why_tests_cant": "exponential tables, unbounded sizes", "anchors": ["qldpc/decoders.py:LookupDecoder"]}
{"id": "C58", "title": "Generalized union-find decoder", "statement": "GUFDecoder.decode(s) terminates, and returns an error with syndrome s whenever one exists (zero otherwise); with max_weight, the result has weight at most max_weight if any error supported in the final region does.", "quantifier": "all matrices (no zero rows), fields, syndromes", "why_tests_cant": "all graphs", "anchors": ["qldpc/decoders.py:GUFDecoder.decode"]}
{"id": "C59", "title": "Integer program decoder encodes the decoding problem", "statement": "The constraints built for a syndrome are satisfied by exactly those variable assignments (extended by slack variables) with matrix @ x = syndrome mod q.", "quantifier": "all prime moduli, matrices, syndromes", "why_tests_cant": "all sizes; failing instances need q > 2 and large sums", "anchors": ["qldpc/decoders.py:ILPDecoder.cvxpy_constraints_for_syndrome"]}
{"id": "C60", "title": "Block and direct decoders", "statement": "BlockDecoder applies the base decoder to each consecutive block; if the base decoder solves each block then the result solves the block-diagonal problem. DirectDecoder returns a code word whenever the indirect decoder returns a solution.", "quantifier": "all decoders, block counts, words", "why_tests_cant": "quantifies over decoders", "anchors": ["qldpc/decoders.py:BlockDecoder", "qldpc/decoders.py:DirectDecoder.from_indirect"]}
{"id": "C61", "title": "Encoding tableau is symplectic", "statement": "get_encoding_tableau produces operator lists obeying all canonical relations: destabilizers are dual to stabilizers, commute with logical and gauge operators and with each other, so the rows form a symplectic basis.", "quantifier": "all qubit stabilizer and subsystem codes", "why_tests_cant": "the input space is infinite (all sizes, all field orders, all entries); a test fixes finitely many matrices", "anchors": ["qldpc/circuits.py:get_encoding_tableau"]}
{"id": "C62", "title": "SWAP circuits implement the permutation", "statement": "The sequence of SWAPs emitted for an automorphism moves the content of each qubit q to automorphism(q) mod n.", "quantifier": "all permutations of all sizes", "why_tests_cant": "n! permutations, all n", "anchors": ["qldpc/circuits.py:_get_swap_circuit"]}
{"id": "C63", "title": "Transversal automorphisms preserve the code", "statement": "Every permutation of the instrumental code's columns that preserves it and is generated by sector permutations and qudit swaps induces, through the emitted local gates and SWAPs, a Clifford mapping the set of Paulis commuting with all checks to itself.", "quantifier": "all qubit codes, all automorphisms", "why_tests_cant": "all codes", "anchors": ["qldpc/circuits.py:get_transversal_automorphism_group", "qldpc/circuits.py:_get_pauli_permutation_circuit"]}
{"id": "C64", "title": "Disk cache transparency", "statement": "A cached pure function returns the same values as the uncached one, for any sequence of calls and any cache contents produced by earlier calls.", "quantifier": "all call histories", "why_tests_cant": "histories are unbounded", "anchors": ["qldpc/cache.py:use_disk_cache"]}
{"id": "C65", "title": "Node order", "statement": "Node comparison is a strict total order placing all data nodes before all check nodes, consistent with equality and hashing.", "quantifier": "all nodes", "why_tests_cant": "infinitely many nodes", "anchors": ["qldpc/objects.py:Node"]}
{"id": "C66", "title": "Sample allocation", "statement": "_get_sample_allocation distributes exactly num_samples samples among nonzero weights, none negative.", "quantifier": "all sample budgets, lengths, error rates", "why_tests_cant": "all inputs, floating point", "anchors": ["qldpc/codes/common.py:_get_sample_allocation"]}
{"id": "C67", "title": "Joining index sets", "statement": "_join_slices lists the integers of its slices/lists in order.", "quantifier": "all slices", "why_tests_cant": "all slices", "anchors": ["qldpc/codes/common.py:_join_slices"]}
{"id": "C68", "title": "Tabulated automorphism groups", "statement": "Every generator stored in the table of known groups is an automorphism of the code named by its key.", "quantifier": "every entry of the table, every code word", "why_tests_cant": "quantifies over code words of each code", "anchors": ["qldpc/external/groups.py:KNOWN_GROUPS"]}
{"id": "C69", "title": "GAP permutation text", "statement": "Parsing the text GAP prints for a permutation (1-based cycles) gives that permutation with indices shifted by one.", "quantifier": "all cycle lists", "why_tests_cant": "all permutations", "anchors": ["qldpc/external/groups.py:get_generators_with_gap", "qldpc/abstract.py:GroupMember.to_gap_cycles"]}
{"id": "C70", "title": "Logical operators of a general subsystem code", "statement": "For every subsystem QuditCode, get_logical_ops returns operators that commute with every gauge generator, pair as conjugate Paulis, and commute within each sector.", "quantifier": "all parity check matrices of subsystem codes over all fields", "why_tests_cant": "the matrix space is infinite; small CSS examples do not reach the failing sectors", "anchors": ["qldpc/codes/common.py:QuditCode.get_logical_ops", "qldpc/codes/common.py:QuditCode.get_standard_form_data"]}
{"id": "C71", "title": "Logical operators of a CSS subsystem code", "statement": "For every CSSCode that is a subsystem code, get_logical_ops returns n minus the rank of the Z checks minus the number of independent X stabilizers conjugate pairs; the X operators commute with all Z gauge generators and the Z operators with all X gauge generators; the matrix inverse it computes always exists.", "quantifier": "all pairs of check matrices over all fields", "why_tests_cant": "all pairs of matrices", "anchors": ["qldpc/codes/common.py:CSSCode.get_logical_ops", "qldpc/codes/common.py:CSSCode.get_standard_form_data_xz"]}
{"id": "C72", "title": "Exact distance of a general stabilizer code", "statement": "QuditCode.get_distance_exact of a stabilizer code that encodes at least one qudit is the least weight of a Pauli string that commutes with all checks and is not a product of checks.", "quantifier": "all stabilizer matrices over all fields", "why_tests_cant": "minimum over an exponential set, all codes", "anchors": ["qldpc/codes/common.py:QuditCode.get_distance_exact"]}
{"id": "C73", "title": "Gauge operators of a CSS subsystem code", "statement": "get_gauge_ops of a CSSCode that is a subsystem code returns conjugate pairs that commute with all stabilizers and all logical operators, and that together with the stabilizers generate exactly the X-type (Z-type) gauge group.", "quantifier": "all pairs of check matrices over all fields, all valid sets of known logical operators", "why_tests_cant": "all pairs of matrices", "anchors": ["qldpc/codes/common.py:QuditCode.get_gauge_ops", "qldpc/codes/common.py:CSSCode.get_gauge_ops", "qldpc/codes/common.py:CSSCode.get_dual_subsystem_code"]}
{"id": "C74", "title": "Random logical operators of a CSS code", "statement": "get_random_logical_op(pauli) returns an operator that commutes with all checks; every such operator can occur; with ensure_nontrivial=True it is never a product of checks.", "quantifier": "all CSS codes, all random draws", "why_tests_cant": "all codes and all outcomes of the random number generator", "anchors": ["qldpc/codes/common.py:CSSCode.get_random_logical_op"]}
{"id": "C75", "title": "Simplex codes", "statement": "SimplexCode(k) has 2**k - 1 bits and dimension k, and every nonzero word has weight exactly 2**(k-1), for each of the polynomials tabulated.", "quantifier": "all k for which the constructor succeeds, all words", "why_tests_cant": "quantifies over all words, and depends on each tabulated polynomial being primitive", "anchors": ["qldpc/codes/classical.py:SimplexCode"]}
{"id": "C76", "title": "Logical error rate function", "statement": "The function returned by ClassicalCode.get_logical_error_rate_func raises above max_error_rate; otherwise it returns sum_k P(weight k) (1 - F_k) over the sampled weights plus the probability of a weight above them, where F_k is the fraction of the samples of weight k that were decoded correctly and F_0 = 1. This is a probability, an upper bound on the true rate if the F_k are exact, too large by at most the probability of unsampled weights, and 0 at error rate 0. No division by zero occurs.", "quantifier": "all lengths, error rates and outcomes of the samples", "why_tests_cant": "all outcomes of random sampling", "anchors": ["qldpc/codes/common.py:ClassicalCode.get_logical_error_rate_func", "qldpc/codes/common.py:ClassicalCode._estimate_decoding_fidelity_and_variance", "qldpc/codes/common.py:_get_error_probs_by_weight"]}
{"id": "C77", "title": "Distances of hypergraph products", "statement": "The X-distance of HGPCode(A, B) is the least weight of a nonzero word of B (if A has a nonzero word) or of the transpose of A (if the transpose of B has one); likewise for Z with A and B exchanged. The distances of SHPCode(A, B) are those of B and A: it is an [n1 n2, k1 k2, min(d1, d2)] code.", "quantifier": "all pairs of parity check matrices over all fields", "why_tests_cant": "distance is a minimum over exponentially many operators, for infinitely many codes", "anchors": ["qldpc/codes/quantum.py:HGPCode", "qldpc/codes/quantum.py:SHPCode"]}
{"id": "C78", "title": "Unrotated surface and toric codes, Bacon-Shor codes, SHYPS codes", "statement": "SurfaceCode(rows, cols, rotated=False), ToricCode(rows, cols, rotated=False), BaconShorCode(rows, cols) and SHYPSCode(dim_x, dim_z) have the number of qudits, the dimension and the X and Z distances that their constructors record.", "quantifier": "all side lengths, all fields", "why_tests_cant": "recorded values are returned without any check, for infinitely many sizes", "anchors": ["qldpc/codes/quantum.py:SurfaceCode", "qldpc/codes/quantum.py:ToricCode", "qldpc/codes/quantum.py:BaconShorCode", "qldpc/codes/quantum.py:SHYPSCode"]}
{"id": "C79", "title": "Named codes", "statement": "FiveQubitCode() is a [5, 1, 3] stabilizer code; SteaneCode() is [7, 1, 3], C4Code() [4, 2, 2], C6Code() [6, 2, 2] and IcebergCode(m) [2m, 2m-2, 2]: recorded dimensions, X and Z distances and logical operators are right, and construction does not raise. IcebergCode(1) reports no distance.", "quantifier": "all sizes m >= 1, with and without alternative logical operators; every word of each code", "why_tests_cant": "the size is unbounded, and distances are minima over all operators", "anchors": ["qldpc/codes/quantum.py:FiveQubitCode", "qldpc/codes/quantum.py:SteaneCode", "qldpc/codes/quantum.py:IcebergCode", "qldpc/codes/quantum.py:C4Code", "qldpc/codes/quantum.py:C6Code"]}
{"id": "C80", "title": "Stacked and concatenated CSS codes", "statement": "CSSCode.stack puts the X and Z checks and logical operators of the codes on disjoint qudits; sizes and dimensions add, X and Z distances are minima, and the inherited promise of equal distances is true. CSSCode.concatenate replaces outer qudits by inner logical qudits along the wiring: checks, a complete set of logical operators and the dimension are as documented, and if each outer block is spread over different inner blocks, as with the default wiring, X and Z distances are at least the products.", "quantifier": "all lists of CSS codes (stabilizer or subsystem, any field), all inner and outer codes, all wirings that are permutations of matching length", "why_tests_cant": "codes, wirings and numbers of copies are unbounded; distances are minima over all operators", "anchors": ["qldpc/codes/common.py:CSSCode.stack", "qldpc/codes/common.py:CSSCode.concatenate", "qldpc/codes/common.py:CSSCode.set_logical_ops_xz"]}
{"id": "C81", "title": "Logical tableaus and Pauli corrections of transversal circuits", "statement": "The circuit computed for an automorphism (a local Clifford and SWAP circuit behind a Pauli correction) maps the stabilizer group of the code to itself with signs (to that of the deformed code if deform_code is set), and maps every logical Pauli operator to the logical operator that the returned tableau says, up to stabilizers and with signs. get_logical_tableau(code, circuit) succeeds precisely for circuits that preserve the code up to signs, and then is the logical action of the circuit. The logical action of a circuit is unique. Signs are those of the row-reduced stabilizers and of the code's logical operators.", "quantifier": "all qubit stabilizer codes and CSS (also subsystem) codes of any length, all gate sets, all automorphisms, all Clifford circuits", "why_tests_cant": "codes, automorphisms and circuits are unbounded; the tests compare a few logical gates of a few codes", "anchors": ["qldpc/circuits.py:get_logical_tableau", "qldpc/circuits.py:_get_logical_tableau_from_code_data", "qldpc/circuits.py:get_encoder_and_decoder", "qldpc/circuits.py:_get_transversal_automorphism_data", "qldpc/circuits.py:_get_pauli_correction", "qldpc/codes/common.py:QuditCode.deformed"]}
{"id": "C82", "title": "Searches for transversal logical gates", "statement": "get_transversal_circuits returns, for each requested logical tableau, either a circuit that implements exactly this tableau on the code, signs included, and that is made of the allowed gates behind Pauli gates; or None, and then no circuit of a searched automorphism behind any Pauli gates implements it. get_transversal_ops(remove_redundancies=True) returns no logical Pauli operators, no two gates that differ by a Pauli operator, and loses no generator except up to Pauli operators; without, it returns the gates of all generators.", "quantifier": "all qubit stabilizer codes and CSS codes, all gate sets, all lists of automorphisms and all target tableaus", "why_tests_cant": "exhaustive search claims (None) quantify over all circuits; codes and targets are unbounded", "anchors": ["qldpc/circuits.py:get_transversal_ops", "qldpc/circuits.py:get_transversal_circuit", "qldpc/circuits.py:get_transversal_circuits", "qldpc/circuits.py:_is_pauli_tableau", "qldpc/circuits.py:_tableaus_equivalent_mod_paulis"]}
{"id": "C83", "title": "Codes and transversal circuits in Hilbert space", "statement": "The joint +1 eigenspace of the stabilizers has dimension 2^code.dimension (2^(dimension + gauge_dimension) for subsystem codes). Any unitary with the tableau get_encoding_tableau(code) encodes the first code.dimension qubits into it, with X_j and Z_j becoming the code's logical operators. The unitary of a transversal circuit maps code states to code states and acts on the encoded qubits as a unitary whose tableau is the reported one, which determines it up to a phase; if a search returns None, no searched circuit does so for the requested gate.", "quantifier": "all qubit stabilizer codes and CSS codes of any length, all circuits of the emitted gates, all states", "why_tests_cant": "states are vectors in spaces of exponential dimension; simulation settles single codes and small sizes only", "anchors": ["qldpc/circuits.py:get_encoding_tableau", "qldpc/circuits.py:get_encoding_circuit", "qldpc/circuits.py:get_transversal_ops", "qldpc/circuits.py:get_transversal_circuits", "qldpc/codes/common.py:QuditCode.dimension"]}
{"id": "C84", "title": "Special linear groups", "statement": "SpecialLinearGroup(d, q) is the group of d x d matrices of determinant 1 over GF(q), with linear_rep=True and False: get_generating_mats generates exactly these matrices, the group has their number of members and is isomorphic to theirs, group.lift maps members to their matrices and is a representation, and iter_mats yields each matrix once. Dimensions 0 and 1 are rejected.", "quantifier": "all dimensions and finite fields (of order at most 256 for the linear representation)", "why_tests_cant": "groups grow exponentially with the dimension; tests compare orders for the smallest groups", "anchors": ["qldpc/abstract.py:SpecialLinearGroup.__init__", "qldpc/abstract.py:SpecialLinearGroup.get_generating_mats", "qldpc/abstract.py:SpecialLinearGroup.iter_mats"]}
{"id": "C85", "title": "Projective special linear groups", "statement": "ProjectiveSpecialLinearGroup(d, q) is the group of d x d matrices of determinant 1 over GF(q) modulo multiples of the identity, with linear_rep=True and False and in whichever order python iterates over sets; its lift is a representation up to multiples of the identity; iter_mats yields one matrix for each member.", "quantifier": "all dimensions, finite fields (of order at most 256 for the linear representation) and iteration orders of sets", "why_tests_cant": "the iteration order of sets of bytes changes between runs; tests look at the orders of the smallest groups", "anchors": ["qldpc/abstract.py:ProjectiveSpecialLinearGroup.__init__", "qldpc/abstract.py:ProjectiveSpecialLinearGroup.get_generating_mats", "qldpc/abstract.py:ProjectiveSpecialLinearGroup.iter_mats"]}
{"id": "C86", "title": "Sampling of errors and logical error rates", "statement": "The functions returned by get_logical_error_rate_func of classical and CSS codes estimate the probability that an error, with independent errors on all bits or qudits at the given rate and bias, is decoded to a logical error: drawing a weight and then an error as the code does is the same as independent noise; the expected value of the returned rate is at least that probability and exceeds it by at most the probability of the weights that are not sampled; a sample counts as a failure exactly if the residual error is a nontrivial logical operator, for stabilizer and subsystem codes; the expected squared uncertainty is the variance up to the factor 1 - 1/N.", "quantifier": "all codes, fields, decoders, sample numbers, error rates and biases", "why_tests_cant": "random estimates are only compared with loose tolerances in tests; their expected values and all decoders cannot be enumerated", "anchors": ["qldpc/codes/common.py:ClassicalCode.get_logical_error_rate_func", "qldpc/codes/common.py:ClassicalCode._estimate_decoding_fidelity_and_variance", "qldpc/codes/common.py:CSSCode.get_logical_error_rate_func", "qldpc/codes/common.py:CSSCode._estimate_decoding_fidelity_and_variance"]}
{"id": "C87", "title": "Primitive central idempotents", "statement": "GroupRing.get_primitive_central_idempotents returns exactly the members of the group algebra that GAP prints, in order: all sums and all terms of the output are found whatever text surrounds them, coefficients Z(p^k)^m denote the same elements of the field, cycles the same permutations; so the returned members are idempotent and orthogonal if those of GAP are; algebras that are not semisimple are refused.", "quantifier": "all outputs of GAP in its format for members of a group algebra, all fields and degrees", "why_tests_cant": "tests read one short output over one field", "anchors": ["qldpc/abstract.py:GroupRing.get_primitive_central_idempotents", "qldpc/external/groups.py:get_primitive_central_idempotents"]}
{"id": "C88", "title": "Surface and toric codes in any dimension", "statement": "GeneralizedSurfaceCode(size, dim, field, periodic=...) builds a code on size^dim + (dim-1)(size-1)^2 size^(dim-2) qudits (open boundaries) or dim * size^dim qudits (periodic) whose X and Z checks commute, with 1 (open) or dim (periodic) logical qudits, and the distances it records, size^(dim-1) for X and size for Z, are the least weights of nontrivial logical operators.  Fewer than two dimensions are refused.", "quantifier": "all sizes, all dimensions of the lattice, all fields, open and periodic boundaries", "why_tests_cant": "the distances are noted as known without source; computing them takes exponential time, and tests look at one small case", "anchors": ["qldpc/codes/quantum.py:GeneralizedSurfaceCode", "qldpc/objects.py:ChainComplex.tensor_product"]}
{"id": "C89", "title": "How product codes are related", "statement": "LPCode of 1x1 arrays is the two-block code of the lift of the first entry and the transposed lift of the second (Z checks negated); LPCode and SLPCode with entries that lift to 1x1 matrices are HGPCode and SHPCode of the lifted arrays, with the same sector sizes; SHPCode depends only on the two classical codes, not on the choice of their parity check matrices: gauge group, stabilizers, logical operators and dimension are the same.", "quantifier": "all rings, lifts, arrays of all shapes, all fields, all choices of parity check matrices", "why_tests_cant": "the docstrings state this for all inputs; tests compare single examples", "anchors": ["qldpc/codes/quantum.py:LPCode", "qldpc/codes/quantum.py:SLPCode", "qldpc/codes/quantum.py:SHPCode", "qldpc/codes/quantum.py:TBCode"]}
{"id": "C90", "title": "Choice of decoders", "statement": "get_decoder(matrix, **args) makes the decoder of the first selector, in the order decoder_constructor, static_decoder, with_lookup, with_GUF, with_ILP, with_MWPM, with_BF, with_BP_LSD, whose value is true, and hands it exactly the arguments that are not selectors up to this one; without a true selector it makes the BP-OSD decoder for binary and the generalized Union-Find decoder for all other fields, and the latter returns an error with the measured syndrome for every reachable syndrome.  Selectors that are present but false should be harmless.", "quantifier": "all dictionaries of arguments, in every order and with values of every type", "why_tests_cant": "tests call each selector once on one matrix; combinations are exponentially many", "anchors": ["qldpc/decoders.py:get_decoder", "qldpc/decoders.py:decode", "qldpc/decoders.py:get_decoder_GUF", "qldpc/decoders.py:get_decoder_lookup", "qldpc/decoders.py:GUFDecoder.__init__", "qldpc/decoders.py:LookupDecoder.__init__"]}
{"id": "C91", "title": "Block lengths of BCH codes", "statement": "BCHCode(length, dimension, field) accepts exactly the block lengths field**m - 1 with m >= 1 (the error message says so), raises ValueError for all others, and otherwise returns the code of galois with the requested dimension; ReedSolomonCode reports the requested dimension, too.", "quantifier": "all integers as lengths, all field orders", "why_tests_cant": "infinitely many lengths and fields; tests use the binary field only", "anchors": ["qldpc/codes/classical.py:BCHCode", "qldpc/codes/classical.py:ReedSolomonCode"]}
{"id": "C92", "title": "Matrices as arrays over the trivial group", "statement": "TrivialGroup.to_ring_array(data).lift() is data again: same shape, same entries; hence LPCode and SLPCode of converted matrices are HGPCode and SHPCode of the matrices.", "quantifier": "all shapes, all matrices, all finite fields", "why_tests_cant": "tests use a matrix of 0s and 1s over the binary field", "anchors": ["qldpc/abstract.py:TrivialGroup.to_ring_array", "qldpc/abstract.py:TrivialGroup._trivial_lift", "qldpc/abstract.py:RingArray.lift"]}
{"id": "C93", "title": "Tests on groups and group rings", "statement": "Group.is_abelian and GroupRing.is_abelian are true exactly if all members commute; GroupRing.is_semisimple is true exactly if the group algebra is semisimple; equal rings are interchangeable as keys of dictionaries.", "quantifier": "all finite groups with any generators, all finite fields", "why_tests_cant": "the statements quantify over all pairs of members and over all modules of the ring", "anchors": ["qldpc/abstract.py:Group.is_abelian", "qldpc/abstract.py:GroupRing.is_abelian", "qldpc/abstract.py:GroupRing.is_semisimple", "qldpc/abstract.py:GroupRing.__eq__", "qldpc/abstract.py:GroupRing.__hash__"]}
{"id": "C94", "title": "Direct products of groups", "statement": "The members of G * H are exactly the g @ h with g in G and h in H, each from one pair only, multiplied factor by factor; the order of a product, of group ** k and of Group.product(*groups, repeat=k) is the product of the orders; the product is associative; powers that are not positive and empty products are refused.", "quantifier": "all permutation groups, all generators, all powers and repetitions", "why_tests_cant": "tests compare orders of two small groups", "anchors": ["qldpc/abstract.py:Group.__mul__", "qldpc/abstract.py:Group.__pow__", "qldpc/abstract.py:Group.product", "qldpc/abstract.py:GroupMember.__matmul__"]}
{"id": "C95", "title": "Random codes and random words", "statement": "ClassicalCode.random(bits, checks, field, seed=s) returns a code with the requested shape, no zero row and no zero column (so no word of weight one); with a seed the result depends on the seed alone, and numpy's global random state is left as it was; get_random_word returns a code word, and every word comes from exactly one array of coefficients.", "quantifier": "all shapes, fields, seeds, random generators and states", "why_tests_cant": "tests draw a few small codes; independence of the global state and of earlier draws is a statement about all of them", "anchors": ["qldpc/codes/common.py:get_scrambled_seed", "qldpc/codes/common.py:get_random_array", "qldpc/codes/common.py:ClassicalCode.random", "qldpc/codes/common.py:ClassicalCode.get_random_word"]}
{"id": "C96", "title": "Codes from codes, and equality of codes", "statement": "A code constructed from a code is equal to it and keeps its field, matrix and everything known about it; a contradicting field is an error; CSSCode(code_x, code_z) has the given checks and refuses codes of different lengths or fields; == on codes is reflexive, symmetric and implies equal fields and parity check matrices.", "quantifier": "all codes, all classes that inherit from the three base classes, all fields", "why_tests_cant": "tests compare a few objects; dispatch of == depends on pairs of classes", "anchors": ["qldpc/codes/common.py:AbstractCode.__init__", "qldpc/codes/common.py:ClassicalCode.__init__", "qldpc/codes/common.py:QuditCode.__init__", "qldpc/codes/common.py:CSSCode.__init__", "qldpc/codes/common.py:ClassicalCode.__eq__", "qldpc/codes/common.py:QuditCode.__eq__", "qldpc/codes/common.py:CSSCode.__eq__"]}
{"id": "C97", "title": "Groups by name", "statement": "get_generators asks the table of known groups, then GAP, and only without GAP GroupNames.org; SmallGroup(order, index) has the generators on the page behind the link for exactly this order and index, counted from zero; the number of groups of an order is the largest index listed; SmallGroup.generator runs through all groups of an order; other names are refused without GAP.", "quantifier": "all names, all pages with the layout of the site, all answers of GAP", "why_tests_cant": "tests mock single pages and names", "anchors": ["qldpc/external/groups.py:get_generators", "qldpc/external/groups.py:get_generators_with_gap", "qldpc/external/groups.py:get_generators_from_groupnames", "qldpc/external/groups.py:get_group_url", "qldpc/external/groups.py:get_small_group_number", "qldpc/external/groups.py:get_small_group_structure", "qldpc/abstract.py:SmallGroup"]}
{"id": "C98", "title": "Conjugated codes with the default qudits", "statement": "Calling conjugated() without arguments on a rotated surface code, a rotated toric code or a hypergraph product code returns a stabilizer code with the same number of logical qudits and the same distance. Its checks have the mixed shape that is expected: powers of X on one class of qudits and powers of Z on the other one. Explicit qudits take precedence over the default ones, and a code without default qudits is returned unchanged.", "quantifier": "for all fields, all sizes of the lattices, all pairs of classical codes and all lists of qudits", "why_tests_cant": "Tests conjugate a few small qubit codes and compare the matrices; whether the checks of the result commute depends on the characteristic of the field, which is 2 in these tests.", "anchors": ["qldpc/codes/common.py:QuditCode.conjugated", "qldpc/codes/quantum.py:SurfaceCode.__init__", "qldpc/codes/quantum.py:ToricCode.__init__", "qldpc/codes/quantum.py:HGPCode.__init__"]}
{"id": "C99", "title": "Default and random quantum Tanner codes", "statement": "QTCode(subset_a, subset_b, code_a) takes the dual of code_a for the second subset if both subsets have the same size, and raises an exception otherwise. QTCode.random(group, code_a, code_b) returns the quantum Tanner code of two symmetric subsets of the group that have as many members as the codes have bits; with one_subset both are the same one. It raises an exception if the lengths of the codes do not fit the group, or if a bipartite complex is requested and the subsets have conjugate members, and it finishes once every member of the group has been drawn. With a seed, the code does not depend on earlier random numbers. Seed codes of the wrong lengths raise an exception.", "quantifier": "for all finite groups, all subsets, all seed codes, all states of the random number generator and all orders in which a set is traversed", "why_tests_cant": "Tests build one random code with fixed seeds; they see neither the other outcomes of the random numbers nor the other groups.", "anchors": ["qldpc/codes/quantum.py:QTCode.__init__", "qldpc/codes/quantum.py:QTCode.random", "qldpc/abstract.py:Group.random_symmetric_subset"]}
{"id": "C100", "title": "Equivalence, canonical form, rank and weight of quantum codes", "statement": "QuditCode.equiv and CSSCode.equiv agree and hold exactly if the parity checks of the two codes generate the same group, equivalently if the same Pauli strings commute with all checks, whichever of the two codes are CSS codes. canonicalized is a code of the same kind, marked as a subsystem code exactly if the original is, with independent checks that generate the same group, and is its own canonical form. rank is the number of independent checks. get_weight is the largest number of qudits that a check acts on, and raises an exception exactly if there are no checks. num_qubits raises an exception unless the qudits are qubits.", "quantifier": "for all fields, all numbers of qudits and all parity check matrices", "why_tests_cant": "Tests compare a few codes with their canonical forms; agreement of the two tests of equivalence and with the commutant concerns all pairs of matrices.", "anchors": ["qldpc/codes/common.py:AbstractCode.equiv", "qldpc/codes/common.py:CSSCode.equiv", "qldpc/codes/common.py:QuditCode.canonicalized", "qldpc/codes/common.py:CSSCode.canonicalized", "qldpc/codes/common.py:AbstractCode.rank", "qldpc/codes/common.py:CSSCode.rank", "qldpc/codes/common.py:QuditCode.get_weight", "qldpc/codes/common.py:QuditCode.num_qubits"]}
{"id": "C101", "title": "Codes by name and the communication with GAP", "statement": "ClassicalCode.from_name(name) is the code whose parity checks and field GAP prints for that name; the code keeps the name as given, and spaces in the name do not matter otherwise. An exception is raised if GAP is not installed, if it reports an error, if a line of its answer cannot be read or if there are no checks. Commands are sent unchanged except that every Print( is redirected to a stream without line breaks. A missing package is installed if the user agrees. Two codes of the same length ask for the same automorphism group exactly if they have the same code words, and codes of different lengths never do.", "quantifier": "for all names, all answers of GAP with the stated layout, all lists of commands and all pairs of matrices over all fields", "why_tests_cant": "Tests replace GAP by a stub with a few fixed answers.", "anchors": ["qldpc/external/codes.py:get_code", "qldpc/external/gap.py:is_installed", "qldpc/external/gap.py:sanitize_commands", "qldpc/external/gap.py:get_output", "qldpc/external/gap.py:require_package", "qldpc/codes/common.py:ClassicalCode.from_name", "qldpc/codes/common.py:ClassicalCode.get_automorphism_group"]}
{"id": "C102", "title": "Distances to vectors, get_distance(bound=...) and code parameters", "statement": "get_distance() without bound, or with bound 0 or False, is exact; with another bound it runs that many trials (True is one trial). With a vector and trials, the result is never below the Hamming distance between the vector and the code and never above the block length, provided the decoder returns errors with the given syndrome; if the decoder returns errors of least weight, one trial gives the exact value. get_code_params() returns the block length, the number of logical (qu)dits and the distance, the latter replaced by an upper bound if trials are requested, for classical, stabilizer and CSS codes, subsystem codes included.", "quantifier": "for all codes, all fields, all vectors, all numbers of trials, all cutoffs, all random draws and decoders, and all states of the caches that tell the truth", "why_tests_cant": "Tests evaluate parameters of a few small codes and one vector with one decoder; an unsound bound shows only for decoders that fail.", "anchors": ["qldpc/codes/common.py:ClassicalCode.get_distance", "qldpc/codes/common.py:ClassicalCode.get_distance_bound", "qldpc/codes/common.py:ClassicalCode.get_one_distance_bound", "qldpc/codes/common.py:ClassicalCode.get_code_params", "qldpc/codes/common.py:QuditCode.get_code_params", "qldpc/codes/common.py:QuditCode.get_distance", "qldpc/codes/common.py:CSSCode.get_distance"]}
{"id": "C103", "title": "Circuit functions accept codes on qubits and refuse all others", "statement": "Every circuit function (encoding tableau and circuit, encoder and decoder, logical tableau, transversal automorphism group, transversal operations and circuits) raises if it is given a code that is not on qubits, whichever way the code is passed, and for codes on qubits the check changes nothing. Writing operators as Pauli letters for Stim loses nothing for codes on qubits.", "quantifier": "for all codes, all other arguments, all ways of passing the code, and whatever the functions compute", "why_tests_cant": "Tests pass one qutrit code as a positional argument to one function; the check of keyword arguments and of nested calls is a property of all calls.", "anchors": ["qldpc/circuits.py:restrict_to_qubits", "qldpc/circuits.py:get_encoding_tableau", "qldpc/circuits.py:get_encoding_circuit", "qldpc/circuits.py:get_encoder_and_decoder", "qldpc/circuits.py:get_logical_tableau", "qldpc/circuits.py:get_transversal_automorphism_group", "qldpc/circuits.py:get_transversal_ops", "qldpc/circuits.py:get_transversal_circuits", "qldpc/circuits.py:get_transversal_circuit", "qldpc/math.py:op_to_string"]}
{"id": "C104", "title": "Exact distance of a general subsystem code", "statement": "get_distance_exact of a QuditCode with noncommuting parity checks returns the least number of qudits on which a dressed nontrivial logical operator acts: an operator that commutes with all stabilizers and is not a product of gauge operators.", "quantifier": "for all numbers of qudits, all fields and all lists of gauge generators with at least one logical qudit", "why_tests_cant": "The tests compute distances of subsystem codes that are CSS codes or happen to come out right; whether the operators used in the enumeration generate the right cosets depends on the gauge group.", "anchors": ["qldpc/codes/common.py:QuditCode.get_distance_exact", "qldpc/codes/common.py:QuditCode.get_logical_ops", "qldpc/codes/common.py:QuditCode.get_gauge_ops", "qldpc/codes/common.py:QuditCode.get_standard_form_data"]}
{"id": "C105", "title": "Numbers of logical and gauge qudits of a general code", "statement": "For a QuditCode with any list of parity checks or gauge generators: dimension is the greatest number of pairs of operators that commute with all generators and satisfy the relations of qudits, gauge_dimension is the greatest number of such pairs in the gauge group, these and the number of stabilizer generators add up to the number of qudits, and get_code_params reports the number of logical qudits so defined.", "quantifier": "for all numbers of qudits, all fields, all lists of generators, commuting or not", "why_tests_cant": "The tests compare the numbers for a few codes; that rank formulas count independent qudits for every gauge group is a theorem about symplectic spaces.", "anchors": ["qldpc/codes/common.py:QuditCode.dimension", "qldpc/codes/common.py:QuditCode.gauge_dimension", "qldpc/codes/common.py:QuditCode.get_stabilizer_ops", "qldpc/codes/common.py:QuditCode.get_code_params"]}
{"id": "C106", "title": "Quasi-cyclic codes have equal X and Z distances", "statement": "QCCode (and so BBCode) promises promise_equal_distance_xz=True to CSSCode. The promise is true: exchanging the two blocks of data qudits and reversing all shifts maps X checks to Z checks up to sign, so the X and Z distances agree. Hence get_distance_exact, which then computes only one of the two distances, returns the true distance, and the two check matrices have equal rank, so the number of logical qudits is twice the number of plaquettes minus twice that rank.", "quantifier": "all prime-power fields, lists of orders, polynomials with known symbols and coefficients in the field", "why_tests_cant": "The library's tests compare distances of a handful of small codes; that the promise is true for all orders and polynomials is a symmetry argument about every code of the family.", "anchors": ["qldpc/codes/quantum.py: QCCode.__init__, TBCode.__init__, BBCode", "qldpc/codes/common.py: CSSCode.get_distance_exact, CSSCode.dimension"]}
{"id": "C107", "title": "Toric layouts of bivariate bicycle codes are equivalent codes", "statement": "BBCode.get_equivalent_toric_layout_code_data returns, for a connected code, lists of orders and polynomials such that BBCode(orders, poly_a, poly_b) is the given code up to a permutation of data qudits and checks (so it has the same length, dimension and distances), poly_a contains the terms 1 and x, poly_b contains the terms 1 and y, exponents are canonical, the first order is at least the second, and no data are listed twice. Every choice of two monomials in each polynomial whose quotients generate the torus is represented, no exception is raised, and there is nothing to return for disconnected codes.", "quantifier": "all fields, orders, and polynomials with at least two terms whose monomials differ modulo the orders, whose coefficients survive squaring, for codes whose symbols are in order", "why_tests_cant": "The tests check a few published codes (and compare parameters only); equivalence for all orders and polynomials needs the change of basis on the torus to be a bijection that intertwines all monomials.", "anchors": ["qldpc/codes/quantum.py:BBCode.get_equivalent_toric_layout_code_data", "qldpc/codes/quantum.py:BBCode.change_poly_basis", "qldpc/codes/quantum.py:BBCode.as_exponent_vector", "qldpc/codes/quantum.py:BBCode.modular_inverse", "qldpc/codes/quantum.py:BBCode.is_valid_basis"]}
{"id": "C108", "title": "Product codes are as sparse as their ingredients", "statement": "ClassicalCode.get_weight is the largest weight of a parity check. Every check of HGPCode(A, B) has the weight of a check of one code plus the number of checks that contain a bit of the other, so QuditCode.get_weight of the product is max(row weight of A + column weight of B, row weight of B + column weight of A); each qudit is in as many checks as its bit or as its check has bits. Gauge generators of SHPCode have the weights of the checks of the ingredients. Checks of LPCode act on as many qudits as there are group elements in a row of one array and a column of the other. Checks of a quasi-cyclic or bivariate bicycle code act on exactly as many qudits as the two polynomials have terms, and each qudit is in as many X (Z) checks as one polynomial has terms. Checks of TannerCode have the weights of checks of the subcode, and those of QTCode at most |A||B|.", "quantifier": "all fields, parity check matrices, arrays over group algebras, polynomials, orders, graphs and subcodes", "why_tests_cant": "Tests check the weights of a few codes; that a construction keeps checks sparse for all inputs, with exact weights, is the defining property of an LDPC family.", "anchors": ["qldpc/codes/common.py:ClassicalCode.get_weight", "qldpc/codes/common.py:QuditCode.get_weight", "qldpc/codes/quantum.py:HGPCode", "qldpc/codes/quantum.py:SHPCode", "qldpc/codes/quantum.py:LPCode", "qldpc/codes/quantum.py:QCCode", "qldpc/codes/quantum.py:QTCode", "qldpc/codes/classical.py:TannerCode"]}
{"id": "C109", "title": "Quasi-cyclic codes have two logical qudits per function annihilated by both polynomials", "statement": "The dimension of a QCCode (and so of a BBCode) is twice the dimension of the space of functions on the torus of its orders that both polynomials annihilate, where a monomial acts by moving the argument. There are no logical qudits exactly if only the zero function is annihilated, and there are at least two if the coefficients of each polynomial sum to zero in the field.", "quantifier": "all fields, symbols, orders and polynomials with which the constructor succeeds", "why_tests_cant": "Tests compare the dimension of a few bivariate bicycle codes with published numbers; the formula for all polynomials and orders is a statement about infinitely many codes.", "anchors": ["qldpc/codes/quantum.py:QCCode", "qldpc/codes/quantum.py:BBCode", "qldpc/codes/common.py:CSSCode.dimension"]}
{"id": "C110", "title": "Tanner codes and quantum Tanner codes have at least the dimension that counting checks promises", "statement": "TannerCode(graph, subcode).dimension is at least the number of sinks minus, for each source, the number of independent checks of the subcode. A QTCode has as many nodes with Z checks as nodes with X checks, say V; twice its number of qudits is V |A| |B|; and its dimension is at least the number of qudits minus V (k_A k_B + (|A| - k_A)(|B| - k_B)), where k_A and k_B are the dimensions of code_a and code_b. With the default code_b = ~code_a, its dimension is at least V (|A| - 2 k_A)^2 / 2, so the rate is bounded below by (1 - 2 k_A / |A|)^2.", "quantifier": "all fields, directed graphs, subcodes, finite groups, accepted symmetric subsets (bipartite and quadripartite), codes, and orders in which nodes are visited", "why_tests_cant": "Constant rate of quantum Tanner codes is a statement about all groups and subsets; tests build a few small codes and compare parameters with stored numbers.", "anchors": ["qldpc/codes/classical.py:TannerCode", "qldpc/codes/quantum.py:QTCode", "qldpc/codes/quantum.py:QTCode.get_subcodes", "qldpc/codes/quantum.py:QTCode.get_subgraphs", "qldpc/codes/common.py:CSSCode.dimension"]}
{"id": "C111", "title": "Reported logical error rates respect the distance, whatever errors are sampled", "statement": "Let p be a physical error rate in [0, 1] and let r be the rate that code.get_logical_error_rate_func(...)(p) reports. If the decoder of a ClassicalCode finds every error of weight at most t, then r is at most the probability that more than t errors happen (or more than the largest sampled weight), for every outcome of the random sampling. With the lookup decoder and its default max_weight, t is (d - 1) // 2 for the code distance d. For a CSSCode (also a subsystem code): if both decoders infer errors of weight at most t with the given syndrome whenever there are any, as the lookup decoder with max_weight = t does, and 2 t is below the X- and Z-distances, then the same bound holds.", "quantifier": "all finite fields, parity checks, CSS codes and subsystem codes, decoders, sampled errors, numbers of samples, and physical error rates in [0, 1]", "why_tests_cant": "Rates are random; tests can only look at a few outcomes of the sampling for a few codes. That no outcome exceeds the bound is a statement about all outcomes.", "anchors": ["qldpc/codes/common.py:ClassicalCode.get_logical_error_rate_func", "qldpc/codes/common.py:ClassicalCode._estimate_decoding_fidelity_and_variance", "qldpc/codes/common.py:CSSCode.get_logical_error_rate_func", "qldpc/codes/common.py:CSSCode._estimate_decoding_fidelity_and_variance", "qldpc/decoders/custom.py:LookupDecoder"]}
{"id": "C112", "title": "The distance search gets the same weights from every kernel, and buffers do no harm", "statement": "get_distance_quantum chooses one of several weight functions, depending on use_numba and on whether numpy has bitwise_count. Each choice, called with the number of buffers returned with it or with none, yields for each 64-bit word its number of ones (or its number of pairs of adjacent bits that are not both zero), whatever the buffers and the array for the result held before. It changes no other array. Hence the weights in the loops of the search are those of the words with the operators added so far, for every choice, and the loops end with the same array and minimum as the loops on values (C15). A new array of weights has 8-bit integers exactly if np.bitwise_count is used, and 64-bit integers otherwise.", "quantifier": "all arrays of 64-bit words, sequences of operators, contents of the buffers, and choices of the kernel", "why_tests_cant": "Tests run with one version of numpy, so they only see one of the kernels without numba, and they cannot try all words or all contents of uninitialised buffers.", "anchors": ["qldpc/codes/distance.py:_hamming_weight", "qldpc/codes/distance.py:_symplectic_weight", "qldpc/codes/distance.py:_get_hamming_weight_fn", "qldpc/codes/distance.py:_get_symplectic_weight_fn", "qldpc/codes/distance.py:get_distance_quantum"]}

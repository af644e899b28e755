# Formal model of qLDPC (Lean 4 + Mathlib)

Source: `/repo` (Infleqtion/qLDPC, pinned commit), read as text, never executed.
`properties.jsonl` lists the properties, `MANIFEST.json` maps them to theorems,
`lean/Verif/` holds the model, the lemmas and the property theorems,
`seeded/LOG.jsonl` records the mutation tests of the theorems.

## 1. Layout

* `Verif/Model/*.lean`  definitions only; every definition cites the file and lines it models.
* `Verif/Lemmas/*.lean` helper lemmas.
* `Verif/Props/*.lean`  property theorems (named in `MANIFEST.json`), the small independent
  specification each one is stated against, concrete non-vacuity `example`s, `#print axioms`.

## 2. Modelling conventions

* A finite field is an arbitrary Lean type `F` with `[Field F] [DecidableEq F]` (and `[Fintype F]`
  where elements are enumerated).  `galois.FieldArray` arithmetic is trusted to be field arithmetic.
* A matrix with `n` columns is a list of rows `List (Fin n → F)` where the code adds, drops or
  reduces rows (`Verif/Model/LinAlg.lean`), and a `Matrix (Fin m) (Fin n) F` where only algebra on
  entries happens (Kronecker products, blocks).  Flattened numpy indices (`np.kron`, `ravel`,
  `reshape`) are modelled with explicit `/`, `%` arithmetic, not with product types.
* `galois` `row_reduce` and `null_space` are library calls.  They are modelled by an actual
  Gauss-Jordan elimination in Lean, for which row space, echelon shape and *uniqueness* of the
  result are proved, so that any correct implementation of reduced row echelon form agrees with it.
* `raise` is `none`/`Except.error`.  Random streams, decoders, hash iteration order and GAP are
  parameters, quantified universally.
* 64-bit numpy kernels are modelled on `BitVec 64` with wrap-around.
* Floating point is not modelled; where a float decides control flow the value is a parameter or an
  exact rational, as said in the comment.

## 3. Trusted base

* Lean 4.33 kernel; axioms `propext`, `Classical.choice`, `Quot.sound` only (printed with
  `#print axioms` for every property theorem).  No `sorry`, `native_decide`, `bv_decide`, new axioms.
* The reading of the Python source that turned it into the definitions (each cites its lines).
* Library behaviour assumed: numpy indexing/`kron`/`block`/`roll`/`reshape`, galois field
  arithmetic, `row_reduce` = RREF, `null_space` = RREF basis of the kernel, `itertools.product`
  order, `sympy` permutation product `(p*q)(i) = q(p(i))`, networkx graphs as edge dictionaries,
  python `dict`/`set` semantics, sorting is a stable permutation.
* Not modelled: floats, plotting/printing of codes, GAP itself, network access, stim internals,
  ldpc/pymatching/cvxpy solvers, numba compilation.

## 4. Plan per property

| id | modelled | proof |
|----|----------|-------|
| C01 | `canonicalized`, `equiv` on row lists | rows span preserved + uniqueness of RREF + double orthogonal complement |
| C02 | `generator` = kernel basis from pivots | free-column construction spans the kernel; rank-nullity by counting |
| C03 | `iter_words` over coefficient product | bijection coefficients ↔ words from independence |
| C04 | `dual`, `from_generator` | double orthogonal complement in finite dimension |
| C05 | `set_generator` decision | containment + equal rank ⇔ equal span |
| C06 | `tensor_product` via kron of generators | product-code characterisation via bases; dimension |
| C07 | `puncture` | image of span under column selection |
| C08 | `shorten` loop with roll/row_reduce/drop | negation by witness; `_partial` under the condition that each column is nonzero when reached |
| C09 | `stack` block diagonal | blockwise membership, product of spaces |
| C10 | `get_distance_exact` both branches | minimum over complete enumeration |
| C11 | `get_distance_bound`, `get_one_distance_bound` with oracle decoder and random stream | candidate is a nonzero code word by the syndrome check; loop invariant |
| C12 | popcount kernels on `BitVec 64` | splitting lemma per stage (no bv_decide), general in the word |
| C13 | `_rows_to_ints`, `_riffle` | induction on chunks |
| C14 | trailing zeros walk | induction on k: Gray code is a bijection |
| C15 | `get_distance_quantum` loops | walk covers all cosets; fold-min = min; plus the uint8 overflow witness |
| C16 | `symplectic_conjugate` | algebra |
| C17 | subsystem test | algebra |
| C18 | `get_strings`/`from_strings` | round trip by induction using C19 |
| C19 | `__str__`/`from_string` on `List Char` | decimal round trip |
| C20 | `get_standard_form_data`, `get_logical_ops` | block algebra of the standard form; pairing |
| C21 | `set_logical_ops` validation | negation by witness, `_partial` for what is guaranteed |
| C22 | CSS standard form and logical ops | block algebra |
| C23 | `get_stabilizer_ops` | kernel characterisation of the centre |
| C24 | `conjugated` | form invariance for characteristic two; negation for odd order |
| C25 | stack | block algebra |
| C26 | concatenate | inner logical substitution is symplectic; an operator is an inner gauge operator times an encoded outer operator, each qudit of which makes an inner block nontrivial; state mutation witness |
| C27 | CSS distance functions | min over enumerations, oracle decoders |
| C28 | `reduce_logical_op` | stabiliser coset invariance from the decoded constraint |
| C29 | graphs as edge lists | round trip by induction over nonzero entries |
| C30 | Repetition/Ring matrices | induction along the chain |
| C31 | Hamming matrix | column enumeration lemmas |
| C32 | Reed-Muller recursion | induction on (r, m), (u\|u+v) |
| C33 | extended Hamming matrix | parity argument |
| C34 | Tanner code matrix | block-row membership |
| C35 | permutation matrices, regular lift | algebra |
| C36 | ring member/array lift | sums of representation matrices |
| C37 | ring members as term lists | extensional semantics in `G → F` |
| C38 | inverse through regular lift | first-column argument |
| C39 | group eq/hash | negation witness + restricted theorem |
| C40 | from_table/from_generating_mats | anti-homomorphism theorem, homomorphism for commuting |
| C41 | subset loop with random stream | loop invariant |
| C42 | abelian groups | mixed radix enumeration, roll matrices |
| C43 | row reduction loop | negation by witness; module preserved |
| C44 | null space through lift | algebra |
| C45 | TB | block algebra |
| C46 | HGP | Kronecker algebra, RREF pivots |
| C47 | `get_graph_product`, `get_product_node_map`, `get_sector` (Model/GraphProduct) | closed form of the node map by induction over the loop; the four kinds of edges are the nonzero entries of the product matrix |
| C48 | SHP | Kronecker algebra, kernel of Kronecker |
| C49 | LP | commuting entries; non-abelian witness |
| C50 | chain complexes | block algebra with signs, all degrees |
| C51 | placeholder loop with fuel | invariance of the stuck state; commuting lift |
| C52 | labels/positions | arithmetic bijections |
| C53 | torus arithmetic | gcd/lcm facts; counting; coefficient-power witness |
| C54 | check construction, recorded parameters | overlap parity case analysis; elimination cell by cell shows that the straight lines detect every logical operator, which gives dimension and exact distances |
| C55 | Cayley complex subgraphs | face determines labels; local orthogonality |
| C56 | save/load text, `__eq__` | round trip; equality witness |
| C57 | lookup table build | last-writer-wins invariant; zero syndrome witness |
| C58 | GUF loop | interior lemma; saturation argument |
| C59 | slack construction | binary representation; q=3 witness |
| C60 | block/direct | algebra |
| C61 | destabiliser construction | symplectic Gram-Schmidt invariant |
| C62 | swap sequence | induction over cycles |
| C63 | instrumental code | equivariance of sector map |
| C64 | memo table state machine | invariant over histories; key-collision witness |
| C65 | Node order | case analysis |
| C66 | allocation arithmetic | sums of integers; rounding as parameter |
| C67 | slices | list lemma |
| C68 | finite table | kernel evaluation of the whole table |
| C69 | text parser | round trip by induction |
| C70 | subsystem branch of `QuditCode.get_logical_ops` | what holds of its output; witnesses for what does not |
| C71 | subsystem branch of `CSSCode.get_logical_ops` | elimination invariants; invertibility of the pairing matrix |
| C72 | exact distance of a general code | complete enumeration of logical cosets |
| C73 | gauge operators of CSS subsystem code | complement of logicals and stabilizers in the gauge group |
| C74 | random logical operators | linear combination of the basis, all draws |
| C75 | simplex codes | reduction to shift register sequences, finite table in the kernel |
| C76 | logical error rate | exact rationals, conditional expectations |
| C77 | distances of (subsystem) hypergraph products | contraction of a logical operator with a dual witness is a nonzero word; product operators reach the bound |
| C78 | parameters of unrotated surface/toric, Bacon-Shor, SHYPS codes | from C46, C48, C77 and the classical families C30, C75 |
| C79 | named codes | iceberg codes by hand for all sizes, single codes by the verified distance algorithm |
| C80 | CSS stack and concatenate | block-diagonal row spans and kernels, completeness of substituted logical operators, weights block by block |
| C81 | logical tableaus, Pauli corrections, deformations | signed Pauli group; tableaus are homomorphisms; the encoder is a frame (C61); blocks of encoder, circuit, decoder |
| C82 | searches for transversal gates | tableaus equal modulo Paulis iff they differ by conjugation; first match is complete; uniqueness of the logical action |
| C83 | state vectors | gate matrices intertwine Pauli operators; each stabilizer halves the code space; encoding isometry from the frame of C61; Schur's lemma for Pauli operators |
| C84 | special linear groups | Steinberg's generators yield all transvections; permutations of vectors are faithful; regular representation from C40 |
| C85 | projective special linear groups | one representative per orbit for any order of iteration; contragredient automorphism for Kronecker products; words in the generators with equal matrices and unequal partners where they fail |
| C86 | code capacity sampling | draws as expected values of functions; double counting of (place, value) first; moments of sums; double orthogonal complement |
| C87 | idempotents printed by GAP | regular expressions as ordered lists of matches; first match of each expression on the printed text; cycles as products of `formPerm` |
| C88 | generalized surface and toric codes | induction on the links of the chain complex; arrays whose rows are lines (cycles) and whose columns are hyperplanes (cocycles); a nontrivial operator meets all parallel translates |
| C89 | relations between product codes | entries of lifted Kronecker products; spans of Kronecker products depend on spans only |
| C90 | choice of decoders from keyword arguments | dictionaries as association lists; case distinction over the chain of `pop`s; partial (selectors handed on) |
| C91 | block lengths of BCH codes | digits of `np.base_repr` are `Nat.digits`; partial (fields of more than ten elements) |
| C92 | matrices as arrays over the trivial group | entries of lifts; prime fields by cardinality of the image of the integers; partial (fields of non-prime order) |
| C93 | commutativity, semisimplicity, equality of group rings | centralizers; Maschke's theorem of Mathlib and a nilpotent element for the converse; partial (hashes) |
| C94 | direct products of groups | permutations next to each other; closure of the generators |
| C95 | random codes and words | the loop returns the first draw that satisfies the condition; state passing for the global generator; partial (shapes with one zero) |
| C96 | constructors from codes, equality | case analysis on kinds of classes and python's dispatch of `==`; partial (classes, CSS sources) |
| C97 | groups by name | first occurrences in texts, splitting, decimal numbers; partial (prefixes) |
| C98 | default conjugation | conjugation preserves weights and, in characteristic two, the symplectic form; parameters from C54 and C16; partial (odd characteristic) |
| C99 | default and random quantum Tanner codes | the loop with a generator follows the loop of C41 for the members drawn; C55 for the subsets; every size has a symmetric subset; partial (two disagreements) |
| C100 | equivalence, canonical form, rank and weight of quantum codes | the reduced form of two diagonal blocks is the pair of reduced forms (uniqueness of the reduced form); C01 for each block |
| C101 | codes by name and the communication with GAP | splitting and joining of texts, the regular expressions of C64; uniqueness of the canonical matrix (C01); partial (two disagreements) |
| C102 | distances to vectors, get_distance(bound=...) and code parameters | induction over the trials; C10, C11, C27, C72; the number of logical qudits of a CSS code is the greatest number of paired operators (rank of a product of matrices); partial (one disagreement) |
| C103 | circuit functions accept codes on qubits and refuse all others | case analysis on calls with the computations of the functions as parameters; letters of Pauli operators by C18; partial (two disagreements) |
| C104 | exact distance of a general subsystem code | complete enumeration of dressed cosets; counterexamples evaluated in the kernel; partial (two disagreements) |
| C105 | numbers of logical and gauge qudits of a general code | symplectic Gram-Schmidt: existence of as many pairs as the rank formulas say, and the matching upper bounds |
| C106 | quasi-cyclic codes have equal X and Z distances | An isometry exchanging blocks and negating plaquette coordinates is shown to carry the row span of X checks to that of Z checks and back (Lemmas/CssIsometry), so distances and ranks agree. |
| C107 | toric layouts of bivariate bicycle codes are equivalent codes | new coordinates are a bijection of plaquettes (independence and completeness of a valid basis); entries of both codes are sums over monomials that move by a given vector; loop invariants for the list of data |
| C108 | product codes are as sparse as their ingredients | counting nonzero entries of Kronecker products with identities, of lifted rows (translates of a support), of sums over monomials (distinct targets on the torus), and of scattered rows |
| C109 | quasi-cyclic codes have two logical qudits per function annihilated by both polynomials | the Z checks are the transposes of the two blocks (C51), so relations between Z checks are annihilated functions; ranks of the X and Z checks agree (C106) |
| C110 | tanner codes and quantum Tanner codes have at least the dimension that counting checks promises | each block of a Tanner code is a linear image of the checks of the subcode; faces have exactly two corners of each kind (two-to-one map from node, a, b); the rank of a Kronecker product is the product of ranks |
| C111 | reported logical error rates respect the distance, whatever errors are sampled | an error placed at w locations has weight at most w, so samples of weight at most t are no failures (C57, C86); the reported rate is a weighted sum of failure fractions in [0, 1] (C76) |
| C112 | the distance search gets the same weights from every kernel, and buffers do no harm | arrays live in a heap with addresses, each statement of a kernel is one write; each kernel is followed write by write, and the loops by induction on the operators |

## 5. Where the code and a property disagree

Each item has a theorem with a concrete witness (name contains `disagreement`) unless it says "noted only".

* `shorten` drops a row although the bit is zero in every code word (C08).
* `np.bitwise_count` sums 8-bit counts and wraps from 256 bits on; the theorems C10, C15 carry a size bound.
* `set_generator` accepts dependent rows (noted only; C05 is about the space).
* Negative exponents print a text that cannot be parsed; repeated factors are accepted; `from_strings` of a
  code without checks raises (C18, C19).
* `set_logical_ops` checks neither X-X nor Z-Z relations (C21); `conjugated` applies no sign, wrong for odd
  characteristic (C24); the general subsystem standard form is wrong for some non-CSS gauge groups (C70).
* `concatenate` with one inner copy overwrites the caller's `inner._logical_ops` (C26, C80).
* `reduce_logical_op` accepts a heavier answer of the decoder (C28).
* `matrix_to_graph` forgets zero rows and columns (C29).
* `RingCode(1)` advertises dimension 1 (C30); `HammingCode(1)` advertises distance 3 (C31);
  `ReedMullerCode(0, m)` raises (C32); `TannerCode` strips the `sort` attributes of an undirected graph (C34).
* `_get_sample_allocation` may allocate more samples than requested, and raises for 0 (C66).
* The lookup decoder maps the zero syndrome to a code word if `max_weight` reaches the distance (C57).
* The union-find decoder raises on a nonzero syndrome of a zero row (C58).
* The integer program is incomplete for `q > 2`, and building it raises on a zero row with nonzero syndrome (C59).
* `Group.__hash__` includes enumeration and lift, `__eq__` does not (C39).
* `RingMember.__pow__` returns one for negative exponents (C37); `x - g` for a group member `g` raises (noted only).
* `RingArray.row_reduce`: the second pass works on a copy and is lost, so invertible entries survive outside of
  pivots; linear dependence is tested with multiples from the right, so for groups that are not abelian rows are
  dropped that the others do not generate from the left (C43).
* `RingArray.null_space` raises if there is no nonzero null vector (C44); `row_reduce` raises without columns.
* The lifts of `from_table` and `from_generating_mats` reverse products; a repeated matrix makes the latter raise (C40).
* `SmallGroup(n, 1).random()` is always the identity, so `random_symmetric_subset(..., exclude_identity=True)` never
  returns (C41).
* `AbelianGroup(1, 1, 3).generate()` yields the identity three times; the docstring of `CyclicGroup` states the opposite
  shift (C42).
* `HGPCode` trusts a generator matrix set by the user; dependent rows give logical operators that are not a basis (C46).
* `LPCode` over a nonabelian group need not have commuting checks (C49), and `ChainComplex.tensor_product`, which skips
  validation, need not be a complex there (C50).
* Noted only: `get_stabilizer_ops` ignores `canonicalized` when `pauli` is given; `QuditCode.__eq__` is not
  symmetric in its types; `_is_canonicalized` accepts some non-canonical matrices; a `ClassicalCode` built from a
  `QuditCode` copies the quantum dimension and distance.
* C63: `get_transversal_automorphism_group(code, {"S"}, deform_code=True)`. The instrumental code is built from
  `symplectic_conjugate(logical_ops)` rather than `logical_ops`. This is immaterial if the only local gate is `H`, but
  with `S` the sectors stand for the wrong Paulis: for the stabilizer `IX` and logical operators `XX`, `ZI` an
  automorphism is found whose circuit maps the stabilizer to `IY`, which anticommutes with the logical operator `XX`
  (`C63_deform_disagreement`). Without deformation the function is right (`C63_iff`).
* C61: `_is_canonicalized` (`common.py:2431-2436`) only looks at the entries above a pivot. The stabilizers stored by
  `SHPCode` for the parity checks `[[0,1,1],[1,1,0]]` and `[[1,1]]` pass, but are not reduced, and
  `get_encoding_tableau` hands operators to Stim that violate the relations (`C61_shp_disagreement`).
* C64: the default key of `use_disk_cache` is `(*args, *kwargs.items())`, so that `f(("x", 1))` and `f(x=1)` have the
  same key (`C64_key_disagreement`). The functions decorated in the repository are called with arguments for which
  this does not happen.
* C51: `QCCode([2, 3, 5], 1 + x, 1 + x**2)` does not return: every round of the loop writes to the same placeholder
  symbol (`quantum.py:226-229`), so that the dictionary stops growing after the first (`C51_nontermination_disagreement`;
  `C51_loop_ends_iff` says exactly when the loop ends). An order of 1 raises a `KeyError` if sympy drops trivial
  generators (`C51_order_one_disagreement`).
* C53: `get_canonical_form` multiplies the coefficient of a term in once per symbol, so that `1 + 2 x` over GF(5)
  becomes `1 + 4 x` (`C53_coefficient_disagreement`), and iterates over `poly.args`, which for a single monomial are its
  factors: `x y` becomes `x + y` and `x` becomes `0` (`C53_monomial_disagreement`).
* C56: `QTCode.__eq__` compares `other` with `other`, so that every `QTCode` equals every other (`C56_equality`,
  `C56_equality_disagreement`); the unit test of `save`/`load` compares with `==` and cannot fail. A seed code whose matrix
  has no rows writes no array, and loading raises an `IndexError` (`C56_no_rows_disagreement`).

* C78: `ToricCode(1, rotated=False)` (any unrotated toric code with a side of 1) records dimension 2 and distance 1, but
  `RingCode(1)` has the single check `-1` (the wrap-around entry overwrites the diagonal one) and no nonzero word, so that
  the code encodes nothing (`C78_toric_disagreement`).

* C81: stabilizers enter `get_encoding_tableau` as unsigned rows of the row-reduced matrix, so that every row stands for
  an operator with sign `+`. For the checks `XX`, `YY` the row-reduced stabilizers are `XX`, `ZZ`, while the group that
  is generated by `XX` and `YY` contains `-ZZ`. The circuit returned for the automorphism that exchanges X and Z columns
  (two Hadamard gates) preserves the former group and not the latter (`C81_disagreement`).
* C81: with `deform_code=True` the decoder of a subsystem code is built from a `QuditCode` whose gauge operators are wrong
  by C70. For the CSS code with gauge generators `X_2`, `X_1 X_3`, `Z_1`, `Z_1 Z_2 Z_3` the call raises for the permutation
  that changes nothing (`C81_deform_subsystem_disagreement`).

* C84: the lifts of `SpecialLinearGroup` map the permutation of a matrix to that matrix, but the product of sympy applies
  the left factor first, so that `lift(p * q) = lift(q) @ lift(p)` (`C84_lift_reverses`, `C84_lift_disagreement`).
  `_init_from_group` also resets the name set before, so that the name is the name of the class.
* C85: if there is a `d`-th root of unity other than 1 in the field, the representatives of orbits depend on the
  iteration order of sets of bytes, which python randomises; the lift looks for unit vectors among them and raises if it
  finds none (`C85_lift_raises_disagreement`). For `PSL(2, 3)` the lift raises or is no representation for all orders
  (`C85_lift_disagreement`). With `linear_rep=False`, `kron(inv(g), g)` of the generators is not the image of a
  homomorphism in general: `PSL(3, 5)` comes out with an order divisible by `31 ** 2`, while `PSL(3, 5)` has 372000 members
  (`C85_regular_disagreement`), and for no `d >= 3`, `q > 3` is it the projective special linear group
  (`C85_regular_large_disagreement`, `C85_regular_iff`). `iter_mats` yields arrays of shape `(d ** 2,)`.

* C86: `CSSCode` only looks at whether the residual error commutes with the logical operators. If a decoder returns an
  error with another syndrome, the residual error may anticommute with a stabilizer and the sample still counts as a
  success (`C86_unmatched_disagreement`). The uncertainty is too small by the factor `1 - 1 / N` (under the square root);
  with one sample per weight it is always zero (`C86_single_sample_disagreement`).

* C87: GAP prints the elements of a proper subfield as powers of the generator of the subfield. The code takes the integer
  of the element in `galois.GF(p**k)` as an integer of an element of `galois.GF(field)`, which is a different element unless
  `p**k` is the field or its prime field. Over the field with 16 elements, `Z(2^2)` is read as an element of order 15, and
  what is returned for the idempotents of the cyclic group of order 3 is not idempotent (`C87_subfield_disagreement`).

* C88: `GeneralizedSurfaceCode(1, dim, periodic=True)` records distances 1, but `RingCode(1)` has the invertible check matrix
  `[-1]` (see C30), so the code has no logical qudits (`C88_toric_disagreement`, for `dim = 2` over the field with 2 elements).
* C61: for the gauge group generated by `X_2 X_3` and `Z_1 Z_2`, given as a `QuditCode`, two logical X operators
  anticommute (C70), so that `get_encoding_tableau` raises (`C61_subsystem_disagreement`).

- **C90, selectors handed on.** `get_decoder` pops selectors one after another and stops at the first true one; later
  selectors stay among the arguments of the decoder.  `get_decoder(matrix, with_GUF=True, with_MWPM=False)` therefore
  raises a `TypeError`, and so does `with_BP_OSD=True` for a code that is not binary (`C90_disagreement`,
  `C90_passed_on` for all later selectors).

- **C91, BCH codes over large fields.** `BCHCode` compares `np.base_repr(length, field)` with copies of `str(field - 1)`.
  For `field >= 11` the latter has at least two characters per digit (and for `field > 36` `base_repr` raises), so that no
  block length passes, e.g. not `BCHCode(10, k, field=11)` with `10 = 11**1 - 1` (`C91_disagreement`).
- **C92, extension fields.** `to_ring_array` multiplies `ring.one` by the integer of a field element.  Over a field of
  non-prime order this is not the element itself: over GF(4), `2 * one` is zero (`C92_disagreement`).  The docstring speaks
  of matrices of 0s and 1s, for which the conversion is right (`C92_bits`); the function accepts others without complaint.
- **C93, hashes of rings.** Two rings that are equal may have different hashes, as for groups (`C93_hash_disagreement`).

- **C95, shapes without solution.** `ClassicalCode.random(bits, 0)` with `bits > 0` and `ClassicalCode.random(0, checks)` with
  `checks > 0` loop forever: no matrix of that shape has only nonzero rows and columns (`C95_disagreement`).
- **C96, equality across classes.** `CSSCode.__eq__` tests `isinstance(other, type(self))`; together with python's rule that
  the method of a proper subclass is asked first this means that CSS codes of different classes are never equal
  (`C96_class_disagreement`).  For a subclass of `QuditCode` that is not a CSS code, `a == b` may be true while `b == a` is
  false (`C96_symm_disagreement`); `FiveQubitCode`, the only such class in the library, is not of CSS form.
- **C96, constructors.** `QuditCode(css_code)` and `ClassicalCode(css_code)` raise `AttributeError`, since `CSSCode` never
  sets `_matrix` (`C96_css_disagreement`).  `ClassicalCode(field_array, field=q)` ignores a wrong `q`
  (`C96_field_disagreement`).  `QuditCode(RepetitionCode(2))` reports one logical qubit and distance two, although its
  single check leaves no logical qubits (`C96_stale_disagreement`).
- **C97, names that begin like a small group.** `re.match` does not require the name to end after the closing parenthesis
  (`C97_prefix_disagreement`).

- **C98, odd characteristic.** `conjugated` swaps the X-part and the Z-part of a qudit without a sign.  In odd
  characteristic this does not preserve the symplectic form.  The conjugated checks of `SurfaceCode`, `ToricCode` and
  `HGPCode` with their default qudits then fail to commute, for all sizes of the first two and for all nonzero seed
  matrices of the last one, but the result is still built with `is_subsystem_code=False`.

- **C99, lengths of the seed codes.** `QTCode` never compares the lengths of the seed codes with the sizes of the subsets.
  `TannerCode` notices a difference only if the product of the lengths is wrong.  Seed codes given in the wrong order are
  accepted without an exception, and the result is built with `is_subsystem_code=False`, so its checks are not tested either.
- **C99, small groups.** `SmallGroup(order, 1).random` returns the identity (see C41), so `QTCode.random` does not return for
  such a group and a seed code on two or more bits.

- **C101, installation of packages.** `require_package` raises if `git clone` writes anything to the standard error.  git
  announces there `Cloning into ...`, so that the first call raises although the package has been installed.
- **C101, names of automorphism groups.** The name contains the canonical matrix but not the length of the code.  All codes
  without nonzero checks over one field have the same name `AutomorphismGroup(CheckMatCode([],GF(2)))` and so share one entry
  in the cache.

- **C102, distance bound for a vector.** `get_one_distance_bound(vector=...)` counts the nonzero entries of the decoder's answer
  without comparing its syndrome (the variant without vector does compare).  A decoder that fails returns too small a number: a
  lookup decoder with `max_weight=1` bounds the distance between `110` and the code `{000, 001}` by 0 instead of 2.

- **C103, keyword arguments.** `restrict_to_qubits` looks at positional arguments only.  `get_encoding_tableau(code=code)` returns
  a tableau on qubits for a code on qutrits (if the operators happen to have entries 0 and 1), and
  `get_transversal_automorphism_group(code=code)` goes on as well.  The other functions pass their code on as a positional
  argument and raise.
- **C103, codes without logical qubits.** `get_transversal_circuits` builds `stim.Circuit("I -1")` for a code of dimension 0, which
  raises for every list of targets, also an empty one.

- **C104, distances of subsystem codes.** For the gauge group `X0 Z1, Z2 X3, Z0 X2, X1 Z3` (the Bacon-Shor code on a 2 x 2 grid with
  Hadamard gates on qubits 1 and 2, distance 2) `QuditCode(...).get_distance()` is 1, because `get_logical_ops` returns `Z3`, which
  anticommutes with a stabilizer (C70).  With the Hadamard gates on qubits 0 and 3 the call raises an `IndexError`.

* C107: `get_equivalent_toric_layout_code_data` returns orders in the order of `self.symbols`, but `BBCode` assigns a
  sequence of orders to the sorted symbols: for `BBCode({y: 2, x: 3}, 1 + y, 1 + x + x**2)` the returned data give a code
  with no logical qubits instead of four (`C107_symbols_disagreement`). Coefficients are squared
  (`C107_coefficient_disagreement`), monomials that agree modulo the orders get integer coefficients that are rejected
  (`C107_modulo_disagreement`), and factors of a single monomial are taken for terms (`C107_monomial_disagreement`).

## 6. Trust notes on single points

* `galois` null space of a matrix without rows is modelled as the full space, `np.linalg.inv` of a 0 x 0 matrix
  as itself, `np.hstack`/`np.block`/`np.column_stack` keep the field of their arguments.
* Field elements have fixed integer representations (`FieldInts`), a bijection with `0 .. q-1` that sends 0 and 1
  to 0 and 1; this is what text formats and graph edge attributes use.
* `int()` of texts with underscores, and GAP line wrapping after 80 columns, are not modelled.
* `sorted` with keys is modelled for total orders and for keys none of which is below another.
* Sample allocation and logical error rates use exact rationals instead of floats.
* Sets of graph nodes in the union-find decoder are lists without repetition; the theorems hold for the order used
  and do not mention it.  `galois` linear solving inside it is the modelled elimination.
* In the lookup decoder, errors are written in `itertools` order from the highest weight down; later writes win.
* The integer program: the floating point logarithm is an arbitrary function in every theorem but the witness.
  That a solver returns an optimal point, and that rounding its answer with `astype(int)` is exact, is assumed.
* `BlockDecoder` reshapes with `-1`; numpy raises when the length does not divide, as modelled.
* Groups are abstract finite groups with the enumeration `members` of `Group.generate()`; theorems assume that it has
  no repetition, is complete and, where it matters, starts with the identity.  That sympy enumerates like this, and
  that `x^-1 * x` is the identity for its permutations, is trusted.  `__mul__` of permutations is sympy's left to right
  composition (`sympyMul`).
* Entries of a `RingArray` are coefficient functions; `C37_operations`, `C37_equality` and `C38_inverse` are the link
  to dictionaries of terms.  `np.any` on object arrays returns booleans (numpy 2).
* Generators of sympy's `DirectProduct`: `uniq` removes duplicates; whether `PermutationGroup` also drops identities
  depends on the version, so that it is a parameter (`drop`) in C42.  `AbelianGroup()` without orders raises and is not
  modelled.
* `from_generating_mats`: `hash(tobytes())` is taken to be injective; products of integer matrices are exact.
* `LPCode` and `SLPCode` are modelled through a lift of the entries (`Λ`) that is additive and multiplicative.
* Matrices of a chain complex are functions on all index pairs together with a shape; no theorem reads entries
  outside of the shape.  `np.kron` of a field array with an integer identity multiplies by 0 and 1, and `* (-1)`
  negates.  `ChainComplex.op` raises outside of `0 .. num_links + 1`; the model is used in this range only.
* C62, C63: a Clifford gate is modelled by what it does to Pauli operators modulo signs, as documented by Stim. The
  permutation group search of sympy and MAGMA/GAP's automorphism group are not modelled; the theorems hold for every
  permutation generated by the gate set. sympy's `cyclic_form` is modelled after its source. Pauli corrections (signs)
  are not modelled.
* C61: the result is the two lists of operators that are handed over to `stim.Tableau.from_conjugated_generators`;
  that Stim accepts exactly lists with these relations is not modelled, nor are signs.
* C64: the cache is a finite map on keys. Reading and writing files, `diskcache`, and equality of Python values of
  different types are not modelled.
* sympy polynomials are lists of terms (`Term`: coefficient and exponents), as `expression.args` yields them; that sympy
  keeps an expanded sum in this shape, and what `poly.args` is for a single monomial (`polyArgs`), is trusted. Conversion
  of a coefficient to the field is a partial function (`coeffOf`). Symbols are sorted by a linear order on names.
* C55: python sets of group members are lists without repetition in iteration order, `set.pop` takes an arbitrary member
  (`pick` is universally quantified), permutations of the covers are elements of the products with the group of two
  elements, and `GroupMember.__lt__` (rank) is a strict total order on the members of the cover. The members handed to
  `satisfies_total_no_conjugacy` contain the subgroup generated by both subsets.
* C56: `np.savetxt(fmt="%d")`, `np.genfromtxt(dtype=int, ndmin=2)`, `str.splitlines` (except that a carriage return and
  line feed count as two breaks) and `ast.literal_eval` on integers and booleans are modelled after their documentation.
  Newline translation of text files does not matter, as no line contains a carriage return.
* C68: python's white space test is a parameter of which only `A`, `P` and `)` not being white space is used. A sympy
  permutation given by disjoint cycles moves every member of a cycle to the next one.

- C47: `nx.cartesian_product(...).edges(data=True)` lists the edges of the first graph times the nodes of the second and
  the nodes of the first times the edges of the second, by source; `nx.relabel_nodes` inserts the relabelled nodes,
  then the relabelled edges. `Pauli((val, 0))` with a galois scalar finds the enum member with equal integers.
- C77, C78: matrices without rows (the parity checks of `RepetitionCode(1)`) are ordinary matrices here; whether galois
  accepts every operation on them is not modelled.
- C81, C82: a Pauli operator is `i^a X^x Z^z`; a Stim tableau is the list of images of `X_j` and `Z_j`, and applying,
  composing and inverting tableaus and the signs of the single gates are written out after Stim's documentation. The
  checks of `from_conjugated_generators` hold by C61. Identity gates (`I`), which only serve to give a circuit its number
  of qubits, are left out; `I {dimension - 1}` for a code of dimension 0 is part of C103. The automorphisms that the
  search runs over are a parameter. In `deformed`, the shape of a matrix without rows is not modelled.
- C83: states are functions from bit strings to the complex numbers (Mathlib's `ℂ`). The matrices of the gates are
  taken from Stim's documentation; that the signs in the model's tableaus belong to these matrices is `C83_gates`.
- C84, C85: vectors and matrices stand for their bytes; `field.elements` lists all elements once with 0 first, and
  `primitive_element` generates all nonzero elements. Arrays of fields of order at most 256 have dtype `uint8`; for
  larger fields reading bytes as `uint8` fails. The order in which python iterates over a set of orbits, and the member
  that it returns first, are parameters. Inverses and Kronecker products of galois arrays are those of matrices over the field.
- C86: `random.sample`, `np.random.choice` with and without replacement and with probabilities are modelled by the expected
  values of functions of what they return (independent draws, or each remaining item with the same probability); different
  calls are independent. `range(1, field.order)` lists each nonzero element once. Rates are rational numbers. The sampled
  decoders are functions of the syndrome. The X-type part of a sample is drawn also if the Z-type part fails, which does not
  change expected values.
- C87: python's `re` is modelled by the list of all matches in the order in which a backtracking matcher finds them; `\\d` are
  the characters that `int` takes as digits. GAP is assumed to print the members of a group algebra as sums of terms
  `(Z(p^k)^m)*(..)(..)`; anything else that contains no opening parenthesis is ignored by the code. `galois` and GAP are assumed to
  use the same generators (Conway polynomials, least primitive roots), and `galois.GF(q)(x)` is assumed to take an element of
  another field by its integer, as for any array of integers.
- C61, C81, C82: `stim.Tableau.from_conjugated_generators` checks the commutation relations of the generators and raises
  if they are not those of single-qubit X and Z operators.  This check is modelled (`stimTableau`); that Stim performs
  it is taken from its documentation.
- C82: the automorphism group is enumerated outside of the model.  Theorems hold for every list of permutations, hence
  for every order of enumeration, and the loop over the list is modelled with its early exit.
- C90: decoders of ldpc, pymatching and cvxpy are recorded by name with the arguments they get; which arguments
  they accept is not modelled.  Truth values of objects are a parameter.
- C91: `np.base_repr` is modelled after the source of numpy; `galois.BCH(...).H` and `galois.ReedSolomon(...).H` are
  parameters.  That they are parity check matrices of codes of the requested dimension is a hypothesis where it is used.
- C93: `PermutationGroup.is_abelian` of sympy is modelled after its source, with a total order on array forms.
- C94: the product of permutation groups of sympy is modelled after its source.
- C95: `np.random.seed` either raises and changes nothing or sets the state; `field.Random(shape, seed=s)` of galois
  depends on `s` only and does not use the global state of numpy; `np.random.randint` gives python integers.
- C96: `==` of python asks the right operand first if its class is a proper subclass of that of the left operand.
- C97: `str.lower` is a parameter; the layout of the pages is a hypothesis of `C97_url` and `C97_page`.
- C99: the random numbers of sympy come from one generator whose state is set by the seed; `sorted` and the traversal of a set
  are arbitrary permutations.
- C100: `galois` represents the elements of a field by integers, zero by 0 (`FieldInts.Ok`); `np.max` of an empty array raises.
- C101: `ast.literal_eval` is a parameter `lit`; what it returns for the lines of rows is a hypothesis.  `str.splitlines` is
  modelled as splitting at line feeds.  `functools.cache` on `is_installed` and `require_package` is left out.
- C102: booleans given as `bound` are the integers 0 and 1; floating point bounds are not modelled.
- C103: what the functions compute is a parameter (the computations are those of C61, C62, C81, C82); that Stim refuses the
  target `-1` is taken from its documentation.
* C107: sympy sums and products of powers are lists of terms with different monomials; `nx.is_weakly_connected` is a Boolean
  parameter.
np.bitwise_count counts the ones of a word; numba.vectorize applies the function to each word.

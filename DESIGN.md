# Formal model of ajpgarner/moment: design

Source: `/repo` (C++20 library `cpp/lib_moment`), read as text. Model: Lean 4 under `lean/Verif/`.

## Layout

* `Verif/Model/*.lean`: the model. Every definition cites the file and lines it models and says where it simplifies.
* `Verif/Spec/*.lean`: small specifications that do not mention the model (actions of Pauli words on basis states,
  congruences generated by the defining relations of a scenario, sets of indices, value of a polynomial, ...).
* `Verif/Proof/*.lean`: helper lemmas.
* `Verif/Props/*.lean`: the property theorems (`Cnn_...`), each with an `example` showing a concrete case that meets its hypotheses.
* `MANIFEST.json` maps property ids to theorem names. `seeded/LOG.jsonl` logs mutation tests of the theorems.

## Trusted base

* Lean 4.33.0 kernel. Theorems depend at most on `propext`, `Classical.choice`, `Quot.sound`
  (checked with `#print axioms` and by the gate). No own axioms, no `sorry`, no `native_decide`, no `bv_decide`.
* The correspondence between C++ text and Lean definitions is by reading; the C++ is not executed.
* Modelling conventions:
  * `size_t`, `ptrdiff_t` and the small integer types are `Nat`/`Int` unless the property is about overflow
    (hashes, store keys), where they are `BitVec 64`/`UInt64`/reduction modulo 2^64.
  * `std::complex<double>` is modelled by exact elements of a field with conjugation (Mathlib's complex numbers or an abstract star field), with exact
    zero tests. Rounding and tolerance are not modelled, except where a theorem says so.
  * `std::vector`, `SmallVector`, `std::span` are `List` (or `Array`); `std::map`, `std::set` are sorted association lists
    or finite functions; iterator invalidation and allocation failure are not modelled.
  * Undefined behaviour and exceptions are separate outcomes (`Option`/`Except`) where they can occur.
  * Mutexes are atomic sections; C++ memory-order weaknesses are not modelled (sequential consistency).
  * Not modelled: the MATLAB interface (`cpp/matlab`), string formatting other than names, numerical linear algebra.

## Plan per property

| id | what is modelled | how it is proved |
|----|------------------|------------------|
| C01 | `SequenceSignType` and its operators | map to powers of `i` in the complex numbers; case analysis over the four phases, laws for all |
| C02 | `ShortlexHasher` with wrap-around modulo 2^64 | hash as numeral in a bijective base; induction on words |
| C03 | same | refuted by a witness; C02 is the part that holds |
| C04 | `OperatorSequence` constructors, product, append | state invariant over all operation histories; refuted for two constructors with witnesses, partial theorem for the others |
| C05 | `SubstringHashRange` iteration | enumeration equals the specification list of (position, length) pairs |
| C06, C07 | `PauliContext::additional_simplification` | action on basis states with phase; fold invariant; faithfulness by evaluating on states |
| C08, C09 | `PauliContext::multiply`, (anti)commutator | merge equals simplify of concatenation; parity argument |
| C10 | `LocalityContext::additional_simplification` | congruence generated by the relations; soundness by induction, completeness by showing the normal form is invariant under each relation |
| C11 | `LocalityOperatorSequenceGenerator`, `MultipartitionIterator` | enumeration theorem |
| C12 | `InflationContext::additional_simplification` | as C10 |
| C13 | `InflationContext::factorize` | invariant of the greedy loop; connectivity in the source-sharing relation |
| C14 | `find_permutation`, `apply_permutation`, `simplify_as_moment` | termination by lexicographic descent; orbit soundness; orbit invariance refuted by witness |
| C15 | `combine_symbolic_factors`, `try_multiply` | multiset specification; zero case refuted by witness |
| C16, C17 | `OperatorRulebook::reduce*` | well-founded shortlex descent; soundness in any monoid with zero and phases |
| C18 | `is_complete`, `combine` | refuted by witnesses (self overlaps, short overlaps); partial: local confluence for what is checked |
| C19 | `do_add_rule`, `reduce(rule)` | equivalence of the sets of models |
| C20 | `conjugate` of the contexts | involution and anti-multiplicativity; refuted for the non-self-adjoint case with a phase |
| C21, C22 | `Polynomial`, `PolynomialFactory` | evaluation homomorphism |
| C23, C24 | `MomentRule`, `MomentRulebook` | evaluation under satisfying assignments |
| C25, C26 | `polynomial_to_basis`, `monomial_matrix_basis` | evaluation in real coordinates |
| C27 | `SymbolTable` | invariant over all histories |
| C28 - C30 | `Tensor`, index iterators, `SquareMatrix` triangles | mixed radix induction; enumeration theorems |
| C31 - C34 | combinatorial iterators | enumeration theorems |
| C35 | `DynamicBitset` | refinement to `Finset`/membership |
| C36 | `IndexTree` | refinement to a finite map |
| C37 | `utf_conversion` | arithmetic on code points; refuted for U+007F and plane 16 |
| C38 | `ipow`, `kronecker_power` | loop invariant |
| C39 | `PersistentStorage` | invariant over histories; refuted after `clear` and after id wrap-around |
| C40, C41 | `Queue` | transition system, invariant over all interleavings; lost wake-up trace as witness |
| C42 | parallel merge tree | transition system for arbitrary worker count; invariant, progress and result |
| C43 | round-robin column workers | every interleaving gives the map |
| C44 | `linear_map_merge` | refinement to map union |
| C45 | `ShiftSorter` | least rotation specification |
| C46 | `AlphabeticNamer` | injectivity of bijective base-26 |
| C47 | `TensorConvertor` | equality of functionals over any field |
| C48 | `first_intersection_index` | two-pointer invariant |
| C49 | observable numbering | mixed radix |
| C50 | `do_monomial_multiply` | refuted by witness |
| C51, C52 | inflation word generator, independence maps | enumeration theorem; specification of source sharing |
| C53 | built-in commutation and normality rules | models of the rule set = commuting interpretations |
| C54 | products, signs and conjugates of sequences in a context | evaluation in any representation respecting the simplification |
| C55 | equality, Hermiticity and degree tests of polynomials | quantification over assignments |
| C60 | `PersistentStorageMonoid` | invariant over interleavings |
| C61 | `generate_symbol_matrix_*` | set of offsets written by each worker; refuted for Hermitian matrices |
| C62 | `transform_matrix_data` | outcome compared with sequential run; refuted for throwing functors |
| C63 | `SymbolTable` (offsets, basis lists) | invariant over operation histories |
| C64 | `Symbol` constructors, `fill_to_word_length` | decision logic; refuted for `fill_to_word_length` |
| C65 | `ImportedMatrixSystem::import_matrix` | set of assignments before and after; refuted for complex factors |
| C66 | `ImportedMatrixSystem::import_matrix` (failure) | state after an exception; refuted |
| C25 | `PolynomialToBasisVec`, `PolynomialToComplexBasisVec`, `BasisVecToPolynomial` | value as linear combination of the unknowns; round trips |
| C67 | `PolynomialToBasisMask` | bits ⟺ dependence of the value |
| C68 | `MomentRulebookToBasis` | fixed vectors and kernel ⟺ solutions of the rules |
| C56 - C59 | `MomentRulebook` completion, reduction, comparison | invariant (ordered, interreduced) kept by every step, descending measure; solution sets as semantics |
| C26 | constructors of monomial and polynomial matrices, dense, sparse and monolithic basis | combination of the basis matrices = value of the matrix ⟺ flag right |
| C69 | `MatrixBasisImpl::operator()` | answers to sequences of calls |
| C70 | `register_symbols_and_create_matrix` (one thread), `is_hermitian` | value of each entry = prefactor times moment of the word |
| C50 | `pre_multiply`, `post_multiply` of monomial matrices | value of each entry = moment of the product |
| C71 | `RawPolynomial`, products in contexts, `PolynomialFactory` | sums of operators; normal form by total weight of each word |
| C72 | `CompositeMatrix`, `add` of matrices, monomials, polynomials | value of each entry = sum of the values |
| C73 | `ValueMatrix`, `is_hermitian`, `is_antihermitian` of Eigen matrices | entries = numbers; flags = symmetry of the numbers; value of products |
| C74 | `create_substituted_matrix`, `MonomialSubstitutedMatrix`, `PolynomialSubstitutedMatrix`, flags of rulebooks | values under all solutions; values = values at solutions; Hermitian flag |
| C75 | `MomentSimplifierNoWrappingChain`, `MomentSimplifierNoWrappingLattice` | same simplified word iff translates; least bounds; offsets translate |
| C76 | `SiteHasher` | hash and unhash inverse; shifts translate words; order; least alias |
| C77 | `MomentSimplifierWrapping` | same simplified word iff translates around ring or torus |
| C78 | `MomentSimplifierWrapping::chain_offset`, `lattice_offset` | offsets translate words |
| C79 | `PauliSequenceGenerator`, `permutation_fill` | lists of all words: membership, no duplicates, order of length |
| C80 | `chain_nn_sequences`, `chain_next_nn_sequences` | words of neighbours on chains: membership, no duplicates |
| C81 | `lattice_neighbour_pairs`, `lattice_neighbour_triplets`, `lattice_neighbour_squares` | words of neighbours on lattices: membership, multiplicity, rejection |
| C82 | `make_aliased`, `create_matrix`, `MomentMatrixGenerator`, `LocalizingMatrixGenerator` | values of entries under functionals, Hermitian flag, positivity |
| C83 | `OperatorMatrixFactoryWorker`, `OperatorMatrixFactoryMultithreaded` | transition system of threads: invariant, progress, termination, contents |
| C84 | `OperatorMatrixFactoryWorker` | exceptions in threads |
| C85 | `dimino_generation` | enumeration of a group: reachability in coset graphs, no duplicates |
| C86 | `decompose_build_list`, `determine_parents` | binary decomposition of lengths |
| C87 | `RepresentationMapper`, `Group::create_representation` | invariant over all histories; matrices represent homomorphisms |
| C88 | `build_generic_sequences`, `get_if_canonical` | exactly the irreducible words, in shortlex order; span |
| C89 | `DictionaryMap` (`OSGIndex`) | invariant over all histories; values of positions |
| C90 | `SymbolTableMap`, `MapCore`, `LUMapCoreProcessor` | refinement: values of mapped symbols |
| C91 | `SymmetrizedSTMFactory` | composition of C87, C89, C90: values of mapped symbols are means over the group |
| C92 | `do_create_transformed_matrix`, `SymbolTableMap::operator()` | refinement: values of entries |
| C94 | `ProbabilityTensor::do_make_element` | refinement: values of polynomials over ranges of the Collins-Gisin tensor, by induction on parties |
| C95 | `FullCorrelator::make_element_no_checks` | refinement: expansion of products over subsets of parties |
| C96 | `ProbabilityTensor::explicit_value_rules` | values of polynomials |
| C98 | `LocalityContext`, `MomentMatrix`, `LocalizingMatrix` | refinement, from the word generator to values of entries |
| C93 | `LocalityCollinsGisin`, `CollinsGisin` | refinement; invariant over growth of the table and refreshes |
| C97 | `PolynomialTensor`, `ProbabilityTensor`, `FullCorrelator`, `MaintainsTensors` | invariant over operations |
| C99 | `MaintainsTensors` | invariant over interleavings; refutation |
| C100 | `MatrixSystem`, `MatrixIndices`, index storages, `RulebookStorage`, composite matrices | invariant by induction over operations, rely-guarantee contract |
| C101 | `LocalityMatrixSystem` with all functions that make its matrices | instance of the contract of C100, refinement to algebras of operators |
| C102 | `float_utils.h`, tolerances in `Polynomial` and in `PolynomialOrderingWithCoefficients` | decision logic, bounds of errors, reduction to the exact models |
| C103 | matrices of Pauli scenarios: generators, Pauli products, translations, symbol table | end-to-end refinement into representations of the Pauli relations; Pauli matrices as a model |
| C104 | factor tables and extended matrices of inflation scenarios | invariant over histories, loops refined to products of values, positivity as a congruence, instance from C13 and C14 |
| C105 | extended matrices with several threads | invariant over all interleavings, with the table that the temporary tables stand for; measure for termination; refinement to C104 |
| C106 | rules for products in inflation scenarios | values of products; solutions of expanded rulebooks from C56 and C57; induction over histories |
| C107 | suggested extensions of moment matrices | invariant of the search; the entries of extended matrices from C104 |
| C108 | threads that make representations | invariant over all interleavings; a measure for termination; agreement with the fold of one thread |
| C109 | matrix systems of Pauli scenarios, indices with neighbours | invariant over all histories; assume-guarantee for the makers |
| C110 | names of operators, texts of words | decision logic; round trip; unique decoding |
| C111 | matrix systems of particular Pauli scenarios: words, canonical forms, entries and numbers together | refinement: the functions of C103, C81, C105 meet the contract of C109, so all histories give the right moments |
| C112 | positions of combinations of indices in arrays | refinement: the iterator of C29 and strides of C28 give the positions of `sub2ind` |
| C113 | symbols as text | decision logic and round trip: texts that are read are those of a grammar, and texts that are written are compared with it |
| C114 | moment and localizing matrices of inflated networks | refinement: C12, C14, C02, C27, C51, C70 and C82 together; every functional that cannot tell copies of sources apart |
| C115 | Collins-Gisin and probability tensors of inflated networks | invariant over making, growing and refreshing; refinement to products of operators of copies; C94 and C114 |
| C116 | Recursive storage with widths or ascending chunks | structural induction over trees; visits refined to a fold over a sorted list; round trip of set and read |
| C117 | Words and matrices of algebraic contexts, from end to end | completeness: normal forms span a module on which the rules hold, so equations true in every algebra are those of normal forms; refinement to C27, C70, C82 |
| C118 | Short vectors refine lists, for programs with many vectors | simulation by induction over calls; each vector's pointer is to its own buffer or its own block |
| C119 | Derived systems hold transformed matrices of the base system, by index and by source | invariant over operations on both systems: numbers that belong together hold a matrix and its transform |
| C120 | Stored tensors and tensors whose elements are made on demand show the same | simulation of iterators, over the iteration of C29; round trips of C28 |
| C121 | Requests to parties and contexts agree with the numbering of outcomes; contexts from lists of numbers are as the numbers say | refinement: the context equals a table computed from names and numbers; agreement with the numbers of `Model/Locality` (C10) |
| C122 | Different words have different texts in a locality context | injectivity of texts, cut at characters that names do not have |
| C123 | Different words have different texts in generic, Pauli and inflation contexts | injectivity of texts, cut at the first character of another kind |
| C124 | Matrix systems of inflation scenarios keep the promises of C100; factor table | contract of a maker, invariant over runs, splitting of words |
| C125 | Rules given by the user are read as the equations they say | decision logic, round trip to equations in all algebras |
| C126 | Polynomials are read as what they say, and returned polynomials can be given again | decision logic, round trip, value in all moments |
| C127 | Indices of measurements and outcomes are read as given, or refused | decision logic |
| C128 | Making probabilities explicit gives equations or values that hold exactly for the given probabilities | refinement, equivalence of equations |
| C129 | Rulebooks say exactly what was given, and applying them decides equality | refinement, equivalence of equations |
| C130 | Monomials returned as words say what they are, and can be given again | refinement, round trip |
| C131 | Rulebooks that are returned can be given again; merging in any order and in portions | round trip, algebraic law |
| C132 | Symmetrizing a polynomial gives the average of its translates | algebraic law, refinement |
| C133 | Sums, products and commutators of arrays act entry by entry | algebraic law, decision logic |
| C134 | Simplified words and conjugates say what they should | algebraic law, round-trip, decision logic |
| C135 | Arrays of numbers are named entry by entry | refinement, round-trip |
| C136 | The basis matrices of a cell of polynomials have the polynomials as columns | refinement, decision logic |
| C137 | Symbols and polynomials are transformed to derived systems one by one | refinement, decision logic |
| C138 | The expressions of localizing matrices are read as what they say | decision logic, refinement |
| C139 | Rows of the symbol table say what the symbols are, and searches give the right row | refinement, invariant, decision logic |
| C140 | Matrices of numbers are read as they are, whatever form they are given in | refinement, round-trip |
| C141 | A choice is read as the one with this name, whatever the case of the letters | decision logic |

## Where the code does not have a stated property

Each item is a proved theorem with a concrete witness; the part that does hold is proved beside it.

| theorem | what happens |
|---------|--------------|
| `C02` / `C03` refutations | hashes wrap modulo 2^64, so long words collide and order is lost |
| `C04_refuted_presorted`, `C04_refuted_append_to_zero` | the presorted constructor hashes a moved-from vector; appending to zero keeps hash 0 |
| C08, C14, C15, C31, C32, C49 refutations | see the doc comments of the theorems |
| `C16_refuted_signed_identity` | a word reducing to a phase times the identity loses the phase |
| `C16_refuted_endless` | a rule from a word to the same word with another phase is accepted; reduction does not end |
| `C17_refuted_empty` | the two search strategies disagree on a rule with empty left side |
| `C18_refuted_self_overlap`, `C18_refuted_two_overlaps` | `is_complete` holds though results are not unique |
| `C19_refuted_signed_identity`, `C19_refuted_imaginary` | adding rules changes or drops equations |
| `C20_refuted_phase` | conjugation with non-self-adjoint operators drops the phase |
| `C22_refuted_plus` | `operator+` merges by symbol number even for polynomials ordered by hash |
| `C55_refuted_conjugate` | `is_conjugate` does not look at symbols that are neither Hermitian nor anti-Hermitian |
| `C55_refuted_degree_by_hash` | the by-hash `maximum_degree` does not advance its iterator |
| `C24_refuted_direction_length` | the rule constructor from a direction is wrong for directions that are not units |
| `C56_refuted_inject` | injecting a second rule for a symbol changes the flags of the rulebook |
| `C37_refuted_delete`, `C37_refuted_last_plane`, `C37_refuted_last_plane_back` | U+007F is counted as two bytes; characters from U+100000 on get wrong code units, in both directions |
| `C38_refuted_lowest`, `C38_refuted_negative` | signed fast power overflows on a representable result; a negative exponent does not end |
| `C44_refuted_hint_signed` | insertion hints compare signed keys as unsigned numbers |
| `C35_refuted_filled`, `C35_refuted_complement` | a bitset of size 0 writes outside its storage when filled with ones or complemented |
| `C39_refuted_clear`, `C39_refuted_wrap` | keys are reused after `clear` and after 2^32 objects |
| `C41_refuted_push`, `C41_refuted_abort` | a notification between the test of a waiting consumer and its sleep is lost: it sleeps beside an item, or after an abort |
| `C61_refuted_hermitian` | Hermitian symbol matrices: both column workers write every off-diagonal entry |
| `C62_refuted`, `C62_refuted_run` | exceptions in parallel matrix transformations are dropped |
| `C64_refuted_fill` | `fill_to_word_length` marks a word that is minus its conjugate as Hermitian |
| `C65_refuted_diagonal`, `C65_refuted_complex_factor` | import with complex factors: a non-Hermitian matrix accepted as Hermitian, a Hermitian one rejected |
| `C66_refuted` | an import rejected for a vanishing symbol leaves marks behind; a later unrelated import makes the symbol vanish |
| `C25_refuted_imaginary` | `PolynomialToBasisVec` for the imaginary part stores the coefficients of the real part in its first vector |
| `C25_refuted_round_trip`, `C25_refuted_of_parts` | polynomial → complex vectors → polynomial turns a + ib into a - b; the constructor from real and imaginary parts multiplies the real one by i |
| `C67_refuted_monomial` | the mask of a monomial never has bit 0 |
| `C68_refuted_rewrite` | with a rule in a skew direction, one application of the rewrite matrix does not give a solution |
| `C26_refuted_monomial` | a matrix flagged Hermitian with factor i off the diagonal has the basis of another matrix |
| `C26_refuted_polynomial` | `[[0, X], [X, 0]]` is taken for Hermitian when X is complex, and its basis is wrong |
| `C69_refuted_stale` | a basis made before an import that renumbers the basis elements is still given afterwards |
| `C70_refuted_flag` | the matrix `[1]` made with prefactor i is flagged Hermitian |
| `C70_refuted_negative` | the matrix made from the word −a has the entry −#2, where the word of #2 is itself −a |
| `C70_refuted_conjugate` | with the rules (3,0) = −(1,2) and (2,1) = −(0,3), the word (1,2) becomes the conjugate of (0,3), without the sign |
| `C50_refuted_monomial` | `[1]` times the symbol of ab gives ba |
| `C50_refuted_clone` | a matrix without matrix of operators times 1 reads a null pointer |
| `C50_refuted_canonical` | if aa = 0, `[a]` times a + b gives a polynomial with a term for symbol 0 |
| `C72_refuted_zero` | adding zero to a matrix of polynomials throws, as such matrices cannot be cloned |
| `C72_refuted_canonical` | adding 1 to the matrix of monomials `[0]` gives a polynomial with a term for symbol 0 |
| `C73_refuted_anti` | the real matrix `[0 1; -1 0]` is not flagged anti-Hermitian |
| `C73_refuted_sparse` | the sparse matrix `[0 1; 0 0]` is flagged Hermitian |
| `C73_refuted_weight` | `[1]` times the letter a with weight i is flagged Hermitian; `[i]` times it is not, though its value is −⟨a⟩ |
| `C73_refuted_zero_word` | `[1]` times the raw polynomial 0 + 1 has the value 2 |
| `C74_refuted_failed` | after `complete()` throws for 3 = 1 + X₂, 3 = 2 + X₂, the rulebook holds 3 → 1 + X₂ and counts as monomial |
| `C74_refuted_inject` | injecting X → 1 for an imaginary X makes `[[0, X], [-X, 0]]` non-Hermitian, but still flagged |
| C76, C77 | `SiteHasherSized<N>::row_cyclic_shift` (N ≥ 3) | reduces the row offset by `row_width` instead of `column_height` | lattice of 9 rows and 8 columns |
| C77 | `calculate_mask_from_bits` | shifts by 64 bits or more for `column_height` > 32 | every closed chain of more than 32 qubits |
| C76, C77 | `BoundaryCalculator` | shifts by 64 bits when the height divides 32 | lattice of 4 rows and 10 columns |
| C78 | `chain_offset`, `lattice_offset` | signed offset modulo unsigned size; the branch for negative numbers never runs | 3 qubits, offset −1 |
| C80 | `chain_nn_sequences` (closed) | words on all qubits are listed once for each starting point; on two qubits also pairs | every closed chain with level at least the number of qubits |
| C81 | `lattice_neighbour_triplets` | the offsets of the fourth corner repeat those of the second | every open lattice with at least two rows and columns |
| C81 | `symmetrical_fill` | closed lattices without translational symmetry throw at level 3 | 3 by 3 |
| C83 | `LocalizingMatrixGenerator::should_be_hermitian` | compares hashes only, so a word that equals minus its conjugate counts as Hermitian; threads then mirror conjugates with the wrong sign | x, y with yx = -xy, word xy |
| C84 | `OperatorMatrixFactoryMultithreaded` | a worker that throws never signals the end of its phase, so the call hangs (contexts with aliases) | 2 by 2, two threads |
| C84 | `OperatorMatrixFactoryMultithreaded` | `get` on the first future rethrows while the other threads still write to data being released | 2 by 2, two threads |
| C87 | `RepresentationMapper` | looks up products by hash only, and drops their sign | x, y with yx = -xy, swap of x and y: xy goes to xy instead of -xy |
| C90 | `SymbolTableMap::construct_map` | reads the list of symbols by row number without check | 3 x 2 matrix: element 2 of a list of length 2 |
| C92 | `SymbolTableMap::operator()(Monomial)` | multiplies by the factor before it conjugates | i times the conjugate of a symbol with value 1: gives -i instead of i |
| C92 | `create_derived_matrix` | symbols of words beyond the map become zero, no exception | matrix with one entry of value 1: becomes 0 |
| C95 | `FullCorrelator::make_general` | `1 << party_count` is an int | 31 parties with a measurement each: size negative or undefined |
| `C93_refuted_bound`, `C93_refuted_outcome`, `C93_refuted_virtual` | `measurement_to_range` compares the number of a measurement with `>`, so that the number after the last is read out of bounds; it does not check outcomes, so that the implied one gives the entry of the next measurement; `fill_missing_symbols` and `HasAllSymbols` say true for tensors of more than 1024 elements |
| `C99_refuted_destroyed` | `RefreshCollinsGisin` (maintains_tensors.cpp:41-50) makes a new tensor without looking again; a probability tensor made meanwhile refers to the one that is destroyed |
| `C100_refuted_delete` | `delete_matrix` (matrix_system.cpp:93-108) compares with `>`: the number after the last matrix is read out of bounds, in a new system the number 0 |
| `C100_refuted_sign` | localizing matrices are found by the hash of the word, so that a request for −w gives the matrix of w if this was made before |
| `C100_refuted_stale` | after `merge_in` into a rulebook, a substituted matrix that was made with the old rules is still given |
| `C100_deleted` | `delete_matrix` leaves the index in place, so that a deleted matrix can never be made again |
| C102 | `PolynomialOrderingWithCoefficients` has cycles for coefficients a few ε apart, yet orders a `std::map`; `approximately_zero(complex, 0)` is never true; scaling keeps terms below the tolerance; `real_or_imaginary_if_close` ignores its argument |
| C103 | `PauliMonomialIndex` compares words by hash only, so X and iX have the same index, though one matrix is Hermitian and the other is not |
| C104 | `make_extended_matrix_single_thread` keeps the reference `row_factors` while new symbols are registered, so with two scalars and a full storage it reads freed memory |
| C104 | Extending by the symbol 0 registers new symbols with factors 0, …, 0 instead of writing the symbol 0 |
| C104 | Words that are added after an extension do not find the symbols of the extension: one product has two symbols, and no rule says that they are equal |
| C105 | `TemporarySymbolsAndFactors::find_or_register_factors` takes the value of a node of the temporary tree that has none, if the factors are the beginning of those of another new product: `bad_optional_access` in a thread |
| C105 | With several threads `make_extended_matrix` does not check the scalars: an id that is not in the table is read |
| C106 | `expand_rulebook` returns the number of rules added minus the number of rules before, not the growth |
| C106 | `expand_rulebook` leaves expansion mode on for rulebooks without rules and after exceptions: `add_raw_rules` then accepts rules for a rulebook in use |
| C106 | `expand_rulebook` uses the rules from before the expansion only: from A = 1/2 and AB = 1/4 follows B = 1/2, but BC is not rewritten |
| C106 | Symbols from extended moment matrices are never expanded in existing rulebooks |
| C107 | `ExtensionSuggester` tries single factors only: with four independent observables at level 2, ABCD is in the matrix, but no suggestion makes it appear in the extension |
| C110 | With interleaved conjugates, `names[0]` is moved to itself (name_table.cpp:85) and is lost with the GNU library: `C110_refuted_first` |
| C110 | The text of the identity drops the sign (algebraic_context.cpp:172): `C110_refuted_sign`; without braces `i` is ambiguous: `C110_refuted_imaginary` |
| C111 | With translational symmetry, matrices of commutators of polynomials in words throw if the words have no symbols: `C111_refuted_commutator` |
| C111 | A request for a word with a sign gives the matrix of the same word with the sign asked for first: `C111_refuted_sign` |
| C112 | With no lists at all, the position before the first dimension is taken: `C112_refuted_empty` |
| C113 | The least integer is negated: `C113_refuted_least` |
| C113 | Not all factors are finite: `C113_refuted_finite` |
| C113 | Texts of symbols with factors are not read: `C113_refuted_factor`, `C113_refuted_minus` |
| C113 | Texts of whole numbers are read as symbols: `C113_refuted_scalar` |
| C114 | Entries that only differ by a permutation of copies have different symbols: `C114_refuted_orbit` |
| C114 | `apply_permutation` drops the sign of the word: `C114_refuted_sign` |
| C115 | Numbers of copies are not checked: out-of-bounds read, or the next observable: `C115_refuted_bound` |
| C115 | Numbers of outcomes are not checked: boxes and indices outside the tensor: `C115_refuted_outcome` |
| C115 | Tensors of more than 1024 elements always claim to have all symbols: `C115_refuted_virtual` |
| C116 | `access(indices)` returns a reference to a local copy: `C116_refuted_access`, `C116_refuted_access_always` |
| C117 | A context that reports to be complete can turn equal words into different sequences: `C117_refuted_reported` |
| C117 | Completion reports success while the adjoint of a rule does not follow (`conjugate_ruleset` skips the first rule after each success): `C117_refuted_completed` |
| C118 | `v.emplace_back(v[0])` on a full vector on the heap reads freed memory: `C118_refuted_emplace` |
| C119 | `DerivedMatrices(k)` first and the same matrix by level then makes it twice; the assertion `actual_offset == sym_offset` fails: `C119_refuted_alias` |
| C120 | A stored tensor without dimensions reads beyond its elements at the empty index, parts of it report one element and have none: `C120_refuted_empty`; the offset of the end depends on the way of storage: `C120_refuted_end` |
| C121 | Two unnamed arguments with two or more parties: one number of outcomes is prepared, and more are read: `C121_refuted_arguments`; `Party::operator[]` of a moved party that is in no context: `C121_refuted_unattached`; more than 32767 operators: `C121_refuted_large` |
| C122 | Negated identity written `1`, imaginary signs not written: `C122_refuted_sign`; the check for unknown operators lets one through: `C122_refuted_unknown`; names with digits: `C122_refuted_names` |
| C123 | Inflation: negated identity written `1`, imaginary signs not written: `C123_refuted_sign` |
| C124 | Words registered for a polynomial in operators get no factors: `C124_refuted_factors` |
| C125 | `A = i B` is stored as `B = i A` (read_monomial_rules.cpp:170-181): `C125_refuted_imaginary` |
| C125 | Operator numbers wrap around to 16 bits, fractions are cut off: `C125_refuted_range`, `C125_refuted_fraction` |
| C125 | `A = i A` is dropped, `A = -A` makes reduction endless: `C125_refuted_same`, `C125_refuted_endless` |
| C126 | `StagingPolynomial` loses the sign of resolved words: for Pauli operators `X Y` is read as `Z` (read_opseq_polynomial.cpp:64, 267-277): `C126_refuted_sign` |
| C126 | Symbol 2.5 is read as symbol 2; tiny imaginary parts of coefficients are not returned: `C126_refuted_fraction`, `C126_refuted_exact` |
| C127 | `OVConvertor::read_ovo_index` compares with `>` instead of `>=`: the outcome after the last is accepted (read_measurement_indices.cpp:286): `C127_refuted_outcome` |
| C127 | Index 2.5 is read as index 2: `C127_refuted_fraction` |
| C128 | `MakeExplicit::check_count` appends the sum of the given values instead of one minus the sum (make_explicit.cpp:266-272): `C128_refuted_missing` |
| C129 | `parse_as_sublist` uses `emplace`: a second, contradictory value for a symbol is ignored (create_moment_rules.cpp:175): `C129_refuted_twice` |
| C129 | Numbers of symbols in arrays of 64 bit integers are cut to 32 bits (create_moment_rules.cpp:161): `C129_refuted_wrap` |
| C130 | `FullWriteFunctor` and `AliasedWriteFunctor` return the coefficient ±1 for words with signs ±i, unlike `PartialWriteFunctor` (full_monomial_specification.cpp:228, 269): `C130_refuted_imaginary` |
| C130 | Zero entries of matrices of monomials are returned as the empty word, which is the identity, with the prefactor as coefficient (full_monomial_specification.cpp:248-256): `C130_refuted_zero` |
| C131 | `as_symbol_cell` drops imaginary parts within tolerance of zero: the rule `x → i·2⁻⁵²` is returned as `x → 0` (export_polynomial.cpp:59-79): `C131_refuted_tiny` |
| C132 | `symmetrical_copy` on open chains and lattices translates only away from the first site: on two qubits, `Z` on the first qubit becomes the average, but `Z` on the last qubit stays (lattice_duplicator.cpp:385-420): `C132_refuted_left` |
| C134 | `mtk('simplify', …)` and `mtk('conjugate', …)` return for zero the empty word with sign 1, as for the identity; only the third output, the hash, differs. `C134_refuted_zero`: two outcomes of one measurement. |
| C135 | `mtk('alphabetic_name', …)` refuses negative numbers only if they are given alone: in arrays, the integer -1 gets the name of 2⁶⁴ - 1, and -1.0 is undefined behaviour (alphabetic_name.cpp:43): `C135_refuted_negative` |
| C136 | `mtk('generate_basis', …)` of a cell permits one output, but always assigns two; `IOArgumentRange::operator[]` only has an `assert` (generate_basis.cpp:95, 174, io_parameters.h:105-108): `C136_refuted_one` |
| C137 | `mtk('transform_symbols', …)` of `i` times the conjugate of a symbol that is not Hermitian gives a polynomial with the conjugate of the factor, through the same step as C92: `C137_refuted_factor` |
| C138 | Localizing words with numbers that do not fit in 16 bits are not refused: 65537 is the first operator (read_localizing_matrix_indices.cpp:56): `C138_refuted_wrap` |
| C138 | The flag `zero_indexing` has no effect with the flag `operators`: `StagingPolynomial` always subtracts one (read_localizing_matrix_indices.cpp:82, read_opseq_polynomial.cpp:162-173): `C138_refuted_flag` |
| C139 | `mtk('symbol_table', …)` searches for words without a check of the range: with `r` operators, operator `r + 1` has the hash of the first operator twice, and the row of that word is returned (symbol_table.cpp:72-81, 178-189): `C139_refuted_range` |
| C139 | Rows of old symbols change if a matrix is imported that tells which symbols are real, so that rows `from` the first new symbol on do not bring a copy of the table up to date (symbol_table.cpp:199-248 of the library): `C139_refuted_bits` |
| C140 | Matrices of texts: the state of the stream is not looked at after `ss >> value`, so texts that are no numbers are read as zero, and an empty text leaves `value` without a value, which is then used (read_eigen_sparse.cpp:86-91, read_eigen_dense.cpp:83-86): `C140_refuted_junk`, `C140_refuted_blank` |
| C141 | `read_choice` writes the messages for arrays of strings that are not single, but throws no exception: several strings are taken for the first, and an empty array is read past its end (read_choice.cpp:29-34): `C141_refuted_several`, `C141_refuted_empty` |

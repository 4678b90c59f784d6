{"id": "C01", "title": "The four word phases behave as powers of i", "statement": "The four phases an operator word may carry (+1, +i, -1, -i) multiply, conjugate, negate and divide exactly as the complex numbers they stand for.", "quantifier": "all pairs and triples of phases", "why_tests_cant": "The laws are used under every later product; a table test per operation does not establish that the operations cohere (associativity, quotient law, conjugation being an automorphism).", "anchors": ["cpp/lib_moment/sequence_sign_type.h: SequenceSignType, operator*, conjugate, negate, difference"]}
{"id": "C02", "title": "Word hashes are injective and follow shortlex order", "statement": "For every alphabet size, two different words whose lengths are within the alphabet's hashable length have different 64-bit hashes; comparing hashes is the same as comparing first length and then lexicographic order; no such word has hash 0, the value reserved for the zero word; the empty word has hash 1.", "quantifier": "all alphabet sizes, all pairs of words up to the longest hashable length", "why_tests_cant": "The number of pairs of words is astronomically large; equality of words in the library is decided by hash alone.", "anchors": ["cpp/lib_moment/shortlex_hasher.h: ShortlexHasher::operator(), longest_hashable_string"]}
{"id": "C03", "title": "Distinct words never collide", "statement": "Two different words never share a hash, whatever their length.", "quantifier": "all alphabet sizes and all words", "why_tests_cant": "A collision needs a word longer than any unit test uses.", "anchors": ["cpp/lib_moment/shortlex_hasher.h: ShortlexHasher::operator()", "cpp/lib_moment/dictionary/operator_sequence.cpp"]}
{"id": "C04", "title": "The stored hash of a word always describes the word", "statement": "Through any sequence of constructions, products, conjugations and appends, the hash stored with an operator word equals the hash of the operators it holds, and is 0 exactly when the word is the zero word, which holds no operators.", "quantifier": "all words and all histories of operations on a word", "why_tests_cant": "Histories are unbounded; a stale hash only shows for particular lengths or orders of operations.", "anchors": ["cpp/lib_moment/dictionary/operator_sequence.cpp: OperatorSequence::OperatorSequence, append, operator*", "cpp/lib_moment/hashed_sequence.h"]}
{"id": "C05", "title": "Searching by substring hashes sees every substring once", "statement": "Enumerating the substring hashes of a word visits every non-empty contiguous substring exactly once, and the hash reported for it is the hash the word hasher would give it.", "quantifier": "all words over all alphabets", "why_tests_cant": "Every position/length pair of every word must be covered with a correct incremental hash.", "anchors": ["cpp/lib_moment/utilities/substring_hasher.h: SubstringHashRange"]}
{"id": "C06", "title": "Pauli simplification preserves the operator", "statement": "Simplifying any word of single-qubit Pauli operators gives a phase and a word whose product is the same operator on every computational basis state as the original word.", "quantifier": "all qubit counts and all words of Pauli operators with any starting phase", "why_tests_cant": "Words are unbounded and signs depend on the whole interleaving.", "anchors": ["cpp/lib_moment/scenarios/pauli/pauli_context.cpp: PauliContext::additional_simplification"]}
{"id": "C07", "title": "Pauli normal forms are canonical", "statement": "The simplified word lists each qubit at most once in increasing order, and two words of Pauli operators simplify to the same phase and word exactly when they are the same operator.", "quantifier": "all pairs of Pauli words with phases", "why_tests_cant": "Uniqueness quantifies over all pairs of words.", "anchors": ["cpp/lib_moment/scenarios/pauli/pauli_context.cpp: PauliContext::additional_simplification"]}
{"id": "C08", "title": "Multiplying simplified Pauli words directly is the same as concatenating and simplifying", "statement": "The merge-based product of two simplified Pauli words equals the simplification of their concatenation; the product is associative with the empty word as unit; zero is absorbing and there is a single zero.", "quantifier": "all pairs and triples of simplified Pauli words, including the zero word and phases", "why_tests_cant": "Two separate algorithms must agree on all inputs.", "anchors": ["cpp/lib_moment/scenarios/pauli/pauli_context.cpp: PauliContext::multiply"]}
{"id": "C09", "title": "Pauli commutators and anticommutators vanish exactly when they should", "statement": "For simplified Pauli words the commutator routine returns zero exactly when AB = BA and otherwise twice the product word; the anticommutator routine returns zero exactly when AB = -BA.", "quantifier": "all pairs of simplified Pauli words", "why_tests_cant": "Decision is a parity over overlapping qubits; must hold for any overlap pattern.", "anchors": ["cpp/lib_moment/scenarios/pauli/pauli_context.cpp: PauliContext::commutator, anticommutator"]}
{"id": "C10", "title": "Locality words: simplification decides equality of operators", "statement": "In a locality scenario (parties commute, each outcome operator is a projector, outcomes of one measurement are mutually exclusive) two words simplify to the same result exactly when the scenario's relations make them equal; simplification is idempotent and a word is zero exactly when the relations force it.", "quantifier": "all scenarios (parties, measurements, outcomes) and all pairs of words", "why_tests_cant": "Completeness of a normal form quantifies over all derivations.", "anchors": ["cpp/lib_moment/scenarios/locality/locality_context.cpp: LocalityContext::additional_simplification", "cpp/lib_moment/scenarios/locality/party.cpp: Party::mutually_exclusive"]}
{"id": "C11", "title": "Locality word lists are complete and free of repeats", "statement": "The list of operator words generated for a locality scenario up to a given length contains every simplified non-zero word of at most that length exactly once and nothing else.", "quantifier": "all scenarios and all lengths", "why_tests_cant": "Two code paths (one party, several parties via compositions of the length) have to be exhaustive for every shape.", "anchors": ["cpp/lib_moment/scenarios/locality/locality_osg.cpp: LocalityOperatorSequenceGenerator", "cpp/lib_moment/utilities/multi_partition.h"]}
{"id": "C12", "title": "Inflation words: simplification decides equality of operators", "statement": "In an inflation scenario (everything commutes, projective observables idempotent, outcomes of one observable copy mutually exclusive) two words simplify to the same result exactly when the relations make them equal.", "quantifier": "all networks, inflation levels and pairs of words", "why_tests_cant": "Completeness quantifies over all derivations.", "anchors": ["cpp/lib_moment/scenarios/inflation/inflation_context.cpp: InflationContext::additional_simplification"]}
{"id": "C13", "title": "Factorisation splits a moment into its independent parts", "statement": "Factorising a word yields groups of operators that together are the word's operators with multiplicity, no two groups share a source, and no group can be split further without sharing a source.", "quantifier": "all networks, inflation levels and words", "why_tests_cant": "Connected-component property over arbitrary hypergraphs.", "anchors": ["cpp/lib_moment/scenarios/inflation/inflation_context.cpp: InflationContext::factorize"]}
{"id": "C14", "title": "Canonical moments respect source relabelling", "statement": "Rewriting a word to its canonical moment always terminates, returns a word obtained from it by permuting copies of each source, is idempotent, and gives the same answer for any two words that differ by such a permutation.", "quantifier": "all networks, inflation levels, words and source permutations", "why_tests_cant": "Orbit invariance ranges over all permutations; termination over all words.", "anchors": ["cpp/lib_moment/scenarios/inflation/inflation_context.cpp: find_permutation, apply_permutation, simplify_as_moment"]}
{"id": "C15", "title": "Products of factor lists", "statement": "Combining two lists of moment factors gives the sorted list of the factors of both with unit factors removed, the unit list when nothing remains, and the zero list as soon as either side has a zero factor; the product of no factors is one.", "quantifier": "all pairs of sorted factor lists", "why_tests_cant": "Edge cases (zero, only units, empty) interact for lists of every length.", "anchors": ["cpp/lib_moment/scenarios/inflation/factor_table.cpp: combine_symbolic_factors, try_multiply"]}
{"id": "C16", "title": "Reducing a word by operator rules is sound, terminates and leaves nothing to reduce", "statement": "For any set of operator rules, reducing a word always terminates, the result equals the input in every algebra where the rules hold (phases and zero included), and no rule's left side occurs in the result.", "quantifier": "all rule sets, all words, all algebras satisfying the rules", "why_tests_cant": "Quantifies over all algebras and all rewrite sequences.", "anchors": ["cpp/lib_moment/scenarios/algebraic/operator_rulebook.cpp: OperatorRulebook::reduce, reduce_via_iteration, reduce_via_search", "cpp/lib_moment/scenarios/algebraic/operator_rule.cpp"]}
{"id": "C17", "title": "Both reduction strategies give the same answer", "statement": "Reducing by scanning the rules and reducing by searching substring hashes give the same simplified word for every rule set for which reduction results are unique; and each finds something to reduce exactly when the other does.", "quantifier": "all rule sets and all words", "why_tests_cant": "The strategy is chosen by a size heuristic, so which one runs changes with word length and rule count.", "anchors": ["cpp/lib_moment/scenarios/algebraic/operator_rulebook.cpp: reduce_via_iteration, reduce_via_search, suggest_reduction_method"]}
{"id": "C18", "title": "A rulebook reported complete gives unique results", "statement": "When a rulebook reports that it is complete, every word has exactly one fully reduced form.", "quantifier": "all rulebooks and all words", "why_tests_cant": "Confluence is a statement about all pairs of rewrite sequences.", "anchors": ["cpp/lib_moment/scenarios/algebraic/operator_rulebook.cpp: is_complete, complete, try_new_combination", "cpp/lib_moment/scenarios/algebraic/operator_rule.cpp: OperatorRule::combine"]}
{"id": "C19", "title": "Adding and completing rules never changes what the rules imply", "statement": "Adding a rule, merging rules with a common left side, and adding rules derived from overlaps keep exactly the same consequences: an algebra satisfies the resulting book exactly when it satisfied the original rules.", "quantifier": "all rulebooks, all added rules, all algebras", "why_tests_cant": "Quantifies over all algebras.", "anchors": ["cpp/lib_moment/scenarios/algebraic/operator_rulebook.cpp: do_add_rule, reduce(OperatorRule), try_new_combination", "cpp/lib_moment/scenarios/algebraic/operator_rule.cpp: combine, merge_partial"]}
{"id": "C20", "title": "Conjugating twice gives the word back and reverses products", "statement": "Conjugation of words (reversal with operator-wise adjoints, phase conjugated) is an involution and reverses products, for every way of pairing operators with adjoints.", "quantifier": "all words, phases and adjoint conventions", "why_tests_cant": "Sign and order errors appear only for particular phases and pairings.", "anchors": ["cpp/lib_moment/scenarios/algebraic/algebraic_context.cpp: conjugate", "cpp/lib_moment/scenarios/algebraic/algebraic_precontext.cpp", "cpp/lib_moment/scenarios/context.cpp: conjugate"]}
{"id": "C21", "title": "Building a polynomial adds up like terms", "statement": "Constructing a polynomial from any list of monomials gives a strictly ordered list without repeated (symbol, conjugation) pairs and without zero terms whose value under every assignment of values to symbols equals the sum of the input monomials.", "quantifier": "all monomial lists and all value assignments", "why_tests_cant": "Order, cancellation and repetition patterns are unbounded.", "anchors": ["cpp/lib_moment/symbolic/polynomial.cpp: Polynomial::make_canonical", "cpp/lib_moment/symbolic/polynomial_factory.cpp"]}
{"id": "C22", "title": "Polynomial arithmetic respects values", "statement": "Sum, difference, scaling, negation, conjugation and real/imaginary part of polynomials agree with the same operations on their values, and return canonical polynomials.", "quantifier": "all canonical polynomials, scalars and value assignments", "why_tests_cant": "Two-pointer merging must be right for every interleaving.", "anchors": ["cpp/lib_moment/symbolic/polynomial.cpp: Polynomial::operator*, is_conjugate", "cpp/lib_moment/symbolic/polynomial_factory.cpp: sum, scale, Real, Imaginary"]}
{"id": "C23", "title": "Moment substitution preserves values and removes the substituted moment", "statement": "Applying a moment rule to a polynomial keeps its value under every assignment satisfying the rule, and the result no longer mentions the replaced moment (conjugated or not) unless the rule fixes only its real or imaginary part.", "quantifier": "all rules, all polynomials and all assignments satisfying the rule", "why_tests_cant": "Quantifies over assignments and over all polynomials.", "anchors": ["cpp/lib_moment/symbolic/rules/moment_rule.cpp: MomentRule::append_transformed", "cpp/lib_moment/symbolic/rules/moment_rulebook.cpp: reduce"]}
{"id": "C24", "title": "Turning an equation into a moment rule keeps its solutions", "statement": "For any polynomial P, the rule made from the equation P = 0 holds for exactly the assignments with P = 0, or is reported as contradictory only if no assignment satisfies it.", "quantifier": "all polynomials and all assignments", "why_tests_cant": "Case split on leading terms with conjugates (complex orientation) over all coefficients.", "anchors": ["cpp/lib_moment/symbolic/rules/moment_rule.cpp: reorient_polynomial, resolve"]}
{"id": "C25", "title": "Polynomial to basis vector and back", "statement": "Writing a polynomial as real-basis coefficient vectors evaluates to the same number for every assignment of the basis values, and converting the vectors back returns the polynomial.", "quantifier": "all polynomials over any symbol table and all assignments", "why_tests_cant": "Coefficients of conjugate pairs mix; must hold for every combination.", "anchors": ["cpp/lib_moment/symbolic/polynomial_to_basis.cpp"]}
{"id": "C26", "title": "Basis matrices rebuild the moment matrix", "statement": "Summing the real-basis matrices times the real parts and the imaginary-basis matrices times the imaginary parts of the symbols gives, entry by entry, the value of the moment matrix.", "quantifier": "all monomial matrices, symbol tables and assignments", "why_tests_cant": "Hermitian matrices are filled from one triangle only.", "anchors": ["cpp/lib_moment/matrix/monomial_matrix_basis.cpp"]}
{"id": "C27", "title": "Symbol identity is stable and unique", "statement": "After any history of symbol registrations every registered word (or its conjugate) is found under exactly one symbol id, ids never change, and zero and one keep ids 0 and 1.", "quantifier": "all histories of merges", "why_tests_cant": "Histories are unbounded.", "anchors": ["cpp/lib_moment/symbolic/symbol_table.cpp: SymbolTable::merge_in, where, hash_to_index"]}
{"id": "C28", "title": "Tensor offsets and indices are inverse", "statement": "For every tensor shape, turning an index into a storage offset and back returns the index, and every offset below the element count arises from exactly one index; both for row-major and column-major storage.", "quantifier": "all shapes, all indices, all offsets", "why_tests_cant": "Shapes are unbounded.", "anchors": ["cpp/lib_moment/tensor/tensor.h: Tensor::index_to_offset, offset_to_index"]}
{"id": "C29", "title": "Multi-dimensional iteration visits every index once in storage order", "statement": "Iterating over an index range visits exactly the indices in the box, each once, in lexicographic (or reversed-significance) order, and stops.", "quantifier": "all shapes and sub-ranges", "why_tests_cant": "Odometer carry logic over any number of dimensions.", "anchors": ["cpp/lib_moment/tensor/multi_dimensional_index_iterator.h", "cpp/lib_moment/tensor/multi_dimensional_offset_index_iterator.h"]}
{"id": "C30", "title": "Triangle iterators visit exactly the triangle with the right offsets", "statement": "The upper/lower, inclusive/exclusive triangle iterators of a square matrix visit each entry of that triangle exactly once, in column order, and report the correct storage offset.", "quantifier": "all matrix dimensions", "why_tests_cant": "Offset arithmetic must be right at every column boundary for every dimension.", "anchors": ["cpp/lib_moment/tensor/square_matrix.h: SquareMatrix::TriangularIterator"]}
{"id": "C31", "title": "Combination enumeration is exhaustive", "statement": "The k-subset iterator visits each strictly increasing index list of length k below n exactly once.", "quantifier": "all n and k", "why_tests_cant": "Unbounded n, k.", "anchors": ["cpp/lib_moment/utilities/combinations.h: CombinationIndexIterator"]}
{"id": "C32", "title": "Nondecreasing and strictly increasing index enumeration is exhaustive", "statement": "The triangular index iterator visits each nondecreasing (or strictly increasing) index list of given length and range exactly once.", "quantifier": "all lengths and ranges", "why_tests_cant": "Unbounded parameters.", "anchors": ["cpp/lib_moment/utilities/triangular_index_iterator.h", "cpp/lib_moment/utilities/ordered_permutation.h"]}
{"id": "C33", "title": "Composition enumeration is exhaustive", "statement": "The multi-partition iterator visits each way of writing a total as an ordered sum over the parties exactly once, in forward or reverse lexicographic order.", "quantifier": "all totals and party counts", "why_tests_cant": "Unbounded parameters.", "anchors": ["cpp/lib_moment/utilities/multi_partition.h: MultipartitionIterator"]}
{"id": "C34", "title": "Subset/complement pairs stay complementary", "statement": "The partition iterator yields, for each k-subset of n items, the subset together with exactly its complement.", "quantifier": "all n and k", "why_tests_cant": "Incremental update of the complement must stay in step for every move.", "anchors": ["cpp/lib_moment/utilities/combinations.h: PartitionIterator"]}
{"id": "C35", "title": "The dynamic bitset is a set of indices", "statement": "Setting, clearing, testing, counting, first-index, iteration, intersection, union, complement, emptiness and inversion on a bitset of any size agree with the corresponding set operations on indices below its size.", "quantifier": "all sizes and all operation histories", "why_tests_cant": "Page boundaries and padding bits for all sizes.", "anchors": ["cpp/lib_moment/utilities/dynamic_bitset.h: DynamicBitset"]}
{"id": "C36", "title": "The index tree is a map from index lists to values", "statement": "After any history of insertions and merges, looking a list up returns the value the history gives it: writing overwrites, writing-if-new keeps the first value and reports whether it was new, merging prefers the values of the merged tree; iteration visits every known node exactly once in lexicographic order.", "quantifier": "all histories and all lookup lists", "why_tests_cant": "Histories are unbounded; nodes without values share prefixes.", "anchors": ["cpp/lib_moment/utilities/index_tree.h: IndexTree"]}
{"id": "C37", "title": "Text conversion between UTF-16 and UTF-8 is faithful", "statement": "Converting text between UTF-16 and UTF-8 gives the standard encoding of the same code points, and converting back returns the original.", "quantifier": "all sequences of Unicode scalar values", "why_tests_cant": "1.1 million scalar values in arbitrary sequences.", "anchors": ["cpp/lib_moment/utilities/utf_conversion.cpp"]}
{"id": "C38", "title": "Integer and Kronecker powers", "statement": "The fast power routine returns base^exponent for all non-negative exponents, and the Kronecker power by squaring equals the repeated Kronecker product.", "quantifier": "all bases and exponents", "why_tests_cant": "Loop over exponent bits.", "anchors": ["cpp/lib_moment/utilities/ipow.h: ipow", "cpp/lib_moment/utilities/kronecker_power.cpp"]}
{"id": "C39", "title": "Stored objects are found under their own key", "statement": "In the persistent store, a key returned by storing an object retrieves that object until it is released, and never retrieves any other object.", "quantifier": "all histories of store, release, clear and lookup", "why_tests_cant": "Histories are unbounded; key reuse only shows after particular histories.", "anchors": ["cpp/lib_moment/utilities/persistent_storage.h: PersistentStorage"]}
{"id": "C40", "title": "The concurrent queue is first-in first-out and loses nothing", "statement": "Under every interleaving of producers and consumers the items popped so far followed by the items in the queue are exactly the items pushed, in order; nothing is popped twice.", "quantifier": "all interleavings of any number of threads", "why_tests_cant": "Schedules cannot be enumerated by tests.", "anchors": ["cpp/lib_moment/multithreading/queue.h: Queue"]}
{"id": "C41", "title": "A waiting consumer is woken", "statement": "A consumer blocked on the queue is never left asleep for good while an item is available or after the queue was aborted.", "quantifier": "all interleavings", "why_tests_cant": "Lost wake-ups need a precise interleaving.", "anchors": ["cpp/lib_moment/multithreading/queue.h: Queue::push, abort, wait_pop_front"]}
{"id": "C42", "title": "Parallel symbol collection always finishes with every symbol", "statement": "When the symbols found by n workers are merged pairwise, for every n and every schedule no worker waits for ever, none reads a set still being written, each worker's set is taken exactly once, and worker 0 ends with the union of all sets.", "quantifier": "all worker counts and all interleavings", "why_tests_cant": "Level arithmetic for non powers of two and arbitrary timing.", "anchors": ["cpp/lib_moment/matrix/monomial_matrix_factory.cpp: first_merge_level, final_merge_level, merge_unique_symbols"]}
{"id": "C43", "title": "Parallel matrix transformation equals the sequential one", "statement": "With columns dealt out round-robin to workers, every matrix entry is written by exactly one worker, so for every schedule the result is the entry-wise image of the input.", "quantifier": "all dimensions, worker counts and interleavings", "why_tests_cant": "Schedules cannot be enumerated.", "anchors": ["cpp/lib_moment/multithreading/matrix_transformation_worker.h"]}
{"id": "C44", "title": "Merging ordered maps", "statement": "Merging one ordered map into another gives the union of the keys, keeps the existing value on common keys, and stays ordered.", "quantifier": "all pairs of maps", "why_tests_cant": "Hint logic for every interleaving of keys.", "anchors": ["cpp/lib_moment/utilities/linear_map_merge.h: linear_map_merge"]}
{"id": "C45", "title": "Least rotation", "statement": "The shift sorter returns the first offset whose rotation is lexicographically least among all rotations.", "quantifier": "all sequences", "why_tests_cant": "Unbounded length with ties.", "anchors": ["cpp/lib_moment/utilities/shift_sorter.h"]}
{"id": "C46", "title": "Alphabetic names are unique", "statement": "The names A..Z, AA, AB, ... assigned to indices are different for different indices.", "quantifier": "all indices", "why_tests_cant": "Infinite index set.", "anchors": ["cpp/lib_moment/utilities/alphabetic_namer.cpp"]}
{"id": "C47", "title": "Collins-Gisin and full-correlator tensors describe the same functional", "statement": "Converting between the two bipartite tensor forms keeps the value of the functional on every behaviour, and the two conversions are inverse.", "quantifier": "all numbers of binary measurements, all coefficient tensors and all behaviours", "why_tests_cant": "All shapes and all real coefficients.", "anchors": ["cpp/lib_moment/scenarios/locality/tensor_conversion.cpp: cg_to_fc_matrix, fc_to_cg_matrix"]}
{"id": "C48", "title": "First common element of two sorted ranges", "statement": "The routine reports the position in the match range of the first element it shares with the other sorted range, and reports none exactly when they share nothing.", "quantifier": "all pairs of sorted ranges", "why_tests_cant": "Two-pointer logic for every interleaving.", "anchors": ["cpp/lib_moment/utilities/first_intersection_index.h"]}
{"id": "C49", "title": "Copies of an observable are numbered without collisions", "statement": "Flattening the source indices of an observable copy to a number and unflattening are inverse; so are flattening and unflattening joint outcomes; operator numbers of different (observable, copy, outcome) triples differ and cover the whole operator range.", "quantifier": "all networks and inflation levels", "why_tests_cant": "Mixed-radix arithmetic for all radices and lengths.", "anchors": ["cpp/lib_moment/scenarios/inflation/observable.cpp: flatten_index, unflatten_index", "cpp/lib_moment/scenarios/inflation/inflation_context.cpp: operator_number, flatten_outcome_index, unflatten_outcome_index"]}
{"id": "C50", "title": "Multiplying a moment matrix by a monomial uses that monomial", "statement": "Pre- or post-multiplying a matrix by a monomial multiplies every entry by the operator the monomial stands for, its conjugate when the monomial is conjugated.", "quantifier": "all matrices, monomials and symbol tables", "why_tests_cant": "Tests with Hermitian symbols cannot tell the two apart.", "anchors": ["cpp/lib_moment/matrix/symbolic_matrix.cpp: do_monomial_multiply"]}
{"id": "C51", "title": "Inflation word lists are complete and free of repeats", "statement": "The list of operator words generated for an inflation scenario up to a given length contains every simplified non-zero word of at most that length exactly once and nothing else.", "quantifier": "all networks, inflation levels and lengths", "why_tests_cant": "Two code paths (all observables projective or not) have to be exhaustive for every network.", "anchors": ["cpp/lib_moment/scenarios/inflation/inflation_osg.cpp: InflationOperatorSequenceGenerator"]}
{"id": "C52", "title": "Independence maps mark exactly the operators that share a source", "statement": "The map of dependent operators that an inflation context builds for an operator has the bit of another operator set exactly when the two depend on a common copy of a source, or are outcomes of the same observable without sources.", "quantifier": "all networks, inflation levels and pairs of operators", "why_tests_cant": "The map is built from blocks of operator numbers; every network has other blocks.", "anchors": ["cpp/lib_moment/scenarios/inflation/inflation_context.cpp: InflationContext::InflationContext, Variant::independent"]}
{"id": "C53", "title": "Built-in commutation rules say exactly that operators commute", "statement": "The commutator rules of an algebraic context hold in an algebra exactly when all operators commute, and the normality rules exactly when every operator commutes with its adjoint, for each way of numbering adjoints.", "quantifier": "all numbers of operators, all three adjoint conventions, all algebras", "why_tests_cant": "The index arithmetic of the three conventions has to be right for every number of operators.", "anchors": ["cpp/lib_moment/scenarios/algebraic/operator_rulebook.cpp: commutator_rules, normal_rules"]}
{"id": "C54", "title": "Products, negatives, conjugates and Hermitian types of operator sequences are right", "statement": "In every representation that respects a context's simplification: a product of sequences has the product of the values, unary minus the negative, the conjugate the adjoint (for self-adjoint operators), and a sequence reported zero, Hermitian or anti-Hermitian is so.", "quantifier": "all contexts, simplifications, representations and sequences of hashable length", "why_tests_cant": "The claim is about all representations at once; tests only look at individual words.", "anchors": ["cpp/lib_moment/scenarios/context.cpp: multiply, conjugate", "cpp/lib_moment/dictionary/operator_sequence.cpp: to_canonical_form, hermitian_type", "cpp/lib_moment/dictionary/operator_sequence.h: operator-"]}
{"id": "C55", "title": "Equality, Hermiticity and degree tests of polynomials are exact", "statement": "Two polynomials compare equal exactly when they have the same value under every assignment that respects the symbol table; is_hermitian, is_antihermitian and is_conjugate answer true exactly when the value is always real, imaginary, or the complex conjugate; maximum_degree is the length of the longest word.", "quantifier": "all symbol tables, orders, polynomials and assignments", "why_tests_cant": "Exactness is a statement about all assignments; a wrong positive only shows for special coefficients.", "anchors": ["cpp/lib_moment/symbolic/polynomial.cpp: approximately_equals, is_hermitian, is_antihermitian, is_conjugate", "cpp/lib_moment/symbolic/polynomial_factory.cpp: maximum_degree", "cpp/lib_moment/symbolic/monomial_comparator_by_hash.cpp: maximum_degree"]}
{"id": "C56", "title": "Completing a moment rulebook ends and keeps exactly the solutions", "statement": "For any rulebook built by completing and combining, and any further equations, completion terminates; it reports a contradiction exactly when no assignment satisfies the rulebook and the equations, and otherwise the new rulebook is satisfied by exactly the assignments satisfying both, its right sides are fully reduced, and the count returned is the number of rules gained. Combining two rulebooks keeps the common solutions, or leaves the first unchanged and reports failure.", "quantifier": "all symbol tables, orders, rulebooks and finite lists of equations", "why_tests_cant": "Termination and exactness for unbounded sequences of substitutions, with partial (one real component) rules; tests only see small systems.", "anchors": ["cpp/lib_moment/symbolic/rules/moment_rulebook.cpp: complete, combine_and_complete, inject", "cpp/lib_moment/symbolic/rules/moment_rule.cpp: merge_partial"]}
{"id": "C57", "title": "Reduction by a completed moment rulebook is a normal form", "statement": "Reducing a polynomial keeps its value under every solution of the rulebook; two polynomials reduce to the same polynomial exactly when they agree under all solutions; reducing twice changes nothing; and for rulebooks flagged monomial a monomial is always reduced to a monomial.", "quantifier": "all completed rulebooks, all polynomials, all solutions", "why_tests_cant": "Equality of reduced forms characterises a statement about all assignments.", "anchors": ["cpp/lib_moment/symbolic/rules/moment_rulebook.cpp: reduce, reduce_in_place, reduce_monomial", "cpp/lib_moment/symbolic/rules/moment_rule.cpp: reduce, reduce_monomial"]}
{"id": "C58", "title": "Comparison of moment rulebooks is exact", "statement": "first_noncontained_rule finds nothing exactly when every solution of the first rulebook solves the second, and otherwise returns a rule violated by some solution; compare_rulebooks answers equal, contained or disjoint exactly according to inclusion of the solution sets.", "quantifier": "all pairs of completed rulebooks", "why_tests_cant": "Negative answers assert the existence of a solution, positive answers quantify over all of them.", "anchors": ["cpp/lib_moment/symbolic/rules/moment_rulebook.cpp: first_noncontained_rule, compare_rulebooks"]}
{"id": "C59", "title": "The completed moment rulebook is unique", "statement": "Two completed rulebooks with the same solutions are identical rule by rule; so the outcome does not depend on the order or repetition of the equations, nor on whether they are completed at once or in steps. The comparison used for sorting the equations is a strict weak order.", "quantifier": "all rulebooks, equations and processing orders", "why_tests_cant": "Permutation invariance over all orders cannot be enumerated.", "anchors": ["cpp/lib_moment/symbolic/rules/moment_rulebook.cpp: complete, combine_and_complete", "cpp/lib_moment/symbolic/polynomial_ordering.h"]}
{"id": "C60", "title": "Threads asking for the single shared object all get the same one", "statement": "When any number of threads call create-if-empty on a single-object store, at most one object is ever made, every call returns it, and no call gets stuck.", "quantifier": "all numbers of threads and all interleavings of the locked sections", "why_tests_cant": "The race between the two tests only shows in particular schedules.", "anchors": ["cpp/lib_moment/utilities/persistent_storage.h: PersistentStorageMonoid::create_if_empty"]}
{"id": "C61", "title": "No two workers write the same entry of a symbol matrix", "statement": "When the symbolic matrix is generated by several workers, every entry is written by exactly one of them, so there is no data race.", "quantifier": "all dimensions and worker counts", "why_tests_cant": "Data races show up only under unlucky timing, if at all.", "anchors": ["cpp/lib_moment/matrix/monomial_matrix_factory.cpp: MonomialMatrixFactoryWorker::generate_symbol_matrix_generic, generate_symbol_matrix_hermitian"]}
{"id": "C62", "title": "Exceptions of a parallel matrix transformation reach the caller", "statement": "Transforming a matrix with several workers has the same outcome as without: the same matrix, or an exception if the transformation of some entry throws.", "quantifier": "all functors, inputs and interleavings", "why_tests_cant": "Needs a throwing functor together with multithreading; the wrong result is returned silently.", "anchors": ["cpp/lib_moment/multithreading/matrix_transformation_worker.h: transform_matrix_data"]}
{"id": "C63", "title": "Offsets and basis lists of the symbol table describe each other", "statement": "After any sequence of registrations, creations, word-length fills and merges of structural information, the real and imaginary offsets stored in the symbols and the lists of real and imaginary basis elements (with their cross references) agree in both directions; and, unless a merge threw, a symbol has no imaginary part exactly if it is marked Hermitian and no real part exactly if it is marked anti-Hermitian.", "quantifier": "all contexts and all operation histories", "why_tests_cant": "Every later conversion between symbols and basis vectors indexes by these lists; only an invariant over all histories shows they never go out of step.", "anchors": ["cpp/lib_moment/symbolic/symbol_table.cpp: merge_in, create, fill_to_word_length, renumerate_bases, push_basis"]}
{"id": "C64", "title": "Symbols are marked Hermitian or anti-Hermitian exactly as their words are", "statement": "The symbol added for a word is marked Hermitian exactly if the word equals its conjugate, and anti-Hermitian exactly if it equals minus its conjugate, whichever operation added it.", "quantifier": "all contexts with real-signed rules, all words", "why_tests_cant": "The wrong mark appears for one particular kind of word on one of several code paths.", "anchors": ["cpp/lib_moment/symbolic/symbol.h: constructors", "cpp/lib_moment/symbolic/symbol_table.cpp: merge_in, fill_to_word_length"]}
{"id": "C65", "title": "Importing a matrix constrains its symbols exactly as declared", "statement": "After an accepted import, an assignment of complex values to symbols respects the symbol table exactly if it did before and makes the imported matrix Hermitian (symmetric) and real as declared; an import is only rejected for a vanishing symbol if these conditions force that symbol to zero, and only rejected for a mismatch if mirrored entries have different symbols or magnitudes.", "quantifier": "all reachable tables, all matrices, all declared kinds", "why_tests_cant": "Equality of two infinite sets of assignments for every matrix.", "anchors": ["cpp/lib_moment/scenarios/imported/imported_matrix_system.cpp: import_matrix and helpers", "cpp/lib_moment/symbolic/symbol_table.cpp: merge_in(can_be_real, can_be_imaginary)"]}
{"id": "C66", "title": "A rejected import leaves the symbol table unchanged", "statement": "If importing a matrix throws, the symbol table describes the same set of assignments as before, and later imports behave as if the rejected one had not been attempted.", "quantifier": "all reachable tables and matrices", "why_tests_cant": "State after a failure shows only through a later, unrelated operation.", "anchors": ["cpp/lib_moment/scenarios/imported/imported_matrix_system.cpp: import_matrix", "cpp/lib_moment/symbolic/symbol_table.cpp: merge_in(can_be_real, can_be_imaginary)"]}
{"id": "C67", "title": "Basis masks mark exactly what a polynomial depends on", "statement": "The bits that the mask conversion sets for a polynomial are exactly the real and imaginary basis elements on which its value depends; the same holds for the mask of a single monomial.", "quantifier": "all polynomials in canonical form over any reachable symbol table", "why_tests_cant": "Cancellation between a symbol and its conjugate depends on the coefficients, and dependence is a statement about all assignments.", "anchors": ["cpp/lib_moment/symbolic/polynomial_to_basis_mask.cpp: set_bits"]}
{"id": "C68", "title": "The matrix of a moment rulebook has the solutions of the rules as its fixed vectors", "statement": "Values of the real and imaginary basis elements satisfy all moment rules exactly if the rewrite matrix leaves them unchanged, and exactly if the homogeneous matrix sends them to zero; applying the rewrite matrix to any values gives values that satisfy the rules.", "quantifier": "all rulebooks reachable by completion and all values", "why_tests_cant": "Rules that fix one direction of a complex symbol mix real and imaginary rows; equality of solution sets is not testable.", "anchors": ["cpp/lib_moment/symbolic/rules/moment_rulebook_to_basis.cpp: operator()", "cpp/lib_moment/symbolic/polynomial_to_basis.cpp: add_triplet_row"]}
{"id": "C69", "title": "A basis given twice is the basis of the matrix both times", "statement": "Each time the basis of a matrix is asked for, the answer is the basis of the matrix with respect to the present numbering of the real and imaginary basis elements; a call that throws leaves nothing behind.", "quantifier": "all sequences of calls and changes of the symbol table between them", "why_tests_cant": "Staleness shows only in particular interleavings of imports and basis requests.", "anchors": ["cpp/lib_moment/matrix/matrix_basis.h: MatrixBasisImpl::operator()", "cpp/lib_moment/scenarios/imported/imported_matrix_system.cpp: import_matrix"]}
{"id": "C70", "title": "A matrix of symbols stands for the matrix of operators it was made from", "statement": "Making a matrix of symbols from a matrix of operators succeeds whatever the table held before; the value of each entry is the prefactor times the moment of the operator word at its place; the matrix is flagged Hermitian exactly if its values are a Hermitian matrix for all moments; existing symbols stay as they are; making the same matrix again adds no symbols and gives the same matrix.", "quantifier": "all contexts, symbol tables, matrices of operators, prefactors and moments", "why_tests_cant": "Signs and conjugates are lost or doubled only for particular words met in a particular order.", "anchors": ["cpp/lib_moment/matrix/monomial_matrix_factory.cpp: identify_unique_sequences_hermitian, identify_unique_sequences_generic, build_symbol_matrix_hermitian, build_symbol_matrix_generic, register_symbols_and_create_matrix", "cpp/lib_moment/matrix/operator_matrix/is_hermitian.cpp: find_first_index"]}
{"id": "C71", "title": "Sums and products of raw polynomials are those of the operators", "statement": "Condensing a raw polynomial keeps the sum it stands for and gives a form that depends only on the total weight of each word. Sum, difference, product, commutator and anticommutator of raw polynomials are those of the sums; in a Pauli context, those of the operators on states. Conversion to a polynomial gives one of the same value: without registration it succeeds exactly if all words are known, with registration always, keeping the symbols there are.", "quantifier": "all raw polynomials, contexts in which a positive word and its conjugate have the same sign, symbol tables, assignments of values to words; for Pauli contexts all numbers of qubits whose words are hashed without overflow", "why_tests_cant": "Cancellation between terms, collisions of words and signs that move between word and weight appear only for particular combinations of many terms.", "anchors": ["cpp/lib_moment/dictionary/raw_polynomial.cpp: condense, add, subtract, is_scalar, RawPolynomial", "cpp/lib_moment/dictionary/raw_polynomial.h: distributed_product", "cpp/lib_moment/symbolic/polynomial_factory.cpp: make_storage_data_from_raw, construct, register_and_construct", "cpp/lib_moment/scenarios/context.cpp: multiply", "cpp/lib_moment/scenarios/pauli/pauli_context.cpp: commutator, anticommutator"]}
{"id": "C72", "title": "A sum of matrices has the sums of the values", "statement": "A weighted sum of matrices of monomials and polynomials of the same dimension has at each place the weighted sum of the values, as canonical polynomials; matrices of different dimensions are refused; adding a monomial or polynomial adds its value to each entry.", "quantifier": "all symbol tables, orders of monomials, lists of weighted matrices, monomials and polynomials, and all values that respect the flags of the symbols", "why_tests_cant": "Terms cancel or collide only for particular entries, and the cases of no, one and many constituents and of mixed kinds run through different code.", "anchors": ["cpp/lib_moment/matrix/composite_matrix.cpp: make_rescaled_matrix, make_summed_matrix, compile_to_polynomial_matrix_data, CompositeMatrix", "cpp/lib_moment/matrix/symbolic_matrix.cpp: add, clone", "cpp/lib_moment/matrix/monomial_matrix_arithmetic.cpp: add", "cpp/lib_moment/matrix/polynomial_matrix_arithmetic.cpp: add"]}
{"id": "C73", "title": "A matrix of numbers holds the numbers it was made from, and its products have the products as values", "statement": "The entries of a value matrix are the numbers of the dense or sparse matrix it was made from; it is flagged Hermitian or anti-Hermitian exactly if that matrix is; matrices that are not square are refused. The product with a word or a raw polynomial has at each place the number times the moment, and a product flagged Hermitian is a Hermitian matrix for all moments.", "quantifier": "all dense and sparse matrices, symbol tables, words, weights, raw polynomials and moments", "why_tests_cant": "Which entries a sparse matrix stores, and phases of weights that cancel or do not, decide the flags; a test sees a few matrices.", "anchors": ["cpp/lib_moment/matrix/value_matrix.cpp: to_monomial_matrix, ValueMatrix, monomialize, pre_multiply, post_multiply", "cpp/lib_moment/utilities/eigen_utils.cpp: is_zero, is_hermitian, is_antihermitian"]}
{"id": "C74", "title": "Substituting moment rules in a matrix keeps its values and builds the rules in", "statement": "For all values of the symbols that satisfy the rules, the entries of the substituted matrix have the values of those of the old one. With a complete rulebook, the values of the new matrix for any values of the symbols are values of the old one that satisfy the rules, and a matrix flagged Hermitian is Hermitian. The flags of a rulebook describe its rules at all times, so that substitution does not throw.", "quantifier": "all symbol tables, rulebooks, matrices of monomials and of polynomials, and values of the symbols", "why_tests_cant": "Whether the kind of matrix that the flags select fits the rules depends on the history of the rulebook; a test sees a few histories.", "anchors": ["cpp/lib_moment/matrix/substituted_matrix.cpp: do_reduction, MonomialSubstitutedMatrix, PolynomialSubstitutedMatrix", "cpp/lib_moment/symbolic/rules/moment_rulebook.cpp: create_substituted_matrix, complete, inject"]}
{"id": "C75", "title": "Pauli words on open chains and lattices are simplified exactly up to translation", "statement": "Without wrapping, two Pauli words have the same simplified moment exactly if one is a translate of the other along the chain or lattice. The simplified word is itself such a translate in normal form, is_canonical tells whether a word is its own simplified word, the sign stays and the hash is that of the new word. The effective sizes chain_supremum and lattice_supremum are least bounds of the rows and columns used, and offsets that stay on the lattice translate words.", "quantifier": "all Pauli words in normal form, chains and lattices of any size, and offsets", "why_tests_cant": "Translates on lattices differ by rows and columns in flattened column-major numbers; a test sees a few shapes, and a collision of classes only shows up as a wrong optimum.", "anchors": ["cpp/lib_moment/scenarios/pauli/symmetry/moment_simplifier_no_wrapping.cpp: canonical_sequence, is_canonical, lattice_minimum, lattice_supremum, chain_supremum, chain_offset, lattice_offset", "cpp/lib_moment/scenarios/pauli/symmetry/moment_simplifier_no_wrapping.h: chain_minimum, chain_supremum, is_canonical", "cpp/lib_moment/scenarios/pauli/symmetry/moment_simplifier.cpp: canonical_sequence"]}
{"id": "C76", "title": "Site hashes keep Pauli words, and their shifts translate them", "statement": "The hash of a Pauli word by sites determines the word, and every hash is the hash of a word. Comparison of hashes is a strict total order. cyclic_shift and lattice_shift of a hash give the hash of the word moved around the ring or torus, for one, two and more 64-bit slides alike; first_chain_alias is the least distance by which a word moves to itself.", "quantifier": "all Pauli words in normal form, chains and lattices of up to 256 qubits, and shifts", "why_tests_cant": "Three implementations pack two bits per qubit in up to eight words, with columns that cross word boundaries; a test covers a few sizes and offsets.", "anchors": ["cpp/lib_moment/scenarios/pauli/symmetry/site_hasher.h: hash, unhash, cyclic_shift, row_cyclic_shift, col_shift, lattice_shift, less, first_chain_alias, BoundaryCalculator, calculate_mask_from_bits"]}
{"id": "C77", "title": "Pauli words on closed chains and lattices are simplified exactly up to translation", "statement": "With wrapping, two Pauli words have the same simplified moment exactly if one is a translate of the other around the ring or torus. The simplified word is such a translate in normal form with a letter at the origin, simplifying twice changes nothing, and is_canonical tells whether a word is its own simplified word.", "quantifier": "all Pauli words in normal form on closed chains and lattices of up to 256 qubits", "why_tests_cant": "A class of translates has up to 256 members, and the least hash must be the same for each; wrong classes depend on the ratio of height and width and on word boundaries.", "anchors": ["cpp/lib_moment/scenarios/pauli/symmetry/moment_simplifier_wrapping.h: canonical_sequence, is_canonical", "cpp/lib_moment/scenarios/pauli/symmetry/site_hasher.h: canonical_hash, do_canonical_hash", "cpp/lib_moment/scenarios/pauli/symmetry/moment_simplifier.cpp: make"]}
{"id": "C78", "title": "Offsets move Pauli words around closed chains and lattices", "statement": "chain_offset and lattice_offset with wrapping move each letter of a Pauli word by the given number of qubits, or of rows and columns, around the ring or torus, for positive and negative offsets.", "quantifier": "all Pauli words in normal form on closed chains and lattices of up to 256 qubits, and all offsets", "why_tests_cant": "Offsets are signed and sizes are unsigned; the conversion is right by accident whenever the size is a power of two.", "anchors": ["cpp/lib_moment/scenarios/pauli/symmetry/moment_simplifier_wrapping.h: chain_offset, lattice_offset"]}
{"id": "C79", "title": "The list of all Pauli words of a level is complete, without duplicates and in order of length", "statement": "Without restriction to neighbours, the sequence generator of a Pauli scenario lists exactly the words in normal form with at most the given number of letters on the qubits of the scenario, each once, with positive sign, shorter words first. permutation_fill lists exactly the words with one letter on each of the given qubits, each once.", "quantifier": "all numbers of qubits, levels, and lists of distinct qubits", "why_tests_cant": "Words of length one, two and more are made by different loops, and the number of words grows exponentially with the level.", "anchors": ["cpp/lib_moment/scenarios/pauli/pauli_osg.cpp: PauliSequenceGenerator, add_length_one_sequences, compute_all_sequences", "cpp/lib_moment/scenarios/pauli/symmetry/lattice_duplicator.cpp: do_permutation_fill, one_qubit_fill, two_qubit_fill, permutation_fill"]}
{"id": "C80", "title": "The list of Pauli words of neighbours on a chain is complete and without duplicates", "statement": "With a restriction to N neighbours, the sequence generator of a chain lists exactly the words in normal form with at most the given number of letters whose successive letters are at most N qubits apart (around the ring if the chain is closed), each once.", "quantifier": "all lengths of chains, levels, and numbers of neighbours, open and closed", "why_tests_cant": "Nearest and next-nearest neighbours are made by different loops; on closed chains the same set of qubits is reached from several starting points, depending on the level and length.", "anchors": ["cpp/lib_moment/scenarios/pauli/pauli_osg.cpp: chain_nn_sequences, chain_next_nn_sequences, compute_nearest_neighbour_sequences"]}
{"id": "C81", "title": "The list of Pauli words of neighbours on a lattice is complete and without duplicates", "statement": "On a lattice, the sequence generator for nearest neighbours lists each word once: up to level 2 the words of at most two letters on adjacent qubits (around the edges if the lattice is closed); at levels 3 and 4 also the words with letters on a row or column of three, on three corners of a square, and on a square. Higher levels and next-nearest neighbours are rejected.", "quantifier": "all heights and widths of lattices, and levels", "why_tests_cant": "Pairs are made in four separate loops for the interior, the last row, the last column and the corner, with exceptions for sizes up to two; figures of three are made from lists of literal offsets.", "anchors": ["cpp/lib_moment/scenarios/pauli/pauli_osg.cpp: lattice_neighbour_pairs, lattice_neighbour_triplets, lattice_neighbour_squares, add_lattice_neighbours, compute_nearest_neighbour_sequences", "cpp/lib_moment/scenarios/pauli/symmetry/lattice_duplicator.cpp: symmetrical_fill, wrapless_symmetrical_fill"]}
{"id": "C82", "title": "Moment and localizing matrices hold the moments they stand for and are positive", "statement": "For words w_1..w_n, the entry (i,j) of a moment matrix is the moment of w_i* w_j, and that of the localizing matrix of a word m is the moment of w_i* m w_j. The matrix of symbols takes these values under every assignment of the symbols that comes from a functional, is said to be Hermitian exactly if it is, and is positive semidefinite whenever the functional is a positive one.", "quantifier": "all lists of words, all localizing words, all contexts that meet the stated conditions, all functionals", "why_tests_cant": "The claim is about all functionals on an infinite algebra; tests compare a few small matrices symbol by symbol.", "anchors": ["cpp/lib_moment/matrix/operator_matrix/operator_matrix_factory_singlethreaded.h: make_aliased, make_operator_matrix", "cpp/lib_moment/matrix/operator_matrix/operator_matrix_impl.h: create_matrix", "cpp/lib_moment/matrix/operator_matrix/moment_matrix.h: MomentMatrixGenerator", "cpp/lib_moment/matrix/operator_matrix/localizing_matrix.h: LocalizingMatrixGenerator"]}
{"id": "C83", "title": "Several threads make the same matrix of operators as one, whatever the schedule", "statement": "Made by any number of worker threads in any interleaving, the matrix of operators and the matrix of simplified moments hold the same entries as if made by one thread. No two workers touch the same entry without synchronization, no run blocks, and every run ends.", "quantifier": "all numbers of threads, sizes of matrices, functors, and interleavings", "why_tests_cant": "A test sees one schedule at a time, and small matrices are not handed to threads at all.", "anchors": ["cpp/lib_moment/matrix/operator_matrix/operator_matrix_factory_multithreaded.h: OperatorMatrixFactoryWorker, OperatorMatrixFactoryMultithreaded", "cpp/lib_moment/matrix/operator_matrix/operator_matrix_factory.h: operator_matrix_factory", "cpp/lib_moment/matrix/operator_matrix/localizing_matrix.h: should_be_hermitian"]}
{"id": "C84", "title": "An exception in a thread that makes a matrix of operators is passed on", "statement": "If the functor throws in some worker thread, the call throws as well: it does not hang, and no thread touches data that have been released.", "quantifier": "all numbers of threads, sizes of matrices, functors that throw for some arguments, and interleavings", "why_tests_cant": "Exceptions need words that are too long, so they do not occur in the tests; the outcome depends on the schedule.", "anchors": ["cpp/lib_moment/matrix/operator_matrix/operator_matrix_factory_multithreaded.h: OperatorMatrixFactoryWorker, OperatorMatrixFactoryMultithreaded"]}
{"id": "C85", "title": "The symmetry group is generated in full, each element once", "statement": "Given generators of a finite matrix group, the generation of group elements returns every element of the group that they generate exactly once, and throws instead of going on forever if the first generator's order is beyond the given limit.", "quantifier": "all finite lists of invertible generators that generate a finite group, all limits on the order", "why_tests_cant": "Tests try a handful of small groups; the enumeration deviates from the textbook (it multiplies by all generators at once), so correctness for other groups is not evident.", "anchors": ["cpp/lib_moment/scenarios/symmetrized/group.cpp: dimino_generation"]}
{"id": "C86", "title": "Every length of words is built from shorter ones that were built before", "statement": "The list of lengths to build for words of length n increases, ends with n, and each length in it is the sum of two lengths that are one or come earlier in the list.", "quantifier": "all lengths n of 64 bits", "why_tests_cant": "The list depends on the bits of n; tests compare a few lengths.", "anchors": ["cpp/lib_moment/scenarios/symmetrized/group.cpp: decompose_build_list, determine_parents"]}
{"id": "C87", "title": "Representations on longer words act as the symmetries do", "statement": "Whatever representations were requested before, a request for words of length n returns one matrix for each group element. It acts on the words of length n as the homomorphism that is given on words of length one, and products of group elements go to products of matrices. No null pointer is read.", "quantifier": "all contexts that meet the stated conditions, all groups, all lengths, all histories of requests", "why_tests_cant": "Tests check a few entries of the matrices for a few groups and lengths, in one order of requests, and in contexts without signs.", "anchors": ["cpp/lib_moment/scenarios/symmetrized/representation_mapper.cpp: RepresentationMapper, vector_remap, make_lhs, make_rhs, operator()", "cpp/lib_moment/scenarios/symmetrized/group.cpp: create_representation, identify_and_build_representations, build_representations_single_thread"]}
{"id": "C88", "title": "The list of words of a context has all irreducible words, once, in order", "statement": "The list of words up to length n holds the identity and exactly those words that cannot be simplified, each once, by length and then alphabetically. With rules, every word up to length n can be rewritten into zero or a phase times a word of the list, in just one way if results are unique, and the list spans the same space as all words.", "quantifier": "all contexts without rules, all rulebooks whose rules lower words, all lengths", "why_tests_cant": "Tests compare lists of a few short words in a few contexts.", "anchors": ["cpp/lib_moment/dictionary/operator_sequence_generator.cpp: build_generic_sequences, conjugate", "cpp/lib_moment/scenarios/context.cpp: get_if_canonical", "cpp/lib_moment/scenarios/algebraic/algebraic_context.cpp: get_if_canonical"]}
{"id": "C89", "title": "Positions in the list of words stand for the right symbols", "statement": "After any history of registering words, creating matrices and updating the index, the index knows the words up to its length and no more. At each position stands the symbol, or its conjugate, whose value is the moment of the word there. Positions without flag have different symbols, and zero is at none.", "quantifier": "all contexts that meet the stated conditions, all histories of table and index, all moments", "why_tests_cant": "Tests compare the index with expected numbers for a few small systems, filled in one order.", "anchors": ["cpp/lib_moment/dictionary/dictionary_map.cpp: DictionaryMap, update_if_necessary, operator()"]}
{"id": "C90", "title": "Maps to a derived system send moments to the combinations that a matrix gives", "statement": "From a matrix whose first column is that of the identity, and any correct decomposition of its core, a map of symbols is made. It sends each symbol to a polynomial of new symbols whose value is the combination of moments that the matrix gives, if the new symbols have the values of the polynomials they stand for. Bad inputs are rejected with an exception.", "quantifier": "all matrices with no more rows than columns, dense or sparse, all lists of positions, all values of symbols, all correct decompositions", "why_tests_cant": "Tests use a few small matrices with one decomposition; constants, skipped columns and empty cores combine in many ways.", "anchors": ["cpp/lib_moment/scenarios/derived/symbol_table_map.cpp: construct_map, unzip_indices, populate_target_symbols", "cpp/lib_moment/scenarios/derived/map_core.cpp: MapCore", "cpp/lib_moment/scenarios/derived/lu_map_core_processor.cpp"]}
{"id": "C91", "title": "Symmetrized systems average moments over the group", "statement": "The map of a symmetrized system sends the symbol of each word up to the length of the map, or of its conjugate, to a polynomial whose value is the mean of the moment of the word over all elements of the group. Moments of states that have the symmetry stay as they are, and means always have the symmetry.", "quantifier": "all contexts that meet the stated conditions, all finite groups, all lengths, all histories of table, index and group, all functionals", "why_tests_cant": "Tests compare symbols of a few small groups and contexts; index, representation, average, decomposition and conjugation must fit together.", "anchors": ["cpp/lib_moment/scenarios/symmetrized/symmetrized_matrix_system.cpp: SymmetrizedSTMFactory::operator()", "cpp/lib_moment/scenarios/symmetrized/representation.cpp: sum_of", "cpp/lib_moment/scenarios/derived/symbol_table_map.cpp: operator()(Monomial)"]}
{"id": "C92", "title": "Matrices of a derived system have the transformed entries", "statement": "A matrix of the base system is transformed into one of the same dimension whose entries have the values of the given entries, with each symbol replaced by what the map makes of it. For symmetrized systems these are the entries for the mean over the group. Matrices with symbols that the map cannot handle are rejected.", "quantifier": "all maps between systems, all matrices of monomials or polynomials, all values of the symbols", "why_tests_cant": "Tests look at real matrices only, of short words; complex factors and matrices made from longer words are not tried.", "anchors": ["cpp/lib_moment/scenarios/derived/derived_matrix_system.cpp: do_create_transformed_matrix, create_derived_matrix", "cpp/lib_moment/scenarios/derived/symbol_table_map.cpp: operator()(Monomial), operator()(Polynomial), operator()(matrices)"]}
{"id": "C94", "title": "Elements of the probability tensor are probabilities of outcomes", "statement": "For every index of the probability tensor, the element is a polynomial of Collins-Gisin entries whose value is the value of the product of the operators of the chosen outcomes, where the operator of an implied outcome is one minus the others. If the symbols of the entries are known, its symbol polynomial has the same value. Elements summed over all outcomes of a measurement give the element without that measurement.", "quantifier": "all numbers of parties, measurements and outcomes, all indices, all operators of a complex algebra that add up to one in each measurement, all functionals", "why_tests_cant": "Tests look at a few elements of CHSH-like and three-outcome scenarios; the signs and ranges depend on which indices are implied for which parties.", "anchors": ["cpp/lib_moment/probability/probability_tensor.cpp: make_dimension_info, element_info, do_make_element", "cpp/lib_moment/scenarios/locality/locality_probability_tensor.cpp: make_construct_info", "cpp/lib_moment/scenarios/inflation/inflation_probability_tensor.cpp: make_construct_info"]}
{"id": "C95", "title": "Full correlators are values of products of observables", "statement": "For every index of the full-correlator tensor, the element is a polynomial of Collins-Gisin entries whose value is the value of the product of the observables (first minus second outcome) of the chosen measurements. Its symbol polynomial, when it can be made, has the same value. The tensor is offered exactly for scenarios in which all measurements have two outcomes.", "quantifier": "all numbers of parties and of measurements with two outcomes, all indices, all operators and functionals", "why_tests_cant": "Tests stop at three parties; the general formula sums over all subsets of parties with alternating powers of two.", "anchors": ["cpp/lib_moment/probability/full_correlator.cpp: make_element_no_checks, make_one_party, make_two_party, make_general", "cpp/lib_moment/probability/polynomial_tensor.cpp: attempt_symbol_resolution", "cpp/lib_moment/scenarios/locality/locality_matrix_system.cpp: CanHaveFullCorrelator"]}
{"id": "C96", "title": "Rules from given probabilities hold exactly when the probabilities are as given", "statement": "Each polynomial made from an element of the probability tensor and a value is zero exactly if the element has that value; with a condition, exactly if the element has that value times the value of the condition. If an element or the condition has no symbols, an exception is thrown and no rule is returned.", "quantifier": "all ranges of elements, all lists of values as long as the range, all values of the symbols", "why_tests_cant": "Tests compare rules for a few numbers; cancellation with the constant term and conditions with several terms are not tried.", "anchors": ["cpp/lib_moment/probability/probability_tensor.cpp: explicit_value_rules (both)"]}
{"id": "C98", "title": "Moment and localizing matrices of locality scenarios", "statement": "In every locality scenario, each list of words gives a moment matrix, and each word m a localizing matrix, of the right dimension. Entry (i,j) has the moment of the product of the adjoint of word i, m and word j as its value, for all self-adjoint operators that meet the relations of the scenario. The matrix is flagged as Hermitian if m equals its reverse, is positive semidefinite in every positive state, and entries that stand for different operators are different. Every functional has values for the symbols. In particular this holds for the levels that the word generator lists.", "quantifier": "all numbers of parties, measurements and outcomes, all levels and lists of words for which hashes are unique (sum of powers of the operator count below 2^64), all tables grown by earlier matrices, all algebras and functionals", "why_tests_cant": "Tests compare symbols of small matrices with tables written by hand; they cannot show that no two operators share a symbol at larger levels, nor positivity for all states.", "anchors": ["cpp/lib_moment/scenarios/locality/locality_context.cpp: additional_simplification", "cpp/lib_moment/scenarios/context.cpp: Context, conjugate, multiply", "cpp/lib_moment/scenarios/locality/locality_osg.cpp: LocalityOperatorSequenceGenerator", "cpp/lib_moment/matrix/operator_matrix/moment_matrix.h: MomentMatrixGenerator", "cpp/lib_moment/matrix/operator_matrix/localizing_matrix.h: LocalizingMatrixGenerator"]}
{"id": "C93", "title": "Collins-Gisin tensors of locality scenarios", "statement": "Every index of the Collins-Gisin tensor has an element whose word is the product of the operators the index names, one for each party with a non-zero index, in order of the parties, and equal to its conjugate. If the element has a symbol, it is the symbol of the table with exactly that word, and its value is that of the product of projectors in every algebra. Refreshing a tensor after symbols were added gives the tensor that would be made anew; an element lacks a symbol only if no symbol has its word, and refreshing returns whether any is missing. After a moment matrix of at least half as many levels as there are parties nothing is missing. Elements of the probability tensor, made from these symbols, have the values of the products for all outcomes. Requests for measurements give the box of exactly the wanted indices, two requests for one party are refused.", "quantifier": "all numbers of parties, measurements and outcomes for which hashes are unique, all indices, all sequences of growth of the table and refreshes, all algebras and functionals, all lists of requests", "why_tests_cant": "Tests look at a few tensors of small scenarios right after a matrix is made; they cannot cover all interleavings of growth and refresh nor relate symbols to operators in general.", "anchors": ["cpp/lib_moment/probability/collins_gisin.cpp: cgi_to_op_seq, do_initial_symbol_search, fill_missing_symbols, HasAllSymbols, measurement_to_range", "cpp/lib_moment/scenarios/locality/locality_collins_gisin.cpp: LocalityCollinsGisin, measurement_to_range", "cpp/lib_moment/tensor/auto_storage_tensor.h: AutoStorageTensor"]}
{"id": "C97", "title": "Probability and correlator tensors of locality systems", "statement": "At all times of a locality system (matrices made, tensors refreshed, in any order), each element of the probability tensor has the probability of its outcomes as its value and each element of the full-correlator tensor the mean of the product of its observables, wherever the tensors exist and whether they store their elements or compute them on request. Refreshing always succeeds, except that there is an exception for correlators if a measurement has not two outcomes. A refreshed tensor that stores elements agrees with the present symbols, and the call returns true exactly if no element is missing. Callers come one at a time; correlators of at most 30 parties.", "quantifier": "all scenarios, orders of monomials and sequences of operations, all hashes that are unique, all algebras and functionals", "why_tests_cant": "Tests refresh tensors once or twice in fixed orders; that no sequence of operations leaves an element stale needs an invariant.", "anchors": ["cpp/lib_moment/probability/polynomial_tensor.cpp: fill_missing_polynomials, attempt_symbol_resolution", "cpp/lib_moment/probability/probability_tensor.cpp: ProbabilityTensor, calculate_implicit_symbols", "cpp/lib_moment/probability/full_correlator.cpp: FullCorrelator, calculate_correlators", "cpp/lib_moment/probability/maintains_tensors.cpp: RefreshCollinsGisin, RefreshFullCorrelator, RefreshProbabilityTensor", "cpp/lib_moment/scenarios/locality/locality_matrix_system.cpp: makeCollinsGisin, makeFullCorrelator, makeProbabilityTensor"]}
{"id": "C99", "title": "Threads that refresh tensors", "statement": "Threads may refresh the Collins-Gisin, probability and full-correlator tensors of one system at the same time. No thread uses a tensor that has been destroyed; each call returns true only if all symbols of its tensor exist when it returns, and returns true if it begins when all symbols exist; nothing changes while a thread has the read lock; and no execution is endless or deadlocks.", "quantifier": "all numbers of threads, all kinds of calls, all interleavings, with symbols added at any time in between", "why_tests_cant": "Tests run one thread; the bad interleaving needs two threads that both find no tensor and must be scheduled in one particular way.", "anchors": ["cpp/lib_moment/probability/maintains_tensors.cpp: RefreshCollinsGisin, RefreshProbabilityTensor, RefreshFullCorrelator", "cpp/lib_moment/probability/polynomial_tensor.h: collinsGisin"]}
{"id": "C100", "title": "Matrix systems find the right matrices again", "statement": "In every matrix system, and after every history of calls: a matrix keeps its number until it is deleted by that number. A later request for the same index gives the same matrix and number, and changes nothing. Requests for different indices give different numbers. If the functions that make matrices keep their promises one by one, then every request gives a matrix that is right for what was asked, also when it was made earlier for something else, and the symbol table stays sound and only grows. Calls by several threads have the results that they would have one after the other. Deletions are checked, words with different signs have different localizing matrices, and substituted matrices follow the rules of their rulebook.", "quantifier": "all makers of matrices, all contexts, all sequences of requests, raw polynomials, rulebooks, merges, dictionaries and deletions, all interleavings of threads", "why_tests_cant": "Tests ask a system for a few matrices in one order. They cannot show that no order of requests confuses two indices, nor that a matrix found again is right for the index asked for.", "anchors": ["cpp/lib_moment/matrix_system/matrix_system.cpp: get, push_back, delete_matrix, create_moment_matrix, create_localizing_matrix, create_and_register_localizing_matrix, generate_dictionary", "cpp/lib_moment/matrix_system/matrix_indices.h: MatrixIndices", "cpp/lib_moment/matrix_system/standard_matrix_indices.cpp", "cpp/lib_moment/matrix_system/rulebook_storage.cpp: add, merge_in", "cpp/lib_moment/matrix/composite_matrix.h: create_from_raw"]}
{"id": "C101", "title": "Matrix systems of locality scenarios give the matrices of the hierarchy", "statement": "In the matrix system of every locality scenario, and after every history of requests, raw polynomials, dictionaries, rulebooks and allowed deletions: there are values of the symbols that agree with the moments of any algebra whose operators are self-adjoint and meet the relations of the scenario, and with these values all matrices in the system are right at once. If nothing was deleted, then a request for a moment matrix, for a localizing matrix of a word, or for a localizing matrix of a polynomial X in operators or in symbols gives a matrix, with a row and a column for each word of the level, whose entries are the moments of u* X v. Moment matrices and localizing matrices of words that equal their reverse are flagged as Hermitian. For functionals that are positive on a* X a the matrices are positive semidefinite.", "quantifier": "all locality scenarios and word lengths for which hashes do not overflow, all histories, all algebras, representations and functionals", "why_tests_cant": "Tests compare symbol numbers of a few matrices made in a new system. They cannot show that values of symbols stay consistent between all matrices, for all scenarios and after all histories.", "anchors": ["cpp/lib_moment/scenarios/locality/locality_matrix_system.cpp: LocalityMatrixSystem", "cpp/lib_moment/matrix_system/matrix_system.cpp: MomentMatrix, LocalizingMatrix, generate_dictionary", "cpp/lib_moment/matrix_system/polynomial_localizing_matrix_index.h: MonomialLMIterator", "cpp/lib_moment/matrix/composite_matrix.h: create, create_from_raw", "cpp/lib_moment/symbolic/polynomial_ordering.h", "cpp/lib_moment/dictionary/dictionary.cpp: Level"]}
{"id": "C102", "title": "Tolerances of comparisons and polynomials", "statement": "Approximate comparisons are reflexive and symmetric, exactly one of approximately equal, definitely less and definitely greater holds, and definitely less is a strict order. A polynomial made of terms with a tolerance has strictly ascending symbols and no coefficient below the tolerance; its value, and that of sums and multiples, differs from the exact one by at most the tolerance times the absolute values of its symbols, and not at all if no non-zero coefficient is below the tolerance. Polynomials that compare equal have nearly equal values. The order of polynomials with coefficients, which indexes matrices, is a strict weak order.", "quantifier": "all real and complex numbers, all non-negative tolerances, all lists of terms, all values of symbols", "why_tests_cant": "Tests compare numbers that are equal or far apart. Wrong results of comparisons need coefficients a few units of rounding apart, and a broken order of an index shows only for particular combinations of such polynomials.", "anchors": ["cpp/lib_moment/utilities/float_utils.h: approximately_equal, approximately_zero, essentially_equal, definitely_greater_than, definitely_less_than, approximately_compare", "cpp/lib_moment/symbolic/polynomial.cpp: Polynomial, append, real_or_imaginary_if_close, approximately_equals", "cpp/lib_moment/symbolic/polynomial_ordering.h: PolynomialOrderingWithCoefficients", "cpp/lib_moment/matrix_system/index_storage/polynomial_index_storage.h: PolynomialIndexStorage"]}
{"id": "C103", "title": "Matrices of Pauli scenarios", "statement": "In a Pauli scenario, with or without translations as symmetries, the moment matrix, localizing matrix, commutator matrix and anticommutator matrix of any list of words are made, whatever was made before, and existing symbols stay. In every algebra in which the Pauli relations hold, for every functional that does not change under the symmetry, the values of the entries are the moments of a b, a X b, [a b, X] and {a b, X}. The matrices are Hermitian or anti-Hermitian according to the sign of X and flagged so; in positive states moment matrices are positive semidefinite; entries are equal only for operators equal up to the symmetry. After the moment matrix of a level all words up to twice the level have symbols. Any number of threads makes the same sequences. Different words have different indices.", "quantifier": "all numbers of qubits with collision-free hashes, all four kinds of symmetry, all lists of words, all words X with all signs, all states of the symbol table, all representations and invariant functionals", "why_tests_cant": "Tests compare a few matrices of a few qubits with tables. A wrong phase in a product, a wrong flag or two entries merged without reason shows only for particular pairs of words in particular symmetries.", "anchors": ["cpp/lib_moment/scenarios/pauli/pauli_context.cpp: multiply, commutator, anticommutator, conjugate, simplify_as_moment", "cpp/lib_moment/scenarios/pauli/matrices/moment_matrix.h: PauliMomentMatrixGenerator", "cpp/lib_moment/scenarios/pauli/matrices/monomial_localizing_matrix.h: PauliLocalizingMatrixGenerator", "cpp/lib_moment/scenarios/pauli/matrices/monomial_commutator_matrix.h: CommutatorMatrixGenerator", "cpp/lib_moment/scenarios/pauli/indices/monomial_index.h: PauliMonomialIndex"]}
{"id": "C104", "title": "Factor tables and extended matrices", "statement": "In an inflation scenario the factor table has an entry for every symbol: the canonical factors of its word with multiplicity, each a symbol that does not factorize. Values of words for which independent factors multiply and copies of sources are exchangeable give exactly one assignment of values to symbols that respects the table, after all histories of new words and extensions. In a moment matrix extended by scalars the upper-left block is the moment matrix, the entries for words and scalars are the products of their values, symmetric; old values extend to the new symbols in exactly one way; the same extension again gives the same symbols; for consistent values the extended matrix is positive exactly if the moment matrix is. Invalid sources and scalars give exceptions. Indices of extended matrices are found again.", "quantifier": "all contexts, all histories of words and extensions, all moment matrices, all lists of scalars, all values", "why_tests_cant": "Tests extend a few matrices by one or two scalars and compare symbols. A wrong product, a reference into storage that has moved, or a product with two symbols shows only for particular histories and sizes of the table.", "anchors": ["cpp/lib_moment/scenarios/inflation/factor_table.cpp: on_new_symbols_added, check_for_new_factors, register_new, combine_symbolic_factors", "cpp/lib_moment/scenarios/inflation/extended_matrix.cpp: combine_and_register_factors, make_extended_matrix_single_thread, make_extended_matrix", "cpp/lib_moment/scenarios/inflation/extended_matrix_indices.cpp: find, contains, insert"]}
{"id": "C105", "title": "Extended matrices with several threads", "statement": "Extending a moment matrix by symbols gives the same with several threads as with one, up to the names of new symbols: for every number of threads and every order of their steps the entries have the values of products, the tables stay complete, old symbols are not constrained, new symbols are as many, and a further extension finds them. No two threads write to the same place, every execution ends, and there is no undefined behaviour. (Refuted: if the factors of a new product are the beginning of the factors of another new product, an exception in a thread ends the program; a number that is not a symbol is not refused but read.)", "quantifier": "all contexts, all histories with one and several threads, all moment matrices, all lists of scalars, all numbers of threads, all orders of steps", "why_tests_cant": "Tests run a few extensions on one machine. The order of steps cannot be chosen there, and the error needs a product that is looked for after a longer one has been registered.", "anchors": ["cpp/lib_moment/scenarios/inflation/multithreading/extended_matrix_worker.cpp: ExtendedMatrixWorker::execute, ExtendedMatrixBundle", "cpp/lib_moment/scenarios/inflation/multithreading/temporary_symbols_and_factors.cpp: find_or_register_factors, register_new_symbols_and_factors", "cpp/lib_moment/scenarios/inflation/factor_table.cpp: register_new", "cpp/lib_moment/scenarios/inflation/extended_matrix.cpp: make_extended_matrix"]}
{"id": "C106", "title": "Rules for products in inflation scenarios", "statement": "Products of symbols and polynomials have the products of the values, and are found exactly if a symbol with these factors is there. When a rulebook is added, merged, or new symbols are registered, the rules for products follow from the rules for their factors: each product with a factor that has a rule is replaced by the product of the replacements, numbers multiply, no values are excluded that multiply as the factors do, and contradictions are only reported if there are no such values. The only other exception is that a product is not in the table. Through all histories each rulebook says the same as what was given. (Refuted: the number returned is the growth; expansion mode is switched off for empty rulebooks and after exceptions; expansion goes on until nothing changes; symbols that come from extended matrices are expanded.)", "quantifier": "all inflation contexts, all histories of tables and rulebooks, all polynomials, all ways of sorting", "why_tests_cant": "Tests expand a few rulebooks with one or two rules. The values that satisfy a rulebook are infinitely many, and the errors need a rulebook that infers the value of a factor, or an extension after the rulebook.", "anchors": ["cpp/lib_moment/scenarios/inflation/inflation_matrix_system.cpp: expand_rulebook, on_rulebook_added, on_new_symbols_registered", "cpp/lib_moment/scenarios/inflation/factor_table.cpp: try_multiply, try_multiply_canonical", "cpp/lib_moment/symbolic/rules/moment_rulebook.h: enable_expansion, disable_expansion", "cpp/lib_moment/matrix_system/rulebook_storage.cpp: add, merge_in, refreshAll"]}
{"id": "C107", "title": "Suggested extensions of moment matrices", "statement": "For each moment matrix of an inflation scenario the suggestion ends with a list of at most 100 symbols in order, no longer than the list of the symbols of the matrix with several factors. Each symbol suggested has no factors but itself, is a factor of a symbol of the matrix, and times a word of the matrix is a symbol of the matrix with several factors. If there are at most 100 factors, each symbol of the matrix that is a word times one of its factors is a word times a symbol suggested, and is in the new part of the matrix when it is extended by the suggestion. For other matrices an exception is thrown. (Refuted: this holds for all symbols of the matrix with several factors.)", "quantifier": "all inflation contexts, all histories of tables, all moment matrices", "why_tests_cant": "Tests compare the suggestions for two or three small scenarios with lists written by hand. That nothing useful is left out depends on all words and all factors of arbitrarily large matrices.", "anchors": ["cpp/lib_moment/scenarios/inflation/extension_suggester.cpp: operator(), nonfundamental_symbols, get_symbol_to_test", "cpp/lib_moment/scenarios/inflation/inflation_matrix_system.cpp: suggest_extensions"]}
{"id": "C108", "title": "Threads that make representations of symmetry groups", "statement": "For each number of worker threads and each order of their steps, the representations of a symmetry group that the threads make are those that one thread makes; no thread reads a representation before it is made, no two threads touch the same matrix at the same time with one of them writing, threads never wait for each other for ever, and all of them have ended when the call returns. So a group created with threads has the same representations as a group created without.", "quantifier": "all groups, word lengths, numbers of threads and interleavings", "why_tests_cant": "Tests run each number of threads a few times on one machine; interleavings that lose a wake-up or read a representation too early may never occur there.", "anchors": ["cpp/lib_moment/scenarios/symmetrized/group_rep_generation_worker.cpp: execute, GroupRepGenerationBundle::execute, join", "cpp/lib_moment/scenarios/symmetrized/group.cpp: identify_and_build_representations, build_representations_multi_thread", "cpp/lib_moment/multithreading/multithreading.cpp: get_max_worker_threads"]}
{"id": "C109", "title": "Matrices of Pauli scenarios, by number and by index", "statement": "In a Pauli scenario, an index without restriction to neighbours and the same index with zero neighbours stand for one matrix: whichever is asked for first, both give the same matrix with the same number, and requests by either leave the same system. Every matrix keeps its number until it is deleted; asking again gives the same matrix; indices that differ in level, neighbours, kind, word or polynomial never share a number. If each function that makes a matrix does what it says, then all matrices that requests give are right for their indices, whatever was asked before, and no assertion fails.", "quantifier": "all sequences of requests, raw polynomials, deletions, rulebooks and dictionary requests", "why_tests_cant": "Which entries a request adds depends on everything asked before; the entries under second indices are only seen to be missing or wrong in particular orders of requests.", "anchors": ["cpp/lib_moment/scenarios/pauli/pauli_matrix_system.cpp: on_new_moment_matrix, on_new_localizing_matrix, on_new_polynomial_localizing_matrix, on_new_nearest_neighbour_moment_matrix, create_and_register_localizing_matrix, create_and_register_commutator_matrix", "cpp/lib_moment/scenarios/pauli/pauli_index_collections.cpp: operator(), notify", "cpp/lib_moment/scenarios/pauli/indices/monomial_index.h: operator<", "cpp/lib_moment/matrix_system/matrix_indices.h: create, find, insert_alias", "cpp/lib_moment/matrix/composite_matrix.h: create, create_from_raw"]}
{"id": "C110", "title": "Names of operators in algebraic scenarios", "statement": "A list of operator names is accepted exactly if its length is right, no name occurs twice, and each name is a letter followed by letters, digits, underscores, dots and bars; default names are always accepted. Looking up the name of an operator gives this operator and no other; a name with a star is the conjugate of the operator with that name, or the operator itself if it is self-adjoint; no other text is found. Different words have different texts, and texts of names are read back as the words they came from.", "quantifier": "all numbers of operators, ways to add conjugates, lists of names and words", "why_tests_cant": "Tests look up a few names; they do not read names back by number where conjugates are interleaved, and cannot show that no two words share a text.", "anchors": ["cpp/lib_moment/scenarios/algebraic/name_table.cpp: NameTable, validate_name, find, format_stream, default_string_names", "cpp/lib_moment/scenarios/algebraic/algebraic_context.cpp: format_sequence, format_raw_sequence", "cpp/mex_functions/import/read_monomial_rules.cpp: get_op_seq_from_string, get_op_seq_from_char_array"]}
{"id": "C111", "title": "Matrices that Pauli scenarios give", "statement": "In a Pauli scenario with any number of qubits, open or closed, a chain, a lattice or unordered, with or without translational symmetry: however the system was used before, a request for a moment matrix, a localizing matrix or a matrix of commutators or anticommutators, of a word, of a polynomial in symbols or of a polynomial in words, gives a matrix whose entry in row a and column b is the moment of a b, a z b, [a b, z] or {a b, z}, for all algebras with the Pauli relations and all functionals with the symmetry, with one assignment of values to symbols for all matrices together. Moment matrices, and localizing matrices of what the functional is positive on, are positive semidefinite. Requests for words with a sign give the matrices of those words with that sign.", "quantifier": "all scenarios, levels, neighbours, words, polynomials and histories of requests, deletions and rulebooks; all representations and functionals", "why_tests_cant": "The matrices of one request depend on symbols that other requests entered, and on canonical forms under translations; that entries are right for all states of any number of qubits cannot be sampled.", "anchors": ["cpp/lib_moment/scenarios/pauli/pauli_matrix_system.cpp: create_moment_matrix, create_localizing_matrix, create_nearest_neighbour_moment_matrix, create_and_register_localizing_matrix, create_and_register_commutator_matrix", "cpp/lib_moment/scenarios/pauli/pauli_dictionary.cpp: NearestNeighbour", "cpp/lib_moment/scenarios/pauli/matrices/*.h", "cpp/lib_moment/matrix/composite_matrix.h: create, create_from_raw", "cpp/lib_moment/matrix/operator_matrix/operator_matrix_impl.h: create_matrix"]}
{"id": "C112", "title": "Flattened indices", "statement": "Flattening lists of indices against a shape gives, for every combination of one index of each list in the order of MATLAB arrays, the position that sub2ind of MATLAB gives it, with indices that begin at 0 or 1. It is refused if and only if there are more lists than dimensions, or an index is out of range; the last list may run over all dimensions that are left. With one list for all dimensions the indices are given back as they are; positions are always within the array.", "quantifier": "all shapes, all numbers of lists, all indices, both conventions", "why_tests_cant": "Tests use small shapes and as many lists as dimensions; which combinations are taken and where they land depends on all lists together, and empty lists or no lists at all are not tested.", "anchors": ["cpp/lib_moment/tensor/index_flattener.h: IndexFlattener", "cpp/lib_moment/tensor/index_flattener.cpp", "cpp/mex_functions/functions/utility/flatten_indices.cpp: FlattenIndicesParams, exportDoubleIndices"]}
{"id": "C113", "title": "Symbols as text", "statement": "A text without letters that begin infinities, nan or hexadecimal numbers is read as a symbol if and only if it has the form of a number, of a symbol with an optional minus sign and star, or of a factor, a hash and a symbol with an optional star; then number, factor and conjugation are those written. The text that is written for a symbol is read as this symbol.", "quantifier": "all texts, symbols and factors; all ways to round numbers", "why_tests_cant": "There are infinitely many texts; the least integer, empty parts and what the library writes for factors are not among those tested.", "anchors": ["cpp/lib_moment/symbolic/monomial.cpp: SymbolExpression, read_factor, operator<<", "cpp/lib_moment/utilities/format_factor.cpp: format_factor, format_factor_skip_zero"]}
{"id": "C114", "title": "Moment matrices of inflation scenarios", "statement": "In an inflated network, every list of words that is short enough for hashes to be unique gives a moment matrix, and a localizing matrix for every word. The matrix is flagged as Hermitian, its entries are the moments of the products of the words for every functional that does not see which copies of the sources are which, and it is positive semidefinite if the functional is positive. Two entries have the same symbol if and only if their words are equal after the copies of the sources have been permuted. The matrix of a level of the hierarchy has a row for each word that the dictionary lists, and afterwards all words of up to twice the level have symbols.", "quantifier": "all networks and inflation levels, all levels of the hierarchy and lists of words, all tables that matrices have made, all algebras, self-adjoint operators and exchangeable functionals", "why_tests_cant": "Tests compare single matrices of small networks. Whether canonical moments, hashes, conjugates and symbols fit together depends on the network, and the functionals are infinitely many.", "anchors": ["cpp/lib_moment/scenarios/inflation/inflation_context.cpp: InflationContext::simplify_as_moment, apply_permutation, additional_simplification", "cpp/lib_moment/scenarios/inflation/inflation_context.h: can_have_aliases, can_be_nonhermitian", "cpp/lib_moment/scenarios/inflation/inflation_matrix_system.cpp", "cpp/lib_moment/scenarios/inflation/inflation_osg.cpp", "cpp/lib_moment/matrix/operator_matrix/moment_matrix.h", "cpp/lib_moment/matrix/operator_matrix/localizing_matrix.h"]}
{"id": "C115", "title": "Collins-Gisin and probability tensors of inflation scenarios", "statement": "In an inflated network the tensors have one dimension for each copy of each observable. The entry of the Collins-Gisin tensor at an index has the word of the product of the operators of the copies that are measured, and a symbol that stands for that moment; tensors that are refreshed after symbols have been added find every symbol that exists, and after a moment matrix of sufficient level nothing is missing. The elements of the probability tensor have the values of products of operators for all outcomes, in every algebra and for every functional that does not see which copies of the sources are which. Requests for measurements of copies give the box of exactly the elements that measure these copies; requests for copies or outcomes that do not exist are refused.", "quantifier": "all networks and inflation levels, all tables and orders of growing and refreshing, all indices, requests, algebras, operators and exchangeable functionals", "why_tests_cant": "Tests look at single elements of small networks. The number of elements grows exponentially with the number of copies, and which symbols are found depends on the order in which matrices were made.", "anchors": ["cpp/lib_moment/scenarios/inflation/inflation_collins_gisin.cpp: make_dimensions, InflationCollinsGisin, measurement_to_range", "cpp/lib_moment/scenarios/inflation/inflation_probability_tensor.cpp: make_construct_info, measurement_to_range, outcome_to_element", "cpp/lib_moment/scenarios/inflation/inflation_context.cpp: obs_variant_to_index", "cpp/lib_moment/probability/collins_gisin.cpp: do_initial_symbol_search, fill_missing_symbols, cgi_to_op_seq"]}
{"id": "C116", "title": "Recursive storage", "statement": "In storage with chunks of numbers, an index sequence selects a node exactly if it has at most the largest depth of numbers and their chunks ascend; in storage with a width, exactly if all numbers are below the width. A value that is set is read at its place and nowhere else. A visitor is called once for every node, with the indices of that node, in lexicographic order, and the values it leaves are the values afterwards. Reading by indices gives a reference to the stored value.", "quantifier": "all sizes of chunks, widths, depths and offsets, all trees, index sequences, values and visitors with state", "why_tests_cant": "Tests walk through one tree of 24 nodes. A reference to a value that is gone often still reads the right number, so that a test passes.", "anchors": ["cpp/lib_moment/utilities/recursive_index.h: RecursiveStorage::subtree, set, access, visit, do_visit, WidthByDepthRecursiveStorage, MonotonicChunkRecursiveStorage"]}
{"id": "C117", "title": "Words and moment matrices of algebraic scenarios", "statement": "Once the rules of an algebraic scenario are reported complete, two words become the same sequence exactly if they are equal in every algebra in which the rules hold, and zero exactly if they are zero in every such algebra; products and conjugates of sequences are the sequences of the products and of the adjoints. Every list of short words gives a moment matrix and localizing matrices whose entries are the right moments in every state of every such algebra, which are equal only if the rules make them so, which are positive semidefinite in every positive state, and which are flagged Hermitian.", "quantifier": "all precontexts, rules, flags for commuting and normal operators, words within the range of hashes, algebras with representations of the rules and states on them", "why_tests_cant": "Tests run a few scenarios with two or three operators and compare symbols with lists; equality in every algebra is not something a test can observe, and books that look complete but are not need particular overlaps or a particular order of rules.", "anchors": ["cpp/lib_moment/scenarios/algebraic/algebraic_context.cpp: AlgebraicContext, additional_simplification, attempt_completion, is_complete, conjugate", "cpp/lib_moment/scenarios/algebraic/operator_rulebook.cpp: complete, conjugate_ruleset, mock_conjugate, is_complete", "cpp/lib_moment/scenarios/context.cpp: multiply", "cpp/lib_moment/matrix/operator_matrix/moment_matrix.cpp", "cpp/lib_moment/matrix/operator_matrix/localizing_matrix.cpp"]}
{"id": "C118", "title": "Short vectors behave as lists", "statement": "Whatever a program does with any number of short vectors (construction, copies, moves, appending, inserting, erasing, reserving, exchanging, destroying), each vector holds the elements that a plain list would hold, read by index or by iteration in either direction; no call on one vector changes another; elements are within the vector's own buffer or a block that no other vector uses; and within the capacity elements stay where they are.", "quantifier": "all sizes of buffers, types of elements and sequences of allowed calls on any number of vectors", "why_tests_cant": "The buffer and the heap give every operation two or four cases, and wrong pointers only show after particular sequences of moves, exchanges and reallocations; tests try a few of them with small sizes.", "anchors": ["cpp/lib_moment/utilities/small_vector.h: SmallVector, push_back, emplace_back, insert, erase, reserve, swap, reallocate, const_reverse_iterator"]}
{"id": "C119", "title": "Derived systems hold the transformed matrices of their base systems", "statement": "Whatever was done before with a derived system and with its base system, a request for a moment matrix, a localizing matrix or a matrix for a polynomial gives the transform, under the map of symbols, of the matrix that the base system has for the same index; so does a request by the number of a matrix of the base system. Asking again gives the same matrix with the same number; the base system loses nothing; words that are too long for the map are refused before anything is done; and the two ways of asking lead to one matrix.", "quantifier": "all base systems, maps, indices and sequences of operations on both systems", "why_tests_cant": "The two systems keep their own numbers, with a table between them; tests ask for a few matrices in one order, and the order is what matters.", "anchors": ["cpp/lib_moment/scenarios/derived/derived_matrix_system.cpp: create_moment_matrix, create_localizing_matrix, create_polynomial_localizing_matrix, create_derived_matrix, on_new_moment_matrix", "cpp/lib_moment/scenarios/derived/derived_matrix_indices.cpp: DerivedMatrixFactory", "cpp/lib_moment/matrix_system/matrix_indices.h: create, insert_alias"]}
{"id": "C120", "title": "Tensors show the same elements however they are stored", "statement": "A tensor that stores its elements and one that makes them when asked for cannot be told apart: reading by index or by offset gives the element for the index, or the same exception; iteration over the whole visits every index in range once, in the order of offsets, and shows index, offset and element; iteration over a part visits exactly the indices between its corners, with offsets and counts, however often elements are used on the way; and the part reports the number of elements that are visited.", "quantifier": "all dimensions, thresholds, storage hints, element types, indices, offsets and corners", "why_tests_cant": "Which way of storage is used depends on a threshold that small tests do not reach, or reach only with one shape; the two ways have separate code for each access.", "anchors": ["cpp/lib_moment/tensor/auto_storage_tensor.h: ElementView, Iterator, FullIterator, TensorRange, Splice, get_storage_type"]}
{"id": "C121", "title": "Parties, measurements and outcomes are numbered consistently by every request", "statement": "In a locality context, operators are numbered in the order of parties, measurements and outcomes (all outcomes but the last). Every request agrees with that numbering: the party of an operator, the measurement of an operator, the outcome of an operator and the operator of an outcome, the list of operators of a party, the test for mutually exclusive operators, the index of a measurement in the whole context and back, and the numbers of outcomes for measurements and for parties. Requests for what does not exist are refused. The context that is made from lists of numbers, or from the arguments of the Matlab function, has the parties, measurements and outcomes that the numbers say.", "quantifier": "all lists of parties with all names, numbers of measurements and of outcomes for which operators and measurements can be numbered, all operator numbers and indices", "why_tests_cant": "The numbers are kept in several tables with offsets of different kinds, which agree by accident in scenarios with one party, one measurement or equal numbers of outcomes; 16-bit numbers wrap only in scenarios too large for tests.", "anchors": ["cpp/lib_moment/scenarios/locality/party.cpp: Party, set_offsets, operators, measurement_of, measurement_outcome, mutually_exclusive, MakeList", "cpp/lib_moment/scenarios/locality/locality_context.cpp: LocalityContext, global_index_to_PM, PM_to_global_index, outcomes_per_measurement, outcomes_per_party", "cpp/mex_functions/functions/matrix_system/locality_matrix_system.cpp: getFromParams, getFromInputs, make_context"]}
{"id": "C122", "title": "In a locality context, different words have different texts", "statement": "The text of an operator names its party, its measurement and its outcome. Different words of operators, zero, the identity, and words with a minus sign have different texts, in both formats, with and without braces. The names that the library itself gives always allow this. A number that is no operator is written as unknown.", "quantifier": "all contexts whose names are different and contain no digits and none of . ; | -, all words of operators, both formats", "why_tests_cant": "Whether two of infinitely many words are written alike cannot be found by looking at the texts of some.", "anchors": ["cpp/lib_moment/scenarios/locality/locality_operator_formatter.cpp: NaturalLOFormatter::format, TraditionalLOFormatter::format", "cpp/lib_moment/scenarios/locality/locality_context.cpp: do_format_sequence", "cpp/lib_moment/scenarios/locality/party.cpp: format_operator, MakeList"]}
{"id": "C123", "title": "In generic, Pauli and inflation contexts, different words have different texts", "statement": "Different words of operators, zero, the identity, and words with different signs have different texts, with and without braces. In inflation contexts the text of an operator names its observable, its outcome where there are several, and the copies of its sources, and numbers that are no operators are written as unknown; different lists of outcomes of copies of observables have different texts, too.", "quantifier": "all words, all four signs, all causal networks and levels of inflation, any number of qubits", "why_tests_cant": "Whether two of infinitely many words are written alike cannot be found by looking at the texts of some; commas and brackets between numbers of copies appear only from level 10 on and with more than two outcomes.", "anchors": ["cpp/lib_moment/scenarios/context.cpp: format_sequence, format_raw_sequence", "cpp/lib_moment/scenarios/pauli/pauli_context.cpp: format_sequence, format_raw_sequence", "cpp/lib_moment/scenarios/inflation/inflation_context.cpp: format_sequence"]}
{"id": "C124", "title": "Matrix systems of inflation scenarios hold matrices of moments, and factors whose values multiply", "statement": "At any time, whatever was requested before, the moment matrices, localizing matrices and matrices for polynomials that the matrix system of an inflation scenario answers with have as entries the moments of u\u2020 v, u\u2020 m v and u\u2020 X v, in all algebras in which the operators are self-adjoint and meet the relations of the network, for functionals that do not see which copies of sources are which; there is one set of values of the symbols for which all matrices in the system are right at once, and positive functionals give positive matrices. The factor table has an entry for each symbol: the sorted symbols of the finest split of its word into parts that share no sources, so that for functionals under which independent words are independent the value of a symbol is the product of the values of its factors.", "quantifier": "all causal networks, all levels of inflation, all words and polynomials of lengths for which hashes are unique, all sequences of requests, all algebras and functionals", "why_tests_cant": "The order of requests decides the numbers of symbols and when factors are looked for; tests use one order and one network.", "anchors": ["cpp/lib_moment/scenarios/inflation/inflation_matrix_system.cpp: InflationMatrixSystem, on_new_symbols_registered", "cpp/lib_moment/scenarios/inflation/factor_table.cpp: on_new_symbols_registered", "cpp/lib_moment/matrix_system/matrix_system.cpp: on_new_moment_matrix and others"]}
{"id": "C125", "title": "Rules given by the user are read as the equations that they say", "statement": "A cell array of operator rules is accepted exactly if each of its elements has two sides that are products of operators (given by names, letters or numbers from 1) or zero, with a sign between them or none. The rules made from it hold for operators of an algebra exactly if the operators meet the given equations; so do the rules of the context that is made with them. Sides too long to have a hash are refused.", "quantifier": "all lists of operator names, all conjugation modes, all MATLAB values, all complex algebras", "why_tests_cant": "Values have many kinds and lengths, equality of meaning is over all algebras, and wrong factors show only for imaginary signs and one order of sides.", "anchors": ["cpp/mex_functions/import/read_monomial_rules.cpp: get_op_seq, get_op_seq_from_numeric, read_monomial_rules, to_rule, check_rule_length", "cpp/mex_functions/functions/matrix_system/algebraic_matrix_system.cpp: AlgebraicMatrixSystemParams, get_context", "cpp/lib_moment/scenarios/algebraic/operator_rule.cpp: OperatorRule"]}
{"id": "C126", "title": "Polynomials given by the user are read as what they say, and returned polynomials can be given again", "statement": "A cell array of terms (symbol, coefficient, whether conjugated) or an array of texts is accepted exactly if it says a sum of terms whose symbols are all known, and gives the canonical polynomial with the value of that sum. A polynomial that is returned as a cell array and given again is the same. A cell array of words with coefficients gives the polynomial whose value is the sum of the coefficients times the moments of the words, with or without registration of new symbols.", "quantifier": "all MATLAB values, all symbol tables and orders of monomials, all polynomials, all values of symbols, all functionals", "why_tests_cant": "Input has many kinds and lengths, equality of value is over all values of symbols, and signs of words are lost only in contexts where products of operators have signs.", "anchors": ["cpp/mex_functions/import/read_polynomial.cpp: read_raw_monomial_cell, read_raw_monomial_string, read_raw_polynomial_data, check_raw_polynomial_data, raw_data_to_polynomial", "cpp/mex_functions/import/read_opseq_polynomial.cpp: StagingPolynomial, StagingMonomial", "cpp/mex_functions/export/export_polynomial.cpp: PolynomialExporter::symbol_cell, PolynomialExporter::sequences", "cpp/mex_functions/utilities/read_as_scalar.cpp: read_as_uint64, do_read_as_complex_scalar, read_as_boolean"]}
{"id": "C127", "title": "Indices of measurements and outcomes are read as given, and refused exactly if there is no such measurement or outcome", "statement": "A table of two columns is read as a list of measurements and one of three columns as a list of outcomes, each number as it stands there, counted from zero; other shapes and entries that are not positive integers are refused. In locality and in inflation scenarios a list is accepted, unchanged, exactly if every measurement or outcome in it exists, or has an operator where operators are asked for.", "quantifier": "all arrays of rational numbers of all shapes, all scenarios, all networks, all lists of indices", "why_tests_cant": "Errors are at the border of the number of outcomes, for one kind of scenario only, and show as the probability of an outcome of another copy instead of an exception.", "anchors": ["cpp/mex_functions/import/read_measurement_indices.cpp: IndexReaderVisitor::dense, read_pairs_and_triplets, PMConvertor::read_pm_index, PMConvertor::read_pmo_index, PMConvertor::read_pm_index_list, PMConvertor::read_pmo_index_list, OVConvertor::read_ov_index, OVConvertor::read_ovo_index, OVConvertor::read_ov_index_list, OVConvertor::read_ovo_index_list"]}
{"id": "C128", "title": "Making probabilities explicit gives equations, or values of moments, that hold exactly for the given probabilities", "statement": "Given values for the probabilities of all outcomes of measurements, possibly conditional on fixed outcomes, the polynomials that are returned, simplified or not, vanish exactly where the probabilities have these values, and a list of values of moments says exactly the same. Requests are refused only for wrong numbers of values, unknown symbols, contradictory values, or values that do not determine the moments of a list. If one value of a distribution is missing, it is taken to be the one that makes the sum one.", "quantifier": "all elements of tensors, all conditions, all values, all symbol tables and orders, all ways to sort rules, all values of symbols", "why_tests_cant": "Equivalence of equations is over all values of symbols; completion of rules goes through unboundedly many intermediate books.", "anchors": ["cpp/mex_functions/functions/probability/make_explicit.cpp: MakeExplicit::operator(), MakeExplicit::check_count, make_sub_pair, try_make_substitution_list", "cpp/lib_moment/probability/probability_tensor.cpp: ProbabilityTensor::explicit_value_rules", "cpp/lib_moment/symbolic/rules/moment_rulebook.cpp: MomentRulebook::complete", "cpp/lib_moment/symbolic/rules/moment_rule.cpp: MomentRule::as_polynomial"]}
{"id": "C129", "title": "Rulebooks made from values, from polynomials in symbols or from polynomials in words say exactly what was given, and applying them decides equality", "statement": "If the user gives values for symbols, the solutions of the rulebook are exactly the assignments with these values; if they give polynomials in symbols, exactly those where the polynomials vanish; if they give polynomials in words, moments of a state solve the rulebook exactly if the polynomials have the value zero in the state, with known symbols or with new ones. Rules are refused exactly for unknown symbols or contradictions. Polynomials to which the rules are applied keep their values on all solutions, and two of them become equal exactly if they agree on all solutions.", "quantifier": "all input arrays, all symbol tables and orders, all ways to sort rules, all states, all polynomials, all rulebooks that can be made", "why_tests_cant": "A dropped or misread rule only makes an optimum larger than it should be; equality on all solutions is not observable by finitely many evaluations.", "anchors": ["cpp/mex_functions/functions/moment_rules/create_moment_rules.cpp: CreateMomentRulesParams::parse_as_sublist, CreateMomentRulesParams::parse_as_symbol_polynomials, CreateMomentRulesParams::parse_as_op_seq_polynomials, CreateMomentRules::create_rulebook_from_sublist, CreateMomentRules::create_rulebook_from_symbols, CreateMomentRules::create_rulebook_from_new_sequences, CreateMomentRules::create_rulebook_from_existing_sequences", "cpp/mex_functions/functions/moment_rules/apply_moment_rules.cpp: ApplyMomentRulesParams::read_symbol_cell_input, ApplyMomentRules::operator()", "cpp/lib_moment/symbolic/rules/moment_rulebook.cpp: MomentRulebook::add_raw_rules, MomentRulebook::complete, MomentRulebook::reduce"]}
{"id": "C130", "title": "Monomials returned as words say what they are, and polynomials returned in words can be given again", "statement": "The operators and coefficients returned for a polynomial, for a list of words or for the entries of a matrix have, in every state, the value of the polynomial, the words or the entries; the columns on symbols name the symbol and the places of its parts in the basis; a polynomial returned in words and given again is the same polynomial; polynomials are refused exactly if a symbol is unknown or has no word.", "quantifier": "all contexts, all symbol tables that can come about, all polynomials, words with all signs, all matrices of words, all states", "why_tests_cant": "A lost sign or a wrong word in a returned array is plausible output; whether it has the right value in all states is not observable by examples.", "anchors": ["cpp/mex_functions/export/full_monomial_specification.cpp: FullMonomialSpecification::PartialWriteFunctor::operator(), FullMonomialSpecification::FullWriteFunctor::operator()", "cpp/mex_functions/export/export_polynomial.cpp: PolynomialExporter::sequences", "cpp/mex_functions/export/export_osg.cpp: OSGExporter::sequences, OSGExporter::sequences_with_symbol_info", "cpp/mex_functions/export/export_operator_matrix.cpp: OperatorMatrixExporter::monomials", "cpp/lib_moment/symbolic/symbol.h: Symbol::sequence_conj, Symbol::basis_key"]}
{"id": "C131", "title": "Rulebooks that are returned can be given again, and rules can be merged in any order and in portions", "statement": "A moment rulebook that is returned as polynomials, in symbols or in words, and given again, is the same rulebook. Rules that are merged into a rulebook give the rulebook of the common solutions, the same whichever is merged into which; if there are no common solutions this is refused, and the rulebook that was there stays as it was. Rules given in two portions give the same rulebook as all at once.", "quantifier": "all symbol tables, all orders of symbols, all rulebooks that can come about, all ways to sort equations, all ways to divide the rules into portions", "why_tests_cant": "The rules of a merged or restored rulebook look right one by one; that the book is exactly the same for all systems of equations, all orders and all divisions cannot be sampled.", "anchors": ["cpp/mex_functions/export/export_moment_substitution_rules.cpp: MomentSubstitutionRuleExporter::as_symbol_cell, MomentSubstitutionRuleExporter::as_polynomials", "cpp/mex_functions/functions/moment_rules/create_moment_rules.cpp: CreateMomentRules::operator()", "cpp/lib_moment/matrix_system/rulebook_storage.cpp: RulebookStorage::merge_in", "cpp/lib_moment/symbolic/rules/moment_rulebook.cpp: MomentRulebook::combine_and_complete"]}
{"id": "C132", "title": "Symmetrizing a polynomial gives the average of its translates", "statement": "The symmetrized polynomial of a scenario with translational symmetry is the average of the translates of the given polynomial: on closed chains and lattices over all rotations, on open ones over all translations at which the whole polynomial is still on the chain or lattice. So it has the same value in every state that does not change under translations, and on closed chains and lattices it does not itself change under rotations. Polynomials without operators are returned as they are.", "quantifier": "all sizes of chains and lattices, all polynomials in simplified words, all values of words, all translations", "why_tests_cant": "Each translate looks right by itself; that each occurs exactly once, with weights that add up, for all sizes and shapes of polynomials cannot be sampled.", "anchors": ["cpp/lib_moment/scenarios/pauli/symmetry/lattice_duplicator.cpp: LatticeDuplicator::symmetrical_copy, do_apply_symmetry_chain, do_apply_symmetry_lattice, get_max_chain_offset, get_max_lattice_offset", "cpp/lib_moment/scenarios/pauli/symmetry/moment_simplifier.h: chain_offset, lattice_offset", "cpp/mex_functions/functions/lattice_symmetrize.cpp: LatticeSymmetrize::operator()"]}
{"id": "C133", "title": "Sums, products and commutators of arrays act entry by entry", "statement": "Adding, multiplying, commuting or anticommuting polynomials or arrays of polynomials gives an array of the shape of the operands, in which each entry says the sum, product, commutator or anticommutator of the entries of the operands at the same place; a single polynomial stands for an array that has it everywhere. Entries list distinct words, none of them zero, with factors that are not zero; an entry that is zero is one row with factor zero. The result is given as monomials exactly if no entry has more than one term. Arrays of different shapes, arrays with matrices, products of two matrices, and commutators with matrices are refused.", "quantifier": "all contexts and Pauli contexts of all sizes, all four operations, all shapes and lengths of arrays, all polynomials in simplified words", "why_tests_cant": "Pairing of entries, order of factors and merging of equal words depend on shapes and contents together; a sample of small arrays can have commuting entries by chance.", "anchors": ["cpp/mex_functions/functions/algebraic/binary_operation.cpp: determine_product_type", "cpp/mex_functions/functions/algebraic/binary_operation.h: BinaryOperation::one_to_many, many_to_one, many_to_many", "cpp/mex_functions/functions/algebraic/binary_operation_impl.h: BinaryOperation::operator(), polynomial_by_polynomial", "cpp/mex_functions/functions/algebraic/plus.cpp: Plus::one_to_one", "cpp/mex_functions/functions/algebraic/multiply.cpp: Multiply::one_to_one, MultiplyParams", "cpp/mex_functions/functions/algebraic/commutator.cpp: Commutator::one_to_one, CommutatorParams", "cpp/mex_functions/export/export_polynomial.cpp: PolynomialExporter::monomial_sequence_cell_vector, sequence_cell_vector"]}
{"id": "C134", "title": "Simplified words and conjugates say what they should", "statement": "Simplifying words gives, in the shape in which they were given, words with sign and hash that say the same operators in every algebra in which the rules of the scenario hold; conjugating them gives the adjoints. If the rules are complete, two words give the same outputs exactly if the rules imply that they are equal, and simplifying a result that is not zero again gives it back. Words are refused exactly if a number is not that of an operator. A word of names gives what the word of the numbers of the names gives. What is returned as word and sign is enough to know the operator.", "quantifier": "all algebraic scenarios with complete rules and all locality scenarios, all words up to the longest that is supported, all shapes of arrays, all tables of names", "why_tests_cant": "Equality of two words can depend on long chains of rules; words tried in tests are short and mostly given in their simplest form.", "anchors": ["cpp/mex_functions/functions/algebraic/simplify.cpp: Simplify::operator(), SimplifyParams::SimplifyParams, process_input_string", "cpp/mex_functions/functions/algebraic/conjugate.cpp: Conjugate::operator(), ConjugateParams::ConjugateParams, validate_op_seq"]}
{"id": "C135", "title": "Arrays of numbers are named entry by entry", "statement": "Asking for the alphabetic names of an array of numbers gives an array of the same shape, in which each entry is the text at that place of the list A, B, ..., Z, AA, AB, ..., counted from one, or from zero if that is asked for, in the case that is asked for; fractions are dropped. Different numbers get different names. A single number gives its name. Numbers before the first are refused, alone and in arrays.", "quantifier": "all shapes and lengths of arrays, all integers of 64 bits and all finite floating point numbers, all flags", "why_tests_cant": "Infinitely many numbers; conversions of numbers outside of the range differ between types of input.", "anchors": ["cpp/mex_functions/functions/utility/alphabetic_name.cpp: AlphabeticName::operator(), AlphabeticNamerMatrixVisitor::dense", "cpp/lib_moment/utilities/alphabetic_namer.cpp", "cpp/mex_functions/utilities/read_as_scalar.h: read_positive_integer"]}
{"id": "C136", "title": "The basis matrices of a cell of polynomials have the polynomials as columns", "statement": "Asking for the basis of a cell of polynomials in symbols gives two sparse matrices with a row for each real and each imaginary basis element and a column for each cell; for all values of the basis elements, the sum of both columns applied to them is the value of the polynomial that the cell says. Cells with unknown symbols, and calls with a number of outputs that is not permitted, are refused. No call writes beyond the outputs that were asked for.", "quantifier": "all tables of symbols that can be reached, all cells of polynomials given as numbers or texts, all numbers of outputs", "why_tests_cant": "Columns depend on all symbols of the table, their parts, and repeated terms; memory beyond the outputs is rarely noticed.", "anchors": ["cpp/mex_functions/functions/generate_basis.cpp: GenerateBasis::generate_symbol_cell_basis, GenerateBasisParams::read_symbol_cell", "cpp/mex_functions/mex_main.cpp: MexMain::validate_outputs", "cpp/mex_functions/utilities/io_parameters.h: IOArgumentRange::operator[]", "cpp/mex_functions/export/export_polynomial.cpp: PolynomialExporter::basis"]}
{"id": "C137", "title": "Symbols and polynomials are transformed to derived systems one by one", "statement": "Transforming an array of numbers of symbols, or a cell of polynomials in symbols, to a derived system gives a cell of the same shape; each entry says a polynomial in symbols of the derived system whose value, for all values of these symbols, is that of the input if each symbol of the base system has the value that the map of symbols carries to it. Number 0 gives zero. Numbers that are not those of symbols, and cells with unknown symbols, are refused.", "quantifier": "all base systems, all maps of symbols made from averages, all arrays of numbers and cells of polynomials, all values of symbols that respect the table", "why_tests_cant": "Values depend on the map, on conjugates and on complex factors together; samples of these leave out most combinations.", "anchors": ["cpp/mex_functions/functions/transform_symbols.cpp: TransformSymbols::operator(), TransformSymbols::transform_symbol_ids, TransformSymbols::transform_symbol_cells, transform_polynomials, output_from_polynomials", "cpp/lib_moment/scenarios/derived/symbol_table_map.cpp: SymbolTableMap::operator()"]}
{"id": "C138", "title": "The expressions of localizing matrices are read as what they say", "statement": "The expression that localizes a matrix is read, without flags, as a word of operators, counted from one, or from zero if that flag is given; it stands for the product of these operators. Words with numbers of operators that do not exist are refused. With flags, cells are read as polynomials in symbols or in words, with the same way of counting; words with these flags, cells without them, and other types are refused.", "quantifier": "all contexts, all words of numbers, all cells, all flags", "why_tests_cant": "Numbers of operators that are refused or not depend on the width of integers and on the flag for counting; there are too many combinations of flags, types and contexts.", "anchors": ["cpp/mex_functions/import/read_localizing_matrix_indices.cpp: LocalizingMatrixIndexImporter::read_localizing_expression, LocalizingMatrixIndexImporter::to_monomial_index, LocalizingMatrixIndexImporter::to_polynomial_index, LocalizingMatrixIndexImporter::to_raw_polynomial_index", "cpp/mex_functions/functions/operator_matrix/localizing_matrix.cpp: LocalizingMatrixParams::extra_parse_inputs", "cpp/mex_functions/utilities/read_as_vector.cpp: IntVectorReaderVisitor::dense"]}
{"id": "C139", "title": "Rows of the symbol table say what the symbols are, and searches give the right row", "statement": "The table of symbols that is returned has one row for each symbol in order of the numbers, with its word, its conjugate, whether it is Hermitian, and its positions in the basis counted from one, zero for none. Rows that were returned before, followed by those from the first new symbol on, are all rows. The search for a word gives the row of the symbol with this word or with its conjugate, and says which, or no row if there is none; words with operators that do not exist are refused.", "quantifier": "all histories of the table, all numbers of the first row, all words", "why_tests_cant": "Which rows change depends on the whole history of the table; which words collide depends on the number of operators.", "anchors": ["cpp/mex_functions/functions/symbol_table.cpp: SymbolTableParams, SymbolTable::operator(), SymbolTable::find_and_return_symbol, SymbolTable::find_and_return_symbol_array", "cpp/mex_functions/export/export_symbol_table.cpp: SymbolTableExporter::export_table, SymbolTableExporter::export_row_array, SymbolTableExporter::do_row_write, SymbolTableExporter::do_missing_row_write"]}
{"id": "C140", "title": "Matrices of numbers are read as they are, whatever form they are given in", "statement": "A matrix of numbers can be given dense, sparse or as texts, and is read into a dense or a sparse matrix. In each case the dimensions stay, and each entry is the number that was given for it; no zeros are stored for matrices that were not sparse. A sparse matrix that is returned has the same entries and can be given again. Texts that are no numbers are refused.", "quantifier": "all dimensions, all entries, all orders of the entries of sparse matrices", "why_tests_cant": "The order and number of the entries of sparse matrices is not bounded; whether an indeterminate number is read does not show in its value.", "anchors": ["cpp/mex_functions/eigen/read_eigen_sparse.cpp: ReadNumericMatrixVisitor, read_eigen_sparse, read_eigen_sparse_complex", "cpp/mex_functions/eigen/read_eigen_dense.cpp: ReadDenseNumericMatrixVisitor, read_eigen_dense, read_eigen_dense_complex", "cpp/mex_functions/eigen/export_eigen_sparse.cpp: do_export_eigen_sparse"]}
{"id": "C141", "title": "A choice is read as the one with this name, whatever the case of the letters", "statement": "Parameters with a list of choices take the choice whose name is the text that was given, but for the case of letters. Texts that name none of the choices, and everything that is not one single text, are refused.", "quantifier": "all lists of choices in lower case without repetition, all inputs", "why_tests_cant": "The texts are not bounded; that an exception is prepared but not thrown shows only for inputs that nobody means to give.", "anchors": ["cpp/mex_functions/utilities/read_choice.cpp: read_choice"]}

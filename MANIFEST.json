{
 "claims": [
  {
   "property": "C01",
   "status": "proved",
   "theorems": [
    "Moment.C01.C01_value_injective",
    "Moment.C01.C01_sign_arithmetic",
    "Moment.C01.C01_sign_tests"
   ],
   "note": ""
  },
  {
   "property": "C02",
   "status": "partial",
   "theorems": [
    "Moment.C02.C02_hash_shortlex_partial",
    "Moment.C02.C02_hash_below_longest_partial",
    "Moment.C02.C02_refuted_at_longest",
    "Moment.C02.C02_radix_one",
    "Moment.C02.C02_letter_shortcut"
   ],
   "note": "Holds for all lengths whose shortlex count fits in 64 bits and for all lengths strictly below longest_hashable_string; at exactly that length it is false for radix 2 (proved), because the reported length is one too large when the radix to the power divides 2^64."
  },
  {
   "property": "C03",
   "status": "partial",
   "theorems": [
    "Moment.C02.C03_refuted",
    "Moment.C02.C02_hash_shortlex_partial"
   ],
   "note": "Refuted for every radix by pigeonhole; the partial theorem gives the range without collisions."
  },
  {
   "property": "C04",
   "status": "partial",
   "theorems": [
    "Moment.C04.C04_hash_describes_word_partial",
    "Moment.C04.C04_refuted_presorted",
    "Moment.C04.C04_refuted_append_to_zero",
    "Moment.C04.C04_equality_test_exact",
    "Moment.C04.C04_compare_same_negation"
   ],
   "note": "Two reachable violations proved: presorted construction from heap storage, and appending to zero. The partial theorem covers all histories without those two."
  },
  {
   "property": "C05",
   "status": "proved",
   "theorems": [
    "Moment.C05.C05_substring_hashes"
   ],
   "note": ""
  },
  {
   "property": "C06",
   "status": "proved",
   "theorems": [
    "Moment.C06.spec_is_pauli_matrix",
    "Moment.C06.C06_simplify_preserves_operator",
    "Moment.C06.C06_simplify_in_range"
   ],
   "note": ""
  },
  {
   "property": "C07",
   "status": "proved",
   "theorems": [
    "Moment.C06.C07_simplify_canonical",
    "Moment.C06.C07_simplify_idempotent",
    "Moment.C06.C07_normal_fixed"
   ],
   "note": ""
  },
  {
   "property": "C08",
   "status": "partial",
   "theorems": [
    "Moment.C06.C08_multiply_eq_simplify",
    "Moment.C06.C08_multiply_operator",
    "Moment.C06.C08_multiply_closed",
    "Moment.C06.C08_multiply_assoc",
    "Moment.C06.C08_multiply_unit",
    "Moment.C06.C08_zero_absorbing_partial",
    "Moment.C06.C08_refuted_single_zero"
   ],
   "note": "Everything but absorption by zero is proved in full; zero times a signed identity gives a second zero element (proved), the partial theorem covers all other factors."
  },
  {
   "property": "C09",
   "status": "proved",
   "theorems": [
    "Moment.C06.C09_commutator"
   ],
   "note": ""
  },
  {
   "property": "C10",
   "status": "proved",
   "theorems": [
    "Moment.C10.C10_numbering",
    "Moment.C10.C10_decides",
    "Moment.C10.C10_zero",
    "Moment.C10.C10_sound",
    "Moment.C10.C10_idempotent",
    "Moment.C10.C10_rejects",
    "Moment.C10.C10_value"
   ],
   "note": ""
  },
  {
   "property": "C100",
   "status": "partial",
   "theorems": [
    "Moment.C100.C100_kept",
    "Moment.C100.C100_number",
    "Moment.C100.C100_again",
    "Moment.C100.C100_distinct",
    "Moment.C100.C100_same",
    "Moment.C100.C100_contract",
    "Moment.C100.C100_complete",
    "Moment.C100.C100_look",
    "Moment.C100.C100_threads",
    "Moment.C100.C100_rulebooks",
    "Moment.C100.C100_rulebooks_history",
    "Moment.C100.C100_deleted",
    "Moment.C100.C100_order",
    "Moment.C100.C100_defined_partial",
    "Moment.C100.C100_refuted_delete",
    "Moment.C100.C100_refuted_sign",
    "Moment.C100.C100_refuted_stale"
   ],
   "note": "Refuted: delete_matrix reads the number after the last; localizing matrices are found by the hash of the word without its sign; substituted matrices stay as they are after merge_in changed the rulebook. The rest is proved for all makers of matrices."
  },
  {
   "property": "C101",
   "status": "proved",
   "theorems": [
    "Moment.C101.C101_words",
    "Moment.C101.C101_raw",
    "Moment.C101.C101_polynomial",
    "Moment.C101.C101_together",
    "Moment.C101.C101_runs",
    "Moment.C101.C101_positive"
   ],
   "note": "Exact arithmetic, one thread for each matrix; hashes unique for the lengths used (Room). Matrices for substituted symbols are left out (C100_refuted_stale)."
  },
  {
   "property": "C102",
   "status": "partial",
   "theorems": [
    "Moment.C102.C102_compare",
    "Moment.C102.C102_less",
    "Moment.C102.C102_complex",
    "Moment.C102.C102_make",
    "Moment.C102.C102_exact",
    "Moment.C102.C102_sum",
    "Moment.C102.C102_equals",
    "Moment.C102.C102_order_partial",
    "Moment.C102.C102_order_lex",
    "Moment.C102.C102_refuted_transitive",
    "Moment.C102.C102_refuted_zero",
    "Moment.C102.C102_refuted_scale",
    "Moment.C102.C102_refuted_clean",
    "Moment.C102.C102_refuted_order",
    "Moment.C102.C102_refuted_equivalent"
   ],
   "note": "Tolerances on exact numbers; rounding of sums and products is not modelled. Missing: the order on polynomials is not a strict weak order (refuted: a cycle of three); tolerance zero is not exact for complex numbers; multiples keep coefficients below the tolerance; cleaning ignores its tolerance."
  },
  {
   "property": "C103",
   "status": "partial",
   "theorems": [
    "Moment.C103.C103_matrix",
    "Moment.C103.C103_values",
    "Moment.C103.C103_basis",
    "Moment.C103.C103_hermitian",
    "Moment.C103.C103_flag",
    "Moment.C103.C103_positive",
    "Moment.C103.C103_distinct",
    "Moment.C103.C103_threads",
    "Moment.C103.C103_level",
    "Moment.C103.C103_index",
    "Moment.C103.C103_index_sign",
    "Moment.C103.C103_refuted_index"
   ],
   "note": "Missing: the number of qubits is bounded by the condition that hashes of words do not collide (C02; up to 12 qubits); words of the generator have positive signs, as those of the dictionary do (C79). Different words with the same letters have the same index (refuted: X and iX)."
  },
  {
   "property": "C104",
   "status": "partial",
   "theorems": [
    "Moment.C104.C104_refresh",
    "Moment.C104.C104_table",
    "Moment.C104.C104_moments",
    "Moment.C104.C104_outcome_partial",
    "Moment.C104.C104_values",
    "Moment.C104.C104_conservative",
    "Moment.C104.C104_again",
    "Moment.C104.C104_distinct",
    "Moment.C104.C104_positive",
    "Moment.C104.C104_indices",
    "Moment.C104.C104_inflation",
    "Moment.C104.C104_inflation_moments",
    "Moment.C104.C104_refuted_dangling",
    "Moment.C104.C104_refuted_zero",
    "Moment.C104.C104_refuted_twice"
   ],
   "note": "Missing: with two scalars or more and a full storage the behaviour is undefined (refuted: a reference into the factor table is used after the table has moved). Refuted as well: the scalar zero makes new symbols whose value is always zero; a word that is added after an extension can get a second symbol for a product that has one. Text output and counts of appearances are not modelled; more threads are not part of this property."
  },
  {
   "property": "C105",
   "status": "partial",
   "theorems": [
    "Moment.C105.C105_outcome_partial",
    "Moment.C105.C105_ends",
    "Moment.C105.C105_once",
    "Moment.C105.C105_values",
    "Moment.C105.C105_conservative",
    "Moment.C105.C105_again",
    "Moment.C105.C105_positive",
    "Moment.C105.C105_table",
    "Moment.C105.C105_same",
    "Moment.C105.C105_refuted_prefix",
    "Moment.C105.C105_refuted_range"
   ],
   "note": "Missing from the full claim: that there is always a result (C105_refuted_prefix: an exception in a thread), and that numbers that are no symbols are refused (C105_refuted_range). Memory is sequentially consistent; a step is a section between locks or one task's writes. That one thread adds as many symbols as several is not stated."
  },
  {
   "property": "C106",
   "status": "partial",
   "theorems": [
    "Moment.C106.C106_product",
    "Moment.C106.C106_product_found",
    "Moment.C106.C106_polynomial",
    "Moment.C106.C106_polynomial_fails",
    "Moment.C106.C106_sound",
    "Moment.C106.C106_contradiction",
    "Moment.C106.C106_outcome",
    "Moment.C106.C106_complete",
    "Moment.C106.C106_numbers",
    "Moment.C106.C106_history",
    "Moment.C106.C106_unchanged",
    "Moment.C106.C106_merge",
    "Moment.C106.C106_refuted_count",
    "Moment.C106.C106_refuted_guard",
    "Moment.C106.C106_refuted_closed",
    "Moment.C106.C106_refuted_extension"
   ],
   "note": "Missing from the full claim: the number returned (C106_refuted_count), the guard of rulebooks in use (C106_refuted_guard), closure under further expansion (C106_refuted_closed) and symbols from extended matrices (C106_refuted_extension). What a rulebook contains after a contradiction in an expansion is not modelled. That products are found assumes that symbols with one factor are their own factors; settled_of shows this if all symbols have words and words with one factor are canonical."
  },
  {
   "property": "C107",
   "status": "partial",
   "theorems": [
    "Moment.C107.C107_outcome",
    "Moment.C107.C107_useful",
    "Moment.C107.C107_covers",
    "Moment.C107.C107_extended",
    "Moment.C107.C107_refuted_all"
   ],
   "note": "Missing from the full claim: symbols of the matrix that are no word of it times one of their factors (C107_refuted_all). More than 100 factors are covered by C107_outcome and C107_useful only."
  },
  {
   "property": "C108",
   "status": "proved",
   "theorems": [
    "Moment.C108.C108_same",
    "Moment.C108.C108_ends",
    "Moment.C108.C108_joined",
    "Moment.C108.C108_race",
    "Moment.C108.C108_group"
   ],
   "note": "Memory is sequentially consistent, which the proved absence of races justifies; wait returns only if the predicate holds. Exceptions in threads are not modelled."
  },
  {
   "property": "C109",
   "status": "proved",
   "theorems": [
    "Moment.C109.C109_alias",
    "Moment.C109.C109_kept",
    "Moment.C109.C109_number",
    "Moment.C109.C109_again",
    "Moment.C109.C109_distinct",
    "Moment.C109.C109_neighbours",
    "Moment.C109.C109_contract",
    "Moment.C109.C109_complete",
    "Moment.C109.C109_deleted",
    "Moment.C109.C109_order"
   ],
   "note": "Indices are alike if their words have equal hashes and their polynomials are equal for the comparison, as in C100. What the functions for single matrices do is a contract here; C111 says that it is met in Pauli scenarios."
  },
  {
   "property": "C11",
   "status": "proved",
   "theorems": [
    "Moment.C10.C11_complete",
    "Moment.C10.C11_represents",
    "Moment.C10.C11_terminates"
   ],
   "note": "Words only; signs and stored hashes of the listed sequences are not part of the model of the generator."
  },
  {
   "property": "C110",
   "status": "partial",
   "theorems": [
    "Moment.C110.C110_accept",
    "Moment.C110.C110_default",
    "Moment.C110.C110_names_partial",
    "Moment.C110.C110_names_harmless",
    "Moment.C110.C110_refuted_first",
    "Moment.C110.C110_find",
    "Moment.C110.C110_distinct",
    "Moment.C110.C110_conj",
    "Moment.C110.C110_raw_partial",
    "Moment.C110.C110_format_partial",
    "Moment.C110.C110_refuted_sign",
    "Moment.C110.C110_refuted_imaginary",
    "Moment.C110.C110_read",
    "Moment.C110.C110_chars",
    "Moment.C110.C110_long"
   ],
   "note": "Refuted: with interleaved conjugates the first name is moved to itself, which leaves it unspecified (empty with the GNU library), so that different words get the same text; the sign of the identity is not shown; without braces a factor i is confused with an operator named i. The rest is proved. Operator numbers fit into 16 bits."
  },
  {
   "property": "C111",
   "status": "partial",
   "theorems": [
    "Moment.C111.C111_words",
    "Moment.C111.C111_raw_partial",
    "Moment.C111.C111_polynomial",
    "Moment.C111.C111_together",
    "Moment.C111.C111_runs",
    "Moment.C111.C111_positive",
    "Moment.C111.C111_refuted_commutator",
    "Moment.C111.C111_refuted_sign"
   ],
   "note": "Refuted: with symmetries, commutators of polynomials in words throw if the words have no symbols yet, because matrices of commutators of words do not enter them; and a request for a word with a sign gives the matrix of the word that was asked for first, whatever its sign. Not covered: lattices with neighbours at levels where the words of a level are themselves wrong or refused (C81)."
  },
  {
   "property": "C112",
   "status": "partial",
   "theorems": [
    "Moment.C112.C112_values",
    "Moment.C112.C112_refused",
    "Moment.C112.C112_inside",
    "Moment.C112.C112_echo",
    "Moment.C112.C112_whole",
    "Moment.C112.C112_empty",
    "Moment.C112.C112_refuted_empty"
   ],
   "note": "Refuted for no lists at all: the constructor takes the position before the first dimension, which is undefined. Products of dimensions that do not fit into size_t are not covered."
  },
  {
   "property": "C113",
   "status": "partial",
   "theorems": [
    "Moment.C113.C113_reads",
    "Moment.C113.C113_number",
    "Moment.C113.C113_round",
    "Moment.C113.C113_plus",
    "Moment.C113.C113_factors",
    "Moment.C113.C113_refuted_least",
    "Moment.C113.C113_refuted_finite",
    "Moment.C113.C113_refuted_factor",
    "Moment.C113.C113_refuted_minus",
    "Moment.C113.C113_refuted_scalar"
   ],
   "note": "Refuted: the least integer is negated, which is undefined; infinities and nan are accepted as factors; texts that the library writes for symbols with factors other than 1 and -1 are refused, and so is -1 with a hash; whole numbers are written like symbols and read as those."
  },
  {
   "property": "C114",
   "status": "partial",
   "theorems": [
    "Moment.C114.C114_matrix",
    "Moment.C114.C114_values",
    "Moment.C114.C114_basis",
    "Moment.C114.C114_level",
    "Moment.C114.C114_refuted_orbit",
    "Moment.C114.C114_refuted_sign"
   ],
   "note": "Equal symbols always stand for words that are equal up to permutations of copies; the converse is refuted (C114_refuted_orbit), with the network of C14. For localizing words with a sign the sign is lost when copies are permuted (C114_refuted_sign); the other theorems are about words without signs. Factorization of the symbols is C13 and C15."
  },
  {
   "property": "C115",
   "status": "partial",
   "theorems": [
    "Moment.C115.C115_dimensions",
    "Moment.C115.C115_entry",
    "Moment.C115.C115_refresh",
    "Moment.C115.C115_value",
    "Moment.C115.C115_probability",
    "Moment.C115.C115_complete",
    "Moment.C115.C115_range_partial",
    "Moment.C115.C115_outcome_partial",
    "Moment.C115.C115_refuted_bound",
    "Moment.C115.C115_refuted_outcome",
    "Moment.C115.C115_refuted_virtual"
   ],
   "note": "Entries, refreshing, values and probabilities are proved in full. Ranges are proved for copies and outcomes that exist; others are not refused (C115_refuted_bound, C115_refuted_outcome). Tensors of more than 1024 elements say that nothing is missing (C115_refuted_virtual)."
  },
  {
   "property": "C116",
   "status": "partial",
   "theorems": [
    "Moment.C116.C116_chunk_places",
    "Moment.C116.C116_wide_places",
    "Moment.C116.C116_set",
    "Moment.C116.C116_visit",
    "Moment.C116.C116_visit_indices",
    "Moment.C116.C116_access_partial",
    "Moment.C116.C116_refuted_access",
    "Moment.C116.C116_refuted_access_always"
   ],
   "note": "Places, setting and visits are proved in full. Reading by indices returns a reference into a copy that is gone (C116_refuted_access); the value in that copy is right (C116_access_partial)."
  },
  {
   "property": "C117",
   "status": "partial",
   "theorems": [
    "Moment.C117.C117_words",
    "Moment.C117.C117_products",
    "Moment.C117.C117_values",
    "Moment.C117.C117_basis",
    "Moment.C117.C117_matrix",
    "Moment.C117.C117_level",
    "Moment.C117.C117_made",
    "Moment.C117.C117_reported_partial",
    "Moment.C117.C117_refuted_reported",
    "Moment.C117.C117_refuted_completed"
   ],
   "note": "Words, products, matrices and levels are proved for every context whose rules give unique results, have no phases and imply their adjoints (Settled). A context that reports to be complete is such (C117_reported_partial) if left sides overlap simply and completion was not attempted: overlaps of a rule with itself are not looked at (C117_refuted_reported), and completion can succeed although the adjoint of a rule is missing, since the search for conjugates skips the first rule after each success (C117_refuted_completed)."
  },
  {
   "property": "C118",
   "status": "partial",
   "theorems": [
    "Moment.C118.C118_history",
    "Moment.C118.C118_equal",
    "Moment.C118.C118_memory",
    "Moment.C118.C118_moved",
    "Moment.C118.C118_stable",
    "Moment.C118.C118_emplace_partial",
    "Moment.C118.C118_refuted_emplace"
   ],
   "note": "Histories, memory, comparisons and moves are proved in full for elements that do not come from the vector itself. Appending a copy of an element of the same vector with emplace_back is proved where nothing is moved to a new block from an old one (C118_emplace_partial); a full vector on the heap reads freed memory (C118_refuted_emplace). Moves into itself and exchange with itself are excluded, the first by an assertion of the code. Sizes are unbounded numbers."
  },
  {
   "property": "C119",
   "status": "partial",
   "theorems": [
    "Moment.C119.C119_transformed",
    "Moment.C119.C119_made",
    "Moment.C119.C119_substituted",
    "Moment.C119.C119_rejected",
    "Moment.C119.C119_again",
    "Moment.C119.C119_base",
    "Moment.C119.C119_source",
    "Moment.C119.C119_every",
    "Moment.C119.C119_ways",
    "Moment.C119.C119_alias_partial",
    "Moment.C119.C119_refuted_alias"
   ],
   "note": "Transforms, repeated requests, refusals and the base system are proved in full, for a map that does not depend on the symbol table of the derived system (C90 and C92 are about the map itself). That both ways of asking lead to one number is proved when no request by number comes first (C119_alias_partial); otherwise the matrix is made twice, and an assertion of the code fails (C119_refuted_alias), though the matrices are equal (C119_ways). 2 * level is taken not to wrap."
  },
  {
   "property": "C12",
   "status": "proved",
   "theorems": [
    "Moment.C12.C12_context",
    "Moment.C12.C12_decides",
    "Moment.C12.C12_zero",
    "Moment.C12.C12_sound",
    "Moment.C12.C12_canonical_test",
    "Moment.C12.C12_value"
   ],
   "note": ""
  },
  {
   "property": "C120",
   "status": "partial",
   "theorems": [
    "Moment.C120.C120_index",
    "Moment.C120.C120_offset",
    "Moment.C120.C120_stored",
    "Moment.C120.C120_all",
    "Moment.C120.C120_end",
    "Moment.C120.C120_part",
    "Moment.C120.C120_refuted_empty",
    "Moment.C120.C120_refuted_end"
   ],
   "note": "Proved in full for tensors with at least one dimension, for elements that do not change in between. Without dimensions a stored tensor reads an element that is not there, and a part reports one element too many (C120_refuted_empty); the offset of the end depends on the way of storage (C120_refuted_end)."
  },
  {
   "property": "C121",
   "status": "partial",
   "theorems": [
    "Moment.C121.C121_made",
    "Moment.C121.C121_operator",
    "Moment.C121.C121_outcome",
    "Moment.C121.C121_measurement",
    "Moment.C121.C121_operators",
    "Moment.C121.C121_exclusive",
    "Moment.C121.C121_index",
    "Moment.C121.C121_indices",
    "Moment.C121.C121_outcomes",
    "Moment.C121.C121_scenario",
    "Moment.C121.C121_list",
    "Moment.C121.C121_uniform",
    "Moment.C121.C121_arguments_partial",
    "Moment.C121.C121_refuted_arguments",
    "Moment.C121.C121_refuted_unattached",
    "Moment.C121.C121_refuted_large"
   ],
   "note": "Proved in full for contexts with at most 32767 operators. With more, the second party lists no operators (C121_refuted_large). Named arguments give consistent numbers (C121_arguments_partial); two unnamed arguments with at least two parties make the function read behind the numbers of outcomes (C121_refuted_arguments). Before a party is in a context, its operator[] reads an element that moving has dropped (C121_refuted_unattached)."
  },
  {
   "property": "C122",
   "status": "partial",
   "theorems": [
    "Moment.C122.C122_operator",
    "Moment.C122.C122_word",
    "Moment.C122.C122_unique",
    "Moment.C122.C122_letters",
    "Moment.C122.C122_refuted_sign",
    "Moment.C122.C122_refuted_unknown",
    "Moment.C122.C122_refuted_names"
   ],
   "note": "Proved for signs plus and minus, with the empty word only with plus, and for names without digits and without the characters of the format. The negated identity is written as the identity, imaginary signs are not written (C122_refuted_sign); the number after that of the last operator is not written as unknown but read from behind a list (C122_refuted_unknown); with digits in names texts can be equal (C122_refuted_names)."
  },
  {
   "property": "C123",
   "status": "partial",
   "theorems": [
    "Moment.C123.C123_generic",
    "Moment.C123.C123_generic_raw",
    "Moment.C123.C123_pauli_raw",
    "Moment.C123.C123_pauli",
    "Moment.C123.C123_inflation",
    "Moment.C123.C123_inflation_operator",
    "Moment.C123.C123_outcomes",
    "Moment.C123.C123_refuted_sign"
   ],
   "note": "Proved in full for generic and Pauli contexts, and for inflation contexts with signs plus and minus and the identity with plus only; there the negated identity is written as the identity, and imaginary signs are not written (C123_refuted_sign). Texts in locality contexts are in C122, those in algebraic contexts in C110."
  },
  {
   "property": "C124",
   "status": "partial",
   "theorems": [
    "Moment.C124.C124_new",
    "Moment.C124.C124_words",
    "Moment.C124.C124_raw",
    "Moment.C124.C124_polynomial",
    "Moment.C124.C124_together",
    "Moment.C124.C124_runs",
    "Moment.C124.C124_entries",
    "Moment.C124.C124_factors_partial",
    "Moment.C124.C124_product",
    "Moment.C124.C124_positive",
    "Moment.C124.C124_refuted_factors"
   ],
   "note": "All matrices are proved right, and all entries of the factor table. That each symbol has an entry is proved for systems in which polynomials in operators are asked for only if the context has aliases; else registering their words does not tell the factor table, and the symbol has no entry (C124_refuted_factors). Extended matrices and column headers are left out (C104, C106)."
  },
  {
   "property": "C125",
   "status": "partial",
   "theorems": [
    "Moment.C125.C125_side_partial",
    "Moment.C125.C125_read_partial",
    "Moment.C125.C125_rules_partial",
    "Moment.C125.C125_context_partial",
    "Moment.C125.C125_long",
    "Moment.C125.C125_refuted_imaginary",
    "Moment.C125.C125_refuted_range",
    "Moment.C125.C125_refuted_fraction",
    "Moment.C125.C125_refuted_same",
    "Moment.C125.C125_refuted_endless"
   ],
   "note": "Proved for numbers that are integers of 16 bits and for equations whose factor is real or whose left side is the larger one. Else the factor should be conjugated when sides are exchanged, but is not (C125_refuted_imaginary); integers wrap around (C125_refuted_range), fractions are cut off and large doubles are undefined behaviour (C125_refuted_fraction). Contexts: for equations with different sides; A = iA is dropped (C125_refuted_same), A = -A makes reduction endless (C125_refuted_endless)."
  },
  {
   "property": "C126",
   "status": "partial",
   "theorems": [
    "Moment.C126.C126_read",
    "Moment.C126.C126_only_partial",
    "Moment.C126.C126_round_partial",
    "Moment.C126.C126_close",
    "Moment.C126.C126_words",
    "Moment.C126.C126_words_only_partial",
    "Moment.C126.C126_words_back",
    "Moment.C126.C126_found_partial",
    "Moment.C126.C126_registered_partial",
    "Moment.C126.C126_refuted_fraction",
    "Moment.C126.C126_refuted_exact",
    "Moment.C126.C126_refuted_sign"
   ],
   "note": "Proved for numbers of symbols that are integers, coefficients without tiny imaginary parts, and words that the context resolves without a sign. Else fractions are cut off (C126_refuted_fraction), tiny imaginary parts are dropped (C126_refuted_exact; the error is bounded by C126_close), and the sign of resolved words is lost: X Y is read as Z instead of i Z (C126_refuted_sign). Sparse arrays, infinities and NaN are not modelled."
  },
  {
   "property": "C127",
   "status": "partial",
   "theorems": [
    "Moment.C127.C127_tables",
    "Moment.C127.C127_refused",
    "Moment.C127.C127_empty",
    "Moment.C127.C127_locality",
    "Moment.C127.C127_inflation_partial",
    "Moment.C127.C127_refuted_outcome",
    "Moment.C127.C127_refuted_fraction"
   ],
   "note": "Proved for tables of integers and for locality scenarios; for inflation scenarios measurements, and outcomes except for the first that does not exist, which is accepted: its index is that of the first outcome of the next copy (C127_refuted_outcome). Fractions above one are cut off instead of refused (C127_refuted_fraction). Arrays of texts and NaN are not modelled."
  },
  {
   "property": "C128",
   "status": "partial",
   "theorems": [
    "Moment.C128.C128_count",
    "Moment.C128.C128_polynomials",
    "Moment.C128.C128_list",
    "Moment.C128.C128_missing_partial",
    "Moment.C128.C128_refuted_missing"
   ],
   "note": "Proved for as many values as outcomes; lists of values for moments that are real, as those of probabilities are. A missing value is taken to be the sum of the others instead of one minus this sum (C128_missing_partial), so that the equations have no solution (C128_refuted_missing)."
  },
  {
   "property": "C129",
   "status": "partial",
   "theorems": [
    "Moment.C129.C129_first",
    "Moment.C129.C129_values_partial",
    "Moment.C129.C129_only_partial",
    "Moment.C129.C129_symbols",
    "Moment.C129.C129_words",
    "Moment.C129.C129_empty",
    "Moment.C129.C129_known_partial",
    "Moment.C129.C129_new_partial",
    "Moment.C129.C129_apply",
    "Moment.C129.C129_refuted_twice",
    "Moment.C129.C129_refuted_wrap"
   ],
   "note": "Proved for polynomials in symbols, for values unless one symbol is given two different ones, and for words without signs. Of two values for one symbol the second is ignored, even if they contradict each other (C129_refuted_twice); the number of a symbol is cut to 32 bits (C129_refuted_wrap); signs of words are lost as in C126.."
  },
  {
   "property": "C13",
   "status": "proved",
   "theorems": [
    "Moment.C12.C13_factorize"
   ],
   "note": "Stated for simplified words, which is what an operator sequence always holds."
  },
  {
   "property": "C130",
   "status": "partial",
   "theorems": [
    "Moment.C130.C130_word",
    "Moment.C130.C130_accepted",
    "Moment.C130.C130_values_partial",
    "Moment.C130.C130_symbols",
    "Moment.C130.C130_back_partial",
    "Moment.C130.C130_list_partial",
    "Moment.C130.C130_matrix_partial",
    "Moment.C130.C130_monomial_partial",
    "Moment.C130.C130_entries_partial",
    "Moment.C130.C130_refuted_imaginary",
    "Moment.C130.C130_refuted_zero"
   ],
   "note": "Proved for words with all signs, for polynomials whose conjugated symbols have conjugate words that are other words, for lists of words without signs, and for entries of matrices other than zero. With information on symbols the signs i and -i of words are returned as 1 and -1 (C130_refuted_imaginary; the lists of words the library makes have no signs); zero entries of matrices are returned as the empty word with coefficient one (C130_refuted_zero)."
  },
  {
   "property": "C131",
   "status": "partial",
   "theorems": [
    "Moment.C131.C131_each",
    "Moment.C131.C131_fixed",
    "Moment.C131.C131_round_partial",
    "Moment.C131.C131_words_partial",
    "Moment.C131.C131_merge",
    "Moment.C131.C131_portions",
    "Moment.C131.C131_refuted_tiny"
   ],
   "note": "Merging and portions are proved in full. The round trip is proved for rules without imaginary parts of coefficients that are within tolerance of zero but not zero (C131_refuted_tiny shows what becomes of these), and in words for conjugated symbols whose conjugate word is another word. Rulebooks in use, which refuse new rules, are left out."
  },
  {
   "property": "C132",
   "status": "partial",
   "theorems": [
    "Moment.C132.C132_plain",
    "Moment.C132.C132_ring",
    "Moment.C132.C132_chain",
    "Moment.C132.C132_lattice",
    "Moment.C132.C132_torus_partial",
    "Moment.C132.C132_keeps",
    "Moment.C132.C132_ring_fixed",
    "Moment.C132.C132_torus_fixed_partial",
    "Moment.C132.C132_refuted_left"
   ],
   "note": "Proved for closed chains of up to 256 qubits, and for open chains and lattices of every size with translations to the right and down; translations to the left are not made (C132_refuted_left). Closed lattices: up to 256 qubits, more than one column, and only those on which words can be shifted (see C76 and C77)."
  },
  {
   "property": "C133",
   "status": "proved",
   "theorems": [
    "Moment.C133.C133_entries",
    "Moment.C133.C133_pauli",
    "Moment.C133.C133_monomial",
    "Moment.C133.C133_refused"
   ],
   "note": "Operands are given after they were read (see C126 and C129). Outside Pauli scenarios it is a hypothesis that the product of two words that occur stands for the product of their operators (see C10, C12 and C16 for simplification, C54 for products). Operations on matrices are modelled up to the routine that is called."
  },
  {
   "property": "C134",
   "status": "partial",
   "theorems": [
    "Moment.C134.C134_refused",
    "Moment.C134.C134_single",
    "Moment.C134.C134_names",
    "Moment.C134.C134_says",
    "Moment.C134.C134_algebraic",
    "Moment.C134.C134_locality",
    "Moment.C134.C134_again",
    "Moment.C134.C134_refuted_zero"
   ],
   "note": "The last sentence is refuted: zero is returned with the word and the sign of the identity, so that only the hash, the third output, tells them apart (C134_refuted_zero). With the hash everything holds. Inputs are given after they were read as integers or texts."
  },
  {
   "property": "C135",
   "status": "partial",
   "theorems": [
    "Moment.C135.C135_ints",
    "Moment.C135.C135_doubles",
    "Moment.C135.C135_single",
    "Moment.C135.C135_unique",
    "Moment.C135.C135_zero",
    "Moment.C135.C135_refuted_negative"
   ],
   "note": "The last sentence is refuted for negative numbers in arrays: integers get the name of another number, floating point numbers give undefined behaviour (C135_refuted_negative). The length of names is computed exactly instead of in floating point, as in C46."
  },
  {
   "property": "C136",
   "status": "partial",
   "theorems": [
    "Moment.C136.C136_columns",
    "Moment.C136.C136_refused",
    "Moment.C136.C136_refuted_one"
   ],
   "note": "The last sentence is refuted: one output is permitted, but the second matrix is then written beyond it, whatever the polynomials are (C136_refuted_one). If three outputs are asked for, the third is never set."
  },
  {
   "property": "C137",
   "status": "partial",
   "theorems": [
    "Moment.C137.C137_symbols",
    "Moment.C137.C137_polynomials_partial",
    "Moment.C137.C137_refused",
    "Moment.C137.C137_refuted_factor"
   ],
   "note": "Numbers of symbols: proved in full. Polynomials: proved if factors of conjugated symbols are real; else refuted in a system with symbols that are not Hermitian, as the factor is conjugated along with the symbol (C137_refuted_factor). Output as text and as basis is not modelled."
  },
  {
   "property": "C138",
   "status": "partial",
   "theorems": [
    "Moment.C138.C138_word_partial",
    "Moment.C138.C138_value",
    "Moment.C138.C138_kinds",
    "Moment.C138.C138_refuted_wrap",
    "Moment.C138.C138_refuted_flag"
   ],
   "note": "Words: proved for numbers that fit in 16 bits; 65537 is read as the first operator (C138_refuted_wrap). The flag for counting from zero has no effect on polynomials in words (C138_refuted_flag). Finding or making symbols for polynomials in words is the matter of C126."
  },
  {
   "property": "C139",
   "status": "partial",
   "theorems": [
    "Moment.C139.C139_table",
    "Moment.C139.C139_new_partial",
    "Moment.C139.C139_search",
    "Moment.C139.C139_refused",
    "Moment.C139.C139_refuted_bits",
    "Moment.C139.C139_refuted_range"
   ],
   "note": "Searches: proved for contexts without rules. Rows stay as they are unless it is told which symbols are real or imaginary; then rows of old symbols change (C139_refuted_bits). Operators that do not exist are only refused below one; the operator after the last is taken for the first operator twice (C139_refuted_range). Texts of words and the columns for factors are left out."
  },
  {
   "property": "C14",
   "status": "partial",
   "theorems": [
    "Moment.C12.C14_functional",
    "Moment.C12.C14_terminates",
    "Moment.C12.C14_quick_test",
    "Moment.C12.C14_invariant_partial",
    "Moment.C12.C14_refuted"
   ],
   "note": "Termination, being a relabelling, idempotence and the quick test are proved in full. Orbit invariance is false (proved): the partial theorem covers relabellings that keep the operators in order."
  },
  {
   "property": "C140",
   "status": "partial",
   "theorems": [
    "Moment.C140.C140_sparse",
    "Moment.C140.C140_dense",
    "Moment.C140.C140_stored",
    "Moment.C140.C140_again",
    "Moment.C140.C140_refuted_junk",
    "Moment.C140.C140_refuted_blank"
   ],
   "note": "Proved for all matrices without blank texts. Texts that are no numbers are read as zero (C140_refuted_junk), blank texts as a number that is not determined (C140_refuted_blank). What the standard library makes of a text is a parameter; setFromTriplets of Eigen is modelled by what it is documented to do."
  },
  {
   "property": "C141",
   "status": "partial",
   "theorems": [
    "Moment.C141.C141_choice",
    "Moment.C141.C141_refused",
    "Moment.C141.C141_other",
    "Moment.C141.C141_refuted_several",
    "Moment.C141.C141_refuted_empty"
   ],
   "note": "Proved for one text, and for what is no text. Arrays of several strings are not refused, the first is read (C141_refuted_several); for an empty array of strings the iterator at the end is read (C141_refuted_empty). Null strings are left to the MATLAB library."
  },
  {
   "property": "C15",
   "status": "partial",
   "theorems": [
    "Moment.C12.C15_combine_partial",
    "Moment.C12.C15_value",
    "Moment.C12.C15_multiply_partial",
    "Moment.C12.C15_multiply_two",
    "Moment.C12.C15_refuted_zero",
    "Moment.C12.C15_refuted_empty"
   ],
   "note": "The value of a combined list is always right. Its form is wrong as soon as there is a zero factor, and the empty product is zero instead of one (both proved)."
  },
  {
   "property": "C16",
   "status": "partial",
   "theorems": [
    "Moment.C16.C16_iteration",
    "Moment.C16.C16_search",
    "Moment.C16.C16_outcome_sound",
    "Moment.C16.C16_reduce_in_place",
    "Moment.C16.C16_context_simplification",
    "Moment.C16.C16_reduce_partial",
    "Moment.C16.C16_refuted_signed_identity",
    "Moment.C16.C16_refuted_endless"
   ],
   "note": "Termination, soundness and irreducibility are proved for all well-formed books (rules with a strictly smaller right side, words whose hashes fit). Two violations proved: reduce() drops the phase of the identity; the rule x -> -x is accepted and makes reduction endless."
  },
  {
   "property": "C17",
   "status": "partial",
   "theorems": [
    "Moment.C17.C17_same_matches_partial",
    "Moment.C17.C17_same_result_partial",
    "Moment.C17.C17_can_reduce_partial",
    "Moment.C17.C17_different_results",
    "Moment.C17.C17_refuted_empty"
   ],
   "note": "Proved for books without an empty left side; refuted with the rule 1 -> 0."
  },
  {
   "property": "C18",
   "status": "partial",
   "theorems": [
    "Moment.C18.C18_complete_unique_partial",
    "Moment.C18.C18_unique_complete_partial",
    "Moment.C18.C18_refuted_self_overlap",
    "Moment.C18.C18_refuted_two_overlaps"
   ],
   "note": "Refuted twice: overlaps of a rule with itself, and all but the longest overlap of two rules, are not tested. The partial theorem assumes real phases and left sides that overlap in at most one way."
  },
  {
   "property": "C19",
   "status": "partial",
   "theorems": [
    "Moment.C19.C19_add_rule",
    "Moment.C19.C19_add_rules",
    "Moment.C19.C19_new",
    "Moment.C19.C19_combine",
    "Moment.C19.C19_reduce_ruleset_partial",
    "Moment.C19.C19_complete_partial",
    "Moment.C19.C19_refuted_signed_identity",
    "Moment.C19.C19_refuted_imaginary"
   ],
   "note": "Adding and combining rules is proved for all phases; reducing a rule set for real phases without signed identities; completion for positive phases. Refuted: x x -> -1 becomes x x -> 1; x -> i x is dropped as trivial."
  },
  {
   "property": "C20",
   "status": "partial",
   "theorems": [
    "Moment.C20.C20_conjugate_word",
    "Moment.C20.C20_involution",
    "Moment.C20.C20_reverses_products",
    "Moment.C20.C20_sequence_involution",
    "Moment.C20.C20_sequence_adjoint",
    "Moment.C20.C20_context_partial",
    "Moment.C20.C20_refuted_phase"
   ],
   "note": "Words and sequences are proved in full; the conjugation of algebraic contexts with non-self-adjoint operators drops the phase (proved), the partial theorem covers phase +."
  },
  {
   "property": "C21",
   "status": "proved",
   "theorems": [
    "Moment.C21.C21_make_canonical",
    "Moment.C21.C21_make_value",
    "Moment.C21.C21_make_self",
    "Moment.C21.C21_any_sort",
    "Moment.C21.C21_order_irrelevant",
    "Moment.C21.C21_of_monomial",
    "Moment.C21.C21_fix_cc",
    "Moment.C21.C21_comparators"
   ],
   "note": "Exact complex arithmetic."
  },
  {
   "property": "C22",
   "status": "partial",
   "theorems": [
    "Moment.C22.C22_sum",
    "Moment.C22.C22_sum_monomial",
    "Moment.C22.C22_scale",
    "Moment.C22.C22_difference",
    "Moment.C22.C22_conjugate",
    "Moment.C22.C22_real",
    "Moment.C22.C22_imaginary",
    "Moment.C22.C22_plus_partial",
    "Moment.C22.C22_refuted_plus"
   ],
   "note": "Everything is proved for the operations of the factories and for operator+ on polynomials ordered by number; operator+ on polynomials ordered by hash returns the right value in the wrong order (refuted)."
  },
  {
   "property": "C23",
   "status": "proved",
   "theorems": [
    "Moment.C23.C23_reduce",
    "Moment.C23.C23_removes",
    "Moment.C23.C23_partial",
    "Moment.C23.C23_canonical",
    "Moment.C23.C23_reduce_monomial"
   ],
   "note": "Exact complex arithmetic."
  },
  {
   "property": "C24",
   "status": "proved",
   "theorems": [
    "Moment.C24.C24_exact",
    "Moment.C24.C24_contradiction",
    "Moment.C24.C24_well_formed",
    "Moment.C24.C24_raw_value",
    "Moment.C24.C24_direction",
    "Moment.C24.C24_refuted_direction_length",
    "Moment.C24.C24_as_polynomial"
   ],
   "note": "Exact complex arithmetic. Also proved: the constructor from a direction needs a unit direction, as its only caller gives it."
  },
  {
   "property": "C25",
   "status": "partial",
   "theorems": [
    "Moment.C25.C25_throws",
    "Moment.C25.C25_complex",
    "Moment.C25.C25_real",
    "Moment.C25.C25_imaginary_partial",
    "Moment.C25.C25_columns",
    "Moment.C25.C25_back",
    "Moment.C25.C25_round_trip_partial",
    "Moment.C25.C25_vectors_round_trip_partial",
    "Moment.C25.C25_refuted_imaginary",
    "Moment.C25.C25_refuted_round_trip",
    "Moment.C25.C25_refuted_of_parts"
   ],
   "note": "Proved for the complex vectors, the real part and the way back. Refuted: the imaginary part stores coefficients of the real part; the way back counts the second vector as coefficients of i b, the way there as coefficients of b; the constructor from two parts multiplies the real one by i."
  },
  {
   "property": "C26",
   "status": "partial",
   "theorems": [
    "Moment.C26.C26_constructor",
    "Moment.C26.C26_monomial_complex",
    "Moment.C26.C26_monomial_real",
    "Moment.C26.C26_polynomial_complex",
    "Moment.C26.C26_polynomial_real",
    "Moment.C26.C26_polynomial_partial",
    "Moment.C26.C26_dense_monolithic",
    "Moment.C26.C26_sparse_monolithic",
    "Moment.C26.C26_sparse_monolithic_real",
    "Moment.C26.C26_refuted_monomial",
    "Moment.C26.C26_refuted_polynomial"
   ],
   "note": "Proved: the basis rebuilds the matrix exactly if the matrix is as Hermitian as its flag says. The flag can be wrong for monomial matrices with complex factors and for polynomial matrices whose symbols are neither Hermitian nor anti-Hermitian (refuted)."
  },
  {
   "property": "C27",
   "status": "proved",
   "theorems": [
    "Moment.C27.C27_found",
    "Moment.C27.C27_sound",
    "Moment.C27.C27_unique",
    "Moment.C27.C27_stable",
    "Moment.C27.C27_reserved",
    "Moment.C27.C27_fill",
    "Moment.C27.C27_defined",
    "Moment.C27.C27_alias"
   ],
   "note": "Words enter through their hashes; that different words have different hashes is C02."
  },
  {
   "property": "C28",
   "status": "proved",
   "theorems": [
    "Moment.C28.C28_index_roundtrip",
    "Moment.C28.C28_offset_roundtrip",
    "Moment.C28.C28_rejects",
    "Moment.C28.C28_storage_order",
    "Moment.C28.C28_no_overflow",
    "Moment.C28.C28_validate_range",
    "Moment.C28.C28_no_dimensions"
   ],
   "note": "Shapes with at least one dimension; the shape without dimensions is shown to be an exception."
  },
  {
   "property": "C29",
   "status": "proved",
   "theorems": [
    "Moment.C29.C29_full_box",
    "Moment.C29.C29_sub_box",
    "Moment.C29.C29_storage_order",
    "Moment.C29.C29_operator_words",
    "Moment.C29.C29_no_dimensions"
   ],
   "note": "Shapes with at least one dimension; without dimensions nothing is visited (proved)."
  },
  {
   "property": "C30",
   "status": "proved",
   "theorems": [
    "Moment.C30.C30_triangle",
    "Moment.C30.C30_transpose"
   ],
   "note": ""
  },
  {
   "property": "C31",
   "status": "partial",
   "theorems": [
    "Moment.C31.C31_subsets",
    "Moment.C31.C31_commuting",
    "Moment.C31.C31_count_partial",
    "Moment.C31.C31_count_refuted_overflow",
    "Moment.C31.C31_count_refuted_commuting"
   ],
   "note": "Enumeration is proved in full. combination_count() is proved only while the numerator fits in 64 bits, and refuted beyond that and for the commuting iterator."
  },
  {
   "property": "C32",
   "status": "proved",
   "theorems": [
    "Moment.C31.C32_triangular",
    "Moment.C31.C32_ordered_words",
    "Moment.C31.C32_length_zero"
   ],
   "note": "Word length at least 1 for the triangular iterator; at length 0 it visits nothing although there is one empty word (proved)."
  },
  {
   "property": "C33",
   "status": "proved",
   "theorems": [
    "Moment.C31.C33_compositions"
   ],
   "note": ""
  },
  {
   "property": "C34",
   "status": "proved",
   "theorems": [
    "Moment.C31.C34_partitions"
   ],
   "note": ""
  },
  {
   "property": "C35",
   "status": "partial",
   "theorems": [
    "Moment.C35.C35_unique",
    "Moment.C35.C35_new",
    "Moment.C35.C35_filled_partial",
    "Moment.C35.C35_set",
    "Moment.C35.C35_unset",
    "Moment.C35.C35_test",
    "Moment.C35.C35_clear",
    "Moment.C35.C35_empty",
    "Moment.C35.C35_count",
    "Moment.C35.C35_first_index",
    "Moment.C35.C35_equality",
    "Moment.C35.C35_and",
    "Moment.C35.C35_or",
    "Moment.C35.C35_invert",
    "Moment.C35.C35_complement_partial",
    "Moment.C35.C35_subset",
    "Moment.C35.C35_small_subset",
    "Moment.C35.C35_iteration",
    "Moment.C35.C35_refuted_filled",
    "Moment.C35.C35_refuted_complement"
   ],
   "note": "Everything is proved for all sizes except two operations on size 0: filling with ones and operator~ write outside the storage (refuted)."
  },
  {
   "property": "C36",
   "status": "proved",
   "theorems": [
    "Moment.C36.C36_find",
    "Moment.C36.C36_add_if_new",
    "Moment.C36.C36_nodes",
    "Moment.C36.C36_iteration",
    "Moment.C36.C36_iteration_complete"
   ],
   "note": "Includes add, add_if_new, merge_in, lookup of nodes and hints, and iteration in lexicographic order."
  },
  {
   "property": "C37",
   "status": "partial",
   "theorems": [
    "Moment.C37.C37_to_utf8_partial",
    "Moment.C37.C37_refuted_delete",
    "Moment.C37.C37_refuted_last_plane",
    "Moment.C37.C37_refuted_last_plane_back",
    "Moment.C37.C37_to_utf16_partial",
    "Moment.C37.C37_round_trip_partial",
    "Moment.C37.C37_no_overrun"
   ],
   "note": "Proved for all text without U+007F and without the last plane (U+100000 and above); for those characters the conversion is wrong (refuted)."
  },
  {
   "property": "C38",
   "status": "partial",
   "theorems": [
    "Moment.C38.C38_ipow",
    "Moment.C38.C38_ipow_signed",
    "Moment.C38.C38_refuted_lowest",
    "Moment.C38.C38_refuted_negative",
    "Moment.C38.C38_kronecker"
   ],
   "note": "Proved for unsigned integers (modulo the word size) and for signed integers unless the squaring overflows; refuted: (-2)^63 fits but overflows in the signed version, and a negative exponent does not end."
  },
  {
   "property": "C39",
   "status": "partial",
   "theorems": [
    "Moment.C39.C39_keys",
    "Moment.C39.C39_other_signature",
    "Moment.C39.C39_own_key_partial",
    "Moment.C39.C39_keys_differ_partial",
    "Moment.C39.C39_listing",
    "Moment.C39.C39_signatures",
    "Moment.C39.C39_refuted_clear",
    "Moment.C39.C39_refuted_wrap"
   ],
   "note": "Proved for histories without clear() and with fewer than 2^32 objects. After clear() old keys give new objects; the object after 2^32 others gets the key of the first and is dropped (both refuted)."
  },
  {
   "property": "C40",
   "status": "proved",
   "theorems": [
    "Moment.C40.C40_fifo",
    "Moment.C40.C40_no_crash",
    "Moment.C40.C40_no_race",
    "Moment.C40.C40_empty_test",
    "Moment.C40.C40_steps"
   ],
   "note": "Small-step model with one shared access per step, sequentially consistent; any number of threads."
  },
  {
   "property": "C41",
   "status": "partial",
   "theorems": [
    "Moment.C41.C41_woken_partial",
    "Moment.C41.C41_rest_partial",
    "Moment.C41.C41_refuted_push",
    "Moment.C41.C41_refuted_abort"
   ],
   "note": "Refuted: producers do not take the head lock, so an item or abort arriving between the test of a consumer and its sleep is missed. Proved for executions where none arrives in that window."
  },
  {
   "property": "C42",
   "status": "proved",
   "theorems": [
    "Moment.C42.C42_no_crash",
    "Moment.C42.C42_no_race",
    "Moment.C42.C42_progress",
    "Moment.C42.C42_terminates",
    "Moment.C42.C42_result",
    "Moment.C42.C42_union",
    "Moment.C42.C42_taken_once"
   ],
   "note": "Worker counts below 2^64; sequentially consistent memory; std::atomic::wait misses no change."
  },
  {
   "property": "C43",
   "status": "proved",
   "theorems": [
    "Moment.C43.C43_one_writer",
    "Moment.C43.C43_image",
    "Moment.C43.C43_progress",
    "Moment.C43.C43_terminates"
   ],
   "note": ""
  },
  {
   "property": "C44",
   "status": "proved",
   "theorems": [
    "Moment.C44.C44_merge",
    "Moment.C44.C44_refuted_hint_signed"
   ],
   "note": "The merged list is always right. Also proved: the hints are inexact for negative keys, which costs time only."
  },
  {
   "property": "C45",
   "status": "proved",
   "theorems": [
    "Moment.C45.C45_least_rotation"
   ],
   "note": "The integer type of the shift has to hold the size of the list."
  },
  {
   "property": "C46",
   "status": "proved",
   "theorems": [
    "Moment.C46.C46_number",
    "Moment.C46.C46_injective",
    "Moment.C46.C46_surjective"
   ],
   "note": "Exact real arithmetic for the logarithm."
  },
  {
   "property": "C47",
   "status": "proved",
   "theorems": [
    "Moment.C47.C47_value_cg",
    "Moment.C47.C47_value_fc",
    "Moment.C47.C47_round_trip_cg",
    "Moment.C47.C47_round_trip_fc",
    "Moment.C47.C47_accepts"
   ],
   "note": "Exact real arithmetic; behaviours are no-signalling."
  },
  {
   "property": "C48",
   "status": "proved",
   "theorems": [
    "Moment.C48.C48_first_intersection"
   ],
   "note": ""
  },
  {
   "property": "C49",
   "status": "partial",
   "theorems": [
    "Moment.C12.C49_copies",
    "Moment.C12.C49_copies_inverse",
    "Moment.C12.C49_operators",
    "Moment.C12.C49_table",
    "Moment.C12.C49_outcomes",
    "Moment.C12.C49_outcomes_inverse_partial",
    "Moment.C12.C49_refuted_range"
   ],
   "note": "All round trips are proved; unflattening a joint outcome reads past the end for the observable number equal to the number of observables (proved), so the inverse direction assumes known observables."
  },
  {
   "property": "C50",
   "status": "partial",
   "theorems": [
    "Moment.C50.C50_word",
    "Moment.C50.C50_zero",
    "Moment.C50.C50_one_partial",
    "Moment.C50.C50_monomial_partial",
    "Moment.C50.C50_monomial_exchanged",
    "Moment.C50.C50_polynomial",
    "Moment.C50.C50_refuted_monomial",
    "Moment.C50.C50_refuted_clone",
    "Moment.C50.C50_refuted_canonical"
   ],
   "note": "Proved for words, zero, Hermitian symbols and polynomials of at least two terms. A single monomial of a symbol that is not Hermitian multiplies by the conjugate instead (proved and refuted by example); multiplying by one a matrix without operators reads a null pointer; a zero product leaves symbol 0 in the resulting polynomials."
  },
  {
   "property": "C51",
   "status": "proved",
   "theorems": [
    "Moment.C12.C51_complete",
    "Moment.C12.C51_represents"
   ],
   "note": "Words only; stored hashes of the listed sequences are not part of the model of the generator."
  },
  {
   "property": "C52",
   "status": "proved",
   "theorems": [
    "Moment.C12.C52_independence"
   ],
   "note": ""
  },
  {
   "property": "C53",
   "status": "proved",
   "theorems": [
    "Moment.C53.C53_commutator_rules",
    "Moment.C53.C53_normal_rules"
   ],
   "note": ""
  },
  {
   "property": "C54",
   "status": "proved",
   "theorems": [
    "Moment.C54.C54_construct",
    "Moment.C54.C54_multiply",
    "Moment.C54.C54_negative",
    "Moment.C54.C54_conjugate",
    "Moment.C54.C54_hermitian_type",
    "Moment.C54.C54_conjugate_twice"
   ],
   "note": "Generic in the simplification of the context, which has to keep values; contexts that do not override conjugation."
  },
  {
   "property": "C55",
   "status": "partial",
   "theorems": [
    "Moment.C55.C55_equality",
    "Moment.C55.C55_make_complete",
    "Moment.C55.C55_empty",
    "Moment.C55.C55_hermitian",
    "Moment.C55.C55_antihermitian",
    "Moment.C55.C55_conjugate_found",
    "Moment.C55.C55_conjugate_partial",
    "Moment.C55.C55_refuted_conjugate",
    "Moment.C55.C55_maximum_degree",
    "Moment.C55.C55_degree_by_hash_partial",
    "Moment.C55.C55_refuted_degree_by_hash"
   ],
   "note": "Refuted: is_conjugate takes X and 2X for conjugates if X is neither Hermitian nor anti-Hermitian; the by-hash maximum_degree does not end if the last symbol has no word."
  },
  {
   "property": "C56",
   "status": "partial",
   "theorems": [
    "Moment.C56.C56_complete",
    "Moment.C56.C56_combine",
    "Moment.C56.C56_interreduced",
    "Moment.C56.C56_hermitian_flag",
    "Moment.C56.C56_refuted_inject"
   ],
   "note": "Completion and combination are proved in full; inject() of a rule for a symbol that already has one changes the flags of the rulebook though it adds nothing (refuted). The state of the rulebook after an exception in complete() is not modelled."
  },
  {
   "property": "C57",
   "status": "proved",
   "theorems": [
    "Moment.C57.C57_value",
    "Moment.C57.C57_normal_form",
    "Moment.C57.C57_zero",
    "Moment.C57.C57_idempotent",
    "Moment.C57.C57_monomial"
   ],
   "note": "Exact complex arithmetic."
  },
  {
   "property": "C58",
   "status": "proved",
   "theorems": [
    "Moment.C58.C58_contained",
    "Moment.C58.C58_compare"
   ],
   "note": "Exact complex arithmetic."
  },
  {
   "property": "C59",
   "status": "proved",
   "theorems": [
    "Moment.C59.C59_unique",
    "Moment.C59.C59_order",
    "Moment.C59.C59_steps",
    "Moment.C59.C59_ordering"
   ],
   "note": "Exact complex arithmetic."
  },
  {
   "property": "C60",
   "status": "proved",
   "theorems": [
    "Moment.C60.C60_one_object",
    "Moment.C60.C60_stays",
    "Moment.C60.C60_progress"
   ],
   "note": "The locked sections are atomic steps; set() and reset() are not part of the histories."
  },
  {
   "property": "C61",
   "status": "partial",
   "theorems": [
    "Moment.C61.C61_generic_partial",
    "Moment.C61.C61_refuted_hermitian"
   ],
   "note": "Proved for general matrices; for Hermitian matrices every off-diagonal entry is written by the workers of both columns (refuted)."
  },
  {
   "property": "C62",
   "status": "partial",
   "theorems": [
    "Moment.C62.C62_same_partial",
    "Moment.C62.C62_refuted",
    "Moment.C62.C62_refuted_run"
   ],
   "note": "Proved if nothing throws. The test that would pass exceptions on applies noexcept to the name of the functor, so they are always dropped (refuted)."
  },
  {
   "property": "C63",
   "status": "proved",
   "theorems": [
    "Moment.C27.C63_offsets",
    "Moment.C27.C63_flags",
    "Moment.C27.C63_parts"
   ],
   "note": ""
  },
  {
   "property": "C64",
   "status": "partial",
   "theorems": [
    "Moment.C27.C64_pair_partial",
    "Moment.C27.C64_merge_partial",
    "Moment.C27.C64_fill_partial",
    "Moment.C27.C64_refuted_fill"
   ],
   "note": "Proved for symbols made from a word and its conjugate. fill_to_word_length marks every word with the hash of its conjugate Hermitian, also when it is minus its conjugate (refuted)."
  },
  {
   "property": "C65",
   "status": "partial",
   "theorems": [
    "Moment.C65.C65_exact_partial",
    "Moment.C65.C65_zero_partial",
    "Moment.C65.C65_outcome",
    "Moment.C65.C65_refuted_diagonal",
    "Moment.C65.C65_refuted_complex_factor"
   ],
   "note": "Proved for matrices with real factors. With complex factors a matrix that is not Hermitian is accepted as such, and one that always is gets rejected (refuted)."
  },
  {
   "property": "C66",
   "status": "partial",
   "theorems": [
    "Moment.C65.C66_offsets_partial",
    "Moment.C65.C66_refuted"
   ],
   "note": "Rejections before the merge change nothing; a rejection during the merge keeps ids and offsets but leaves marks behind, which the next import acts on (refuted)."
  },
  {
   "property": "C67",
   "status": "partial",
   "theorems": [
    "Moment.C67.C67_mask",
    "Moment.C67.C67_monomial_partial",
    "Moment.C67.C67_refuted_monomial"
   ],
   "note": "Proved for polynomials; for a single monomial the bits of index 0 are never set (refuted)."
  },
  {
   "property": "C68",
   "status": "partial",
   "theorems": [
    "Moment.C68.C68_matrix",
    "Moment.C68.C68_rewrite_partial",
    "Moment.C68.C68_refuted_rewrite"
   ],
   "note": "Fixed vectors and kernel proved in general. One application of the rewrite matrix gives a solution unless a rule fixes a direction that is neither real nor imaginary (refuted for those)."
  },
  {
   "property": "C69",
   "status": "partial",
   "theorems": [
    "Moment.C69.C69_calls",
    "Moment.C69.C69_unchanged_partial",
    "Moment.C69.C69_refuted_stale"
   ],
   "note": "Proved while the symbol table does not renumber; after a later import makes a symbol real the stored basis is stale (refuted)."
  },
  {
   "property": "C70",
   "status": "partial",
   "theorems": [
    "Moment.C70.C70_value_partial",
    "Moment.C70.C70_flag",
    "Moment.C70.C70_hermitian",
    "Moment.C70.C70_first",
    "Moment.C70.C70_repeat",
    "Moment.C70.C70_stable",
    "Moment.C70.C70_refuted_flag",
    "Moment.C70.C70_refuted_negative",
    "Moment.C70.C70_refuted_conjugate"
   ],
   "note": "Proved for all tables and matrices in contexts where conjugation brings no sign, for words that are not minus a Hermitian word. Refuted otherwise: the sign of a Hermitian word met with a negative sign counts twice, the sign a conjugate acquires is dropped, and an imaginary prefactor leaves the Hermitian flag set."
  },
  {
   "property": "C71",
   "status": "proved",
   "theorems": [
    "Moment.C71.C71_condense",
    "Moment.C71.C71_unique",
    "Moment.C71.C71_condense_twice",
    "Moment.C71.C71_add",
    "Moment.C71.C71_multiply",
    "Moment.C71.C71_bracket",
    "Moment.C71.C71_pauli",
    "Moment.C71.C71_construct",
    "Moment.C71.C71_register",
    "Moment.C71.C71_of_polynomial",
    "Moment.C71.C71_scalar"
   ],
   "note": ""
  },
  {
   "property": "C72",
   "status": "partial",
   "theorems": [
    "Moment.C72.C72_composite",
    "Moment.C72.C72_composite_canonical",
    "Moment.C72.C72_composite_refuses",
    "Moment.C72.C72_add",
    "Moment.C72.C72_add_monomial_partial",
    "Moment.C72.C72_add_polynomial_partial",
    "Moment.C72.C72_add_canonical",
    "Moment.C72.C72_refuted_zero",
    "Moment.C72.C72_refuted_canonical"
   ],
   "note": "Proved for all weighted sums of matrices. Adding zero to a matrix of polynomials throws, and adding a monomial to a matrix of monomials with a zero entry leaves a term for symbol 0; otherwise adding monomials and polynomials is proved."
  },
  {
   "property": "C73",
   "status": "partial",
   "theorems": [
    "Moment.C73.C73_dense_partial",
    "Moment.C73.C73_sparse_partial",
    "Moment.C73.C73_refuses",
    "Moment.C73.C73_times",
    "Moment.C73.C73_times_flag_partial",
    "Moment.C73.C73_times_raw_partial",
    "Moment.C73.C73_refuted_anti",
    "Moment.C73.C73_refuted_sparse",
    "Moment.C73.C73_refuted_weight",
    "Moment.C73.C73_refuted_zero_word"
   ],
   "note": "Numbers and values of products are proved (for raw polynomials without the zero word). Refuted: real antisymmetric matrices are not flagged anti-Hermitian; a sparse matrix with entries only above the diagonal is flagged Hermitian; a complex weight does not enter the flag of a product; the zero word in a raw polynomial without operators counts as the identity."
  },
  {
   "property": "C74",
   "status": "partial",
   "theorems": [
    "Moment.C74.C74_value",
    "Moment.C74.C74_solved",
    "Moment.C74.C74_flag_partial",
    "Moment.C74.C74_complete_partial",
    "Moment.C74.C74_refuted_failed",
    "Moment.C74.C74_refuted_inject"
   ],
   "note": "Values are proved in full; the Hermitian flag for matrices of monomials and completed rulebooks (that of matrices of polynomials is tested anew, see C55 and C26). Refuted: after complete() has thrown, the flags do not describe the rules, and substitution throws with one thread, and silently gives zero with several; an injected rule can make a flagged matrix non-Hermitian."
  },
  {
   "property": "C75",
   "status": "proved",
   "theorems": [
    "Moment.C75.C75_chain",
    "Moment.C75.C75_chain_form",
    "Moment.C75.C75_lattice",
    "Moment.C75.C75_lattice_form",
    "Moment.C75.C75_chain_supremum",
    "Moment.C75.C75_lattice_supremum",
    "Moment.C75.C75_chain_offset",
    "Moment.C75.C75_lattice_offset",
    "Moment.C75.C75_sequence"
   ],
   "note": ""
  },
  {
   "property": "C76",
   "status": "partial",
   "theorems": [
    "Moment.C76.C76_round_trip",
    "Moment.C76.C76_order",
    "Moment.C76.C76_chain_shift",
    "Moment.C76.C76_lattice_shift_partial",
    "Moment.C76.C76_first_alias",
    "Moment.C76.C76_refuted_rows",
    "Moment.C76.C76_refuted_aligned"
   ],
   "note": "Round trip, order, shifts of chains and aliases proved in full. Lattice shifts proved for good sizes; refuted beyond 64 qubits with more rows than columns (row_cyclic_shift reduces by the number of columns), and undefined for two slides with a height that divides 32."
  },
  {
   "property": "C77",
   "status": "partial",
   "theorems": [
    "Moment.C77.C77_chain",
    "Moment.C77.C77_lattice_partial",
    "Moment.C77.C77_refuted_lattice",
    "Moment.C77.C77_refuted_construction",
    "Moment.C77.C77_refuted_aligned"
   ],
   "note": "Chains proved (beyond 32 qubits assuming that wide shifts give some value); lattices proved for good sizes. Refuted for nine rows and eight columns; the constructor has undefined behaviour beyond 32 rows."
  },
  {
   "property": "C78",
   "status": "partial",
   "theorems": [
    "Moment.C78.C78_chain_partial",
    "Moment.C78.C78_lattice_partial",
    "Moment.C78.C78_refuted_negative",
    "Moment.C78.C78_refuted_lattice_negative",
    "Moment.C78.C78_refuted_rows"
   ],
   "note": "Proved for offsets that are not negative, and for all offsets on chains whose length is a power of two. Negative offsets refuted."
  },
  {
   "property": "C79",
   "status": "proved",
   "theorems": [
    "Moment.C79.C79_sites",
    "Moment.C79.C79_all",
    "Moment.C79.C79_graded"
   ],
   "note": "Proved for all numbers of qubits and levels."
  },
  {
   "property": "C80",
   "status": "partial",
   "theorems": [
    "Moment.C80.C80_open",
    "Moment.C80.C80_ring_partial",
    "Moment.C80.C80_refuted_two",
    "Moment.C80.C80_refuted_full"
   ],
   "note": "Open chains proved in full. Closed chains: the words listed are exactly the near ones, and without duplicates if level times neighbours is less than the number of qubits; refuted when the level reaches the number of qubits."
  },
  {
   "property": "C81",
   "status": "partial",
   "theorems": [
    "Moment.C81.C81_pairs",
    "Moment.C81.C81_open_partial",
    "Moment.C81.C81_refuted_corner",
    "Moment.C81.C81_rejected"
   ],
   "note": "Pairs proved on open and closed lattices. Open lattices up to level 4: exact list and multiplicities proved, without one of the four kinds of corners; that kind is refuted (never listed, while another is listed twice). Closed lattices at levels 3 and 4 with symmetry are left to the property about translates."
  },
  {
   "property": "C82",
   "status": "partial",
   "theorems": [
    "Moment.C82.C82_entry",
    "Moment.C82.C82_entries_partial",
    "Moment.C82.C82_value_partial",
    "Moment.C82.C82_moment_partial",
    "Moment.C82.C82_localizing_partial",
    "Moment.C82.C82_flag",
    "Moment.C82.C82_positive_partial",
    "Moment.C82.C82_free"
   ],
   "note": "Proved in full for free algebras, for all words, localizing words and positive functionals (C82_free). For other contexts proved under the stated conditions on multiplication and conjugation of words; C101, C111, C117 and C124 establish them for locality, Pauli, algebraic and inflation contexts."
  },
  {
   "property": "C83",
   "status": "partial",
   "theorems": [
    "Moment.C83.C83_no_race",
    "Moment.C83.C83_progress",
    "Moment.C83.C83_ends",
    "Moment.C83.C83_no_crash",
    "Moment.C83.C83_data",
    "Moment.C83.C83_same_partial",
    "Moment.C83.anti_complete",
    "Moment.C83.C83_refuted_sign"
   ],
   "note": "Absence of races, progress, termination and the final contents proved for all schedules. Same contents as one thread: proved if no Hermitian matrix is expected or the matrix is Hermitian; refuted for anti-Hermitian localizing words, which are taken for Hermitian ones."
  },
  {
   "property": "C84",
   "status": "partial",
   "theorems": [
    "Moment.C84.C84_partial",
    "Moment.C84.C84_refuted_deadlock",
    "Moment.C84.C84_refuted_released",
    "Moment.C84.C84_refuted_both"
   ],
   "note": "Proved if nothing throws. Refuted otherwise: the call hangs in contexts with aliases, and data can be released while other threads write to them."
  },
  {
   "property": "C85",
   "status": "proved",
   "theorems": [
    "Moment.C85.C85_dimino",
    "Moment.C85.C85_size",
    "Moment.C85.C85_throws"
   ],
   "note": "Every element once, for all finite groups of invertible generators."
  },
  {
   "property": "C86",
   "status": "proved",
   "theorems": [
    "Moment.C86.C86_plan",
    "Moment.C86.C86_short",
    "Moment.C86.C86_parents"
   ],
   "note": "For all lengths of 64 bits."
  },
  {
   "property": "C87",
   "status": "partial",
   "theorems": [
    "Moment.C87.C87_represents_partial",
    "Moment.C87.C87_multiplies_partial",
    "Moment.C87.C87_free",
    "Moment.C87.C87_refuted_sign"
   ],
   "note": "Proved in full for free algebras, all lengths whose words have distinct hashes and all histories (C87_free). For other contexts proved if products of words come without phases; refuted otherwise: the sign of products is dropped. Single-threaded, without exceptions."
  },
  {
   "property": "C88",
   "status": "partial",
   "theorems": [
    "Moment.C88.C88_plain_partial",
    "Moment.C88.C88_algebraic_partial",
    "Moment.C88.C88_enough_partial",
    "Moment.C88.C88_span_partial",
    "Moment.C88.C88_conjugates"
   ],
   "note": "Proved for words whose hashes do not wrap around, and for rulebooks in normal order without empty left sides."
  },
  {
   "property": "C89",
   "status": "partial",
   "theorems": [
    "Moment.C89.C89_values_partial",
    "Moment.C89.C89_defined",
    "Moment.C89.C89_distinct",
    "Moment.C89.C89_covered",
    "Moment.C89.C89_conjugates"
   ],
   "note": "Proved for tables and lists that meet the stated conditions; proved to hold for free algebras. C89_covered and C89_conjugates are for contexts without words of the same moment."
  },
  {
   "property": "C90",
   "status": "partial",
   "theorems": [
    "Moment.C90.C90_dense",
    "Moment.C90.C90_sparse",
    "Moment.C90.C90_lu",
    "Moment.C90.C90_rejected",
    "Moment.C90.C90_checked",
    "Moment.C90.C90_identity_column",
    "Moment.C90.C90_refuted_rows"
   ],
   "note": "Proved for all matrices with no more rows than columns and every correct decomposition, in exact arithmetic. Refuted for matrices with more rows than columns: the list of symbols is read out of range."
  },
  {
   "property": "C91",
   "status": "partial",
   "theorems": [
    "Moment.C91.C91_mean_partial",
    "Moment.C91.C91_invariant_partial",
    "Moment.C91.C91_mean_invariant",
    "Moment.C91.free_symmetric"
   ],
   "note": "Proved for contexts without words of the same moment whose products of words come without phases, for every correct decomposition and storage, in exact arithmetic. free_symmetric shows that free algebras meet the conditions, for every group."
  },
  {
   "property": "C92",
   "status": "partial",
   "theorems": [
    "Moment.C92.C92_entries_partial",
    "Moment.C92.C92_symmetrized_partial",
    "Moment.C92.C92_rejected",
    "Moment.C92.C92_refuted_factor",
    "Moment.C92.C92_refuted_missing"
   ],
   "note": "Proved if conjugated symbols have real factors. Refuted otherwise: the factor is conjugated too. Also refuted: symbols of words too long for the map silently become zero in derived matrices; only symbols newer than the map are rejected."
  },
  {
   "property": "C93",
   "status": "partial",
   "theorems": [
    "Moment.C93.C93_entry",
    "Moment.C93.C93_refresh",
    "Moment.C93.C93_value",
    "Moment.C93.C93_probability",
    "Moment.C93.C93_complete",
    "Moment.C93.C93_range_partial",
    "Moment.C93.C93_refuted_bound",
    "Moment.C93.C93_refuted_outcome",
    "Moment.C93.C93_refuted_virtual"
   ],
   "note": "Proved for one caller at a time. Refuted: the number after the last measurement is read out of bounds; a request for the implied outcome gives the entry of another measurement or lies outside the tensor; tensors of more than 1024 elements always say that no symbols are missing."
  },
  {
   "property": "C94",
   "status": "proved",
   "theorems": [
    "Moment.C94.C94_probability",
    "Moment.C94.C94_no_signalling",
    "Moment.C94.C94_locality",
    "Moment.C94.C94_inflation"
   ],
   "note": "In exact arithmetic, for indices in range. C94_locality and C94_inflation state it for the dimensions and tables that the two scenarios make."
  },
  {
   "property": "C95",
   "status": "partial",
   "theorems": [
    "Moment.C95.C95_correlators_partial",
    "Moment.C95.C95_scenarios",
    "Moment.C95.C95_refuted_parties"
   ],
   "note": "Proved for elements that involve at most 30 parties. Refuted from 31 on: 1 << 31 is out of the range of int, so that the reservation of memory throws or is undefined."
  },
  {
   "property": "C96",
   "status": "proved",
   "theorems": [
    "Moment.C96.C96_values",
    "Moment.C96.C96_conditional",
    "Moment.C96.C96_probabilities"
   ],
   "note": "In exact arithmetic, for lists of values as long as the range, which the code only asserts."
  },
  {
   "property": "C97",
   "status": "proved",
   "theorems": [
    "Moment.C97.C97_elements",
    "Moment.C97.C97_probability",
    "Moment.C97.C97_correlators"
   ],
   "note": "Invariant over all sequences of matrices and refreshes, one caller at a time, in exact arithmetic. Virtual tensors (more than 1024 elements) always return true, as documented."
  },
  {
   "property": "C98",
   "status": "proved",
   "theorems": [
    "Moment.C98.C98_matrix",
    "Moment.C98.C98_level",
    "Moment.C98.C98_values",
    "Moment.C98.C98_basis"
   ],
   "note": "End to end: word list, simplification, hashes, symbol table and matrix. In exact arithmetic; for words short enough for the 64-bit hash to be injective."
  },
  {
   "property": "C99",
   "status": "partial",
   "theorems": [
    "Moment.C99.C99_sound_partial",
    "Moment.C99.C99_sound_recheck",
    "Moment.C99.C99_refuted_destroyed",
    "Moment.C99.C99_locks",
    "Moment.C99.C99_progress",
    "Moment.C99.C99_complete"
   ],
   "note": "Refuted: RefreshCollinsGisin does not look again after it got the write lock, so a second thread replaces the tensor that a probability tensor refers to, which is then used after it was destroyed. Proved if the Collins-Gisin tensor exists beforehand, and for a function that looks again. Sections under the write lock are atomic steps."
  }
 ]
}
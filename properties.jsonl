{"id": "C01", "title": "The perfection test decides perfection", "statement": "A quaternion sequence is reported perfect exactly when its periodic autocorrelation vanishes at every shift that is not a multiple of its length, although only the first half of the shifts is examined.", "quantifier": "every length and every list of quaternions of that length", "why_tests_cant": "tests try a handful of sequences; a wrong half-range bound or conjugation convention only shows on sequences whose single bad shift lies in the unexamined half", "anchors": ["rust/src/sequences/sequence.rs: QS::is_perfect, QS::periodic_autocorrelation"]}
{"id": "C02", "title": "The odd-perfection test decides odd perfection", "statement": "A quaternion sequence is reported odd-perfect exactly when its odd (negacyclic) periodic autocorrelation vanishes at every shift 1..n-1.", "quantifier": "every length and every list of quaternions of that length", "why_tests_cant": "same half-range argument, with the sign twist of the negacyclic correlation, for all lengths", "anchors": ["rust/src/sequences/sequence.rs: QS::is_odd_perfect, QS::odd_periodic_autocorrelation"]}
{"id": "C03", "title": "QT verification is the same as perfection of the quaternion sequence", "statement": "A quadruple of +-1 sequences passes QT verification if and only if the quaternion sequence it converts to is perfect.", "quantifier": "every length n >= 1 and every quadruple of +-1 sequences of length n", "why_tests_cant": "the two checks are independent code (integer correlations of four sequences versus float quaternion correlation through a 16-entry table); agreement on samples cannot exclude a sign or table error on one entry combination", "anchors": ["rust/src/sequences/williamson.rs: QuadSeq::verify_qts, QuadSeq::to_qs", "rust/src/sequences/sequence.rs: QS::is_perfect", "rust/src/find/find_write.rs: join_pairs_files"]}
{"id": "C04", "title": "Every QT sequence is amicable, so QT and Williamson-type sequences coincide", "statement": "For every quadruple of sequences the weak cross-correlation condition of QT sequences holds if and only if all six pairs are amicable; hence QT verification and Williamson-type verification accept the same quadruples and the `amicable` command can never fail on a file of QT sequences.", "quantifier": "every length n >= 1 and every quadruple of +-1 sequences", "why_tests_cant": "the repository checks this exhaustively for length 5 and on result files only; it is a theorem about all lengths", "anchors": ["rust/src/sequences/williamson.rs: verify_cross_correlation, is_amicable, verify_qts, verify_wts", "rust/src/main.rs: verify_qts_eq_wts"]}
{"id": "C05", "title": "Every Williamson sequence is Williamson-type", "statement": "Any quadruple accepted as a Williamson sequence (symmetric, complementary) is also accepted as a Williamson-type sequence and as a QT sequence.", "quantifier": "every length n >= 1 and every quadruple of +-1 sequences", "why_tests_cant": "symmetric implies amicable is only enumerated for length 5 by the tests", "anchors": ["rust/src/sequences/williamson.rs: verify_ws, verify_wts, is_symmetric"]}
{"id": "C06", "title": "Conversion between quadruples and quaternion sequences is lossless", "statement": "Converting a +-1 quadruple to a quaternion sequence and back returns the same quadruple; converting a sequence over the 16 allowed quaternions to a quadruple and back returns the same sequence; anything else is refused with a panic and never silently changed.", "quantifier": "every length, every quadruple, every quaternion sequence over the 24-element alphabet", "why_tests_cant": "the two directions are separately written tables; the test checks one direction for one sequence", "anchors": ["rust/src/sequences/williamson.rs: QuadSeq::to_qs, QuadSeq::from_pqs, quaternion_to_quad, QUADRUPLETS", "rust/src/sequences/sequence.rs: QPLUS, Q24"]}
{"id": "C07", "title": "Text encodings are lossless", "statement": "Reading back a printed quaternion sequence, or a printed +-1 sequence, gives exactly the sequence that was printed; printing never panics on entries of the alphabet and reading panics exactly on strings that contain a character outside it.", "quantifier": "every sequence over the 24-element quaternion alphabet, every +-1 sequence, every string", "why_tests_cant": "result files are the only interface between the pipeline stages; a single confused character would corrupt results silently and only for the sequences that contain it", "anchors": ["rust/src/sequences/sequence.rs: QS::from_str, QS::to_string_raw, quaternion_to_string", "rust/src/sequences/rowsum.rs: sequence_to_string", "rust/src/find/find_write.rs: string_to_sequence, file_to_sequences"]}
{"id": "C08", "title": "Quadruple verification decides the mathematical definitions", "statement": "Verification of the three sequence types accepts exactly the quadruples that satisfy the definitions: periodic complementarity at all non-zero shifts, pairwise amicability at all shifts, and symmetry x[t] = x[n-t] at all t.", "quantifier": "every length n >= 1 and every quadruple of +-1 sequences", "why_tests_cant": "the code checks offset ranges and half ranges; equality with the full definition is a statement about all shifts", "anchors": ["rust/src/sequences/williamson.rs: verify, is_periodic_complementary, is_amicable, is_symmetric, periodic_autocorrelation, cross_correlation"]}
{"id": "C09", "title": "The equivalence operations of each sequence type preserve that type", "statement": "Applying any of the equivalence operations listed for QT, Williamson-type or Williamson sequences to a verified sequence of that type gives only verified sequences of that type, so the debug assertions inside the operations never fire.", "quantifier": "every length 1..100, every verified quadruple, every operation in the list of its type and every member of the set it returns", "why_tests_cant": "an operation that is only invalid for some lengths or some sequences escapes sampling; the two half-shift assertions in the code even test the wrong variable", "anchors": ["rust/src/sequences/symmetries.rs: SequenceType::equivalences", "rust/src/sequences/equivalence.rs: equivalent_*"]}
{"id": "C10", "title": "Auxiliary equivalence operations", "statement": "Reversal, double negation, double reordering and disjoint double swaps preserve QT validity for all lengths, and single half shifts do for even lengths; alternated negation preserves QT validity for every even length but not for odd lengths.", "quantifier": "every verified quadruple of any length", "why_tests_cant": "same as for the main operations; the odd-length failure is a counterexample the code's tests do not contain", "anchors": ["rust/src/sequences/equivalence.rs: equivalent_reverse, equivalent_double_negate, equivalent_double_reorder, equivalent_disjoint_swaps, equivalent_uniform_half_shift, equivalent_alternated_negation"]}
{"id": "C11", "title": "Equivalence-class generation terminates with exactly the class", "statement": "Generating the equivalence class of a sequence always terminates and returns exactly the sequences reachable from it by finitely many operations; membership is reflexive, symmetric and transitive, so classes partition the sequences and `equivalent_to` is an equivalence relation.", "quantifier": "every length 1..100, every quadruple, each type's operation list, any iteration order of the hash sets", "why_tests_cant": "termination and closure of an unbounded loop over hash sets cannot be established by running it on samples", "anchors": ["rust/src/sequences/equivalence.rs: generate_equivalence_class", "rust/src/sequences/williamson.rs: QuadSeq::equivalent_to", "rust/src/sequences/symmetries.rs: SequenceType::equivalences"]}
{"id": "C12", "title": "The symbolic (fast) equivalence class equals the directly generated class", "statement": "For lengths 1 to 31, applying the precomputed symbolic symmetry group to a sequence gives exactly the class obtained by applying the operations directly, for every operation list used; for longer sequences the 8-bit labels overflow and the guarantee is lost.", "quantifier": "every length 1..31, every quadruple of +-1 sequences, every list of operations; plus the failure at length 32", "why_tests_cant": "the tests compare the two on one sequence of length 3; the overflow boundary is invisible below length 32", "anchors": ["rust/src/sequences/equivalence.rs: generate_symmetry_group, generate_equivalence_class_fast"]}
{"id": "C13", "title": "Sequence order is a strict total order and minima do not depend on hash order", "statement": "The comparison used to choose representatives is the lexicographic strict total order on quadruples of one length, so the minimum of a class is unique and the representative chosen does not depend on the iteration order of hash sets; it belongs to the class and is below every member.", "quantifier": "every pair/set of quadruples of equal length and every iteration order", "why_tests_cant": "hash iteration order is randomised per process; only a proof covers all orders", "anchors": ["rust/src/sequences/equivalence.rs: will_less_than, seq_less_than, generate_canonical_representative", "rust/src/find/find_unique.rs: find_minimum"]}
{"id": "C14", "title": "Negate-swap canonical form", "statement": "The negate-and-swap canonical form always terminates on +-1 sequences, is reachable by negate-and-swap operations, is the least element of the negate-and-swap orbit, and is therefore idempotent and a complete invariant of the orbit.", "quantifier": "every length n >= 1 and every quadruple of +-1 sequences", "why_tests_cant": "the algorithm has an unbounded loop and many branches (ties, duplicates, parity); correctness is about all of them", "anchors": ["rust/src/sequences/equivalence.rs: ns_canonical, equivalent_negate_swap", "rust/src/sequences/matrix_equivalence.rs: is_ns_canonical"]}
{"id": "C15", "title": "Negate/swap (SN-SS) canonical form", "statement": "The canonical form under independent negations and swaps is reachable by these operations, is the least element of their orbit, is idempotent and is a complete invariant of the orbit.", "quantifier": "every length n >= 1 and every quadruple of +-1 sequences", "why_tests_cant": "selection-sort with ties over all inputs", "anchors": ["rust/src/sequences/equivalence.rs: sn_ss_canonical, equivalent_negate, equivalent_reorder"]}
{"id": "C16", "title": "Canonical representatives identify equivalence classes", "statement": "For QT and Williamson-type sequences of length at most 31 the canonical representative of a sequence is the least element of its full equivalence class, so two sequences have the same canonical representative if and only if they are equivalent.", "quantifier": "every length 1..31 and every quadruple of +-1 sequences", "why_tests_cant": "it depends on how the two halves of the symmetry group combine, for every sequence and length", "anchors": ["rust/src/sequences/equivalence.rs: qt_canonical, generate_canonical_representative"]}
{"id": "C17", "title": "Reduction to canonical representatives is exact, and `equiv` decides equivalence", "statement": "Reducing a non-empty list of QT or Williamson-type sequences returns, without repetition, exactly one representative for each equivalence class met by the list, each equivalent to some input; the pairwise equivalence test is true exactly for equivalent sequences.", "quantifier": "every non-empty list of +-1 quadruples of one length 1..31", "why_tests_cant": "quantifies over all lists and orders", "anchors": ["rust/src/find/find_unique.rs: reduce_to_canonical_reps", "rust/src/sequences/equivalence.rs: equiv"]}
{"id": "C18", "title": "Reduction of Williamson sequences keeps them Williamson", "statement": "Reducing a list of (symmetric) Williamson sequences returns only Williamson sequences, so that the later conversion step accepts them.", "quantifier": "every list of Williamson sequences of one length 1..31", "why_tests_cant": "the reduction silently leaves the set: a counterexample exists at length 3, but no test exercises the `ws` type", "anchors": ["rust/src/find/find_unique.rs: reduce_to_canonical_reps", "rust/src/sequences/matrix_equivalence.rs: hadamard_equivalence_from_file", "rust/src/sequences/symmetries.rs: SequenceType::equivalences"]}
{"id": "C19", "title": "The class-based reductions return one representative per class", "statement": "The original reduction and the one-pass (parallelisable) reduction return exactly one sequence per equivalence class met by the input, the least one of the class, and the two return the same set.", "quantifier": "every non-empty list of +-1 quadruples of one length 1..31 and any operation list of the types", "why_tests_cant": "quantifies over all lists, repetitions and orders", "anchors": ["rust/src/find/find_unique.rs: reduce_to_equivalence, reduce_to_equivalence_par"]}
{"id": "C20", "title": "The set-difference reduction keeps a representative of every class", "statement": "Reducing a list with the set-difference algorithm leaves at least one member of every equivalence class met by the input.", "quantifier": "every non-empty list of +-1 quadruples", "why_tests_cant": "fails as soon as the list contains two distinct equivalent members: both are removed", "anchors": ["rust/src/find/find_unique.rs: reduce_to_equivalence_set_dif"]}
{"id": "C21", "title": "The expansion of Williamson-type classes to QT classes is exhaustive", "statement": "Starting from one representative of every Williamson-type class, adding the variants with W negated and (for even length) half-shifted yields a list that meets every QT equivalence class of Williamson-type sequences.", "quantifier": "every length 1..100 and every Williamson-type sequence", "why_tests_cant": "claims exhaustiveness over all sequences; missing a coset would silently lose Hadamard matrices", "anchors": ["rust/src/main.rs: find_write_quad_seq", "rust/src/sequences/equivalence.rs: negated, half_shift"]}
{"id": "C22", "title": "Generation of sequences with a prescribed row sum is exact", "statement": "Generating the +-1 sequences of a given length and row sum returns every such sequence exactly once and nothing else, also when the row sum has the wrong parity or is out of range.", "quantifier": "every integer row sum and every length", "why_tests_cant": "tests only compare counts for a few sizes", "anchors": ["rust/src/sequences/rowsum.rs: generate_sequences_with_rowsum, gen_seq_rec"]}
{"id": "C23", "title": "Enumeration of four-square decompositions is exact", "statement": "The search for sorted non-negative quadruples with a given sum of squares terminates and returns every such quadruple exactly once.", "quantifier": "every natural number", "why_tests_cant": "the odometer loop with early carry must be shown not to skip or repeat anything for all bounds", "anchors": ["rust/src/sequences/rowsum.rs: sum_of_four_squares, increment_squares"]}
{"id": "C24", "title": "Row-sum restriction loses nothing", "statement": "Every QT or Williamson-type sequence of length n is equivalent (by negations/swaps of its type) to one whose row sums are in the generated list for n; the generated row sums are exactly the sorted ones with sum of squares 4n and the right parity (plus the negated last entry for QT when all are distinct and non-zero), without repetition.", "quantifier": "every length n >= 1 and every verified sequence", "why_tests_cant": "completeness of a search restriction over all sequences", "anchors": ["rust/src/sequences/rowsum.rs: generate_rowsums, has_sorted_rowsums", "rust/src/sequences/equivalence.rs: filter_by_rowsums"]}
{"id": "C25", "title": "Row-sum identity", "statement": "For every periodic complementary quadruple of +-1 sequences of length n, the squares of the four row sums add up to 4n, and each row sum has the parity of n.", "quantifier": "every length n >= 1 and every complementary quadruple", "why_tests_cant": "an identity over all sequences", "anchors": ["rust/src/sequences/rowsum.rs: rowsum, generate_rowsums", "rust/src/sequences/williamson.rs: is_periodic_complementary"]}
{"id": "C26", "title": "Matching keys agree for valid quadruples (correlation matching)", "statement": "If four sequences form a valid sequence of the requested type, the key written for the first pair equals the key written for the second pair, for every pairing; conversely equal keys imply periodic complementarity, and for QT the key also fixes the cross-correlation condition of the pairing.", "quantifier": "every length, every quadruple of +-1 sequences, every pairing WX/WY/WZ, every type", "why_tests_cant": "the cross-correlation sign conventions of the two sides are not obviously consistent with the verification; they agree only because of a theorem about all sequences", "anchors": ["rust/src/find/find_write.rs: write_seq_pairs", "rust/src/sequences/matching.rs: compute_auto_correlation_pair, compute_cross_correlations, compute_complementary_*"]}
{"id": "C27", "title": "Power-spectrum filtering discards no valid pair", "statement": "In exact arithmetic a pair that belongs to some valid quadruple is never discarded by the power spectral density bound, and the power spectra of a complementary quadruple add up to 4n at every frequency.", "quantifier": "every length n >= 1, every complementary quadruple, every frequency", "why_tests_cant": "a real-analysis statement about all sequences; a float test cannot separate rounding from logic", "anchors": ["rust/src/sequences/fourier.rs: iter_over_enumerate_filtered_couples_psds, iter_over_filtered_couples", "rust/src/find/find_write.rs: write_seq_pairs"]}
{"id": "C28", "title": "Spectral computation of correlations agrees with the direct one", "statement": "The auto- and cross-correlations computed by forward and inverse discrete Fourier transform and rounding equal the integer correlations computed directly, whenever the transform output has error below one half.", "quantifier": "every length, every pair of +-1 sequences, every offset, every transform within the error bound", "why_tests_cant": "tests compare a few length-10 sequences", "anchors": ["rust/src/sequences/matching.rs: compute_auto_correlation_dft, compute_auto_correlation_pair_dft, compute_cross_correlations_dft", "rust/src/sequences/fourier.rs: dft_sequence, inverse_dft"]}
{"id": "C29", "title": "The sorted-file join finds every match", "statement": "Joining two pair files that were sorted bytewise returns every combination of lines with equal keys that passes verification.", "quantifier": "every two files of well-formed lines and every bytewise-sorted arrangement of them", "why_tests_cant": "the file is sorted by whole lines but merged by comparing keys; the two orders disagree when one key is a digit-prefix of another, so matches can be lost for rare key combinations only", "anchors": ["rust/src/find/find_write.rs: join_pairs_files, get_line_from", "rust/sortpairs.sh"]}
{"id": "C30", "title": "The join is sound", "statement": "Every quadruple returned by the join is a verified sequence of the requested type, built from the stored sequences with the tags given by the file names, whatever the contents and order of the files.", "quantifier": "all file contents with well-formed lines, both file orders", "why_tests_cant": "quantifies over all inputs", "anchors": ["rust/src/find/find_write.rs: join_pairs_files, get_sequences, get_sequence_aux"]}
{"id": "C31", "title": "Matching is complete per row-sum directory", "statement": "With either way of matching, for every row-sum quadruple the pair, sort and join stages return every sequence of the requested type having these row sums, for every pairing and whichever of the two pair files is read first.", "quantifier": "every length n >= 1, every row sum quadruple with squares summing to 4n, every type ws/wts/qts, every pairing, both matching options", "why_tests_cant": "completeness of the whole search; depends on the key order defect never touching the keys of true matches", "anchors": ["rust/src/find/find_write.rs: write_pairs_rowsum, write_seq_pairs, join_pairs_files", "rust/sortpairs.sh"]}
{"id": "C32", "title": "End-to-end enumeration is exhaustive and irredundant", "statement": "For QT and Williamson-type sequences of length 1 to 31 the result of pairs, sort and join with either way of matching contains exactly one representative of every equivalence class of sequences of that length, and every entry is a verified sequence.", "quantifier": "every length 1..31, every pairing, every directory listing order, both matching options", "why_tests_cant": "the published claim is exhaustiveness; testing can only compare counts with other incomplete computations", "anchors": ["rust/src/find/find_write.rs: write_pairs, join_pairs", "rust/src/main.rs: find_write_quad_seq", "rust/driver.sh"]}
{"id": "C33", "title": "Results do not depend on pairing, matching option, directory order or hash order", "statement": "The set of sequences produced by the pipeline is the same for both matching options, for every pairing option and for every order in which directories and files are listed.", "quantifier": "both matching options, all pairings, all permutations of directory listings, all bytewise-sorted arrangements", "why_tests_cant": "listing and hashing order is environment dependent", "anchors": ["rust/src/find/find_write.rs: join_pairs, get_order_from_dir, write_pairs_rowsum"]}
{"id": "C34", "title": "Hadamard construction", "statement": "The 4n x 4n matrix built from a QT (equivalently Williamson-type) sequence is a Hadamard matrix, and conversely if the matrix is Hadamard the quadruple is a QT sequence.", "quantifier": "every length n >= 1 and every quadruple of +-1 sequences", "why_tests_cant": "one length-3 example is tested; the block signs match the verification only through amicability", "anchors": ["rust/src/sequences/matrices.rs: HM::from_williamson, HM::from_sequence, HM::copy_block_to"]}
{"id": "C35", "title": "The quadruple can be read back from its Hadamard matrix", "statement": "Extracting the sequences from the matrix built from a quadruple returns that quadruple.", "quantifier": "every length and every quadruple", "why_tests_cant": "one example is tested", "anchors": ["rust/src/sequences/matrices.rs: HM::get_qts, HM::from_williamson"]}
{"id": "C36", "title": "Hadamard verification decides the Hadamard property", "statement": "For matrices of size up to 127 verification accepts exactly the +-1 matrices with pairwise orthogonal rows; for larger sizes the 8-bit accumulator wraps and can accept a matrix that is not Hadamard.", "quantifier": "every +-1 matrix of size at most 127; the failure for size 256", "why_tests_cant": "overflow depends on size and on partial sums of all row pairs", "anchors": ["rust/src/sequences/matrices.rs: HM::verify"]}
{"id": "C37", "title": "Normalising a Hadamard matrix in place", "statement": "In-place dephasing of a +-1 matrix makes its first row and first column all ones and keeps the Hadamard property.", "quantifier": "every size and every +-1 matrix", "why_tests_cant": "loop order and aliasing of the updated row/column matter for all sizes", "anchors": ["rust/src/sequences/matrices.rs: HM::dephase"]}
{"id": "C38", "title": "The copying dephase of Hadamard matrices agrees with the in-place one", "statement": "The dephased copy of a +-1 matrix equals the result of dephasing it in place.", "quantifier": "every size and every +-1 matrix", "why_tests_cant": "a counterexample exists at size 2; no test calls it", "anchors": ["rust/src/sequences/matrices.rs: HM::dephased, HM::dephase"]}
{"id": "C39", "title": "Quaternionic Hadamard matrices from perfect sequences", "statement": "The circulant matrix of a sequence over unit quaternions satisfies M M* = nI, and passes verification, if and only if the sequence is perfect.", "quantifier": "every length n >= 1 and every sequence over the 24-element alphabet", "why_tests_cant": "one example is tested", "anchors": ["rust/src/sequences/matrices.rs: QHM::from_pqs, QHM::verify"]}
{"id": "C40", "title": "Dephasing quaternionic Hadamard matrices", "statement": "Dephasing a matrix over the 24-element alphabet makes the first row and column all ones, keeps M M* = nI, keeps all entries inside the alphabet so that printing cannot panic, and the copying and in-place versions agree.", "quantifier": "every size and every matrix over the 24-element alphabet", "why_tests_cant": "closure of the alphabet and in-place aliasing for all matrices", "anchors": ["rust/src/sequences/matrices.rs: QHM::dephase, QHM::dephased, QHM::to_string"]}
{"id": "C41", "title": "The non-commutativity count is exact", "statement": "A matrix is reported to contain non-commuting elements exactly when two entries outside the first row and column do not commute.", "quantifier": "every size and every matrix of quaternions", "why_tests_cant": "the code skips repeated elements and stops early; equivalence with the definition is about all matrices", "anchors": ["rust/src/sequences/matrices.rs: QHM::contains_non_commuting_elements"]}
{"id": "C42", "title": "Products of perfect sequences of coprime lengths are perfect", "statement": "The product of two perfect sequences over the 24-element alphabet with coprime lengths is a perfect sequence over the same alphabet, of the product length.", "quantifier": "every two coprime lengths and every two perfect sequences", "why_tests_cant": "one example (7 x 10) is tested", "anchors": ["rust/src/sequences/product.rs: sequence_product"]}
{"id": "C43", "title": "Operator representation of quaternions", "statement": "The map from quaternions to 2x2 complex operators is additive, multiplicative, sends conjugation to the conjugate transpose and is injective.", "quantifier": "all quaternions", "why_tests_cant": "algebraic identities over all inputs", "anchors": ["rust/src/sequences/mum.rs: quaternion_to_operator, Operator::conjugate_transpose"]}
{"id": "C44", "title": "Mutually unbiased measurement operators and Hadamard operators from a quaternionic Hadamard matrix", "statement": "For a quaternionic Hadamard matrix the block operator H satisfies H H* = nI, the measurement operators are self-adjoint, each is a projection up to the removed normalisation, different ones are orthogonal, and they add up to a multiple of the identity.", "quantifier": "every quaternionic Hadamard matrix of any size", "why_tests_cant": "tests only print matrices", "anchors": ["rust/src/sequences/mum.rs: MUM::from_qhm, HMUO::from_qhm, Operator::tensor, computational_basis"]}
{"id": "C45", "title": "Recorded operator sizes are correct", "statement": "The recorded matrix size of every measurement set and Hadamard operator equals the size of the operators it holds, also after products and tensor products.", "quantifier": "all inputs", "why_tests_cant": "a counterexample exists: the tensor product of Hadamard operators records the sum of the sizes", "anchors": ["rust/src/sequences/mum.rs: HMUO::tensor, MUM::from_qhm", "rust/src/sequences/product.rs: mum_product"]}
{"id": "C46", "title": "Graph encoding characterises Hadamard equivalence", "statement": "Two Hadamard matrices of the same size are equivalent by row/column permutations and negations if and only if the graphs built from them are isomorphic, so with an exact canonical labelling the conversion step outputs exactly one matrix per Hadamard equivalence class.", "quantifier": "every size and every two Hadamard matrices", "why_tests_cant": "an equivalence over all pairs of matrices", "anchors": ["rust/src/sequences/matrix_equivalence.rs: graph_from_hm, reduce_to_hadamard_equivalence, hadamard_equivalence_from_file"]}
{"id": "C47", "title": "Coprimality table", "statement": "The coprimality test is true exactly when the greatest common divisor is one, and the precomputed table lists for each length below 101 exactly the units in increasing order.", "quantifier": "all pairs of natural numbers; all table rows", "why_tests_cant": "Euclid's loop over all inputs", "anchors": ["rust/src/sequences/equivalence.rs: coprime, COPRIMES"]}
{"id": "C48", "title": "Exhaustive searches count exactly the perfect sequences", "statement": "Without symmetry the sequential and the parallel brute-force searches return the number of perfect sequences over their alphabet with first entry 1, for every parallel schedule, and agree with each other; the exhaustive quadruple search lists every QT sequence of the length exactly once.", "quantifier": "every length n >= 1 and every reduction tree of the parallel sum", "why_tests_cant": "the search mutates a shared sequence and backtracks without restoring; all lengths and schedules", "anchors": ["rust/src/find/find_naive.rs: find", "rust/src/find/find_optim.rs: find, find_q24", "rust/src/find/find_unique.rs: find_aux", "rust/src/find/find_williamson.rs: find"]}
{"id": "C49", "title": "Symmetry-restricted searches only examine sequences with the symmetry", "statement": "Every sequence examined by a search restricted to symmetry type I to IV satisfies the symmetry at every position.", "quantifier": "every even length and every symmetry type", "why_tests_cant": "holds for types I to III but fails for type IV because position zero is never assigned", "anchors": ["rust/src/sequences/sequence.rs: QS::set_value, QS::search_size", "rust/src/find/find_naive.rs: find"]}
{"id": "C50", "title": "Buffered writing loses and repeats nothing", "statement": "The pair file contains the lines of all surviving pairs in order, each exactly once, for any number of pairs relative to the 1000-line buffer; if the process stops at any point the file holds a prefix consisting of whole blocks of 1000 lines.", "quantifier": "every number of pairs and every crash point between writes", "why_tests_cant": "boundary cases at multiples of 1000 and crash points", "anchors": ["rust/src/find/find_write.rs: write_seq_pairs, write_sequences"]}
{"id": "C51", "title": "Pair lines are parsed back to their key and indices", "statement": "Parsing a line written for a pair returns the same key and the same two indices, and different keys are written differently.", "quantifier": "every list of integers (also the empty one) and every two indices", "why_tests_cant": "separator handling including the empty key of length 1", "anchors": ["rust/src/find/find_write.rs: write_seq_pairs, get_line_from"]}
{"id": "C52", "title": "The matching table holds every compatible pair", "statement": "Looking up a key in the matching table returns all filtered pairs with this key.", "quantifier": "every two lists of sequences", "why_tests_cant": "a counterexample exists: the first pair of every key is dropped", "anchors": ["rust/src/sequences/matching.rs: generate_matching_table"]}
{"id": "C53", "title": "Tagged cross-correlation verification", "statement": "For four sequences with the four tags in any order grouped in pairs, equality of the pair keys together with the tagged cross-correlation check holds if and only if the quadruple is a QT sequence.", "quantifier": "every length n >= 1, every quadruple, every ordering of the tags", "why_tests_cant": "sign conventions for 24 orderings", "anchors": ["rust/src/sequences/matching.rs: verify_cross_correlation, MatchData, compute_complementary_auto_correlations, compute_complementary_cross_correlations"]}
{"id": "C54", "title": "Generated solver equations hold for valid completions", "statement": "If two given sequences are completed to a QT sequence, the 0/1 assignment of the completion satisfies every generated cross-correlation equation.", "quantifier": "every QT sequence and every choice of the two given positions", "why_tests_cant": "variable indices and signs over all sequences; a counterexample exists", "anchors": ["rust/src/sequences/equations.rs: generate_equations, equations_crosscorrelation"]}
{"id": "C55", "title": "Command-line names round trip and placeholder files match", "statement": "Sequence type names printed into paths are read back to the same type; the pair files created in advance for a row-sum directory are the same files the pair stage writes.", "quantifier": "all types, all row sums, all pairings", "why_tests_cant": "the placeholder names are computed from a decreasing sort of the row sums; a counterexample exists for every sorted row sum with distinct entries", "anchors": ["rust/src/main.rs: str_to_seqtype", "rust/src/sequences/symmetries.rs: SequenceType::to_string", "rust/src/find/find_write.rs: create_rowsum_dirs, write_pairs_rowsum, get_order_from_dir, get_tag_from_filename"]}
{"id": "C56", "title": "Transforms work for any call history", "statement": "The discrete Fourier transform of a sequence can be computed regardless of which transforms were computed earlier in the process.", "quantifier": "all histories of calls", "why_tests_cant": "the plan is cached globally for the first length seen; any later call with another length fails, which depends on call order across the process", "anchors": ["rust/src/sequences/fourier.rs: dft_sequence, inverse_dft, R2C_PLAN, C2R_PLAN"]}
{"id": "C57", "title": "Single-precision arithmetic is exact on the alphabet", "statement": "Evaluating autocorrelations of sequences over the 24-element alphabet in 32-bit floating point gives the exact value for every length below two million, for any correct rounding, so the equality tests with zero are exact.", "quantifier": "every length below 2^21, every sequence over the alphabet, every rounding that is exact on representable numbers", "why_tests_cant": "depends on magnitude of all intermediate results", "anchors": ["rust/src/sequences/sequence.rs: QS::periodic_autocorrelation, QS::is_perfect", "rust/src/sequences/matrices.rs: QHM::verify"]}
{"id": "C58", "title": "Power-spectrum matching is complete in exact arithmetic", "statement": "With PSD matching and exact arithmetic the keys of the two halves of a valid quadruple agree, no other key in the files is a digit-prefix of that key or conversely, and so the join returns exactly the valid quadruples.", "quantifier": "every length, every valid quadruple, every type ws/wts/qts, every pairing", "why_tests_cant": "real arithmetic, rounding and string order over all sequences", "anchors": ["rust/src/find/find_write.rs: write_seq_pairs, join_pairs_files", "rust/src/sequences/matching.rs: compute_psd_pair, compute_cross_psd_pair"]}
{"id": "C59", "title": "The near-half-integer warning detects all dangerous values", "statement": "A warning is printed whenever some PSD or CPSD value lies within the tolerance of a half-integer.", "quantifier": "all real values", "why_tests_cant": "a counterexample exists: for negative values the fractional part is negative and the distance is computed wrongly", "anchors": ["rust/src/find/find_write.rs: write_seq_pairs"]}
{"id": "C60", "title": "Enumeration with no solutions ends normally", "statement": "If no sequence survives matching, the join stage finishes with an empty result.", "quantifier": "all inputs with empty match set", "why_tests_cant": "a counterexample exists: the reduction indexes the first element of an empty list; lengths with no solution are never run by tests", "anchors": ["rust/src/find/find_unique.rs: reduce_to_canonical_reps", "rust/src/find/find_write.rs: join_pairs"]}
{"id": "C61", "title": "Small helpers: transposition, sorting of row sums, best two row sums", "statement": "The in-place transposition maps index x to -x modulo n; the row-sum sort returns the values in decreasing order together with the permutation that produces them; the two best row sums are the two largest with their positions.", "quantifier": "all non-empty sequences and all integer quadruples", "why_tests_cant": "index arithmetic over all inputs", "anchors": ["rust/src/sequences/sequence.rs: transpose", "rust/src/find/find_write.rs: sort", "rust/src/find/find_with_rowsum.rs: get_two_best, sort"]}
{"id": "C62", "title": "Writing the two pair files in two processes", "statement": "The pair files produced by two runs of the single-pair command for the two halves of a row sum are, together, the pair files produced by the one-process command, up to the order of the files, so the join stage returns the same sequences.", "quantifier": "every row sum, pairing, sequence type and matching option", "why_tests_cant": "the split command is only used in job scripts", "anchors": ["rust/src/find/find_write.rs: write_pairs_rowsum, write_pair_single_rowsum", "rust/src/main.rs: main"]}
{"id": "C63", "title": "Products of measurement sets", "statement": "The product of two complete families of mutually orthogonal projections with coprime lengths is again such a family, of the product length and the product size.", "quantifier": "every two measurement sets with coprime lengths", "why_tests_cant": "tests only print sizes", "anchors": ["rust/src/sequences/product.rs: mum_product", "rust/src/sequences/mum.rs: Operator::tensor"]}
{"id": "C64", "title": "Equivalent sequences give equivalent Hadamard matrices", "statement": "The operations of QT equivalence on a quadruple of +-1 sequences carry the Hadamard matrix built from it to a matrix obtained by permuting and negating rows and columns.", "quantifier": "every length n >= 1 and every two QT-equivalent quadruples of +-1 sequences", "why_tests_cant": "needs an explicit permutation for every length and automorphism", "anchors": ["rust/src/sequences/matrices.rs: HadamardMatrix::from_williamson", "rust/src/sequences/equivalence.rs", "rust/src/main.rs: find_write_quad_seq"]}
{"id": "C65", "title": "From enumeration to inequivalent Hadamard matrices", "statement": "Enumerating the sequences of a type and a length, writing the result file and converting it gives Hadamard matrices, exactly one from every Hadamard equivalence class that contains the matrix of a sequence of the type and length.", "quantifier": "every length up to 31, every pairing, every hash map order, with either way of matching, for each of the types qts, wts and ws", "why_tests_cant": "combines the whole pipeline with the graph reduction", "anchors": ["rust/src/main.rs: find_write_quad_seq, main", "rust/src/sequences/equivalence.rs: hadamard_equivalence_from_file"]}
{"id": "C66", "title": "Result files", "statement": "Writing a list of +-1 quadruples to a result file and reading the file line by line gives the list back.", "quantifier": "every length n >= 1 and every list of quadruples", "why_tests_cant": "all lists and lengths", "anchors": ["rust/src/main.rs: find_write_quad_seq, read_lines", "rust/src/sequences/williamson.rs: QuadSeq::to_qs, from_pqs"]}
{"id": "C67", "title": "Printed matrices determine the matrices", "statement": "Different +-1 matrices have different printed forms, both as a table and in Magma syntax, a file of Magma matrices determines the list, and different quaternionic matrices over the alphabet have different printed forms. Magma printing panics exactly for the empty matrix.", "quantifier": "all sizes and all matrices with entries +-1 or in the alphabet", "why_tests_cant": "needs unique decodability for all sizes", "anchors": ["rust/src/sequences/matrices.rs: HM::to_string, HM::to_string_magma, QHM::to_string"]}
{"id": "C68", "title": "Conversion of result files to quaternionic Hadamard matrices", "statement": "Converting the result file of a list of QT sequences writes in order the normalised circulant quaternionic Hadamard matrices of the sequences, and reports the number of sequences and of matrices with non-commuting entries; it panics exactly on characters outside the alphabet.", "quantifier": "every length and every list of QT sequences; every text for the panic", "why_tests_cant": "all lengths and lists", "anchors": ["rust/src/main.rs: convert_qs_to_matrices", "rust/src/sequences/matrices.rs: QHM::from_pqs, dephase, contains_non_commuting_elements, to_string"]}
{"id": "C69", "title": "Matrices of all equivalent sequences", "statement": "The expanded matrix list contains the normalised quaternionic Hadamard matrix of every sequence equivalent to a sequence of the result file, once per sequence, and nothing else.", "quantifier": "lengths 1..100, qts and wts, every list of sequences of the type, every hash set order", "why_tests_cant": "all classes and orders", "anchors": ["rust/src/main.rs: qhm_write_all", "rust/src/sequences/equivalence.rs: generate_equivalent_quad_seqs"]}
{"id": "C70", "title": "The QTS = WTS check", "statement": "The check of a result file succeeds exactly if every line is a non-empty QT sequence; the amicability assertion never fails after the QT assertion has passed.", "quantifier": "every text", "why_tests_cant": "only checked for enumerated lengths", "anchors": ["rust/src/main.rs: verify_qts_eq_wts"]}
{"id": "C71", "title": "Representatives of row-sum quadruples", "statement": "The representative of a quadruple of row sums is the lexicographically least rearrangement by a permitted permutation: every permutation, but only even ones for quaternion-type quadruples without zero or repeated entry. Two quadruples have the same representative exactly when one is a permitted rearrangement of the other.", "quantifier": "every quadruple of integers, every sequence type", "why_tests_cant": "infinitely many quadruples; the twelve hand-written swap pairs must be exactly the even permutations", "anchors": ["rust/src/sequences/rowsum.rs: swap, better_than, equivalent"]}
{"id": "C72", "title": "Equation files of the solver search", "statement": "After the solver search every generated row sum and every pair of sequences with its two best values has a file with its comment and equations, and there are no other files.", "quantifier": "every length below 2^62", "why_tests_cant": "the collision of two row sums first occurs at length 45, where the number of files is astronomical", "anchors": ["rust/src/find/find_with_rowsum.rs: find, generate_comment, get_two_best"]}
{"id": "C73", "title": "Spectrum filter on single sequences", "statement": "The filter on single sequences keeps exactly the sequences whose power spectrum is at most 4n at every frequency.", "quantifier": "every length and list of sequences, exact arithmetic", "why_tests_cant": "all lengths", "anchors": ["rust/src/sequences/fourier.rs: iter_over_filtered_dft"]}
{"id": "C74", "title": "Correlations are immune to rounding errors", "statement": "If every operation and both transforms have an error of at most e in the usual floating-point error model and e (n+1)^2 <= 1/1000, then the correlations computed by transforms and rounding equal the integer correlations.", "quantifier": "every length, every pair of +-1 sequences, every arithmetic following the error model", "why_tests_cant": "an error analysis over all arithmetics and all sequences", "anchors": ["rust/src/sequences/fourier.rs: dft_sequence, inverse_dft", "rust/src/sequences/matching.rs: compute_auto_correlation_dft, compute_cross_correlations_dft"]}
{"id": "C75", "title": "Power-spectrum keys are immune to rounding errors from some precision on", "statement": "No value from which a power-spectrum key is formed is a half-integer in exact arithmetic, so for every length there is a precision from which on every arithmetic computes the same keys as exact arithmetic.", "quantifier": "every length, every pair of +-1 sequences, every arithmetic following the error model", "why_tests_cant": "an argument about algebraic integers; no finite set of runs shows that a value cannot be halfway", "anchors": ["rust/src/find/find_write.rs: write_seq_pairs", "rust/src/sequences/matching.rs: compute_psd_pair, compute_cross_psd_pair"]}
{"id": "C76", "title": "Power-spectrum filter with rounding errors", "statement": "With small enough rounding errors the filter of the pair stage discards no pair that belongs to a complementary quadruple.", "quantifier": "every length, every complementary quadruple, every arithmetic following the error model", "why_tests_cant": "whether a sum that is exactly 4n is computed slightly too large depends on the platform", "anchors": ["rust/src/sequences/fourier.rs: iter_over_enumerate_filtered_couples_psds"]}
{"id": "C77", "title": "Command line", "statement": "A well-formed command changes only the result directory of its own type and length; an ill-formed command writes nothing and panics unless the command word is unknown. The command pairs on a fresh directory creates exactly the directories and files of the pair stage and no others, and panics exactly when the pair stage does.", "quantifier": "every argument list, every store of result files, every arithmetic, every graph labelling and every iteration order", "why_tests_cant": "all argument lists and all prior contents of the result tree", "anchors": ["rust/src/main.rs: main, str_to_match_option", "rust/src/find/find_write.rs: write_pairs, write_pairs_rowsum"]}
{"id": "C78", "title": "Pair stage in many processes", "statement": "The file rowsums.quad lists the row sums so that each line can be used as arguments. Running one process (or two) per row sum concurrently, in any interleaving of their writes, gives the same directories as the single command pairs, and after sorting the join stage returns the least member of every class exactly once.", "quantifier": "every length, type, pairing and matching option, every interleaving of the writes, every state each process finds", "why_tests_cant": "the number of interleavings is astronomical", "anchors": ["rust/src/main.rs: main (rowsums, pairs_rowsum, pair_single)", "rust/src/find/find_write.rs: write_rowsums, write_pairs_rowsum, write_pair_single_rowsum", "rust/pairs.sh", "rust/sortpairs.sh"]}
{"id": "C79", "title": "The driver from start to end", "statement": "driver.sh run on a type and a length for which sequences exist ends with status 0 and leaves: in result.seq and result.qseq the least member of every equivalence class exactly once, in result.qhm a quaternionic Hadamard matrix for each of them, with -h in result.mat exactly one Hadamard matrix of every class of matrices obtained from the sequences, and nothing changed outside the directory of that type and length.", "quantifier": "every length up to 31, every flag list, every previous content of the result tree that the driver accepts, every listing order, every hash order, every arithmetic within the error bounds", "why_tests_cant": "a run takes hours at the larger lengths and no test can decide completeness of an enumeration", "anchors": ["rust/driver.sh", "rust/sortpairs.sh", "rust/convert_qhm.sh", "rust/src/main.rs: find_write_quad_seq, convert_qs_to_matrices"]}
{"id": "C80", "title": "Exit status of the driver", "statement": "driver.sh ends with status 0 only if every stage succeeded and the result files it announces were written by this run; otherwise it ends with another status and changes nothing.", "quantifier": "every argument pair, every flag list, every store", "why_tests_cant": "all failing inputs of all stages", "anchors": ["rust/driver.sh", "rust/sortpairs.sh"]}
{"id": "C81", "title": "Numbers reported", "statement": "The count printed by countpairs.sh after sorting is the total printed by the pair stage, which is the number of pairs of sequences with the row sums of the pairing whose power spectra stay below 4n; the number of lines of result.seq is the number of equivalence classes; the number of matrices printed by the driver is the number of Hadamard classes that occur.", "quantifier": "every length, pairing, matching option, store and listing order", "why_tests_cant": "relates printed numbers to mathematical cardinalities at all lengths", "anchors": ["rust/countpairs.sh", "rust/driver.sh", "rust/src/find/find_write.rs: write_pairs, write_seq_pairs"]}
{"id": "C82", "title": "Sorting again", "statement": "Running sortpairs.sh a second time, or on directories that hold no pair file yet, does no harm: the join stage afterwards gives the same result.", "quantifier": "every store, every later sequence of writes", "why_tests_cant": "all prior states and all later writes", "anchors": ["rust/sortpairs.sh", "rust/src/find/find_write.rs: get_order_from_dir, join_pairs"]}
{"id": "C83", "title": "Stages one by one", "statement": "Running pairs.sh, sortpairs.sh, join_pairs.sh, convert_hm.sh (if -h was given) and convert_qhm.sh one after the other leaves the same files as driver.sh with the same flags, and pairs.sh refuses to work exactly when driver.sh does.", "quantifier": "every type, length, flag list, store and environment", "why_tests_cant": "equality of two programs on all stores", "anchors": ["rust/driver.sh", "rust/pairs.sh", "rust/sortpairs.sh", "rust/join_pairs.sh", "rust/convert_hm.sh", "rust/convert_qhm.sh"]}
{"id": "C84", "title": "Concurrent and interrupted processes", "statement": "Start without files for a type and a length. Any number of processes of the program may then run at the same time on the same directories with any arguments, read every file at a different moment, see files that are written up to some line, be killed at any moment and be started again; anything may be deleted, and sorting or another program may change the pair files in any way. At every moment result.seq, if present, lists least members of pairwise different classes of sequences of this type and length (result-qts.seq likewise), and result.mat lists pairwise inequivalent Hadamard matrices of such sequences. The driver is one such execution.", "quantifier": "every reachable state of the transition system, every type, length up to 31 and argument list", "why_tests_cant": "unboundedly many interleavings, crashes and restarts", "anchors": ["rust/src/main.rs: main", "rust/src/find/find_write.rs: write_pairs, join_pairs", "rust/driver.sh"]}
{"id": "C85", "title": "Recovery", "statement": "Whatever happened before in the sense of C84, driver.sh with the flag -d gives the complete enumeration of quaternion-type sequences and exits with status 0.", "quantifier": "every reachable state, every length up to 31, every list of further flags", "why_tests_cant": "all histories", "anchors": ["rust/driver.sh", "rust/pair_file_cleanup.sh"]}
{"id": "C86", "title": "Interrupted pair stage", "statement": "If the pair stage was interrupted, joining the files found reports an error or still gives every class.", "quantifier": "every length, every point of interruption", "why_tests_cant": "a kill at a particular moment; completeness quantifies over all sequences", "anchors": ["rust/src/find/find_write.rs: write_pairs, join_pairs", "rust/join_pairs.sh"]}
{"id": "C87", "title": "Equal keys mean exactly the equations of the type", "statement": "The keys written for the two halves of a quadruple of +-1 sequences are equal if and only if the quadruple is complementary and satisfies the cross-correlation condition that the definition of the type has for the two pairs of the pairing (QT: the difference equation, Williamson-type: both pairs amicable, Williamson: nothing).", "quantifier": "every length, every quadruple of +-1 sequences with admissible row sums, every type and pairing, correlation keys and rounded power-spectrum keys", "why_tests_cant": "rounded real values over all sequences; the sign convention of the cross values can only be seen on quadruples that are not of the type, which no test of results looks at", "anchors": ["rust/src/find/find_write.rs: write_seq_pairs", "rust/src/sequences/matching.rs: compute_cross_correlations_dft, compute_cross_psd_pair", "rust/src/sequences/williamson.rs: verify_cross_correlation"]}
{"id": "C88", "title": "Debug assertions", "statement": "If the debug build of the program ends without a panic, the release build writes exactly the same files; the matches found by the join stage have sorted row sums as asserted; a complete run of driver.sh gives the same result in both builds.", "quantifier": "every command line, every store, every arithmetic; complete runs up to length 31", "why_tests_cant": "debug assertions are absent from the release builds that are run for real lengths; the claim is about all inputs of two builds", "anchors": ["rust/src/find/find_write.rs:517", "rust/src/main.rs:99", "rust/src/sequences/matrix_equivalence.rs:82"]}
{"id": "C89", "title": "The table of the results shows the true numbers", "statement": "After a complete run of driver.sh, the row that collect_results.py computes from result.log and result.mat has in the column of QT classes the number of QT-equivalence classes, for Williamson-type sequences in the column of Williamson-type classes their number, with -h in the column of matrices the number of Hadamard-equivalence classes (without -h the count of an older result.mat), in the column of pairs the number of pairs in the sorted files, and in the time columns sums of the times that were printed. Runs for QT and Williamson-type sequences of the same length agree.", "quantifier": "every length up to 31 with a sequence, every list of flags, every store and old log, every sufficiently exact arithmetic, all printed times", "why_tests_cant": "the log consists of hundreds of differently formatted lines that other regular expressions could match; the claim needs that no other line matches, whatever the numbers are, and that the counts are the mathematical numbers of classes", "anchors": ["rust/collect_results.py:9-82", "rust/collect_results.py:145-176", "rust/driver.sh:95-142", "rust/src/find/find_write.rs: join_pairs, write_pairs", "rust/src/main.rs:84-170"]}
{"id": "C90", "title": "What the table leaves out", "statement": "The scripts of the single stages give the same row as the driver. A repeated join stage keeps the first counts but adds its matching time to the column of times again. For Williamson sequences the columns of classes show -1 though sequences were found. In the verbose totals every length without a log counts as -1.", "quantifier": "every length up to 31 with a sequence, every supported type, flags, store, old log and printed times; every list of rows for the totals", "why_tests_cant": "the scripts have no tests; the claim covers every log that the programs can produce", "anchors": ["rust/collect_results.py:52-59", "rust/collect_results.py:145-182", "rust/join_pairs.sh", "rust/pairs.sh", "rust/convert_hm.sh"]}
{"id": "C91", "title": "An explicit precision suffices", "statement": "Let e be the error of one operation in the standard error model, and let 10^6 n e (n+1)^2 <= 1 and 50 e (n+1)^2 (8n+1)^(phi(n)/2-1) <= 1. Then the power-spectrum keys of the pairs of every Williamson-type quadruple of length n are the exact ones, no other key can get between them in the sorted files, the filter keeps every pair of a complementary quadruple whose spectra do not add up to exactly 4n, and at odd prime lengths up to 31 the enumeration and the driver give exactly the least member of every class, with either way of matching. An error of 2e-12 is small enough for all lengths up to 12.", "quantifier": "every length, every arithmetic that satisfies the error model with that error, every pair, type, pairing and option", "why_tests_cant": "a lost quadruple would only show up as a smaller count; the claim covers every arithmetic within the bound and every quadruple of the length", "anchors": ["rust/src/find/find_write.rs: write_seq_pairs", "rust/src/sequences/matching.rs: compute_psd_pair, compute_cross_psd_pair", "rust/src/sequences/fourier.rs"]}
{"id": "C92", "title": "The driver classifies the perfect sequences over the alphabet of the README", "statement": "After a run for QT sequences, the lines of result.seq, read with the table of letters in the README, are perfect sequences of length n over the sixteen quaternions; no two are equivalent, and every perfect sequence over them is equivalent to one of the lines. Equivalence is generated by cyclic shifts, decimations, alternate negations (even n), the maps x -> u x v of quaternions that map letters to letters, and the shift by n/2 of the components along two of the four outer units (even n). It is the same relation as QT equivalence of quadruples. For Williamson-type sequences the same holds of result-qts.seq.", "quantifier": "every length up to 31 with a perfect sequence, every environment with good enough arithmetic and a correct labelling, every starting store and flags; every sequence over the alphabet", "why_tests_cant": "completeness speaks of all perfect sequences and all chains of moves, and about infinitely many pairs of quaternions u, v", "anchors": ["README.md:58-78", "rust/driver.sh", "rust/src/sequences/williamson.rs: to_qs, quad_to_quat", "rust/src/sequences/equivalence.rs: QTS equivalences"]}
{"id": "C93", "title": "Overflow checks change nothing but the lengths where the arithmetic wraps", "statement": "With the overflow checks of a debug build, the correlations, the canonical forms under negations and swaps, the block matrix and the dephasing never panic on entries 1 and -1 and give the results of a release build. The class of a quadruple agrees up to length 100 and panics above. The reduction to representatives agrees up to length 31 and panics on every list above, so a result of a debug build is always right; at length 32 a release build gives every quadruple the same representative as some inequivalent quadruple. Verification of matrices agrees up to size 127, accepts Hadamard matrices without overflow up to size 255, and panics on the matrix of ones from size 128 on.", "quantifier": "every length, every quadruple, list and matrix with entries 1 and -1, each sequence type", "why_tests_cant": "cargo test runs a debug build while the scripts run a release build, so tests do not exercise the wrapping code, and they only see small lengths", "anchors": ["rust/src/sequences/equivalence.rs: negated, alt_negated, generate_equivalence_class, generate_equivalence_class_fast, ns_canonical, sn_ss_canonical", "rust/src/find/find_unique.rs: reduce_to_canonical_reps", "rust/src/sequences/matrices.rs: from_williamson, dephase, dephased, verify", "rust/src/sequences/williamson.rs: periodic_autocorrelation, cross_correlation"]}
{"id": "C94", "title": "The unit tests hold for all inputs, not only for their samples", "statement": "What the unit tests assert on samples holds in general: the recursion started on n entries -1 returns n choose k sequences, and so does the generation for the row sum 2k - n; the representatives of a list do not depend on its order or repetitions; filtering all QT sequences equivalent to a list by row sums loses no class; the class of a QT sequence under any of the sequence operations is closed and all its members verify and give perfect quaternion sequences; and transforming a +-1 sequence, transforming back and rounding returns it.", "quantifier": "every n and k (n < 2^61 for row sums), every list of quadruples up to length 31, every QT sequence up to length 100 and every choice of operations, every arithmetic within the error model", "why_tests_cant": "the tests of the repository evaluate each statement on a handful of sequences, some on files that are not in the repository", "anchors": ["rust/src/tests/test_rowsum.rs: test_generate_sequence, test_rowsum_generate, test_prop_5", "rust/src/tests/test_equivalence.rs: reduce_equiv, equ_*, test_class", "rust/src/tests/test_matching.rs: test_dft_inv"]}
{"id": "C95", "title": "Single precision changes no output", "statement": "Evaluating the quaternion code in binary32, with a rounding after every operation, gives exactly the results of rational arithmetic: the tables, the readers and printers, the assignment of letters with their symmetric copies, the decision of perfection, the printed lines and counts of all exhaustive searches, the quadruples accepted by the join, the conversions to matrices, dephasing, products of sequences and the operators built from matrices. The equality includes the panics.", "quantifier": "every rounding that is exact on binary32 numbers; every length up to 2^23 for sums over a sequence, every text, matrix and list otherwise; every symmetry type", "why_tests_cant": "equality comparisons on floating-point numbers pass on the samples of a test whether or not the sums stay exact; a rounding error would appear only at particular lengths and inputs", "anchors": ["rust/src/sequences/sequence.rs: set_value, is_perfect, quaternion_to_string", "rust/src/sequences/williamson.rs: quad_to_quat, quaternion_to_quad, to_qs", "rust/src/find/find_naive.rs", "rust/src/find/find_optim.rs", "rust/src/find/find_unique.rs", "rust/src/find/find_williamson.rs", "rust/src/find/find_write.rs: join_pairs", "rust/src/main.rs: convert_qs_to_matrices, qhm_write_all", "rust/src/sequences/matrices.rs: dephase, dephased, contains_non_commuting_elements", "rust/src/sequences/product.rs", "rust/src/sequences/mum.rs"]}
{"id": "C96", "title": "Numeric arguments are read and printed as decimal numerals", "statement": "A length or index is read from a text exactly if the text is an optional plus sign followed by decimal digits with a value below 2^64; a pair number likewise below 256; a row sum exactly if it is a numeral with optional sign from -2^63 to 2^63 - 1. Numbers are printed in decimal without leading zeros, and read back whenever they are in range. Every command of the program has the same effect for every spelling of its numbers.", "quantifier": "every text, every number, every store, every list of arguments and every respelling of its numerals", "why_tests_cant": "the tests never parse arguments, and the limits lie at numbers no test uses", "anchors": ["rust/src/main.rs: str_to_usize, str_to_isize, main", "rust/src/find/find_write.rs: get_line_from"]}
{"id": "C97", "title": "A file that ends in the middle of a line is not taken for a complete one", "statement": "If a list of sequences or a result file was cut off anywhere (a partial write goes unnoticed, because the number of bytes written is not looked at), the stage that reads it either panics or finds only sequences of the requested type and length, and matrices of order four times the length.", "quantifier": "every file, every point of the cut, every type and length, any contents of the other files", "why_tests_cant": "the tests neither write nor read result files, and a partial write is never provoked", "anchors": ["rust/src/main.rs: find_write_quad_seq", "rust/src/find/find_write.rs: find, join_pairs, join_pairs_files, file_to_sequences", "rust/src/sequences/matrix_equivalence.rs: hadamard_equivalence_from_file", "rust/src/sequences/williamson.rs: cross_correlation, is_amicable, is_symmetric, to_qs"]}
{"id": "C98", "title": "64-bit arithmetic gives the exact results", "statement": "For every length from 1 to 2^58 the correlations, the keys of the pair files, the verification of a quadruple, the row sums and the sums of four squares are computed on 64-bit words without overflow, in debug and release builds, and equal the exact values. For a row sum given on the command line, any isize, the release build lists exactly the sequences of exact arithmetic, and the debug build panics exactly for the least isize and where size + rowsum is too large.", "quantifier": "every length below 2^58, every sequence, quadruple, offset, tag and type; every isize as a row sum; both kinds of build", "why_tests_cant": "the tests use lengths of at most a few dozen; the words overflow only far beyond any vector that can be allocated, or for extreme arguments", "anchors": ["rust/src/sequences/rowsum.rs: rowsum, generate_sequences_with_rowsum, gen_seq_rec, square_sum, increment_squares, sum_of_four_squares, generate_rowsums", "rust/src/sequences/williamson.rs: periodic_autocorrelation, cross_correlation, is_periodic_complementary, is_amicable, verify_cross_correlation", "rust/src/sequences/matching.rs: compute_auto_correlation_pair, compute_cross_correlations, compute_complementary_auto_correlations, compute_complementary_cross_correlations, verify_cross_correlation"]}
{"id": "C99", "title": "The numbers reported by the search functions of main.rs are right", "statement": "For every positive length the number reported by the search for perfect sequences, by the search for Williamson sequences and by the search for Williamson-type sequences is a sixteenth of the number of all perfect sequences over the 16 letters, Williamson sequences and Williamson-type sequences; the first and the third therefore agree. The searches over ranges of lengths report these numbers for the lengths 1 to 17 and 1 to 14; with a symmetry the search reports the perfect sequences with that symmetry, and nothing for odd lengths with symmetry II or III. contains decides membership among quadruples of the same length.", "quantifier": "every positive length, every schedule of the parallel search, every symmetry but IV, every list of quadruples", "why_tests_cant": "the tests do not run these functions; the number of sequences grows as 16^n and no test could count them otherwise", "anchors": ["rust/src/main.rs: find_pqs, find_pqs_of_type, find_williamson, find_williamson_of_size, find_williamson_type, find_williamson_type_of_size, find_unique_williamson_type_of_size", "rust/src/find/find_unique.rs: equals, contains"]}
{"id": "C100", "title": "The flag -s changes nothing but the place of the temporary files", "statement": "Whatever the environment of the batch job, driver.sh with the flag -s leaves the same files behind as without it, and a run without results does not end with status 0.", "quantifier": "every value of SLURM_TMPDIR, every type, length, list of flags and earlier state of the files, with or without a compiled program", "why_tests_cant": "there are no tests of the scripts; the failure needs an unset variable or one with a blank, and shows only as missing results", "anchors": ["rust/driver.sh: use_slurm", "rust/sortpairs.sh: use_slurm"]}
{"id": "C101", "title": "Double precision is precise enough", "statement": "With IEEE binary64 arithmetic, rounded to nearest with any rule for ties, the rounded correlations of the pair stage are right at every length up to 1000; at the odd prime lengths up to 23 the filter keeps every pair of a solution, and the driver returns the same results as with exact arithmetic.", "quantifier": "every rounding to nearest, every pair of sequences of the given lengths, every earlier state of the files", "why_tests_cant": "rounding errors depend on all bits of all inputs; a pair that is lost leaves no trace in the output", "anchors": ["rust/src/sequences/fourier.rs: dft_sequence, inverse_dft", "rust/src/sequences/matching.rs: compute_auto_correlation_dft, compute_cross_correlations_dft", "rust/src/sequences/fourier.rs: iter_over_enumerate_filtered_couples_psds"]}
{"id": "C102", "title": "The equation files are texts of the solver format", "statement": "Reading an equation file by the rules of the pseudo-Boolean format gives exactly the generated equations; the comment names the unknown sequences in the order of their variables; the variables are x1 to x2n.", "quantifier": "every row sum, every pair of sequences, every file that a run leaves behind", "why_tests_cant": "no test reads the files; signs, spaces and the place of the plus sign vary with the coefficients", "anchors": ["rust/src/sequences/equations.rs: generate_equation_from, generate_equation_autocorrelation, generator_left_minus, additional_comment", "rust/src/find/find_with_rowsum.rs: find"]}
{"id": "C103", "title": "Any fast transform is precise enough", "statement": "Let the transforms be computed by any computation out of additions, subtractions, changes of sign, multiplications by stored constants and fused multiply-adds that would give the transform without rounding. In double precision its error is at most 16 depth gain / 2^53 times the largest input. So correlations are the integer correlations, and at small odd prime lengths the enumeration and the driver give exactly the least member of every class, if depth times gain is moderate.", "quantifier": "every such computation, every rule for ties, every sequence, every length up to 1000 (correlations), odd primes up to 23 (enumeration)", "why_tests_cant": "the transform library chooses its computation at run time by measuring (Flag::MEASURE), so two runs may use different ones", "anchors": ["rust/src/sequences/fourier.rs: dft_sequence, inverse_dft", "rust/src/find/find_write.rs: compute_auto_correlation_pair_dft, compute_cross_correlations_dft"]}
{"id": "C104", "title": "Double precision at twice a prime, and the shortest length at which it fails", "statement": "At length 2p, p a prime with remainder 3 by 4, the spectra of two members of a complementary quadruple stay below 4n by an explicit amount at every frequency but 0, so the filter discards no pair in any sufficiently precise arithmetic. With transforms by direct summation the shortest length at which double precision discards a pair of a complementary quadruple is 8. At lengths 1 to 7 and 11 (and 13, 14, 17, 19, 22, 23 when matching by correlations) enumeration and driver in double precision give exactly the least member of every class.", "quantifier": "every such prime, every complementary quadruple, every arithmetic following the error model; every rule for ties in double precision", "why_tests_cant": "a pair lost by one rounding leaves no trace in the output, and whether a spectrum meets the bound exactly cannot be read off a floating-point number", "anchors": ["rust/src/sequences/fourier.rs: iter_over_enumerate_filtered_couples_psds", "rust/src/find/find_write.rs: find, join_pairs"]}
{"id": "C105", "title": "The fast transform by factors of the length: where double precision suffices, and that it fails at 16", "statement": "With any factors of the length the fast transform computes the transform, with explicit bounds for depth and growth. In double precision the correlations computed with it are the integer ones at all lengths up to 180, and matching is exact at the lengths of C104. At length 16, for every choice of factors and every rule for ties, the filter discards a pair of a Williamson-type quadruple of the published list.", "quantifier": "every length, every list of factors, every rule for ties, every pair of \u00b11 sequences", "why_tests_cant": "the set of factors a library picks depends on the machine, and a pair lost by one rounding leaves no trace in the output", "anchors": ["rust/src/sequences/fourier.rs: iter_over_enumerate_filtered_couples_psds", "rust/src/sequences/matching.rs: compute_auto_correlation_pair_dft, compute_cross_correlations_dft"]}
{"id": "C106", "title": "The printed table is read as the results", "statement": "The plain table and the LaTeX table of collect_results.py have the headings and one line for each length from the first to the last, in order. The cells of a line, read by the columns of the headings, are the numbers collected for that length, rounded correctly where decimals are cut. After the driver the line shows the true numbers of classes, matrices and pairs.", "quantifier": "every range of lengths, every type, every log and every stored tree; in the plain table numbers of at most 15 characters", "why_tests_cant": "a column that is shifted or that runs into its neighbour only shows for certain types, lengths and sizes of the numbers", "anchors": ["rust/collect_results.py: create_table, get_disk_usage"]}
{"id": "C107", "title": "What is listed when the filter discards pairs of solutions", "statement": "Whatever the spectral filter does, as long as the keys are good enough, the enumeration lists without repetition the least members of exactly those classes that have a member with generated row sums both of whose pairs are kept by the filter, and panics if there is none. So do the result files of the driver. In double precision the keys of the correlations are good enough at every length of the program, and at the stated lengths a class can be missing only if the spectra of a pair of every member with generated row sums add up to exactly 4n at some frequency.", "quantifier": "every length up to 31, both types, every pairing, every arithmetic with good keys, however its filter errs", "why_tests_cant": "C76 shows that the filter does discard pairs of solutions; which classes are lost depends on rounding in all members of a class, and a lost class leaves no trace in the output", "anchors": ["rust/src/find/find_write.rs: write_pairs, write_pairs_rowsum, join_pairs", "rust/src/sequences/fourier.rs: iter_over_filtered_couples"]}
{"id": "C108", "title": "When the debug assertions of the equivalence code fire", "statement": "In a debug build, an equivalence operation of the list of its type does as in a release build if its argument is of that type or the operation has no new sequence, and panics otherwise. So generating a class, its least member, all equivalent sequences, or the reduction that compares symbolic with generated classes gives the result of a release build without a panic if all sequences are of the type, and panics if one is not. The exhaustive unique search is as in a release build, and the command qhm-all on a result file is as in a release build or panics in the same way. The operations that assert about their argument instead of their results panic on the same arguments. With the flag symmetry_group nothing is asserted.", "quantifier": "every length up to 100 (31 for the symbolic reduction), every supported type, every quadruple or list of quadruples of that length", "why_tests_cant": "the assertions run on every element of every class reached; two functions assert about the wrong variable, which no passing test can notice", "anchors": ["rust/src/sequences/equivalence.rs: debug_assert!(..verify(seqtype)) in every equivalent_* function, half_shift", "rust/src/find/find_unique.rs: reduce_to_equivalence", "rust/src/main.rs: expansion of Williamson-type results"]}
{"id": "C109", "title": "Reduction to representatives above length 31", "statement": "In a release build the reduction to canonical representatives reads only the first 128 entries of a quadruple of length 32 to 63: quadruples that agree there get the same representative, and from length 33 on every quadruple shares its representative with an inequivalent one. From length 64 to 100 the reduction panics on every list, so the last stage of the search writes no result.", "quantifier": "every length from 32 to 100, every supported type, every quadruple or list of quadruples of that length", "why_tests_cant": "the tests use lengths far below 32, where the labels fit into 8 bits; enumerating quadruples of length 33 is out of reach", "anchors": ["rust/src/sequences/equivalence.rs: generate_symmetry_group, generate_equivalence_class_fast", "rust/src/find/find_unique.rs: reduce_to_canonical_reps", "rust/src/find/find_write.rs: join_pairs"]}
{"id": "C110", "title": "Writes that transfer only a part of the text", "statement": "A command that ends normally has written its files completely, whatever part of each block a single write call transfers. (Violated: write is used instead of write_all and the returned count is dropped. With room for R more bytes a command ends normally exactly if every non-empty block is begun before the room is used up, and then only the last non-empty block can be cut; with a limit per call nothing ever fails.)", "quantifier": "every command line, every state of the results directory, every environment, every amount of room and every limit per call", "why_tests_cant": "short writes depend on the file system and on texts above 2 GiB; tests write small files to a disk with room", "anchors": ["rust/src/find/find_write.rs: write_rowsums, write_sequences, write_seq_pairs", "rust/src/main.rs: find_write_quad_seq, convert_qs_to_matrices, qhm_write_all, main", "rust/src/sequences/matrix_equivalence.rs: hadamard_equivalence_from_file"]}
{"id": "C111", "title": "Running a command or the driver again", "statement": "Running a command a second time changes nothing and ends as the first run did, also when it panics. A command run after one that was killed at any time, with any texts in the files begun, leaves exactly what an undisturbed run leaves. Commands for different types or lengths can be run in any order. The driver with -d, run a second time, changes nothing, and what is found in the directories of row sums has no influence on it; without -d it refuses while such a directory is left.", "quantifier": "every command line, every state of the results directory, every environment, every point at which the first run is killed and every text left in the files it had begun", "why_tests_cant": "the points at which a process can be killed and the texts left behind are unboundedly many; the panicking cases are rarely tried twice", "anchors": ["rust/src/main.rs: main, find_write_quad_seq, convert_qs_to_matrices, qhm_write_all", "rust/src/find/find_write.rs: write_rowsums, write_pairs, write_pairs_rowsum, write_pair_single_rowsum, create_rowsum_dirs", "rust/src/sequences/matrix_equivalence.rs: hadamard_equivalence_from_file", "rust/driver.sh, rust/sortpairs.sh, rust/pair_file_cleanup.sh"]}
{"id": "C112", "title": "Running a command again after a full disk", "statement": "A command run after any number of runs of it on devices that refused blocks or took parts of them, each ended normally or not, leaves exactly the files that it leaves when there were no earlier runs, and ends in the same way.", "quantifier": "every command line, every state of the results directory, every environment, every list of devices (every choice of which call fails and how much of each block is taken)", "why_tests_cant": "the ways in which calls can fail or be cut are unboundedly many, and a run that was cut may end normally", "anchors": ["rust/src/main.rs: main, find_write_quad_seq, convert_qs_to_matrices, qhm_write_all", "rust/src/find/find_write.rs: write_rowsums, write_pairs, write_pairs_rowsum, write_pair_single_rowsum, write_sequences, write_seq_pairs", "rust/src/sequences/matrix_equivalence.rs: hadamard_equivalence_from_file"]}
{"id": "C113", "title": "Running the driver again after it was killed", "statement": "driver.sh with the flag -d, run after any number of runs with the same flags that were killed in some stage, at any write of the command in progress and with any texts in the files begun, leaves exactly what it leaves without those runs, and ends with the same status.", "quantifier": "every type and length, every list of flags with -d, every state of the results directory whose directories for the length are those of row sums, every environment, every sequence of killed runs", "why_tests_cant": "the points at which a run of hours can be killed and the texts left behind are unboundedly many, and results of an earlier stage may be mixed with those of a later one", "anchors": ["rust/driver.sh:39-142", "rust/sortpairs.sh:44-66", "rust/pair_file_cleanup.sh:20-27", "rust/src/main.rs: main, find_write_quad_seq, convert_qs_to_matrices", "rust/src/find/find_write.rs: write_pairs"]}
{"id": "C114", "title": "Running the sorting script again after it was killed", "statement": "sortpairs.sh, run again after it was killed at any point, leaves exactly what an undisturbed run leaves, so that the directories can be joined.", "quantifier": "every type and length, every state of the results directory, every number of directories finished, every number of files sorted in the directory in progress, every text in the sorted file begun", "why_tests_cant": "the result depends on whether a directory was finished when the script was killed, and small tests finish at once", "anchors": ["rust/sortpairs.sh:44-66", "rust/src/find/find_write.rs: get_order_from_dir, join_pairs"]}
{"id": "C115", "title": "The same command in two processes", "statement": "Two processes that run the same command on the same files do the same writes in the same order and end in the same way, whatever the iteration orders of their hash collections; only the matrices in result.mat and qhm_all.mat may be in another order.", "quantifier": "every list of arguments, every state of the results directory, every iteration order of the hash collections of matrices and of quaternion sequences", "why_tests_cant": "the order is drawn at random in every process, and a test sees the orders of a few processes", "anchors": ["rust/src/main.rs: main, convert", "rust/src/find/find_write.rs", "rust/src/sequences/matrices.rs", "rust/src/sequences/equivalence.rs"]}
{"id": "C116", "title": "The order in which directories are listed", "statement": "The join stage gives the same sequences, up to their order, whatever the order in which the file system lists the directories, also when some directories are missing, as long as the sequences matched have entries ±1 and one length; and the command join writes the same files with the lines in another order.", "quantifier": "every list of directories with any contents, every permutation, every type, every length (the files of Williamson-type sequences: lengths up to 31)", "why_tests_cant": "the order belongs to the file system of the machine, and the reduction uses the first sequence of the list", "anchors": ["rust/src/find/find_write.rs:490-549", "rust/src/find/find_unique.rs:189-198", "rust/src/main.rs:92-169"]}

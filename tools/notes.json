{
 "C07": {
  "note": "Quaternion encoding in Props/Sequences, +-1 encoding and files of sequences in Props/FindWrite."
 },
 "C09": {
  "note": "Lengths 1..100; above that the code panics on the COPRIMES table."
 },
 "C10": {
  "note": "Includes the counterexample of length 3 for alternated negation at odd length."
 },
 "C12": {
  "note": "Lengths 1..31 proved equal; at length 32 proved wrong for every quadruple and every operation list (C12_overflow)."
 },
 "C18": {
  "note": "The property is false for the code: C18_reduction_leaves_ws is a proved counterexample at length 3; C18_reduction_partial proves what remains (outputs are Williamson-type).",
  "status": "partial"
 },
 "C20": {
  "note": "The property is false for the code: C20_loses_class proves that every class with two distinct members in the list is lost; C20_setDif_partial characterises the output exactly.",
  "status": "partial"
 },
 "C21": {
  "note": "Includes the combination with the reduction (C21_pipeline), lengths 1..31 there."
 },
 "C22": {
  "note": "Row sums and lengths below 2^62 (isize range), any parity and sign."
 },
 "C24": {
  "note": "has_sorted_rowsums keeps more than the generated list (0<a<b<c=-d): characterised in C24_filter_exact, witness C24_filter_mismatch; nothing is lost."
 },
 "C26": {
  "note": "Keys computed with transforms, for every arithmetic within the stated error bound (Accurate), which exact real arithmetic satisfies (C28_exact_accurate)."
 },
 "C28": {
  "note": "The error bound is the structure Spec.Accurate: inverse transforms within 1/2 of the exact ones; exact arithmetic satisfies it, and C74 derives it from a standard floating-point error model."
 },
 "C29": {
  "note": "The property is false for the code: C29_join_loses_match is a proved counterexample (files sorted by whole lines, merged by key). C29_join_complete_partial proves completeness for keys that are not prefixes of other keys.",
  "status": "partial"
 },
 "C30": {
  "note": "Arbitrary directory contents; the only hypothesis is that the stored sequences have one common length."
 },
 "C31": {
  "note": "Every arithmetic good enough for the matching option (Spec.Numerics: Accurate or SpectrumKeys, and FilterSafe; exact arithmetic is proved to satisfy it, C28_numerics); C31_directory needs fewer than 2^64 sequences per row sum, C31_directory_small proves this for n < 64."
 },
 "C32": {
  "note": "Lengths 1..31 (above, the reduction overflows, see C12). If there is no sequence of the length at all the join panics, see C60. For Williamson sequences only C32_williamson_partial holds."
 },
 "C50": {
  "note": "File::write is taken to write its whole buffer. C50_pairs_once: indices strictly increasing, exactly the pairs passing the filter."
 },
 "C51": {
  "note": "Indices below 2^64 (usize)."
 },
 "C52": {
  "note": "The property is false for the code: C52_first_pair_lost is a proved counterexample; C52_lookup_partial characterises the table exactly (all but the first pair of every key).",
  "status": "partial"
 },
 "C55": {
  "note": "Type names and tags are proved; the placeholder names are wrong for strictly increasing row sums (C55_placeholder_mismatch) and right for decreasing ones (C55_placeholder_partial).",
  "status": "partial"
 },
 "C56": {
  "note": "The property is false for the code: C56_other_length_fails; C56_histories_partial characterises exactly which call histories succeed.",
  "status": "partial"
 },
 "C59": {
  "note": "The property is false for negative values (C59_misses_negative); proved for non-negative values in exact arithmetic.",
  "status": "partial"
 },
 "C60": {
  "note": "The property is false for the code: C60_panics. C60_nonempty_partial: a non-empty match set ends normally.",
  "status": "partial"
 },
 "C34": {
  "note": "Any length; C34_verify_iff links the code's two verifications for 4n <= 255."
 },
 "C36": {
  "note": "Exact for sizes up to 255 with wrapping arithmetic, no wrap at all up to 127, proved wrong at 256 (C36_wraps); C36_verify_mod says what is decided for every matrix."
 },
 "C38": {
  "note": "The property is false for the code: C38_dephased_differs (size 4 Hadamard matrix). C38_dephased_partial characterises the copy exactly and when the two agree.",
  "status": "partial"
 },
 "C39": {
  "note": "Exact rational arithmetic with the code's tolerance test (float exactness is C57)."
 },
 "C58": {
  "note": "For every type. That rounded keys of one directory never are digit-prefixes of the key of a valid quadruple is proved from the transform: two such keys would differ only in the last value, and integer correlations with the same row sums cannot (Proofs/Rigid)."
 },
 "C42": {
  "note": "C42_not_coprime shows the hypothesis is needed. Exact arithmetic (float exactness is C57)."
 },
 "C44": {
  "note": "The property is false for the code: C44_fails, on the dephased matrix of the perfect sequence +YIQ, which a comment of test_product.rs names. C44_operators_partial proves self-adjointness and the projection law for every matrix and that each remaining claim holds exactly when the transposed matrix is quaternionic Hadamard; C44_circulant_partial proves all claims for circulant matrices of perfect sequences.",
  "status": "partial"
 },
 "C45": {
  "note": "The property is false for HMUO::tensor: C45_tensor_size_wrong; C45_sizes_partial proves it for everything else and says when the tensor product is right.",
  "status": "partial"
 },
 "C46": {
  "note": "The external canonical labelling (nauty) is a parameter assumed exact (equal labels iff isomorphic graphs); the hash map iteration order is an arbitrary permutation."
 },
 "C65": {
  "status": "partial",
  "note": "Proved for qts (C65_qts) and wts (C65_wts) under the float hypotheses of C32; false for ws: C65_ws_panics proves that the conversion of the length 3 result panics. Exact canonical labelling assumed as in C46."
 },
 "C48": {
  "note": "Sequential, parallel (every schedule), 24-letter, quadruple, unique and Williamson searches; all lengths n >= 1 (unique search: n <= 100, the COPRIMES table)."
 },
 "C49": {
  "status": "partial",
  "note": "Types I (all lengths), II and III (even lengths): exactly the symmetric perfect sequences. Type IV violates the property: no reported sequence has the symmetry, although the correct answer is empty; 16 are reported at length 4."
 },
 "C54": {
  "status": "partial",
  "note": "Linear equations proved for every QT sequence. Full claim is false: C54_all_iff gives the exact condition under which the completion satisfies all equations, C54_violation a QT sequence whose completion satisfies them for no value of x0, C54_unsound a non-QT solution; C54_sound_partial is soundness under the extra conditions."
 },
 "C61": {
  "note": "The two-best claim assumes entries at least isize::MIN, as they are isize values."
 },
 "C62": {
  "note": "For the three recognised pairings. With an unrecognised pairing argument the two commands differ (C62_unrecognised_pairing)."
 },
 "C57": {
  "note": "Proved up to length 2^23 (matrix verification up to order 2^22) for every rounding that is exact on binary32 numbers; C57_nearest shows that round-to-nearest is one; C57_limit shows that some bound is needed."
 },
 "C72": {
  "status": "partial",
  "note": "The property is false for the code: C72_lost (two row sums with the same two best values share a directory and overwrite each other), first at length 45: C72_lost_45. C72_complete_partial proves it for the other row sums, C72_sound that there are no other files. Exact arithmetic in the filter, which rejects nothing (C73)."
 },
 "C73": {
  "status": "partial",
  "note": "The property is false for the code: the filter compares with the square of the bound and never rejects (C73_never_rejects, C73_fails). C73_keeps_partial: members of complementary quadruples are within the bound and kept."
 },
 "C71": {
  "note": "The function is dead code in the current pipeline (its caller is commented out)."
 },
 "C74": {
  "note": "The error model (Spec.FloatModel) is an assumption about the platform and the FFT library; exact arithmetic, an arithmetic with errors, and double precision with directly summed transforms (C101_model) are proved to satisfy it."
 },
 "C75": {
  "note": "The precision at which all keys are exact exists for every length but is not given explicitly; C91 gives an explicit one at which the keys that matter are exact."
 },
 "C76": {
  "status": "partial",
  "note": "The property is false for the code: the comparison with 4n has no tolerance, and C76_fails gives, for every error e > 0, an arithmetic within e that discards a pair of a Williamson quadruple of length 2. C76_double_fails: in double precision, with directly summed transforms and any rule for ties, a pair of a Williamson-type quadruple of length 8 is discarded. C76_margin_partial: correct outside a margin of 20 e (n+1)^2. C76_gap_partial: from some precision on correct for all pairs whose spectra never add up to exactly 4n. C76_prime_partial, C76_prime_numerics_partial and C76_prime_enumeration_partial: at odd prime lengths the property holds, and the whole enumeration does not depend on rounding."
 },
 "C79": {
  "status": "partial",
  "note": "Proved for QT and Williamson-type sequences: C79_qts and C79_wts for all flags in every arithmetic good enough for the matching option of the flags (exact arithmetic is, C28_numerics); C79_prime at odd prime lengths in every precise enough arithmetic. False for Williamson sequences: with -h the conversion panics and result.mat is not written (C80_ws), and the classes are those of Williamson-type equivalence (C29, C32); C79_williamson_partial says what the files contain then."
 },
 "C80": {
  "status": "partial",
  "note": "The property is false for the scripts: the status of a pipeline is that of tee. C80_status gives the exact condition for status 0, which does not mention the program. C80_wrong_arguments, C80_empty_pairing, C80_ws and C80_unknown_flags are runs that fail with status 0 and leave old results in place. C80_refusal_partial: a status other than 0 is 1 and nothing was changed."
 },
 "C81": {
  "note": "The meaning of the total is proved for quaternion-type sequences in exact arithmetic."
 },
 "C82": {
  "status": "partial",
  "note": "The property is false for the script: an unmatched pattern is used literally and creates the file \"*.pair.sorted\", after which the join stage panics whatever is written later (C82_no_pair_file, C82_again). C82_adds_partial: nothing else changes, so the sorted files and the counts stay."
 },
 "C84": {
  "note": "Reads happen before writes in every process. Two processes writing the same file alternate line prefixes of their own texts; overlapping writes inside one file (holes filled with zero bytes) are not modelled."
 },
 "C86": {
  "status": "partial",
  "note": "The property is false: for length 7 a kill between the two row-sum directories gives a join that ends normally with a class missing (C86_silent_loss). C86_interrupted_partial: exactly the classes of the row sums written are listed."
 },
 "C87": {
  "status": "partial",
  "note": "Holds for Williamson and Williamson-type. For QT the condition in the keys has one sign reversed with respect to the definition (C87_fails, witnesses of length 4): C87_correlation_partial and C87_psd_partial prove what equal keys do mean, and C87_sign that no QT sequence is lost by it, because both conditions together say that the pairs are amicable."
 },
 "C88": {
  "note": "Only debug assertions are modelled, not the overflow checks of debug builds. C88_converse_fails shows why the converse of C88_release needs complete runs."
 },
 "C89": {
  "note": "The column with the disk usage and the layout of the table are not modelled. Times are exact numbers of hundredths. The log of debug builds is included (the assertions print nothing when they hold)."
 },
 "C90": {
  "note": "Statements about what the table does show in the cases where it differs from the true numbers."
 },
 "C91": {
  "note": "The precision decreases fast with the length (C91_numbers gives values). At composite lengths the pairs that touch the bound 4n are left to the hypothesis FilterSafe, see C76_fails. C101 derives the error model from the binary64 format."
 },
 "C92": {
  "note": "Stated over Hamilton quaternions and letters only (Spec/Letters.lean). The lines are those the reader of the program finds in the file. Same hypotheses as C79; C92_prime replaces the one on the arithmetic by the error model at odd prime lengths."
 },
 "C93": {
  "note": "Model.Checked repeats the functions that compute with i8, with panics on overflow. The release build is the model of the other properties. C93_release_merges shows what the missing check costs at length 32, for every quadruple."
 },
 "C94": {
  "note": "The general statements behind the unit tests of the repository that no other property covers. Props/RepoExamples.lean evaluates the concrete assertions of the unit tests in the model (examples and #guard, not proofs)."
 },
 "C95": {
  "note": "Continues C57 (perfection, QHM, verification). Model/Single.lean repeats every function on f32 quaternions and complex numbers with a rounding after each operation. Signed zeros are identified; infinities and NaN do not occur."
 },
 "C96": {
  "note": "The grammar of numerals is Spec/Numeral.lean. The scripts do depend on the spelling of the length: C80_wrong_arguments."
 },
 "C97": {
  "status": "partial",
  "note": "The property is false for the code. C97_convert_violated: of every result file of length n > 1 all but the first letter can be lost, and convert hm (release build) ends normally and writes a matrix of order 4. C97_join_violated, C97_candidate_violated: with the list of the sequences W cut off after one letter of a line, every candidate with this rest passes the test of every type. What holds: C97_read says exactly what is read; C97_convert_partial: everything written is a Hadamard matrix, at most one has another order; C97_convert_accepts: exactly when the cut is not noticed; C97_join_partial: the lists X, Y, Z may be cut anywhere. The join is the one with the panics for sequences of different lengths (Model/Ragged), equal to the other model for equal lengths (C97_join_agrees); what the later steps do with an accepted candidate of length one is not modelled."
 },
 "C98": {
  "status": "proved",
  "note": "For lengths below 2^58 and both builds. The limits are shown: C98_rowsums_limit (for p = 2^62, accepted on the command line, 4 * p overflows; the release build lists (0,0,0,0) as the only row sums), C98_offset_limit (a cross-correlation at an offset beyond the length), C98_verify_empty (size 0: size - 1 underflows). Products of entries are those of C93."
 },
 "C99": {
  "status": "proved",
  "note": "The sixteenth is exact because changing the sign of any of the four sequences keeps each of the three kinds. Symmetry IV is left to C49, where the search is shown to report sequences without the symmetry. C99_equals_prefix shows that equals on different lengths compares with a prefix or panics."
 },
 "C100": {
  "status": "partial",
  "note": "The property is false for the scripts. SLURM_TMPDIR is not quoted after -T: if it is not set, sort takes the pair file for the temporary directory, reads the standard input, succeeds, and the pair file is deleted (C100_deleted); the driver ends with status 0 and no results (C100_lost). With a blank in the variable every sort fails with the same outcome, but nothing is deleted (C100_repair). Without a compiled program the driver also ends with status 0 (C100_unbuilt). C100_same_partial: with a compiled program and one word in the variable nothing changes."
 },
 "C101": {
  "status": "proved",
  "note": "The transforms are computed by direct summation with correctly rounded cosines and sines; the FFT library is not modelled. C101_model: this arithmetic satisfies FloatModel with error 2 (n + 4)^2 / 2^53. C101_numerics covers the odd primes up to 23 for the option of correlations, C101_numerics_psd the primes 3, 5, 7 and 11 for the option of power spectra. At length 8 the filter fails, see C76_double_fails."
 },
 "C102": {
  "status": "partial",
  "note": "The reading back is proved for every file (C102_read, C102_run), with its meaning for a solver (C102_meaning). The last clause is false: from length 2 on every file uses x0, which the format does not have, and the header line of the format is missing (C102_x0). C102_variables_partial: nothing beyond x2n occurs."
 },
 "C103": {
  "status": "proved",
  "note": "C103_direct and codelet3_transforms show that such computations exist. That the library computes this way is an assumption, visible as the hypotheses env.A = libraryFl rd L and Transforms L n D G."
 },
 "C104": {
  "status": "proved",
  "note": "That 8 is the shortest failing length is shown for transforms by direct summation from rounded cosines; C104_library covers other computations at 6, 14 and 22."
 },
 "C105": {
  "status": "proved",
  "note": "C105_fails shows that the failure of C76 in double precision is not an artefact of summing term by term: it occurs at length 16 with every radix. The transform is the textbook recursion with rounded twiddle factors; FFTW may reorder its operations."
 },
 "C106": {
  "status": "proved",
  "note": "Headings and cells of the plain table stand below each other for lengths below 100. The LaTeX table has no bound. What is collected is the subject of C89 and C90."
 },
 "C107": {
  "status": "proved",
  "note": "Replaces the hypothesis FilterSafe of C32 and C79, which C76 and C105 show to fail, by a description of what is found without it. Lengths for C107_double_touching: 1 to 12, 14, 15, 16, 18, 20, 24, 30; for C107_fast_touching: 1 to 10, 12, 14, 15, 16, 18."
 },
 "C108": {
  "status": "proved",
  "note": "C108_fires shows two assertions that fire on valid sequences: the unguarded alternated negation at odd length, which no list contains, and the uniform shift for Williamson sequences, which the list of reduce_to_canonical_reps contains (C18) but calls with the flag that suppresses it. So a debug build does not notice C18."
 },
 "C109": {
  "status": "proved",
  "note": "Completes C17 (right up to length 31), C93_release_merges (length 32) and C93_reduce_panics (debug build, from 32 on). Lengths above 100 panic at the table of the automorphisms (C93_class_panics)."
 },
 "C110": {
  "status": "partial",
  "note": "Violated (C110_violated: rowsums qts 7 with room for 8 bytes ends normally with one of two row sums). C110_complete_partial: blocks taken as a whole give the files of the model without calls. C110_room, C110_room_files, C110_limit: exactly when a command ends normally and what is cut, for every command; C110_convert_hm, C110_convert_qhm, C110_qhm_all, C110_rowsums, C110_join, C110_join_wts, C110_sequences, C110_pairs: the files."
 },
 "C111": {
  "status": "proved",
  "note": "C111_again: for every command line and state, a second run changes nothing. C111_killed: the same after a run killed at any write, with any texts in the files begun. C111_commute: commands for different types or lengths. The environment (order of directory listings and of hash sets, floating point) is the same in both runs; the sorting of the drivers between commands is not part of a command. C111_driver: driver.sh -d twice, for directories that hold only directories of row sums (an example shows that a foreign directory breaks it). C111_driver_leftovers: contents of the row-sum directories have no influence. C111_driver_refuses: without -d."
 },
 "C112": {
  "status": "proved",
  "note": "C112_killed: what a device leaves of a run is what a process killed at some write may leave, so C111_killed applies. C112_attempts: any number of failed or cut runs, then a run that is not disturbed. C112_last: the last run made call by call on a device that takes every block. Only the same command is run again: commands that already used cut files have to be run again too. Creating files and directories never fails in the model."
 },
 "C113": {
  "status": "proved",
  "note": "The killed runs are described by Spec.Interrupted: the commands before have ended, the command in progress was killed at some write (Killed), and a killed sortpairs.sh leaves any files in the directories. A run killed while it removes the directories is covered by C111_driver_leftovers. The script and the command it waits for are killed together. The environment is the same in all runs."
 },
 "C114": {
  "status": "partial",
  "note": "C114_again_violated: if a directory was finished when the script was killed, the second run adds the file *.pair.sorted to it and join panics. C114_again_partial: if none was finished, the second run leaves what an undisturbed run leaves. C114_dirs_partial: in general exactly the finished directories differ, by that one file. The remedy is driver.sh or pairs.sh with the flag -d."
 },
 "C115": {
  "status": "proved",
  "note": "C115_writes: every command, writes and result. C115_read: every other file and every directory afterwards. C115_same: commands other than convert hm and qhm-all leave the same store, byte for byte. C115_driver: the whole driver, with any flags. The orders are permutations chosen by the environment; the other hash collections of the program are modelled by their contents (see DESIGN.md)."
 },
 "C116": {
  "status": "proved",
  "note": "C116_join: the list of sequences, for arbitrary directories. C116_program: the writes and the result of the command join, for the types reduced once, in both builds; C116_program_wts: the same for Williamson-type sequences, lengths up to 31. C116_pairs: the condition on lengths and entries holds for any choice of the directories of the pair stage, lengths below 64. The order of the files within a directory is the subject of C33."
 }
}
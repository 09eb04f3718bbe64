{
 "claims": [
  {
   "property": "C01",
   "status": "proved",
   "theorems": [
    "Props.C01_isPerfect_iff",
    "Props.C01_isPerfect_empty"
   ],
   "note": ""
  },
  {
   "property": "C02",
   "status": "proved",
   "theorems": [
    "Props.C02_isOddPerfect_iff"
   ],
   "note": ""
  },
  {
   "property": "C03",
   "status": "proved",
   "theorems": [
    "Props.C03_verifyQts_iff_isPerfect",
    "Props.C03_isQTS_iff_perfect"
   ],
   "note": ""
  },
  {
   "property": "C04",
   "status": "proved",
   "theorems": [
    "Props.C04_qtCross_iff_amicable",
    "Props.C04_verify_qts_eq_wts",
    "Props.C04_isQTS_iff_isWTS"
   ],
   "note": ""
  },
  {
   "property": "C05",
   "status": "proved",
   "theorems": [
    "Props.C05_ws_is_wts"
   ],
   "note": ""
  },
  {
   "property": "C06",
   "status": "proved",
   "theorems": [
    "Props.C06_quad_roundtrip",
    "Props.C06_qs_roundtrip",
    "Props.C06_fromPqs_panics",
    "Props.C06_toQs_panics"
   ],
   "note": ""
  },
  {
   "property": "C07",
   "status": "proved",
   "theorems": [
    "Props.C07_pm_print_read",
    "Props.C07_pm_read_print",
    "Props.C07_pm_read_panics",
    "Props.C07_pm_print_panics",
    "Props.C07_file_roundtrip",
    "Props.C07_print_read",
    "Props.C07_read_print",
    "Props.C07_read_panics",
    "Props.C07_print_panics"
   ],
   "note": "Quaternion encoding in Props/Sequences, +-1 encoding and files of sequences in Props/FindWrite."
  },
  {
   "property": "C08",
   "status": "proved",
   "theorems": [
    "Props.C08_verify_qts",
    "Props.C08_verify_wts",
    "Props.C08_verify_ws"
   ],
   "note": ""
  },
  {
   "property": "C09",
   "status": "proved",
   "theorems": [
    "Props.C09_qts",
    "Props.C09_wts",
    "Props.C09_ws"
   ],
   "note": "Lengths 1..100; above that the code panics on the COPRIMES table."
  },
  {
   "property": "C10",
   "status": "proved",
   "theorems": [
    "Props.C10_auxiliary",
    "Props.C10_alternated_even",
    "Props.C10_alternated_odd_fails"
   ],
   "note": "Includes the counterexample of length 3 for alternated negation at odd length."
  },
  {
   "property": "C11",
   "status": "proved",
   "theorems": [
    "Props.C11_class_reach",
    "Props.C11_class_eq",
    "Props.C11_equivalentTo",
    "Props.C11_equivalence",
    "Props.C11_partition"
   ],
   "note": ""
  },
  {
   "property": "C12",
   "status": "proved",
   "theorems": [
    "Props.C12_fast_eq",
    "Props.C12_lists",
    "Props.C12_overflow"
   ],
   "note": "Lengths 1..31 proved equal; at length 32 proved wrong for every quadruple and every operation list (C12_overflow)."
  },
  {
   "property": "C13",
   "status": "proved",
   "theorems": [
    "Props.C13_lexicographic",
    "Props.C13_strict_total",
    "Props.C13_minimum_order_independent",
    "Props.C13_representative"
   ],
   "note": ""
  },
  {
   "property": "C14",
   "status": "proved",
   "theorems": [
    "Props.C14_ns_canonical",
    "Props.C14_ns_complete",
    "Props.C14_orbit_is_operation"
   ],
   "note": ""
  },
  {
   "property": "C15",
   "status": "proved",
   "theorems": [
    "Props.C15_sn_canonical",
    "Props.C15_sn_complete",
    "Props.C15_orbit_is_operations"
   ],
   "note": ""
  },
  {
   "property": "C16",
   "status": "proved",
   "theorems": [
    "Props.C16_qts",
    "Props.C16_wts",
    "Props.C16_complete",
    "Props.C16_agrees",
    "Props.C16_rep_is_ns_canonical"
   ],
   "note": ""
  },
  {
   "property": "C17",
   "status": "proved",
   "theorems": [
    "Props.C17_reduce",
    "Props.C17_equiv",
    "Props.C17_empty"
   ],
   "note": ""
  },
  {
   "property": "C18",
   "status": "partial",
   "theorems": [
    "Props.C18_reduction_leaves_ws",
    "Props.C18_reduction_partial"
   ],
   "note": "The property is false for the code: C18_reduction_leaves_ws is a proved counterexample at length 3; C18_reduction_partial proves what remains (outputs are Williamson-type)."
  },
  {
   "property": "C19",
   "status": "proved",
   "theorems": [
    "Props.C19_reductions",
    "Props.C19_one_per_class"
   ],
   "note": ""
  },
  {
   "property": "C20",
   "status": "partial",
   "theorems": [
    "Props.C20_loses_class",
    "Props.C20_counterexample",
    "Props.C20_setDif_partial"
   ],
   "note": "The property is false for the code: C20_loses_class proves that every class with two distinct members in the list is lost; C20_setDif_partial characterises the output exactly."
  },
  {
   "property": "C21",
   "status": "proved",
   "theorems": [
    "Props.C21_expansion",
    "Props.C21_sound",
    "Props.C21_pipeline"
   ],
   "note": "Includes the combination with the reduction (C21_pipeline), lengths 1..31 there."
  },
  {
   "property": "C22",
   "status": "proved",
   "theorems": [
    "Props.C22_generate",
    "Props.C22_impossible",
    "Props.C22_rowsum"
   ],
   "note": "Row sums and lengths below 2^62 (isize range), any parity and sign."
  },
  {
   "property": "C23",
   "status": "proved",
   "theorems": [
    "Props.C23_four_squares",
    "Props.C23_sorted"
   ],
   "note": ""
  },
  {
   "property": "C24",
   "status": "proved",
   "theorems": [
    "Props.C24_rowsums_exact",
    "Props.C24_complete_qts",
    "Props.C24_complete_wts",
    "Props.C24_complete_ws",
    "Props.C24_filter_exact",
    "Props.C24_filter_complete",
    "Props.C24_filter_mismatch"
   ],
   "note": "has_sorted_rowsums keeps more than the generated list (0<a<b<c=-d): characterised in C24_filter_exact, witness C24_filter_mismatch; nothing is lost."
  },
  {
   "property": "C25",
   "status": "proved",
   "theorems": [
    "Props.C25_sum_of_squares",
    "Props.C25_parity",
    "Props.C25_checked"
   ],
   "note": ""
  },
  {
   "property": "C26",
   "status": "proved",
   "theorems": [
    "Props.C26_keys_agree",
    "Props.C26_keys_sound"
   ],
   "note": "Keys computed with transforms, for every arithmetic within the stated error bound (Accurate), which exact real arithmetic satisfies (C28_exact_accurate)."
  },
  {
   "property": "C27",
   "status": "proved",
   "theorems": [
    "Props.C27_psd_sum",
    "Props.C27_filter_psds",
    "Props.C27_filter_couples"
   ],
   "note": ""
  },
  {
   "property": "C28",
   "status": "proved",
   "theorems": [
    "Props.C28_numerics",
    "Props.C28_exact_accurate",
    "Props.C28_exact_transform",
    "Props.C28_auto",
    "Props.C28_auto_pair",
    "Props.C28_cross"
   ],
   "note": "The error bound is the structure Spec.Accurate: inverse transforms within 1/2 of the exact ones; exact arithmetic satisfies it, and C74 derives it from a standard floating-point error model."
  },
  {
   "property": "C29",
   "status": "partial",
   "theorems": [
    "Props.C29_join_loses_match",
    "Props.C29_join_complete_partial"
   ],
   "note": "The property is false for the code: C29_join_loses_match is a proved counterexample (files sorted by whole lines, merged by key). C29_join_complete_partial proves completeness for keys that are not prefixes of other keys."
  },
  {
   "property": "C30",
   "status": "proved",
   "theorems": [
    "Props.C30_join_sound"
   ],
   "note": "Arbitrary directory contents; the only hypothesis is that the stored sequences have one common length."
  },
  {
   "property": "C31",
   "status": "proved",
   "theorems": [
    "Props.C31_directory",
    "Props.C31_directory_small"
   ],
   "note": "Every arithmetic good enough for the matching option (Spec.Numerics: Accurate or SpectrumKeys, and FilterSafe; exact arithmetic is proved to satisfy it, C28_numerics); C31_directory needs fewer than 2^64 sequences per row sum, C31_directory_small proves this for n < 64."
  },
  {
   "property": "C32",
   "status": "proved",
   "theorems": [
    "Props.C32_enumeration",
    "Props.C32_up_to_qt",
    "Props.C32_williamson_partial"
   ],
   "note": "Lengths 1..31 (above, the reduction overflows, see C12). If there is no sequence of the length at all the join panics, see C60. For Williamson sequences only C32_williamson_partial holds."
  },
  {
   "property": "C33",
   "status": "proved",
   "theorems": [
    "Props.C33_same_result",
    "Props.C33_same_matches"
   ],
   "note": ""
  },
  {
   "property": "C34",
   "status": "proved",
   "theorems": [
    "Props.C34_hadamard_iff_qts",
    "Props.C34_verify_iff",
    "Props.C34_other_types_panic"
   ],
   "note": "Any length; C34_verify_iff links the code's two verifications for 4n <= 255."
  },
  {
   "property": "C35",
   "status": "proved",
   "theorems": [
    "Props.C35_getQts_fromWilliamson",
    "Props.C35_injective"
   ],
   "note": ""
  },
  {
   "property": "C36",
   "status": "proved",
   "theorems": [
    "Props.C36_verify_iff",
    "Props.C36_no_wrap",
    "Props.C36_verify_mod",
    "Props.C36_wraps"
   ],
   "note": "Exact for sizes up to 255 with wrapping arithmetic, no wrap at all up to 127, proved wrong at 256 (C36_wraps); C36_verify_mod says what is decided for every matrix."
  },
  {
   "property": "C37",
   "status": "proved",
   "theorems": [
    "Props.C37_dephase"
   ],
   "note": ""
  },
  {
   "property": "C38",
   "status": "partial",
   "theorems": [
    "Props.C38_dephased_differs",
    "Props.C38_dephased_partial"
   ],
   "note": "The property is false for the code: C38_dephased_differs (size 4 Hadamard matrix). C38_dephased_partial characterises the copy exactly and when the two agree."
  },
  {
   "property": "C39",
   "status": "proved",
   "theorems": [
    "Props.C39_fromPqs",
    "Props.C39_verify_iff",
    "Props.C39_quad"
   ],
   "note": "Exact rational arithmetic with the code's tolerance test (float exactness is C57)."
  },
  {
   "property": "C40",
   "status": "proved",
   "theorems": [
    "Props.C40_dephase",
    "Props.C40_dephase_entries"
   ],
   "note": ""
  },
  {
   "property": "C41",
   "status": "proved",
   "theorems": [
    "Props.C41_containsNonCommuting_iff"
   ],
   "note": ""
  },
  {
   "property": "C42",
   "status": "proved",
   "theorems": [
    "Props.C42_product_perfect",
    "Props.C42_product_entries",
    "Props.C42_not_coprime"
   ],
   "note": "C42_not_coprime shows the hypothesis is needed. Exact arithmetic (float exactness is C57)."
  },
  {
   "property": "C43",
   "status": "proved",
   "theorems": [
    "Props.C43_representation",
    "Props.C43_entries",
    "Props.C43_conjugateTranspose"
   ],
   "note": ""
  },
  {
   "property": "C44",
   "status": "partial",
   "theorems": [
    "Props.C44_operators_partial",
    "Props.C44_circulant_partial",
    "Props.C44_fails"
   ],
   "note": "The property is false for the code: C44_fails, on the dephased matrix of the perfect sequence +YIQ, which a comment of test_product.rs names. C44_operators_partial proves self-adjointness and the projection law for every matrix and that each remaining claim holds exactly when the transposed matrix is quaternionic Hadamard; C44_circulant_partial proves all claims for circulant matrices of perfect sequences."
  },
  {
   "property": "C45",
   "status": "partial",
   "theorems": [
    "Props.C45_tensor_size_wrong",
    "Props.C45_sizes_partial"
   ],
   "note": "The property is false for HMUO::tensor: C45_tensor_size_wrong; C45_sizes_partial proves it for everything else and says when the tensor product is right."
  },
  {
   "property": "C46",
   "status": "proved",
   "theorems": [
    "Props.C46_graph_iff",
    "Props.C46_are_isomorphic",
    "Props.C46_reduce",
    "Props.C46_from_file",
    "Props.C46_succeeds"
   ],
   "note": "The external canonical labelling (nauty) is a parameter assumed exact (equal labels iff isomorphic graphs); the hash map iteration order is an arbitrary permutation."
  },
  {
   "property": "C47",
   "status": "proved",
   "theorems": [
    "Props.C47_coprime_iff",
    "Props.C47_table"
   ],
   "note": ""
  },
  {
   "property": "C48",
   "status": "proved",
   "theorems": [
    "Props.C48_naive",
    "Props.C48_parallel",
    "Props.C48_parallel_q24",
    "Props.C48_agree",
    "Props.C48_quadruples",
    "Props.C48_unique",
    "Props.C48_williamson"
   ],
   "note": "Sequential, parallel (every schedule), 24-letter, quadruple, unique and Williamson searches; all lengths n >= 1 (unique search: n <= 100, the COPRIMES table)."
  },
  {
   "property": "C49",
   "status": "partial",
   "theorems": [
    "Props.C49_naive_partial",
    "Props.C49_parallel_partial",
    "Props.C49_type_IV",
    "Props.C49_type_IV_never",
    "Props.C49_no_perfect_IV",
    "Props.C49_type_IV_witness"
   ],
   "note": "Types I (all lengths), II and III (even lengths): exactly the symmetric perfect sequences. Type IV violates the property: no reported sequence has the symmetry, although the correct answer is empty; 16 are reported at length 4."
  },
  {
   "property": "C50",
   "status": "proved",
   "theorems": [
    "Props.C50_contents",
    "Props.C50_prefix",
    "Props.C50_pairs_once"
   ],
   "note": "File::write is taken to write its whole buffer. C50_pairs_once: indices strictly increasing, exactly the pairs passing the filter."
  },
  {
   "property": "C51",
   "status": "proved",
   "theorems": [
    "Props.C51_line_roundtrip",
    "Props.C51_keys_injective"
   ],
   "note": "Indices below 2^64 (usize)."
  },
  {
   "property": "C52",
   "status": "partial",
   "theorems": [
    "Props.C52_lookup_partial",
    "Props.C52_first_pair_lost"
   ],
   "note": "The property is false for the code: C52_first_pair_lost is a proved counterexample; C52_lookup_partial characterises the table exactly (all but the first pair of every key)."
  },
  {
   "property": "C53",
   "status": "proved",
   "theorems": [
    "Props.C53_tagged"
   ],
   "note": ""
  },
  {
   "property": "C54",
   "status": "partial",
   "theorems": [
    "Props.C54_defined",
    "Props.C54_linear_partial",
    "Props.C54_all_iff",
    "Props.C54_sound_partial",
    "Props.C54_violation",
    "Props.C54_unsound",
    "Props.C54_search_tags"
   ],
   "note": "Linear equations proved for every QT sequence. Full claim is false: C54_all_iff gives the exact condition under which the completion satisfies all equations, C54_violation a QT sequence whose completion satisfies them for no value of x0, C54_unsound a non-QT solution; C54_sound_partial is soundness under the extra conditions."
  },
  {
   "property": "C55",
   "status": "partial",
   "theorems": [
    "Props.C55_seqtype_roundtrip",
    "Props.C55_tags_roundtrip",
    "Props.C55_placeholder_mismatch",
    "Props.C55_placeholder_partial"
   ],
   "note": "Type names and tags are proved; the placeholder names are wrong for strictly increasing row sums (C55_placeholder_mismatch) and right for decreasing ones (C55_placeholder_partial)."
  },
  {
   "property": "C56",
   "status": "partial",
   "theorems": [
    "Props.C56_other_length_fails",
    "Props.C56_histories_partial"
   ],
   "note": "The property is false for the code: C56_other_length_fails; C56_histories_partial characterises exactly which call histories succeed."
  },
  {
   "property": "C57",
   "status": "proved",
   "theorems": [
    "Props.C57_nearest",
    "Props.C57_table",
    "Props.C57_autocorrelation",
    "Props.C57_odd_autocorrelation",
    "Props.C57_perfect",
    "Props.C57_verify",
    "Props.C57_limit"
   ],
   "note": "Proved up to length 2^23 (matrix verification up to order 2^22) for every rounding that is exact on binary32 numbers; C57_nearest shows that round-to-nearest is one; C57_limit shows that some bound is needed."
  },
  {
   "property": "C58",
   "status": "proved",
   "theorems": [
    "Props.C58_keys_agree",
    "Props.C58_isolated",
    "Props.C58_complete",
    "Props.C58_enumeration"
   ],
   "note": "For every type. That rounded keys of one directory never are digit-prefixes of the key of a valid quadruple is proved from the transform: two such keys would differ only in the last value, and integer correlations with the same row sums cannot (Proofs/Rigid)."
  },
  {
   "property": "C59",
   "status": "partial",
   "theorems": [
    "Props.C59_misses_negative",
    "Props.C59_warning_partial"
   ],
   "note": "The property is false for negative values (C59_misses_negative); proved for non-negative values in exact arithmetic."
  },
  {
   "property": "C60",
   "status": "partial",
   "theorems": [
    "Props.C60_panics",
    "Props.C60_nonempty_partial"
   ],
   "note": "The property is false for the code: C60_panics. C60_nonempty_partial: a non-empty match set ends normally."
  },
  {
   "property": "C61",
   "status": "proved",
   "theorems": [
    "Props.C61_transpose",
    "Props.C61_transpose_cyclic",
    "Props.C61_sort",
    "Props.C61_two_best"
   ],
   "note": "The two-best claim assumes entries at least isize::MIN, as they are isize values."
  },
  {
   "property": "C62",
   "status": "proved",
   "theorems": [
    "Props.C62_rowsum",
    "Props.C62_distinct_files",
    "Props.C62_split",
    "Props.C62_enumeration",
    "Props.C62_unrecognised_pairing"
   ],
   "note": "For the three recognised pairings. With an unrecognised pairing argument the two commands differ (C62_unrecognised_pairing)."
  },
  {
   "property": "C63",
   "status": "proved",
   "theorems": [
    "Props.C63_mum_product",
    "Props.C63_circulant"
   ],
   "note": ""
  },
  {
   "property": "C64",
   "status": "proved",
   "theorems": [
    "Props.C64_qt_implies_hadamard"
   ],
   "note": ""
  },
  {
   "property": "C65",
   "status": "partial",
   "theorems": [
    "Props.C65_convert_list",
    "Props.C65_qts",
    "Props.C65_wts",
    "Props.C65_ws_panics"
   ],
   "note": "Proved for qts (C65_qts) and wts (C65_wts) under the float hypotheses of C32; false for ws: C65_ws_panics proves that the conversion of the length 3 result panics. Exact canonical labelling assumed as in C46."
  },
  {
   "property": "C66",
   "status": "proved",
   "theorems": [
    "Props.C66_result_file"
   ],
   "note": ""
  },
  {
   "property": "C67",
   "status": "proved",
   "theorems": [
    "Props.C67_hm",
    "Props.C67_magma_panics",
    "Props.C67_magma",
    "Props.C67_magma_file",
    "Props.C67_qhm"
   ],
   "note": ""
  },
  {
   "property": "C68",
   "status": "proved",
   "theorems": [
    "Props.C68_convert",
    "Props.C68_panics"
   ],
   "note": ""
  },
  {
   "property": "C69",
   "status": "proved",
   "theorems": [
    "Props.C69_write_all"
   ],
   "note": ""
  },
  {
   "property": "C70",
   "status": "proved",
   "theorems": [
    "Props.C70_check_iff",
    "Props.C70_result_file"
   ],
   "note": ""
  },
  {
   "property": "C71",
   "status": "proved",
   "theorems": [
    "Props.C71_representative",
    "Props.C71_classes"
   ],
   "note": "The function is dead code in the current pipeline (its caller is commented out)."
  },
  {
   "property": "C72",
   "status": "partial",
   "theorems": [
    "Props.C72_sound",
    "Props.C72_complete_partial",
    "Props.C72_lost",
    "Props.C72_lost_45"
   ],
   "note": "The property is false for the code: C72_lost (two row sums with the same two best values share a directory and overwrite each other), first at length 45: C72_lost_45. C72_complete_partial proves it for the other row sums, C72_sound that there are no other files. Exact arithmetic in the filter, which rejects nothing (C73)."
  },
  {
   "property": "C73",
   "status": "partial",
   "theorems": [
    "Props.C73_never_rejects",
    "Props.C73_fails",
    "Props.C73_keeps_partial"
   ],
   "note": "The property is false for the code: the filter compares with the square of the bound and never rejects (C73_never_rejects, C73_fails). C73_keeps_partial: members of complementary quadruples are within the bound and kept."
  },
  {
   "property": "C74",
   "status": "proved",
   "theorems": [
    "Props.C74_accurate",
    "Props.C74_correlations"
   ],
   "note": "The error model (Spec.FloatModel) is an assumption about the platform and the FFT library; exact arithmetic, an arithmetic with errors, and double precision with directly summed transforms (C101_model) are proved to satisfy it."
  },
  {
   "property": "C75",
   "status": "proved",
   "theorems": [
    "Props.C75_never_half",
    "Props.C75_keys",
    "Props.C75_numerics"
   ],
   "note": "The precision at which all keys are exact exists for every length but is not given explicitly; C91 gives an explicit one at which the keys that matter are exact."
  },
  {
   "property": "C76",
   "status": "partial",
   "theorems": [
    "Props.C76_double_fails",
    "Props.C76_margin_partial",
    "Props.C76_fails",
    "Props.C76_gap_partial",
    "Props.C76_prime_partial",
    "Props.C76_prime_numerics_partial",
    "Props.C76_prime_enumeration_partial"
   ],
   "note": "The property is false for the code: the comparison with 4n has no tolerance, and C76_fails gives, for every error e > 0, an arithmetic within e that discards a pair of a Williamson quadruple of length 2. C76_double_fails: in double precision, with directly summed transforms and any rule for ties, a pair of a Williamson-type quadruple of length 8 is discarded. C76_margin_partial: correct outside a margin of 20 e (n+1)^2. C76_gap_partial: from some precision on correct for all pairs whose spectra never add up to exactly 4n. C76_prime_partial, C76_prime_numerics_partial and C76_prime_enumeration_partial: at odd prime lengths the property holds, and the whole enumeration does not depend on rounding."
  },
  {
   "property": "C77",
   "status": "proved",
   "theorems": [
    "Props.C77_frame",
    "Props.C77_ill_formed",
    "Props.C77_no_folder",
    "Props.C77_pairs",
    "Props.C77_pairs_panics"
   ],
   "note": ""
  },
  {
   "property": "C78",
   "status": "proved",
   "theorems": [
    "Props.C78_rowsums_file",
    "Props.C78_rowsum_jobs",
    "Props.C78_single_jobs",
    "Props.C78_listing",
    "Props.C78_enumeration"
   ],
   "note": ""
  },
  {
   "property": "C79",
   "status": "partial",
   "theorems": [
    "Props.C79_qts",
    "Props.C79_prime",
    "Props.C79_wts",
    "Props.C79_williamson_partial"
   ],
   "note": "Proved for QT and Williamson-type sequences: C79_qts and C79_wts for all flags in every arithmetic good enough for the matching option of the flags (exact arithmetic is, C28_numerics); C79_prime at odd prime lengths in every precise enough arithmetic. False for Williamson sequences: with -h the conversion panics and result.mat is not written (C80_ws), and the classes are those of Williamson-type equivalence (C29, C32); C79_williamson_partial says what the files contain then."
  },
  {
   "property": "C80",
   "status": "partial",
   "theorems": [
    "Props.C80_status",
    "Props.C80_wrong_arguments",
    "Props.C80_empty_pairing",
    "Props.C80_ws",
    "Props.C80_unknown_flags",
    "Props.C80_refusal_partial"
   ],
   "note": "The property is false for the scripts: the status of a pipeline is that of tee. C80_status gives the exact condition for status 0, which does not mention the program. C80_wrong_arguments, C80_empty_pairing, C80_ws and C80_unknown_flags are runs that fail with status 0 and leave old results in place. C80_refusal_partial: a status other than 0 is 1 and nothing was changed."
  },
  {
   "property": "C81",
   "status": "proved",
   "theorems": [
    "Props.C81_countpairs",
    "Props.C81_total",
    "Props.C81_matrices",
    "Props.C81_sequences"
   ],
   "note": "The meaning of the total is proved for quaternion-type sequences in exact arithmetic."
  },
  {
   "property": "C82",
   "status": "partial",
   "theorems": [
    "Props.C82_no_pair_file",
    "Props.C82_again",
    "Props.C82_adds_partial"
   ],
   "note": "The property is false for the script: an unmatched pattern is used literally and creates the file \"*.pair.sorted\", after which the join stage panics whatever is written later (C82_no_pair_file, C82_again). C82_adds_partial: nothing else changes, so the sorted files and the counts stay."
  },
  {
   "property": "C83",
   "status": "proved",
   "theorems": [
    "Props.C83_stages",
    "Props.C83_no_folder",
    "Props.C83_refusal"
   ],
   "note": ""
  },
  {
   "property": "C84",
   "status": "proved",
   "theorems": [
    "Props.C84_qts",
    "Props.C84_wts",
    "Props.C84_ws",
    "Props.C84_matrices",
    "Props.C84_driver"
   ],
   "note": "Reads happen before writes in every process. Two processes writing the same file alternate line prefixes of their own texts; overlapping writes inside one file (holes filled with zero bytes) are not modelled."
  },
  {
   "property": "C85",
   "status": "proved",
   "theorems": [
    "Props.C85_recover"
   ],
   "note": ""
  },
  {
   "property": "C86",
   "status": "partial",
   "theorems": [
    "Props.C86_interrupted_partial",
    "Props.C86_silent_loss"
   ],
   "note": "The property is false: for length 7 a kill between the two row-sum directories gives a join that ends normally with a class missing (C86_silent_loss). C86_interrupted_partial: exactly the classes of the row sums written are listed."
  },
  {
   "property": "C87",
   "status": "partial",
   "theorems": [
    "Props.C87_correlation_partial",
    "Props.C87_psd_partial",
    "Props.C87_sign",
    "Props.C87_fails"
   ],
   "note": "Holds for Williamson and Williamson-type. For QT the condition in the keys has one sign reversed with respect to the definition (C87_fails, witnesses of length 4): C87_correlation_partial and C87_psd_partial prove what equal keys do mean, and C87_sign that no QT sequence is lost by it, because both conditions together say that the pairs are amicable."
  },
  {
   "property": "C88",
   "status": "proved",
   "theorems": [
    "Props.C88_release",
    "Props.C88_sorted",
    "Props.C88_driver",
    "Props.C88_converse_fails"
   ],
   "note": "Only debug assertions are modelled, not the overflow checks of debug builds. C88_converse_fails shows why the converse of C88_release needs complete runs."
  },
  {
   "property": "C89",
   "status": "proved",
   "theorems": [
    "Props.C89_qts",
    "Props.C89_wts",
    "Props.C89_agree"
   ],
   "note": "The column with the disk usage and the layout of the table are not modelled. Times are exact numbers of hundredths. The log of debug builds is included (the assertions print nothing when they hold)."
  },
  {
   "property": "C90",
   "status": "proved",
   "theorems": [
    "Props.C90_scripts",
    "Props.C90_rerun",
    "Props.C90_williamson",
    "Props.C90_totals"
   ],
   "note": "Statements about what the table does show in the cases where it differs from the true numbers."
  },
  {
   "property": "C91",
   "status": "proved",
   "theorems": [
    "Props.C91_gap",
    "Props.C91_keys",
    "Props.C91_filter",
    "Props.C91_numerics",
    "Props.C91_prime",
    "Props.C91_enumeration",
    "Props.C91_driver_qts",
    "Props.C91_driver_wts",
    "Props.C91_numbers"
   ],
   "note": "The precision decreases fast with the length (C91_numbers gives values). At composite lengths the pairs that touch the bound 4n are left to the hypothesis FilterSafe, see C76_fails. C101 derives the error model from the binary64 format."
  },
  {
   "property": "C92",
   "status": "proved",
   "theorems": [
    "Props.C92_equivalence",
    "Props.C92_rotations",
    "Props.C92_preserved",
    "Props.C92_qts",
    "Props.C92_wts",
    "Props.C92_prime"
   ],
   "note": "Stated over Hamilton quaternions and letters only (Spec/Letters.lean). The lines are those the reader of the program finds in the file. Same hypotheses as C79; C92_prime replaces the one on the arithmetic by the error model at odd prime lengths."
  },
  {
   "property": "C93",
   "status": "proved",
   "theorems": [
    "Props.C93_correlation",
    "Props.C93_class",
    "Props.C93_class_panics",
    "Props.C93_canonical",
    "Props.C93_reduce",
    "Props.C93_reduce_panics",
    "Props.C93_debug_correct",
    "Props.C93_release_merges",
    "Props.C93_block",
    "Props.C93_dephase",
    "Props.C93_verify",
    "Props.C93_verify_hadamard",
    "Props.C93_verify_stops",
    "Props.C93_verify_panics"
   ],
   "note": "Model.Checked repeats the functions that compute with i8, with panics on overflow. The release build is the model of the other properties. C93_release_merges shows what the missing check costs at length 32, for every quadruple."
  },
  {
   "property": "C94",
   "status": "proved",
   "theorems": [
    "Props.C94_count_recursion",
    "Props.C94_count_rowsum",
    "Props.C94_order",
    "Props.C94_prop5",
    "Props.C94_class",
    "Props.C94_dft_inverse"
   ],
   "note": "The general statements behind the unit tests of the repository that no other property covers. Props/RepoExamples.lean evaluates the concrete assertions of the unit tests in the model (examples and #guard, not proofs)."
  },
  {
   "property": "C95",
   "status": "proved",
   "theorems": [
    "Props.C95_tables",
    "Props.C95_set_value",
    "Props.C95_perfect",
    "Props.C95_searches",
    "Props.C95_quad_searches",
    "Props.C95_join",
    "Props.C95_convert",
    "Props.C95_write_all",
    "Props.C95_dephase",
    "Props.C95_product",
    "Props.C95_operators"
   ],
   "note": "Continues C57 (perfection, QHM, verification). Model/Single.lean repeats every function on f32 quaternions and complex numbers with a rounding after each operation. Signed zeros are identified; infinities and NaN do not occur."
  },
  {
   "property": "C96",
   "status": "proved",
   "theorems": [
    "Props.C96_usize",
    "Props.C96_u8",
    "Props.C96_isize",
    "Props.C96_print",
    "Props.C96_roundtrip",
    "Props.C96_spelling"
   ],
   "note": "The grammar of numerals is Spec/Numeral.lean. The scripts do depend on the spelling of the length: C80_wrong_arguments."
  },
  {
   "property": "C97",
   "status": "partial",
   "theorems": [
    "Props.C97_read",
    "Props.C97_convert_partial",
    "Props.C97_convert_accepts",
    "Props.C97_convert_violated",
    "Props.C97_join_agrees",
    "Props.C97_join_partial",
    "Props.C97_candidate_violated",
    "Props.C97_join_violated"
   ],
   "note": "The property is false for the code. C97_convert_violated: of every result file of length n > 1 all but the first letter can be lost, and convert hm (release build) ends normally and writes a matrix of order 4. C97_join_violated, C97_candidate_violated: with the list of the sequences W cut off after one letter of a line, every candidate with this rest passes the test of every type. What holds: C97_read says exactly what is read; C97_convert_partial: everything written is a Hadamard matrix, at most one has another order; C97_convert_accepts: exactly when the cut is not noticed; C97_join_partial: the lists X, Y, Z may be cut anywhere. The join is the one with the panics for sequences of different lengths (Model/Ragged), equal to the other model for equal lengths (C97_join_agrees); what the later steps do with an accepted candidate of length one is not modelled."
  },
  {
   "property": "C98",
   "status": "proved",
   "theorems": [
    "Props.C98_correlation",
    "Props.C98_offset_limit",
    "Props.C98_keys",
    "Props.C98_tagged",
    "Props.C98_verify",
    "Props.C98_verify_empty",
    "Props.C98_sorted",
    "Props.C98_rowsums",
    "Props.C98_four_squares",
    "Props.C98_rowsums_limit",
    "Props.C98_sequences",
    "Props.C98_sequences_debug"
   ],
   "note": "For lengths below 2^58 and both builds. The limits are shown: C98_rowsums_limit (for p = 2^62, accepted on the command line, 4 * p overflows; the release build lists (0,0,0,0) as the only row sums), C98_offset_limit (a cross-correlation at an offset beyond the length), C98_verify_empty (size 0: size - 1 underflows). Products of entries are those of C93."
  },
  {
   "property": "C99",
   "status": "proved",
   "theorems": [
    "Props.C99_williamson",
    "Props.C99_williamson_type",
    "Props.C99_perfect",
    "Props.C99_same",
    "Props.C99_symmetry",
    "Props.C99_ranges",
    "Props.C99_unique",
    "Props.C99_contains",
    "Props.C99_equals_prefix"
   ],
   "note": "The sixteenth is exact because changing the sign of any of the four sequences keeps each of the three kinds. Symmetry IV is left to C49, where the search is shown to report sequences without the symmetry. C99_equals_prefix shows that equals on different lengths compares with a prefix or panics."
  },
  {
   "property": "C100",
   "status": "partial",
   "theorems": [
    "Props.C100_same_partial",
    "Props.C100_status",
    "Props.C100_lost",
    "Props.C100_deleted",
    "Props.C100_repair",
    "Props.C100_unbuilt"
   ],
   "note": "The property is false for the scripts. SLURM_TMPDIR is not quoted after -T: if it is not set, sort takes the pair file for the temporary directory, reads the standard input, succeeds, and the pair file is deleted (C100_deleted); the driver ends with status 0 and no results (C100_lost). With a blank in the variable every sort fails with the same outcome, but nothing is deleted (C100_repair). Without a compiled program the driver also ends with status 0 (C100_unbuilt). C100_same_partial: with a compiled program and one word in the variable nothing changes."
  },
  {
   "property": "C101",
   "status": "proved",
   "theorems": [
    "Props.C101_model",
    "Props.C101_correlations",
    "Props.C101_spectrum",
    "Props.C101_gap",
    "Props.C101_filter",
    "Props.C101_numerics",
    "Props.C101_numerics_psd",
    "Props.C101_enumeration",
    "Props.C101_driver_qts",
    "Props.C101_driver_wts"
   ],
   "note": "The transforms are computed by direct summation with correctly rounded cosines and sines; the FFT library is not modelled. C101_model: this arithmetic satisfies FloatModel with error 2 (n + 4)^2 / 2^53. C101_numerics covers the odd primes up to 23 for the option of correlations, C101_numerics_psd the primes 3, 5, 7 and 11 for the option of power spectra. At length 8 the filter fails, see C76_double_fails."
  },
  {
   "property": "C102",
   "status": "partial",
   "theorems": [
    "Props.C102_read",
    "Props.C102_meaning",
    "Props.C102_variables_partial",
    "Props.C102_x0",
    "Props.C102_run"
   ],
   "note": "The reading back is proved for every file (C102_read, C102_run), with its meaning for a solver (C102_meaning). The last clause is false: from length 2 on every file uses x0, which the format does not have, and the header line of the format is missing (C102_x0). C102_variables_partial: nothing beyond x2n occurs."
  },
  {
   "property": "C103",
   "status": "proved",
   "theorems": [
    "Props.C103_error",
    "Props.C103_model",
    "Props.C103_correlations",
    "Props.C103_numerics",
    "Props.C103_enumeration",
    "Props.C103_driver_qts",
    "Props.C103_driver_wts",
    "Props.C103_direct"
   ],
   "note": "C103_direct and codelet3_transforms show that such computations exist. That the library computes this way is an assumption, visible as the hypotheses env.A = libraryFl rd L and Transforms L n D G."
  },
  {
   "property": "C104",
   "status": "proved",
   "theorems": [
    "Props.C104_gap",
    "Props.C104_filter",
    "Props.C104_exact",
    "Props.C104_least",
    "Props.C104_numerics",
    "Props.C104_enumeration",
    "Props.C104_driver_qts",
    "Props.C104_driver_wts",
    "Props.C104_library"
   ],
   "note": "That 8 is the shortest failing length is shown for transforms by direct summation from rounded cosines; C104_library covers other computations at 6, 14 and 22."
  },
  {
   "property": "C105",
   "status": "proved",
   "theorems": [
    "Props.C105_transforms",
    "Props.C105_correlations",
    "Props.C105_numerics",
    "Props.C105_enumeration",
    "Props.C105_fails"
   ],
   "note": "C105_fails shows that the failure of C76 in double precision is not an artefact of summing term by term: it occurs at length 16 with every radix. The transform is the textbook recursion with rounded twiddle factors; FFTW may reorder its operations."
  },
  {
   "property": "C106",
   "status": "proved",
   "theorems": [
    "Props.C106_words",
    "Props.C106_aligned",
    "Props.C106_latex",
    "Props.C106_disk",
    "Props.C106_plain",
    "Props.C106_latex_table",
    "Props.C106_driver_qts",
    "Props.C106_driver_wts"
   ],
   "note": "Headings and cells of the plain table stand below each other for lengths below 100. The LaTeX table has no bound. What is collected is the subject of C89 and C90."
  },
  {
   "property": "C107",
   "status": "proved",
   "theorems": [
    "Props.C107_directory",
    "Props.C107_enumeration",
    "Props.C107_up_to_qt",
    "Props.C107_driver_qts",
    "Props.C107_driver_wts",
    "Props.C107_touching",
    "Props.C107_double",
    "Props.C107_double_touching",
    "Props.C107_fast",
    "Props.C107_fast_touching"
   ],
   "note": "Replaces the hypothesis FilterSafe of C32 and C79, which C76 and C105 show to fail, by a description of what is found without it. Lengths for C107_double_touching: 1 to 12, 14, 15, 16, 18, 20, 24, 30; for C107_fast_touching: 1 to 10, 12, 14, 15, 16, 18."
  },
  {
   "property": "C108",
   "status": "proved",
   "theorems": [
    "Props.C108_operations",
    "Props.C108_class",
    "Props.C108_class_panics",
    "Props.C108_representative",
    "Props.C108_expand",
    "Props.C108_reduce",
    "Props.C108_unique",
    "Props.C108_qhm_all",
    "Props.C108_flag",
    "Props.C108_argument",
    "Props.C108_half_shift",
    "Props.C108_fires"
   ],
   "note": "C108_fires shows two assertions that fire on valid sequences: the unguarded alternated negation at odd length, which no list contains, and the uniform shift for Williamson sequences, which the list of reduce_to_canonical_reps contains (C18) but calls with the flag that suppresses it. So a debug build does not notice C18."
  },
  {
   "property": "C109",
   "status": "proved",
   "theorems": [
    "Props.C109_blind",
    "Props.C109_merges",
    "Props.C109_panics",
    "Props.C109_join",
    "Props.C109_class"
   ],
   "note": "Completes C17 (right up to length 31), C93_release_merges (length 32) and C93_reduce_panics (debug build, from 32 on). Lengths above 100 panic at the table of the automorphisms (C93_class_panics)."
  },
  {
   "property": "C110",
   "status": "partial",
   "theorems": [
    "Props.C110_complete_partial",
    "Props.C110_room",
    "Props.C110_room_files",
    "Props.C110_limit",
    "Props.C110_convert_hm",
    "Props.C110_rowsums",
    "Props.C110_join",
    "Props.C110_join_wts",
    "Props.C110_pairs",
    "Props.C110_sequences",
    "Props.C110_convert_qhm",
    "Props.C110_qhm_all",
    "Props.C110_violated"
   ],
   "note": "Violated (C110_violated: rowsums qts 7 with room for 8 bytes ends normally with one of two row sums). C110_complete_partial: blocks taken as a whole give the files of the model without calls. C110_room, C110_room_files, C110_limit: exactly when a command ends normally and what is cut, for every command; C110_convert_hm, C110_convert_qhm, C110_qhm_all, C110_rowsums, C110_join, C110_join_wts, C110_sequences, C110_pairs: the files."
  },
  {
   "property": "C111",
   "status": "proved",
   "theorems": [
    "Props.C111_again",
    "Props.C111_killed",
    "Props.C111_commute",
    "Props.C111_driver",
    "Props.C111_driver_leftovers",
    "Props.C111_driver_refuses"
   ],
   "note": "C111_again: for every command line and state, a second run changes nothing. C111_killed: the same after a run killed at any write, with any texts in the files begun. C111_commute: commands for different types or lengths. The environment (order of directory listings and of hash sets, floating point) is the same in both runs; the sorting of the drivers between commands is not part of a command. C111_driver: driver.sh -d twice, for directories that hold only directories of row sums (an example shows that a foreign directory breaks it). C111_driver_leftovers: contents of the row-sum directories have no influence. C111_driver_refuses: without -d."
  },
  {
   "property": "C112",
   "status": "proved",
   "theorems": [
    "Props.C112_killed",
    "Props.C112_attempts",
    "Props.C112_last"
   ],
   "note": "C112_killed: what a device leaves of a run is what a process killed at some write may leave, so C111_killed applies. C112_attempts: any number of failed or cut runs, then a run that is not disturbed. C112_last: the last run made call by call on a device that takes every block. Only the same command is run again: commands that already used cut files have to be run again too. Creating files and directories never fails in the model."
  },
  {
   "property": "C113",
   "status": "proved",
   "theorems": [
    "Props.C113_driver"
   ],
   "note": "The killed runs are described by Spec.Interrupted: the commands before have ended, the command in progress was killed at some write (Killed), and a killed sortpairs.sh leaves any files in the directories. A run killed while it removes the directories is covered by C111_driver_leftovers. The script and the command it waits for are killed together. The environment is the same in all runs."
  },
  {
   "property": "C114",
   "status": "partial",
   "theorems": [
    "Props.C114_again_partial",
    "Props.C114_dirs_partial",
    "Props.C114_again_violated"
   ],
   "note": "C114_again_violated: if a directory was finished when the script was killed, the second run adds the file *.pair.sorted to it and join panics. C114_again_partial: if none was finished, the second run leaves what an undisturbed run leaves. C114_dirs_partial: in general exactly the finished directories differ, by that one file. The remedy is driver.sh or pairs.sh with the flag -d."
  },
  {
   "property": "C115",
   "status": "proved",
   "theorems": [
    "Props.C115_writes",
    "Props.C115_same",
    "Props.C115_read",
    "Props.C115_driver"
   ],
   "note": "C115_writes: every command, writes and result. C115_read: every other file and every directory afterwards. C115_same: commands other than convert hm and qhm-all leave the same store, byte for byte. C115_driver: the whole driver, with any flags. The orders are permutations chosen by the environment; the other hash collections of the program are modelled by their contents (see DESIGN.md)."
  },
  {
   "property": "C116",
   "status": "proved",
   "theorems": [
    "Props.C116_join",
    "Props.C116_program",
    "Props.C116_program_wts",
    "Props.C116_pairs"
   ],
   "note": "C116_join: the list of sequences, for arbitrary directories. C116_program: the writes and the result of the command join, for the types reduced once, in both builds; C116_program_wts: the same for Williamson-type sequences, lengths up to 31. C116_pairs: the condition on lengths and entries holds for any choice of the directories of the pair stage, lengths below 64. The order of the files within a directory is the subject of C33."
  }
 ]
}
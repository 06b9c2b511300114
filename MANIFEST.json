{
 "claims": [
  {
   "property": "C01",
   "status": "proved",
   "theorems": [
    "Dist.C01_packed_remove",
    "Dist.C01_packed_remove_out_of_range",
    "Dist.C01_packed_add"
   ],
   "note": ""
  },
  {
   "property": "C02",
   "status": "proved",
   "theorems": [
    "Dist.C02_counter_is_signed_multiset",
    "Dist.C02_rename_collision_loses_count",
    "Dist.C02_init_count_twice"
   ],
   "note": "Also states what rename/init_count do outside their preconditions."
  },
  {
   "property": "C03",
   "status": "partial",
   "theorems": [
    "Dist.C03_merge_partial",
    "Dist.C03_merge_total_is_wrong"
   ],
   "note": "Counts and order independence proved; the total part is false of the code (double counted), proved as a finding."
  },
  {
   "property": "C04",
   "status": "proved",
   "theorems": [
    "Dist.C04_map_refines_partial_function",
    "Dist.C04_misuse"
   ],
   "note": ""
  },
  {
   "property": "C05",
   "status": "proved",
   "theorems": [
    "Dist.C05_driver_bookkeeping",
    "Dist.C05_init_rejects"
   ],
   "note": "init_rejects states which inputs init rejects"
  },
  {
   "property": "C06",
   "status": "proved",
   "theorems": [
    "Dist.C06_flags_and_empty_groups",
    "Dist.C06_empty_count_constant"
   ],
   "note": ""
  },
  {
   "property": "C07",
   "status": "proved",
   "theorems": [
    "Dist.C07_add_remove",
    "Dist.C07_remove_add"
   ],
   "note": ""
  },
  {
   "property": "C08",
   "status": "proved",
   "theorems": [
    "Dist.C08_add_safe",
    "Dist.C08_remove_safe",
    "Dist.C08_release_bad_group",
    "Dist.C08_negative_add_corrupts",
    "Dist.C08_release_remove_from_empty"
   ],
   "note": "Includes findings: with assertions off, a negative add corrupts the invariant and a bad group id is undefined behaviour."
  },
  {
   "property": "C09",
   "status": "proved",
   "theorems": [
    "Dist.C09_ids",
    "Dist.C09_stale_id"
   ],
   "note": ""
  },
  {
   "property": "C10",
   "status": "proved",
   "theorems": [
    "Dist.C10_global_ids_wrap"
   ],
   "note": "Finding: ids wrap at 2^32 creations even with two groups alive."
  },
  {
   "property": "C11",
   "status": "proved",
   "theorems": [
    "Dist.C11_in_step",
    "Dist.C11_empty_groups"
   ],
   "note": "Any feature model whose group operations respect a summary relation; instantiated by the models' own theorems."
  },
  {
   "property": "C12",
   "status": "proved",
   "theorems": [
    "Dist.C12_score_value"
   ],
   "note": ""
  },
  {
   "property": "C13",
   "status": "proved",
   "theorems": [
    "Dist.C13_cache_coherent",
    "Dist.C13_cached_equals_uncached"
   ],
   "note": "Bit-for-bit cache coherence for every float type, and equality with the uncached scores in exact arithmetic."
  },
  {
   "property": "C14",
   "status": "proved",
   "theorems": [
    "Dist.C14_predictive_sums_to_one"
   ],
   "note": ""
  },
  {
   "property": "C15",
   "status": "partial",
   "theorems": [
    "Dist.C15_score_counts_is_seating_score",
    "Dist.C15_exchangeable",
    "Dist.C15_empty_groups",
    "Dist.C15_nobody",
    "Dist.C15_negative_alpha",
    "Dist.C15_nonzero_alpha_partial",
    "Dist.C15_exchangeable_nonzero_alpha",
    "Dist.C15_alpha_zero"
   ],
   "note": "Proved for every admissible alpha other than 0. For negative alpha the code takes log and lgamma of negative numbers; with the values the library computes there (log|x|, log|Gamma(x)|: arithmetic XA) the identity still holds. At alpha = 0, admissible for d > 0, it is false: every score is NaN (C15_alpha_zero)."
  },
  {
   "property": "C16",
   "status": "partial",
   "theorems": [
    "Dist.C16_partition_distribution",
    "Dist.C16_nonvacuous",
    "Dist.C16_nonzero_alpha_partial"
   ],
   "note": "Proved for every admissible alpha other than 0 (negative alpha in the arithmetic XA, see C15); at alpha = 0 no partition has a score (C15_alpha_zero)."
  },
  {
   "property": "C17",
   "status": "proved",
   "theorems": [
    "Dist.C17_remove_is_minus_add",
    "Dist.C17_defined"
   ],
   "note": "Bit for bit."
  },
  {
   "property": "C18",
   "status": "proved",
   "theorems": [
    "Dist.C18_sample_assignments",
    "Dist.C18_rejected"
   ],
   "note": ""
  },
  {
   "property": "C19",
   "status": "proved",
   "theorems": [
    "Dist.C19_count_assignments",
    "Dist.C19_contiguity_check",
    "Dist.C19_order_independent",
    "Dist.C19_total",
    "Dist.C19_contiguous",
    "Dist.C19_negative_id"
   ],
   "note": ""
  },
  {
   "property": "C20",
   "status": "partial",
   "theorems": [
    "Dist.C20_remove_is_minus_add_partial",
    "Dist.C20_complete_sample",
    "Dist.C20_singleton"
   ],
   "note": "Holds bit for bit while the group stays nonempty and the sample incomplete; false otherwise (findings C20_complete_sample, C20_singleton)."
  },
  {
   "property": "C21",
   "status": "proved",
   "theorems": [
    "Dist.C21_increment",
    "Dist.C21_group_telescopes",
    "Dist.C21_score_counts_complete",
    "Dist.C21_partition_defined",
    "Dist.C21_seating"
   ],
   "note": "Per-step increments, whole groups, and whole seating orders (C21_seating: the sum of the addition scores is score_counts plus the log partition function plus the stated bonuses for opening groups, up to 1/(2n) per addition to a group of more than 10000)."
  },
  {
   "property": "C22",
   "status": "proved",
   "theorems": [
    "Dist.C22_low_entropy_sample_assignments",
    "Dist.C22_too_large"
   ],
   "note": "At debug level 2 the code's own float comparisons may stop it; stated as an alternative."
  },
  {
   "property": "C23",
   "status": "partial",
   "theorems": [
    "Dist.C23_pitman_yor",
    "Dist.C23_low_entropy_complete_partial",
    "Dist.C23_low_entropy_depends_on_empty_groups"
   ],
   "note": "True for Pitman-Yor and for complete samples; false for low entropy on incomplete samples (finding)."
  },
  {
   "property": "C24",
   "status": "proved",
   "theorems": [
    "Dist.C24_table",
    "Dist.C24_normalised"
   ],
   "note": "All 48 table entries equal the log of the partition sum to half a unit of the last decimal (recurrence proved by a bijection on set partitions, values checked in the kernel); score_counts is normalised over all partitions to 1e-8. Sizes from 48 on use an empirical fit and are outside the statement."
  },
  {
   "property": "C25",
   "status": "proved",
   "theorems": [
    "Dist.C25_bb_history",
    "Dist.C25_bb_order",
    "Dist.C25_bb_contents",
    "Dist.C25_bb_inverse",
    "Dist.C25_bnb_order",
    "Dist.C25_bnb_contents",
    "Dist.C25_bnb_inverse",
    "Dist.C25_dd_history",
    "Dist.C25_dd_order",
    "Dist.C25_dd_contents",
    "Dist.C25_dd_inverse",
    "Dist.C25_dpd_history",
    "Dist.C25_dpd_order",
    "Dist.C25_dpd_contents",
    "Dist.C25_dpd_inverse",
    "Dist.C25_gp_order",
    "Dist.C25_gp_order_int",
    "Dist.C25_gp_contents",
    "Dist.C25_gp_inverse",
    "Dist.C25_nich_contents",
    "Dist.C25_nich_order",
    "Dist.C25_nich_inverse",
    "Dist.C41_order",
    "Dist.C41_contents",
    "Dist.C41_inverse"
   ],
   "note": "Proved for all seven models (NIW: C41_order, C41_contents, C41_inverse). Float statistics (GP log product, NICH, NIW) in exact arithmetic, integer statistics bit for bit, including debt and wrap-around."
  },
  {
   "property": "C26",
   "status": "partial",
   "theorems": [
    "Dist.C26_bb",
    "Dist.C26_bnb",
    "Dist.C26_dd",
    "Dist.C26_dd_illegal",
    "Dist.C26_dpd",
    "Dist.C26_gp",
    "Dist.C26_gp_int",
    "Dist.C26_nich_partial",
    "Dist.C26_nich_iff",
    "Dist.C26_nich_witness",
    "Dist.C26_nich_zero",
    "Dist.C41_repeated"
   ],
   "note": "Proved for BB, DD, DPD, GP, BNB, NIW (C41_repeated); for NICH characterised exactly and false in general (finding C26_nich_iff)."
  },
  {
   "property": "C27",
   "status": "partial",
   "theorems": [
    "Dist.C27_bb",
    "Dist.C27_bnb",
    "Dist.C27_dd_partial",
    "Dist.C27_dd_merge_total",
    "Dist.C27_dd_merge_score",
    "Dist.C27_dpd_partial",
    "Dist.C27_dpd_merge_score",
    "Dist.C27_gp",
    "Dist.C27_gp_int",
    "Dist.C27_nich_partial",
    "Dist.C27_nich_empty",
    "Dist.C41_merge"
   ],
   "note": "Proved for BB, GP, BNB, NIW (C41_merge); DD merge leaves its total stale (finding); DPD merge counts the second total twice (finding C27_dpd_merge_score; counts proved); NICH fails only for two empty groups (finding)."
  },
  {
   "property": "C28",
   "status": "proved",
   "theorems": [
    "Dist.C28_bb_step",
    "Dist.C28_bb_empty",
    "Dist.C28_bb",
    "Dist.C28_bnb_step",
    "Dist.C28_bnb_empty",
    "Dist.C28_bnb",
    "Dist.C28_dd_step",
    "Dist.C28_dd_empty",
    "Dist.C28_dd",
    "Dist.C28_dpd_step",
    "Dist.C28_dpd_empty",
    "Dist.C28_dpd",
    "Dist.C28_gp_step",
    "Dist.C28_gp_empty",
    "Dist.C28_gp",
    "Dist.C28_nich_step",
    "Dist.C28_nich_empty",
    "Dist.C28_nich",
    "Dist.C41_step",
    "Dist.C41_chain"
   ],
   "note": "Proved for all seven models in exact arithmetic (NIW: C41_step, C41_chain, with exact determinant and inverse)."
  },
  {
   "property": "C29",
   "status": "proved",
   "theorems": [
    "Dist.C29_bb",
    "Dist.C29_bnb",
    "Dist.C29_dd",
    "Dist.C29_dpd",
    "Dist.C29_gp",
    "Dist.C29_gp_value",
    "Dist.C29_nich",
    "Dist.C41_exchangeable"
   ],
   "note": "Proved for all seven models (NIW: C41_exchangeable)."
  },
  {
   "property": "C30",
   "status": "proved",
   "theorems": [
    "Dist.C30_bb",
    "Dist.C30_dd",
    "Dist.C30_dpd"
   ],
   "note": "BB, DD and DPD."
  },
  {
   "property": "C31",
   "status": "partial",
   "theorems": [
    "Dist.C31_gp",
    "Dist.C31_gp_uint32",
    "Dist.C31_bnb_partial",
    "Dist.C31_bnb_deficient"
   ],
   "note": "GP proved; BNB only for r = 1, since the score omits a binomial coefficient (finding C31_bnb_deficient)."
  },
  {
   "property": "C32",
   "status": "proved",
   "theorems": [
    "Dist.C32_nich"
   ],
   "note": "Nonnegative count and variance, positive hyperparameters."
  },
  {
   "property": "C33",
   "status": "proved",
   "theorems": [
    "Dist.C33_bnb",
    "Dist.C33_gp",
    "Dist.C33_nich",
    "Dist.C41_posterior"
   ],
   "note": "Proved for GP, BNB, NICH and NIW (C41_posterior), in exact arithmetic."
  },
  {
   "property": "C34",
   "status": "proved",
   "theorems": [
    "Dist.C34_bnb",
    "Dist.C34_dpd",
    "Dist.C34_nich",
    "Dist.C34_bb",
    "Dist.C34_dd",
    "Dist.C34_gp",
    "Dist.C41_predictive"
   ],
   "note": "Proved for all seven models; the scorer value is identified with the log of the predictive density (NIW: C41_predictive, multivariate Student t)."
  },
  {
   "property": "C35",
   "status": "proved",
   "theorems": [
    "Dist.C35_bb",
    "Dist.C35_gp",
    "Dist.C35_nich",
    "Dist.C35_bnb_scorer",
    "Dist.C35_bnb",
    "Dist.C35_dd_bits",
    "Dist.C35_dd",
    "Dist.C35_dd_uninitialised",
    "Dist.C35_small"
   ],
   "note": "BB, GP, NICH bit for bit; BNB bit for bit against its scorer and exact against the group; DD bit for bit against a formula and exact against the group. DD must be initialised before use (finding C35_dd_uninitialised)."
  },
  {
   "property": "C36",
   "status": "proved",
   "theorems": [
    "Dist.C36_dpd",
    "Dist.C36_bb",
    "Dist.C36_gp",
    "Dist.C36_gp_debt",
    "Dist.C36_bnb",
    "Dist.C36_nich",
    "Dist.C36_nich_data",
    "Dist.C36_dd",
    "Dist.C36_grid",
    "Dist.C36_dd_grid",
    "Dist.C36_small",
    "Dist.C36_small_exact"
   ],
   "note": "GP, BNB, NICH skip groups of count 0, so such groups must be empty (finding C36_gp_debt). DPD and NIW are covered by the generic loop."
  },
  {
   "property": "C37",
   "status": "proved",
   "theorems": [
    "Dist.C37_bits",
    "Dist.C37",
    "Dist.C37_row_without_weight",
    "Dist.C37_nonempty_group",
    "Dist.C37_group_validate"
   ],
   "note": "Bit for bit the cache holds log(alpha*weight+count)-log(alpha+total) for every protocol history; in exact arithmetic every call succeeds and the scores equal Group::score_value. Rows are dropped exactly with the last occurrence. C37_nonempty_group: removing a nonempty group leaves a stale row and a later add_group fails."
  },
  {
   "property": "C38",
   "status": "partial",
   "theorems": [
    "Dist.C38_known",
    "Dist.C38_partial",
    "Dist.C38_clamp"
   ],
   "note": "Known values, counts and positivity are proved for every history; the total is 1 exactly while the leftover stays above MIN_BETA. The full claim is false: the clamp at MIN_BETA adds mass (C38_clamp)."
  },
  {
   "property": "C39",
   "status": "partial",
   "theorems": [
    "Dist.C39_terminates",
    "Dist.C39_partial",
    "Dist.C39_mass_gain",
    "Dist.C39_overflow"
   ],
   "note": "Termination and freshness are proved; total 1 fails (C39_mass_gain), and with the largest value 0xFFFFFFFE known the first value realize tries is OTHER, which throws with assertions on (C39_overflow)."
  },
  {
   "property": "C40",
   "status": "partial",
   "theorems": [
    "Dist.C40_clustering",
    "Dist.C40_bb",
    "Dist.C40_gp",
    "Dist.C40_bnb",
    "Dist.C40_nich",
    "Dist.C40_dd_shared",
    "Dist.C40_dd_group_partial",
    "Dist.C40_dd_merged",
    "Dist.C40_dpd_group_partial",
    "Dist.C40_dpd_group_holds",
    "Dist.C40_dpd_overflow",
    "Dist.C40_dpd_shared_partial",
    "Dist.C40_dpd_shared_exact",
    "Dist.C40_dpd_lost",
    "Dist.C40_niw_shared",
    "Dist.C40_niw_group"
   ],
   "note": "Round trips proved for the clustering model, every Shared and every Group, and for every dump order of the hash tables. For DPD shared and the DD group the restore is exact on states the library itself produces (no merge); three findings are proved: a merged DD group does not restore (C40_dd_merged), a DPD count that does not fit the message field wraps (C40_dpd_overflow), and DPD weights of values whose counts entry is missing are lost (C40_dpd_lost). The wire format of the messages is covered by C64."
  },
  {
   "property": "C41",
   "status": "proved",
   "theorems": [
    "Dist.C41_order",
    "Dist.C41_contents",
    "Dist.C41_inverse",
    "Dist.C41_repeated",
    "Dist.C41_merge",
    "Dist.C41_posterior",
    "Dist.C41_predictive",
    "Dist.C41_step",
    "Dist.C41_chain",
    "Dist.C41_exchangeable",
    "Dist.C41_negative_count"
   ],
   "note": "Every dimension, every data set with count*dim < 2^32, every positive definite scale, kappa > 0, nu > dim - 1, with exact determinant and inverse (Eigen is a parameter). Finding: C41_negative_count (signed count times unsigned dimension)."
  },
  {
   "property": "C42",
   "status": "proved",
   "theorems": [
    "Dist.C42_index",
    "Dist.C42",
    "Dist.C42_probability"
   ],
   "note": "Exact-arithmetic interval law and measure; the index range holds for every float type."
  },
  {
   "property": "C43",
   "status": "partial",
   "theorems": [
    "Dist.C43_select",
    "Dist.C43_index",
    "Dist.C43_probability",
    "Dist.C43_partial",
    "Dist.C43_zero_draw",
    "Dist.C43_probs"
   ],
   "note": "Index range, interval law and measure are proved; a zero-likelihood index is returned for the draw u = 0 (C43_zero_draw)."
  },
  {
   "property": "C44",
   "status": "proved",
   "theorems": [
    "Dist.C44_probs",
    "Dist.C44_normalised",
    "Dist.C44_log_sum_exp",
    "Dist.C44_shift",
    "Dist.C44_sampling",
    "Dist.C44_probability",
    "Dist.C44_empty"
   ],
   "note": "Exact arithmetic with exact exp and log; the empty vector is a separate finding (C44_empty)."
  },
  {
   "property": "C45",
   "status": "proved",
   "theorems": [
    "Dist.C45",
    "Dist.C45_uniform",
    "Dist.C45_single"
   ],
   "note": "For urns of at most 2^31 entries, so that the size is an int; uniformity is the bijection of draws and ordered pairs."
  },
  {
   "property": "C46",
   "status": "proved",
   "theorems": [
    "Dist.C46_dirichlet",
    "Dist.C46_dirichlet_safe",
    "Dist.C46_beta"
   ],
   "note": "Exact arithmetic; gamma draws are arbitrary nonnegative reals."
  },
  {
   "property": "C47",
   "status": "proved",
   "theorems": [
    "Dist.C47_index",
    "Dist.C47_sign_blind",
    "Dist.C47_index_any_size",
    "Dist.C47_accuracy",
    "Dist.C47_monotone",
    "Dist.C47_pow2",
    "Dist.C47_special"
   ],
   "note": "All 2^32 patterns index in range (bit-for-bit). Accuracy (2^-13, of which 2^-14 is the table resolution and the rest rounding), monotonicity, powers of two and special inputs proved for every rounding function satisfying Rounding; round-to-nearest single precision is shown to satisfy it. The library log2 is assumed correctly rounded."
  },
  {
   "property": "C48",
   "status": "partial",
   "theorems": [
    "Dist.C48_lgamma_nan",
    "Dist.C48_lgamma_partial",
    "Dist.C48_lgamma_delegates",
    "Dist.C48_nu_nan",
    "Dist.C48_nu_partial"
   ],
   "note": "Every non-NaN pattern reads in range or is delegated. For NaN the claim is false: C48_lgamma_nan and C48_nu_nan prove an out-of-bounds read for every NaN pattern."
  },
  {
   "property": "C49",
   "status": "partial",
   "theorems": [
    "Dist.C49_accuracy",
    "Dist.C49_accuracy_rounded",
    "Dist.C49_tiny_partial",
    "Dist.C49_saturates_partial",
    "Dist.C49_positive_wraps",
    "Dist.C49_positive_nan",
    "Dist.C49_positive_ub",
    "Dist.C49_very_negative",
    "Dist.C49_minus_infinity",
    "Dist.C49_full_fails"
   ],
   "note": "Accuracy on [-87,88] proved: 2^-22 in exact arithmetic, 2^-16 with every operation rounded to single precision. Tiny nonnegative results proved from -87 to -1028653055. The full claim (Spec.FastExpSound) is false, C49_full_fails: the clamp compares the integer value of the argument with the bit pattern of 88, so inputs 88.8..89.3 give NaN, 91..177 a negative number, 267..10^6 and anything at most -1028653057 undefined behaviour; it only saturates from 1118830593 to 2^31-1."
  },
  {
   "property": "C50",
   "status": "proved",
   "theorems": [
    "Dist.Stirling.C50_history",
    "Dist.Stirling.C50_exact",
    "Dist.Stirling.C50_approx",
    "Dist.Stirling.C50_threads",
    "Dist.Stirling.C50_progress"
   ],
   "note": "Rows below 32 are the logs of the unsigned Stirling numbers (exact arithmetic, with infinities) after any call history; every call returns what a fresh process would, bit for bit, also under any interleaving of threads at statement granularity, with no out-of-range access and no stuck thread; rows from 32 on are bracketed by the two approximations."
  },
  {
   "property": "C51",
   "status": "proved",
   "theorems": [
    "Dist.C51_log_table",
    "Dist.C51_log_table_zero",
    "Dist.C51_floor_log2",
    "Dist.C51_log_factorial",
    "Dist.C51_partition_table",
    "Dist.C51_log_factorial_accuracy"
   ],
   "note": "Every uint32 argument of fast_log_factorial is safe, the floor-log2 table and all four branches of the inlined floor-log2 are correct, and the partition table is read in range exactly for non-negative sample sizes."
  },
  {
   "property": "C52",
   "status": "partial",
   "theorems": [
    "Dist.C52_elementwise",
    "Dist.C52_functions",
    "Dist.C52_folds",
    "Dist.C52_empty_min_max",
    "Dist.C52_partial",
    "Dist.C52_short_buffer",
    "Dist.C52_callers",
    "Dist.C52_min_max"
   ],
   "note": "All kernels are proved elementwise for every float type; vector_min and vector_max read one element of an empty buffer (C52_empty_min_max)."
  },
  {
   "property": "C53",
   "status": "proved",
   "theorems": [
    "Dist.C53_dpd_shared_order",
    "Dist.C53_dpd_group_order",
    "Dist.C53_dpd_group_dumps",
    "Dist.C53_dpd_shared_dumps",
    "Dist.C53_symm",
    "Dist.C53_dpd_symm",
    "Dist.C53_refl",
    "Dist.C53_tolerance",
    "Dist.C53_not_transitive",
    "Dist.C53_nan",
    "Dist.C53_gp_log_prod",
    "Dist.C53_dpd_group_truncates"
   ],
   "note": "Reflexivity and symmetry in exact arithmetic for every message kind; independence of dump order bit-for-bit for DPD shared and group messages under the std::sort contract. Also proved: not transitive, NaN never close, GP log_prod ignored, DPD group counts compared modulo 2^32 (finding)."
  },
  {
   "property": "C54",
   "status": "partial",
   "theorems": [
    "Dist.C54_roundtrip",
    "Dist.C54_too_long",
    "Dist.C54_truncated_corrupt",
    "Dist.C54_truncated_partial",
    "Dist.C54_json"
   ],
   "note": "Round trip proved for length-prefixed and JSON streams. The truncation half is false: C54_truncated_corrupt shows a cut stream read as a shortened item; C54_truncated_partial gives the exact result for every cut."
  },
  {
   "property": "C55",
   "status": "proved",
   "theorems": [
    "Dist.C55_no_overflow",
    "Dist.C55_beyond",
    "Dist.C55_allocate",
    "Dist.C55_assert_aligned",
    "Dist.C55_misaligned",
    "Dist.C55_view"
   ],
   "note": "For every element size: no wrap up to max_size, strictly short buffer beyond it, and the aligned block has room for every element; views of vectors are always accepted, views of other addresses exactly if aligned. posix_memalign is a parameter."
  },
  {
   "property": "C56",
   "status": "proved",
   "theorems": [
    "Dist.Examples.C56_examples",
    "Dist.C56_counter",
    "Dist.C56_counter_before_clear",
    "Dist.C56_dpd_example",
    "Dist.C56_driver",
    "Dist.C56_driver_before_init",
    "Dist.C56_tracker",
    "Dist.C56_tracker_before_init"
   ],
   "note": "Initialisation sets the member from any prior state and no call sequence un-sets it; calls that read it before initialisation are classified; the DPD example constructor is undefined behaviour (finding)."
  },
  {
   "property": "C57",
   "status": "partial",
   "theorems": [
    "Dist.C57_bb_updates",
    "Dist.C57_bb_score_value",
    "Dist.C57_bb_score_value_defined",
    "Dist.C57_bb_score_data",
    "Dist.C57_gp_updates",
    "Dist.C57_gp_score_value",
    "Dist.C57_gp_score_value_defined",
    "Dist.C57_gp_score_data",
    "Dist.C57_gp_score_data_defined",
    "Dist.C57_bnb_updates",
    "Dist.C57_bnb_score_value",
    "Dist.C57_bnb_score_data",
    "Dist.C57_dd_updates",
    "Dist.C57_dd_count_sum",
    "Dist.C57_dd_score_value",
    "Dist.C57_dd_score_value_defined",
    "Dist.C57_dd_score_data",
    "Dist.C57_dd_merge_differs",
    "Dist.C57_nich_updates",
    "Dist.C57_nich_score_value",
    "Dist.C57_nich_score_data",
    "Dist.C57_nich_score_data_defined",
    "Dist.C57_nich_score_value_defined",
    "Dist.C57_dd_negative",
    "Dist.C57_dpd_updates",
    "Dist.C57_dpd_score_value",
    "Dist.C57_dpd_score_data",
    "Dist.C57_dpd_score_value_defined",
    "Dist.C57_dpd_score_data_defined",
    "Dist.C57_niw_updates",
    "Dist.C57_niw_score_value",
    "Dist.C57_niw_score_data",
    "Dist.C57_niw_score_data_defined",
    "Dist.C57_low_entropy_differs",
    "Dist.C57_low_entropy_correction_partial",
    "Dist.C57_low_entropy_score_partial"
   ],
   "note": "For all seven feature models: both implementations reach the same statistics under every history of init, add, remove, add_repeated and merge, and whenever the Python score returns, the C++ score equals it in exact arithmetic (the _defined theorems say when Python returns). Where C++ statistics are uint32_t the Python integers must fit; NIW needs d <= 65536 and count*d < 2^32. Findings: DD merge leaves count_sum stale so score_data differs (C57_dd_merge_differs); the LowEntropy reference uses Python 2 integer division (C57_low_entropy_differs). numpy det/inv and Eigen are the same parameter. Partial because the statement fails of the code in these two places."
  },
  {
   "property": "C58",
   "status": "proved",
   "theorems": [
    "Dist.C58_bb_probability",
    "Dist.C58_dd",
    "Dist.C58_dpd",
    "Dist.C58_bb"
   ],
   "note": "Support for DD and DPD for every float type and random stream. For BB the answer is true exactly if u is below the normalised first gamma draw (C58_bb), and under ideal random primitives true has the probability of the posterior (C58_bb_probability)."
  },
  {
   "property": "C59",
   "status": "partial",
   "theorems": [
    "Dist.C59_gp",
    "Dist.C59_nich",
    "Dist.C59_dd",
    "Dist.C59_bb",
    "Dist.C59_dpd",
    "Dist.C59_bnb_partial",
    "Dist.C59_bnb_fails",
    "Dist.C59_niw_law",
    "Dist.C59_niw_partial",
    "Dist.C59_niw_fails"
   ],
   "note": "Exact law of (value, next state) under ideal random primitives, whose existence is proved, for GP, NICH, DD, BB and DPD. For BNB equality holds up to the binomial coefficient (C59_bnb_partial), so exactly for r = 1 and not for r >= 2 (C59_bnb_fails). For NIW the exact law is a multivariate Student t with the wrong scale (C59_niw_law), right when kappa + n = 1 (C59_niw_partial) and wrong in every other case (C59_niw_fails)."
  },
  {
   "property": "C60",
   "status": "proved",
   "theorems": [
    "Dist.C60_pitman_yor",
    "Dist.C60_seating",
    "Dist.C60_others",
    "Dist.C60_nonzero_alpha"
   ],
   "note": "Exact reals and ideal random primitives (existence proved). C60_pitman_yor for alpha > 0; C60_nonzero_alpha for all admissible alpha other than 0; C60_seating in terms of the summed score_add_value; C60_others: no other vector is ever returned."
  },
  {
   "property": "C61",
   "status": "proved",
   "theorems": [
    "Dist.C61_dd_updates",
    "Dist.C61_dd_init",
    "Dist.C61_dd_score_value",
    "Dist.C61_dd_score_data",
    "Dist.C61_dd_sample_value",
    "Dist.C61_dd_sample_empty",
    "Dist.C61_dd_accepts_unknown",
    "Dist.C61_dd_load_dump",
    "Dist.C61_dd_failed_load",
    "Dist.C61_gp_updates",
    "Dist.C61_gp_score_value",
    "Dist.C61_gp_score_data",
    "Dist.C61_gp_sample_value",
    "Dist.C61_gp_sample_zero_rate",
    "Dist.C61_gp_large_value",
    "Dist.C61_nich_updates",
    "Dist.C61_nich_remove_empty",
    "Dist.C61_nich_merge_empty",
    "Dist.C61_nich_score_value",
    "Dist.C61_nich_score_data",
    "Dist.C61_nich_swallowed_error",
    "Dist.C61_nich_sample_value",
    "Dist.C61_nich_sample_value_defined"
   ],
   "note": "Hp models of DD, GP and NICH simulate the C++ groups over all histories, exact scores equal, samplers are the same function of the draws; inputs where they differ are characterised by theorems (unknown category, failed load, empty sampler, removal from empty, swallowed exception, empty merge)."
  },
  {
   "property": "C62",
   "status": "partial",
   "theorems": [
    "Dist.C62_dd",
    "Dist.C62_bb",
    "Dist.C62_gp",
    "Dist.C62_bnb_partial",
    "Dist.C62_bnb_one",
    "Dist.C62_bnb_fails",
    "Dist.C62_dpd",
    "Dist.C62_hp_dd",
    "Dist.C62_hp_dd_empty",
    "Dist.C62_hp_gp",
    "Dist.C62_hp_nich",
    "Dist.C62_hp_nich_zero",
    "Dist.C62_hp_dd_law",
    "Dist.C62_hp_gp_law",
    "Dist.C62_hp_nich_law",
    "Dist.C62_nich",
    "Dist.C62_niw_law",
    "Dist.C62_niw_partial",
    "Dist.C62_niw_fails"
   ],
   "note": "DD, BB, GP, DPD, NICH and the hp flavor proved; BNB off by the binomial coefficients its score leaves out (C62_bnb_partial, C62_bnb_fails), exact for r = 1 (C62_bnb_one); NIW draws with the law of another prior (C62_niw_law), right only for kappa = 1 (C62_niw_partial, C62_niw_fails)"
  },
  {
   "property": "C63",
   "status": "partial",
   "theorems": [
    "Dist.C63_law",
    "Dist.C63_last_item_partial",
    "Dist.C63_fails",
    "Dist.C63_two"
   ],
   "note": "The exact law of the sampled vector is the product of normalised exp(score_add_value) (C63_law). The documented law of complete data sets holds for the last item (C63_last_item_partial) and for two items (C63_two); for whole vectors it is false of the code (C63_fails): the sampler is not exchangeable for dataset_size 3."
  },
  {
   "property": "C64",
   "status": "proved",
   "theorems": [
    "Dist.Wire.C64_roundtrip",
    "Dist.Wire.C64_missing",
    "Dist.Wire.C64_equal",
    "Dist.Wire.C64_copy",
    "Dist.Wire.C64_concat",
    "Dist.Wire.C64_size",
    "Dist.Wire.C64_truncated",
    "Dist.Wire.C64_truncated_required",
    "Dist.Wire.C64_truncated_repeated",
    "Dist.Wire.C64_clustering",
    "Dist.Wire.C64_records",
    "Dist.Wire.C64_objects",
    "Dist.Wire.C64_checked_objects",
    "Dist.Wire.C64_packed",
    "Dist.Wire.C64_packed_cut"
   ],
   "note": "All 18 generated classes with scalar fields, and the nested Clustering, for any library treatment of unknown fields that reads back what it writes (plain_laws: met by a concrete library without groups). Finding: truncation between values of a repeated field is accepted (C64_truncated_repeated)."
  },
  {
   "property": "C65",
   "status": "partial",
   "theorems": [
    "Dist.C65_refines_sparse",
    "Dist.C65_refines_counter",
    "Dist.C65_refines_driver",
    "Dist.C65_refines_ids",
    "Dist.C65_refines_groups",
    "Dist.C65_refines_dpd_shared",
    "Dist.C65_refines_dd_load",
    "Dist.C65_containers_partial",
    "Dist.C65_groups",
    "Dist.C65_driver",
    "Dist.C65_ids",
    "Dist.C65_slave",
    "Dist.C65_refines_slave",
    "Dist.C65_refines_scorers",
    "Dist.C65_dd_mixture",
    "Dist.C65_dpd_mixture_partial",
    "Dist.C65_caught",
    "Dist.C65_driver_caught",
    "Dist.C65_ids_caught",
    "Dist.C65_rename",
    "Dist.C65_dpd_add",
    "Dist.C65_dpd_load",
    "Dist.C65_dd_load",
    "Dist.C65_driver_init",
    "Dist.C65_dpd_mixture_remove"
   ],
   "note": "Proved for the sparse containers, counters, groups, mixture driver, id tracker and mixtures on addition, with the consequence for programs that catch errors; false for rename, DPD Shared::add_value and protobuf_load, DD protobuf_load, driver init and removal from a DPD mixture, each with a theorem saying what is left behind."
  },
  {
   "property": "C66",
   "status": "proved",
   "theorems": [
    "Dist.C66_draws",
    "Dist.C66_dd_uninitialised",
    "Dist.C66_reached",
    "Dist.C66_step",
    "Dist.C66_place",
    "Dist.C66_invariant",
    "Dist.C66_converges",
    "Dist.C66_prior_start",
    "Dist.C66_compress_gibbs",
    "Dist.C66_compress_seq_gibbs",
    "Dist.C66_compress_sequential",
    "Dist.C66_sequential_ends"
   ],
   "note": "Over exact reals with an ideal generator (C66_draws gives both samplers). Features are any number of features of one of BB, GP, BNB, NICH, DD, DPD; a DD mixture must be initialised first (C66_dd_uninitialised), and the values of a DPD feature are known to its shared state, which stays as it is. At most 2^32 group ids are created, as the id tracker counts them in 32 bits. C66_reached shows that every clustering is a reachable state."
  },
  {
   "property": "C67",
   "status": "proved",
   "theorems": [
    "Dist.C67_draws",
    "Dist.C67_annealing",
    "Dist.C67_no_samples"
   ],
   "note": "The draws are those of any sampler that always gives an index; C67_draws shows it of both samplers. C67_no_samples shows that the loop does not end on an empty dataset."
  },
  {
   "property": "C68",
   "status": "partial",
   "theorems": [
    "Dist.C68_bb_value",
    "Dist.C68_bb_group",
    "Dist.C68_bnb_value_partial",
    "Dist.C68_bnb_group_partial",
    "Dist.C68_bnb_one",
    "Dist.C68_bnb_fails",
    "Dist.C68_gp_value",
    "Dist.C68_gp_group",
    "Dist.C68_dd_value",
    "Dist.C68_dd_group",
    "Dist.C68_dpd_value",
    "Dist.C68_dpd_group",
    "Dist.C68_nich_value",
    "Dist.C68_nich_group",
    "Dist.C68_niw_value",
    "Dist.C68_niw_group"
   ],
   "note": "BB, DD, DPD, GP, NICH and NIW in full, for one value and for groups of any size (NIW over exact linear algebra, both branches of sample_inverse_wishart); BNB with the binomial coefficients its score omits (with r = 1 in full, finding C68_bnb_fails)."
  },
  {
   "property": "C69",
   "status": "proved",
   "theorems": [
    "Dist.C69_lgamma",
    "Dist.C69_lgamma_exact",
    "Dist.C69_log_factorial",
    "Dist.C69_log_factorial_wrap"
   ],
   "note": "fast_lgamma against log Gamma on the whole table range with rounding and without, fast_log_factorial beyond its table, and the wrap-around at the largest argument. lgammaf outside the range is a parameter."
  },
  {
   "property": "C70",
   "status": "proved",
   "theorems": [
    "Dist.C70_nu",
    "Dist.C70_nu_sharp"
   ],
   "note": "The bound over the whole table range with rounding, and a witness that no bound below 0.013 holds."
  },
  {
   "property": "C71",
   "status": "proved",
   "theorems": [
    "Dist.C71_partition",
    "Dist.C71_partition_fail",
    "Dist.C71_partition_uniform",
    "Dist.C71_stick_rounds",
    "Dist.C71_stick_ends",
    "Dist.C71_stick",
    "Dist.C71_stick_empty"
   ],
   "note": "Both functions in full, over exact reals."
  },
  {
   "property": "C72",
   "status": "partial",
   "theorems": [
    "Dist.C72_student_t_score",
    "Dist.C72_student_t_law",
    "Dist.C72_student_t_fails",
    "Dist.C72_student_t_partial",
    "Dist.C72_wishart_naive_partial",
    "Dist.C72_wishart_mean",
    "Dist.C72_wishart_v2_mean"
   ],
   "note": "False of the code: C72_student_t_fails, C72_wishart_mean, C72_wishart_v2_mean. What holds: one degree of freedom, and the naive Wishart sampler."
  },
  {
   "property": "C73",
   "status": "partial",
   "theorems": [
    "Dist.Props.C73_multinomial_value",
    "Dist.Props.C73_untruncated_fails",
    "Dist.Props.C73_two_categories_fails",
    "Dist.Props.C73_truncated_partial",
    "Dist.Props.C73_impossible_fails",
    "Dist.Props.C73_unif01",
    "Dist.Props.C73_unif01_one_fails",
    "Dist.Props.C73_density",
    "Dist.Props.C73_density_units",
    "Dist.Props.C73_discrete",
    "Dist.Props.C73_discrete_truncated",
    "Dist.Props.C73_empirical_kl",
    "Dist.Util.C73_histogram",
    "Dist.Util.C73_histogram_raises"
   ],
   "note": "False of the code for untruncated data (C73_untruncated_fails, C73_two_categories_fails), impossible observations (C73_impossible_fails) and a sample equal to one (C73_unif01_one_fails). Proved: the value reported, the mean of the statistic equal to the degrees of freedom for truncated data, the binning of uniform samples, order and unit independence of the density test, the discrete test with and without truncation, and the divergence. The asymptotic law of the statistic is C87."
  },
  {
   "property": "C74",
   "status": "partial",
   "theorems": [
    "Dist.Props.C74_bin_fill",
    "Dist.Props.C74_bin_ranges_partial",
    "Dist.Props.C74_bin_ties_fails",
    "Dist.Props.C74_bin_few_fails",
    "Dist.Props.C74_histogram",
    "Dist.Props.C74_histogram_default",
    "Dist.Props.C74_histogram_fails",
    "Dist.Props.C74_histogram_negative"
   ],
   "note": "False of the code when equal samples straddle a boundary (C74_bin_ties_fails), with fewer samples than bins (C74_bin_few_fails) and for negative samples in histogram (C74_histogram_negative). Proved: equal fill for all samples; counts, adjacency and support of the ranges for distinct samples; histogram for natural numbers."
  },
  {
   "property": "C75",
   "status": "proved",
   "theorems": [
    "Dist.Single.C75_dd_mixture",
    "Dist.Single.C75_dpd",
    "Dist.Single.C75_dpd_mixture",
    "Dist.Single.C75_pitman_yor",
    "Dist.Single.C75_bb",
    "Dist.Single.C75_dd"
   ],
   "note": "C75_bb, C75_dd, C75_dd_mixture, C75_dpd, C75_dpd_mixture, C75_pitman_yor: every operation rounded to single precision, fast_log by its table; hyperparameters between 2^-40 and 2^40 (2^-20 and 2^40 for the alpha of DPD, 2^-40 and 1 for its weights), counts below 2^31."
  },
  {
   "property": "C76",
   "status": "partial",
   "theorems": [
    "Dist.Single.C76_nich_flat",
    "Dist.Single.C76_nich_mass_fails",
    "Dist.Single.C76_nich_contrast",
    "Dist.Single.C76_nich_partial"
   ],
   "note": "C76_nich_partial: the score is within 1/60 + (nu+1)/2^13 of the exact log density for posteriors of moderate size. False without the growing term: C76_nich_flat, C76_nich_mass_fails, C76_nich_contrast (a million observations)."
  },
  {
   "property": "C77",
   "status": "partial",
   "theorems": [
    "Dist.Single.C77_bnb_integer",
    "Dist.Single.C77_bnb_contrast",
    "Dist.Single.C77_bnb_partial",
    "Dist.Single.C77_gp_zero",
    "Dist.Single.C77_gp_contrast",
    "Dist.Single.C77_gp_partial"
   ],
   "note": "Gamma-Poisson: error at most (alpha+v+1)/2^10 (C77_gp_partial). Beta-Negative-Binomial: error at most (alpha+beta+r+v)/2^12 against the probability without its binomial coefficient, which score_value leaves out (C77_bnb_partial). The fixed bound is false for large groups (C77_gp_zero, C77_gp_contrast), and for Beta-Negative-Binomial scores are integers from 2^20 on (C77_bnb_integer, C77_bnb_contrast)."
  },
  {
   "property": "C78",
   "status": "proved",
   "theorems": [
    "Dist.C78_log_beta",
    "Dist.C78_log_binom",
    "Dist.C78_student_t",
    "Dist.C78_student_t_nich",
    "Dist.C78_lmultigamma",
    "Dist.C78_multigamma_recursion",
    "Dist.C78_lmultigamma_wraps",
    "Dist.Single.C78_fast_log_beta_single",
    "Dist.Single.C78_fast_log_binom_lost",
    "Dist.Single.C78_fast_log_binom_single",
    "Dist.Single.C78_fast_score_student_t_single"
   ],
   "note": "Exact theorems for all arguments in the domain; single-precision error bound and the lost binomial coefficient."
  },
  {
   "property": "C79",
   "status": "proved",
   "theorems": [
    "Dist.Py.C79_shared",
    "Dist.Py.C79_shared_message",
    "Dist.Py.C79_bnb_large_r",
    "Dist.Py.C79_group",
    "Dist.Py.C79_gp_large_sum",
    "Dist.Py.C79_partial_assignment",
    "Dist.Py.C79_niw",
    "Dist.Py.C79_pitman_yor",
    "Dist.Py.C79_low_entropy",
    "Dist.Py.C79_dd_shared",
    "Dist.Py.C79_dd_overrun",
    "Dist.Py.C79_dd_group",
    "Dist.Py.C79_dd_group_dim",
    "Dist.Py.C79_dd_add_value",
    "Dist.Py.C79_dd_group_initialised",
    "Dist.Py.C79_dd_group_overrun",
    "Dist.Py.C79_dpd_load",
    "Dist.Py.C79_dpd_minus_one",
    "Dist.Py.C79_dpd_shared",
    "Dist.Py.C79_dpd_count_lost",
    "Dist.Py.C79_dpd_beta0",
    "Dist.Py.C79_dpd_message",
    "Dist.Py.C79_dpd_message_large",
    "Dist.Py.C79_dpd_group"
   ],
   "note": "Exact statements of what load and dump restore, with the cases where integers do not fit a C int, the loaded Dirichlet-discrete group, arrays over 256 and lost counts stated as separate theorems."
  },
  {
   "property": "C80",
   "status": "proved",
   "theorems": [
    "Dist.Py.C80_getitem",
    "Dist.Py.C80_iteration",
    "Dist.Py.C80_bad_id",
    "Dist.Py.C80_good_id",
    "Dist.Py.C80_score_value",
    "Dist.Py.C80_spaced",
    "Dist.Py.C80_spaced_read",
    "Dist.Py.C80_reversed",
    "Dist.Py.C80_length",
    "Dist.Py.C80_write",
    "Dist.Py.C80_write_spaced",
    "Dist.Py.C80_single_item",
    "Dist.Py.C80_append",
    "Dist.Py.C80_append_without_init",
    "Dist.Py.C80_negative_value",
    "Dist.Py.C80_tracker",
    "Dist.Py.C80_tracker_large",
    "Dist.Py.C80_tracker_init"
   ],
   "note": "All cases of ids, strides and lengths are covered; append and init for Beta-Bernoulli, Gamma-Poisson and Normal-Inverse-ChiSq, append without init for Beta-Bernoulli."
  },
  {
   "property": "C81",
   "status": "proved",
   "theorems": [
    "Dist.C81_probs",
    "Dist.C81_log_sum_exp",
    "Dist.C81_sampling",
    "Dist.C81_probability"
   ],
   "note": "C81_probs, C81_log_sum_exp, C81_sampling, C81_probability: every operation rounded to single precision, fast_exp by its table and fast_log by its table; a spread of scores beyond 1028653057 is undefined behaviour (C49_very_negative)."
  },
  {
   "property": "C82",
   "status": "proved",
   "theorems": [
    "Dist.C82_draws",
    "Dist.C82_scores",
    "Dist.C82_step",
    "Dist.C82_converges",
    "Dist.C82_compress_gibbs",
    "Dist.C82_compress_seq_gibbs"
   ],
   "note": "Beta-Bernoulli features, Dirichlet-Discrete features of one dimension up to 256 or Dirichlet-Process-Discrete features with known values, at most 1000, and at most 2^20 groups; every operation of the scores, caches and sampler rounded to single precision. The example gives the step error for forty points. The generator is ideal up to 2^-23 per draw."
  },
  {
   "property": "C83",
   "status": "proved",
   "theorems": [
    "Dist.Py.C83_init",
    "Dist.Py.C83_init_range",
    "Dist.Py.C83_call",
    "Dist.Py.C83_program",
    "Dist.Py.C83_scores",
    "Dist.Py.C83_score_arrays",
    "Dist.Py.C83_unready",
    "Dist.Py.C83_negative_counts",
    "Dist.Py.C83_low_entropy_call",
    "Dist.Py.C83_low_entropy_program",
    "Dist.Py.C83_low_entropy_scores",
    "Dist.Py.C83_count_then_init"
   ],
   "note": "Both mixtures: init, one call, programs of calls with any integers, scores and arrays; findings as theorems (C83_unready, C83_negative_counts, C83_count_then_init, C83_score_arrays). Scores of the Pitman-Yor mixture in exact arithmetic; those of the low-entropy mixture in terms of score_add_value."
  },
  {
   "property": "C84",
   "status": "proved",
   "theorems": [
    "Dist.Py.C84_probs",
    "Dist.Py.C84_log_sum_exp",
    "Dist.Py.C84_bad_index",
    "Dist.Py.C84_empty",
    "Dist.Py.C84_urn",
    "Dist.Py.C84_discrete",
    "Dist.Py.C84_discrete_spaced",
    "Dist.Py.C84_sample_sizes",
    "Dist.Py.C84_count_range"
   ],
   "note": "Exact arithmetic for the probabilities, every float type for the rest; findings as theorems (C84_bad_index, C84_empty, C84_urn, C84_discrete, C84_discrete_spaced)."
  },
  {
   "property": "C85",
   "status": "partial",
   "theorems": [
    "Dist.C85_valid",
    "Dist.C85_range",
    "Dist.C85_total",
    "Dist.C85_law",
    "Dist.C85_not_exchangeable",
    "Dist.C85_partition",
    "Dist.C85_score_complete",
    "Dist.C85_score_incomplete",
    "Dist.C85_score_refused",
    "Dist.C85_remove_partial"
   ],
   "note": "Sampling (validity, totality, law), the partition function and complete samples are proved in full. score_counts of incomplete samples: both values are given with their exact difference, and they agree exactly when the sample size divides the dataset size or there is a single group (C85_score_incomplete), so agreement is false in general. score_remove_value undoes score_add_value while the group stays nonempty and the sample incomplete; it raises on complete samples (C85_remove_partial). Finding: the sampler is not exchangeable (C85_not_exchangeable)."
  },
  {
   "property": "C86",
   "status": "proved",
   "theorems": [
    "Dist.C86_counts",
    "Dist.C86_log_partition",
    "Dist.C86_table",
    "Dist.C86_coefficient",
    "Dist.C86_subprobs",
    "Dist.C86_pairwise",
    "Dist.C86_new_cluster_inexact",
    "Dist.C86_incomplete_mass",
    "Dist.C86_incomplete_not_normalised",
    "Dist.C86_postpred",
    "Dist.C86_postpred_complete",
    "Dist.C86_postpred_single"
   ],
   "note": "Counts, partition function, table, coefficient, marginals, the pairwise number, the true correction of the score of a new cluster and the total mass of the scores of incomplete samples are proved for all sizes (the mass for samples within the table). The counts are exact naturals instead of doubles. Findings: C86_new_cluster_inexact, C86_incomplete_not_normalised; C86_postpred_single (one item: the function returns 1, its default)."
  },
  {
   "property": "C87",
   "status": "partial",
   "theorems": [
    "Dist.Props.C87_chi_squared",
    "Dist.Props.C87_pearson",
    "Dist.Props.C87_over_rejects",
    "Dist.Props.C87_uniform_limit",
    "Dist.Props.C87_three_categories",
    "Dist.Props.C87_two_categories",
    "Dist.Props.C87_single_category_partial",
    "Dist.Props.C87_truncated_limit",
    "Dist.Props.C87_truncated_fails"
   ],
   "note": "False of the code for untruncated data: C87_over_rejects for every distribution and level, with the exact limits for equally likely categories (C87_uniform_limit, C87_three_categories) and two categories (C87_two_categories); false for data truncated to two or more categories (C87_truncated_fails, with the limit law in C87_truncated_limit). Proved for data truncated to one category (C87_single_category_partial) and for the statistic the documentation names (C87_pearson)."
  },
  {
   "property": "C88",
   "status": "proved",
   "theorems": [
    "Dist.NICH.C88_accurate",
    "Dist.NICH.C88_add",
    "Dist.NICH.C88_grows",
    "Dist.NICH.C88_bounded",
    "Dist.NICH.C88_stalls",
    "Dist.NICH.C88_merge",
    "Dist.NICH.C88_merge_empty",
    "Dist.NICH.C88_posterior",
    "Dist.NICH.C88_remove_negative",
    "Dist.NICH.C88_merge_overshoots"
   ],
   "note": "Adding keeps the accumulated variance nonnegative and growing and the mean inside the range of the values, merging and the posterior variance likewise, for every rounding; explicit error bounds against the exact mean and spread; the findings about removal, stalling and overshooting are proved."
  },
  {
   "property": "C89",
   "status": "proved",
   "theorems": [
    "Dist.NIW.C89_cycles",
    "Dist.GP.C89_gp_cycles",
    "Dist.NIW.C89_exact",
    "Dist.NIW.C89_posterior_indefinite",
    "Dist.NIW.C89_remove_inexact"
   ],
   "note": "Cycles of adding and removing never drift (Reiser-Knuth theorem in single precision), runs on integer vectors are exact; the findings that removal is inexact in general and that the posterior matrix can be indefinite are proved."
  },
  {
   "property": "C90",
   "status": "proved",
   "theorems": [
    "Dist.Img.C90_sample",
    "Dist.Img.C90_coordinates",
    "Dist.Img.C90_blank",
    "Dist.Img.C90_tally",
    "Dist.Img.C90_density",
    "Dist.Img.C90_synthesis",
    "Dist.Img.C90_narrow"
   ],
   "note": "Exact arithmetic, ideal source of uniform numbers. The conversion to bytes and the Gaussian blur are not modelled. Findings: C90_blank, C90_narrow."
  },
  {
   "property": "C91",
   "status": "proved",
   "theorems": [
    "Dist.Py.C91_shared",
    "Dist.Py.C91_dd_shared",
    "Dist.Py.C91_clusterings",
    "Dist.Py.C91_from_dict",
    "Dist.Py.C91_bb_values",
    "Dist.Py.C91_count_values",
    "Dist.Py.C91_dd_values",
    "Dist.Py.C91_nich_values"
   ],
   "note": "Single-field classes, Dirichlet-discrete and the clusterings; the Dirichlet process and Wishart classes are in C79 only."
  },
  {
   "property": "C92",
   "status": "proved",
   "theorems": [
    "Dist.C92_chain",
    "Dist.C92_order",
    "Dist.C92_predictive",
    "Dist.C92_simone",
    "Dist.C92_simtwo",
    "Dist.C92_histogram",
    "Dist.C92_histogram_shifted",
    "Dist.C92_histogram_mass",
    "Dist.C92_fourth_order",
    "Dist.C92_gauss"
   ],
   "note": "Exact arithmetic; least-squares fits, plots and printing are left out. Findings: C92_histogram_shifted, C92_histogram_mass, C92_fourth_order, C92_gauss."
  },
  {
   "property": "C93",
   "status": "proved",
   "theorems": [
    "Dist.NIW.Dyn.C93_plus_group",
    "Dist.NIW.Dyn.C93_updates",
    "Dist.NIW.Dyn.C93_scores",
    "Dist.NIW.Dyn.C93_sample_value",
    "Dist.NIW.Dyn.C93_sizes",
    "Dist.NIW.Dyn.C93_wrong_argument",
    "Dist.NIW.Dyn.C93_wrong_value_score",
    "Dist.NIW.Dyn.C93_wrong_call",
    "Dist.NIW.Dyn.C93_checked_safe",
    "Dist.NIW.Dyn.C93_round_trip",
    "Dist.NIW.Dyn.C93_load_unvalidated",
    "Dist.NIW.Dyn.C93_load_flat"
   ],
   "note": "Refinement to the fixed-dimension model, the size invariant and the outcome of every mismatch are proved for all sizes and builds. Eigen's checks abort or are compiled out, depending on the build; both are covered. Findings: C93_load_unvalidated, C93_load_flat, and the missing assertions of merge and score_value in C93_wrong_argument and C93_wrong_value_score."
  },
  {
   "property": "C94",
   "status": "proved",
   "theorems": [
    "Dist.License.C94_files",
    "Dist.License.C94_symbol",
    "Dist.License.C94_which",
    "Dist.License.C94_code",
    "Dist.License.C94_strip",
    "Dist.License.C94_strip_idempotent",
    "Dist.License.C94_update",
    "Dist.License.C94_update_no_code",
    "Dist.License.C94_update_replaces",
    "Dist.License.C94_update_idempotent",
    "Dist.License.C94_commands",
    "Dist.License.C94_leading_comments_lost",
    "Dist.License.C94_comments_only"
   ],
   "note": "All contents, licences and directory trees. Findings: C94_leading_comments_lost, C94_comments_only."
  },
  {
   "property": "C95",
   "status": "proved",
   "theorems": [
    "Dist.C95_history",
    "Dist.C95_refused",
    "Dist.C95_new_weight",
    "Dist.C95_realize",
    "Dist.C95_realize_orphan",
    "Dist.C95_load",
    "Dist.C95_load_excess",
    "Dist.C95_round_trip",
    "Dist.C95_message_round_trip",
    "Dist.C95_message_lengths",
    "Dist.C95_message_missing",
    "Dist.C95_group_load",
    "Dist.C95_group_load_twice",
    "Dist.C95_group_round_trip",
    "Dist.C95_group_message_debt"
   ],
   "note": "Exact arithmetic; numpy raising on parameters out of range is not modelled; keys of dictionaries are modelled after conversion by int. Contrast with the compiled model, where the clamp of the leftover weight changes the total (C38, C39)."
  },
  {
   "property": "C96",
   "status": "proved",
   "theorems": [
    "Dist.C96_dictionaries",
    "Dist.C96_shared_messages",
    "Dist.C96_group_messages",
    "Dist.C96_group_refused",
    "Dist.C96_dd_message_large",
    "Dist.C96_exchange",
    "Dist.C96_group_exchange",
    "Dist.C96_dd_group_exchange",
    "Dist.C96_niw_load",
    "Dist.C96_niw_message",
    "Dist.C96_niw_round_trip",
    "Dist.C96_niw_message_kappa",
    "Dist.C96_niw_third_axis",
    "Dist.C96_niw_group_load",
    "Dist.C96_niw_group_message",
    "Dist.C96_niw_group_debt"
   ],
   "note": "Dictionary and message round trips, acceptance as equivalences, exchange with the compiled parameters; findings about refused and half-written messages are proved."
  },
  {
   "property": "C97",
   "status": "proved",
   "theorems": [
    "Dist.C97_chdir",
    "Dist.C97_chdir_paths",
    "Dist.C97_chdir_refused",
    "Dist.C97_chdir_old_gone",
    "Dist.C97_tempdir",
    "Dist.C97_tempdir_no_trace",
    "Dist.C97_tempdir_refused",
    "Dist.C97_tempdir_leak",
    "Dist.C97_tempdir_self_removed",
    "Dist.C97_nested",
    "Dist.C97_clean",
    "Dist.C97_setup",
    "Dist.C97_clean_nothing"
   ],
   "note": "For every block and every nesting; findings about removed directories and the inverted test of clean are proved."
  },
  {
   "property": "C98",
   "status": "proved",
   "theorems": [
    "Dist.C98_layout",
    "Dist.C98_entries",
    "Dist.C98_count",
    "Dist.C98_no_width",
    "Dist.C98_listings",
    "Dist.C98_listings_agree"
   ],
   "note": "For all lists, widths and models."
  },
  {
   "property": "C99",
   "status": "proved",
   "theorems": [
    "Dist.Repeated.C99_print",
    "Dist.Repeated.C99_print_integers",
    "Dist.Repeated.C99_equal",
    "Dist.Repeated.C99_equal_integers",
    "Dist.Repeated.C99_equal_floats",
    "Dist.Repeated.C99_equal_nan",
    "Dist.Repeated.C99_message",
    "Dist.Repeated.C99_disagree"
   ],
   "note": "All lists and bit patterns. Findings: C99_equal_nan, C99_disagree. The text of floats is a parameter."
  }
 ]
}
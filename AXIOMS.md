# Axioms of the property theorems (`#print axioms`)

| theorem | axioms |
|---|---|
| Dist.C01_packed_add | propext |
| Dist.C01_packed_remove | propext, Classical.choice, Quot.sound |
| Dist.C01_packed_remove_out_of_range | propext, Quot.sound |
| Dist.C02_counter_is_signed_multiset | propext, Classical.choice, Quot.sound |
| Dist.C02_init_count_twice | propext, Classical.choice, Quot.sound |
| Dist.C02_rename_collision_loses_count | propext, Classical.choice, Quot.sound |
| Dist.C03_merge_partial | propext, Classical.choice, Quot.sound |
| Dist.C03_merge_total_is_wrong | propext, Classical.choice, Quot.sound |
| Dist.C04_map_refines_partial_function | propext, Classical.choice, Quot.sound |
| Dist.C04_misuse | propext, Classical.choice, Quot.sound |
| Dist.C05_driver_bookkeeping | propext, Classical.choice, Quot.sound |
| Dist.C05_init_rejects | propext, Classical.choice, Quot.sound |
| Dist.C06_empty_count_constant | propext, Classical.choice, Quot.sound |
| Dist.C06_flags_and_empty_groups | propext, Classical.choice, Quot.sound |
| Dist.C07_add_remove | propext, Classical.choice, Quot.sound |
| Dist.C07_remove_add | propext, Classical.choice, Quot.sound |
| Dist.C08_add_safe | propext, Classical.choice, Quot.sound |
| Dist.C08_negative_add_corrupts | propext, Classical.choice, Quot.sound |
| Dist.C08_release_bad_group | propext, Classical.choice, Quot.sound |
| Dist.C08_release_remove_from_empty | propext, Classical.choice, Quot.sound |
| Dist.C08_remove_safe | propext, Classical.choice, Quot.sound |
| Dist.C09_ids | propext, Classical.choice, Quot.sound |
| Dist.C09_stale_id | propext, Classical.choice, Quot.sound |
| Dist.C10_global_ids_wrap | propext, Classical.choice, Quot.sound |
| Dist.C11_empty_groups | propext, Classical.choice, Quot.sound |
| Dist.C11_in_step | propext, Classical.choice, Quot.sound |
| Dist.C12_score_value | propext, Classical.choice, Quot.sound |
| Dist.C13_cache_coherent | propext, Classical.choice, Quot.sound |
| Dist.C13_cached_equals_uncached | propext, Classical.choice, Quot.sound |
| Dist.C14_predictive_sums_to_one | propext, Classical.choice, Quot.sound |
| Dist.C15_alpha_zero | propext, Classical.choice, Quot.sound |
| Dist.C15_empty_groups | propext |
| Dist.C15_exchangeable | propext, Classical.choice, Quot.sound |
| Dist.C15_exchangeable_nonzero_alpha | propext, Classical.choice, Quot.sound |
| Dist.C15_negative_alpha | propext, Classical.choice, Quot.sound |
| Dist.C15_nobody | propext, Classical.choice, Quot.sound |
| Dist.C15_nonzero_alpha_partial | propext, Classical.choice, Quot.sound |
| Dist.C15_score_counts_is_seating_score | propext, Classical.choice, Quot.sound |
| Dist.C16_nonvacuous | propext, Classical.choice, Quot.sound |
| Dist.C16_nonzero_alpha_partial | propext, Classical.choice, Quot.sound |
| Dist.C16_partition_distribution | propext, Classical.choice, Quot.sound |
| Dist.C17_defined | propext, Classical.choice, Quot.sound |
| Dist.C17_remove_is_minus_add | propext, Classical.choice, Quot.sound |
| Dist.C18_rejected | propext, Quot.sound |
| Dist.C18_sample_assignments | propext, Classical.choice, Quot.sound |
| Dist.C19_contiguity_check | propext, Classical.choice, Quot.sound |
| Dist.C19_contiguous | propext, Classical.choice, Quot.sound |
| Dist.C19_count_assignments | propext, Classical.choice, Quot.sound |
| Dist.C19_negative_id | propext |
| Dist.C19_order_independent | propext, Classical.choice, Quot.sound |
| Dist.C19_total | propext, Classical.choice, Quot.sound |
| Dist.C20_complete_sample | propext, Quot.sound |
| Dist.C20_remove_is_minus_add_partial | propext, Classical.choice, Quot.sound |
| Dist.C20_singleton | propext, Classical.choice, Quot.sound |
| Dist.C21_group_telescopes | propext, Classical.choice, Quot.sound |
| Dist.C21_increment | propext, Classical.choice, Quot.sound |
| Dist.C21_partition_defined | propext, Classical.choice, Quot.sound |
| Dist.C21_score_counts_complete | propext, Classical.choice, Quot.sound |
| Dist.C21_seating | propext, Classical.choice, Quot.sound |
| Dist.C22_low_entropy_sample_assignments | propext, Classical.choice, Quot.sound |
| Dist.C22_too_large | propext, Quot.sound |
| Dist.C23_low_entropy_complete_partial | propext, Classical.choice, Quot.sound |
| Dist.C23_low_entropy_depends_on_empty_groups | propext, Classical.choice, Quot.sound |
| Dist.C23_pitman_yor | propext |
| Dist.C24_normalised | propext, Classical.choice, Quot.sound |
| Dist.C24_table | propext, Classical.choice, Quot.sound |
| Dist.C25_bb_contents | propext, Classical.choice, Quot.sound |
| Dist.C25_bb_history | propext, Classical.choice, Quot.sound |
| Dist.C25_bb_inverse | propext, Quot.sound |
| Dist.C25_bb_order | propext, Classical.choice, Quot.sound |
| Dist.C25_bnb_contents | propext, Classical.choice, Quot.sound |
| Dist.C25_bnb_inverse | propext, Classical.choice, Quot.sound |
| Dist.C25_bnb_order | propext, Classical.choice, Quot.sound |
| Dist.C25_dd_contents | propext, Classical.choice, Quot.sound |
| Dist.C25_dd_history | propext, Classical.choice, Quot.sound |
| Dist.C25_dd_inverse | propext, Quot.sound |
| Dist.C25_dd_order | propext, Classical.choice, Quot.sound |
| Dist.C25_dpd_contents | propext, Classical.choice, Quot.sound |
| Dist.C25_dpd_history | propext, Classical.choice, Quot.sound |
| Dist.C25_dpd_inverse | propext, Classical.choice, Quot.sound |
| Dist.C25_dpd_order | propext, Classical.choice, Quot.sound |
| Dist.C25_gp_contents | propext, Classical.choice, Quot.sound |
| Dist.C25_gp_inverse | propext, Classical.choice, Quot.sound |
| Dist.C25_gp_order | propext, Classical.choice, Quot.sound |
| Dist.C25_gp_order_int | propext, Classical.choice, Quot.sound |
| Dist.C25_nich_contents | propext, Classical.choice, Quot.sound |
| Dist.C25_nich_inverse | propext, Classical.choice, Quot.sound |
| Dist.C25_nich_order | propext, Classical.choice, Quot.sound |
| Dist.C26_bb | propext, Classical.choice, Quot.sound |
| Dist.C26_bnb | propext, Classical.choice, Quot.sound |
| Dist.C26_dd | propext, Classical.choice, Quot.sound |
| Dist.C26_dd_illegal | propext, Classical.choice, Quot.sound |
| Dist.C26_dpd | propext, Classical.choice, Quot.sound |
| Dist.C26_gp | propext, Classical.choice, Quot.sound |
| Dist.C26_gp_int | propext, Classical.choice, Quot.sound |
| Dist.C26_nich_iff | propext, Classical.choice, Quot.sound |
| Dist.C26_nich_partial | propext, Classical.choice, Quot.sound |
| Dist.C26_nich_witness | propext, Classical.choice, Quot.sound |
| Dist.C26_nich_zero | propext, Classical.choice, Quot.sound |
| Dist.C27_bb | propext, Classical.choice, Quot.sound |
| Dist.C27_bnb | propext, Classical.choice, Quot.sound |
| Dist.C27_dd_merge_score | propext, Classical.choice, Quot.sound |
| Dist.C27_dd_merge_total | propext, Classical.choice, Quot.sound |
| Dist.C27_dd_partial | propext, Classical.choice, Quot.sound |
| Dist.C27_dpd_merge_score | propext, Classical.choice, Quot.sound |
| Dist.C27_dpd_partial | propext, Classical.choice, Quot.sound |
| Dist.C27_gp | propext, Classical.choice, Quot.sound |
| Dist.C27_gp_int | propext, Classical.choice, Quot.sound |
| Dist.C27_nich_empty | propext, Classical.choice, Quot.sound |
| Dist.C27_nich_partial | propext, Classical.choice, Quot.sound |
| Dist.C28_bb | propext, Classical.choice, Quot.sound |
| Dist.C28_bb_empty | propext, Classical.choice, Quot.sound |
| Dist.C28_bb_step | propext, Classical.choice, Quot.sound |
| Dist.C28_bnb | propext, Classical.choice, Quot.sound |
| Dist.C28_bnb_empty | propext, Classical.choice, Quot.sound |
| Dist.C28_bnb_step | propext, Classical.choice, Quot.sound |
| Dist.C28_dd | propext, Classical.choice, Quot.sound |
| Dist.C28_dd_empty | propext, Classical.choice, Quot.sound |
| Dist.C28_dd_step | propext, Classical.choice, Quot.sound |
| Dist.C28_dpd | propext, Classical.choice, Quot.sound |
| Dist.C28_dpd_empty | propext, Classical.choice, Quot.sound |
| Dist.C28_dpd_step | propext, Classical.choice, Quot.sound |
| Dist.C28_gp | propext, Classical.choice, Quot.sound |
| Dist.C28_gp_empty | propext, Classical.choice, Quot.sound |
| Dist.C28_gp_step | propext, Classical.choice, Quot.sound |
| Dist.C28_nich | propext, Classical.choice, Quot.sound |
| Dist.C28_nich_empty | propext, Classical.choice, Quot.sound |
| Dist.C28_nich_step | propext, Classical.choice, Quot.sound |
| Dist.C29_bb | propext, Classical.choice, Quot.sound |
| Dist.C29_bnb | propext, Classical.choice, Quot.sound |
| Dist.C29_dd | propext, Classical.choice, Quot.sound |
| Dist.C29_dpd | propext, Classical.choice, Quot.sound |
| Dist.C29_gp | propext, Classical.choice, Quot.sound |
| Dist.C29_gp_value | propext, Classical.choice, Quot.sound |
| Dist.C29_nich | propext, Classical.choice, Quot.sound |
| Dist.C30_bb | propext, Classical.choice, Quot.sound |
| Dist.C30_dd | propext, Classical.choice, Quot.sound |
| Dist.C30_dpd | propext, Classical.choice, Quot.sound |
| Dist.C31_bnb_deficient | propext, Classical.choice, Quot.sound |
| Dist.C31_bnb_partial | propext, Classical.choice, Quot.sound |
| Dist.C31_gp | propext, Classical.choice, Quot.sound |
| Dist.C31_gp_uint32 | propext, Classical.choice, Quot.sound |
| Dist.C32_nich | propext, Classical.choice, Quot.sound |
| Dist.C33_bnb | propext, Classical.choice, Quot.sound |
| Dist.C33_gp | propext, Classical.choice, Quot.sound |
| Dist.C33_nich | propext, Classical.choice, Quot.sound |
| Dist.C34_bb | propext, Classical.choice, Quot.sound |
| Dist.C34_bnb | propext, Classical.choice, Quot.sound |
| Dist.C34_dd | propext, Classical.choice, Quot.sound |
| Dist.C34_dpd | propext, Classical.choice, Quot.sound |
| Dist.C34_gp | propext, Classical.choice, Quot.sound |
| Dist.C34_nich | propext, Classical.choice, Quot.sound |
| Dist.C35_bb | propext, Classical.choice, Quot.sound |
| Dist.C35_bnb | propext, Classical.choice, Quot.sound |
| Dist.C35_bnb_scorer | propext, Classical.choice, Quot.sound |
| Dist.C35_dd | propext, Classical.choice, Quot.sound |
| Dist.C35_dd_bits | propext, Classical.choice, Quot.sound |
| Dist.C35_dd_uninitialised | propext, Classical.choice, Quot.sound |
| Dist.C35_gp | propext, Classical.choice, Quot.sound |
| Dist.C35_nich | propext, Classical.choice, Quot.sound |
| Dist.C35_small | propext, Classical.choice, Quot.sound |
| Dist.C36_bb | propext, Classical.choice, Quot.sound |
| Dist.C36_bnb | propext, Classical.choice, Quot.sound |
| Dist.C36_dd | propext, Classical.choice, Quot.sound |
| Dist.C36_dd_grid | propext, Classical.choice, Quot.sound |
| Dist.C36_dpd | propext, Classical.choice, Quot.sound |
| Dist.C36_gp | propext, Classical.choice, Quot.sound |
| Dist.C36_gp_debt | propext, Classical.choice, Quot.sound |
| Dist.C36_grid | propext, Quot.sound |
| Dist.C36_nich | propext, Classical.choice, Quot.sound |
| Dist.C36_nich_data | propext, Classical.choice, Quot.sound |
| Dist.C36_small | propext, Quot.sound |
| Dist.C36_small_exact | propext, Classical.choice, Quot.sound |
| Dist.C37 | propext, Classical.choice, Quot.sound |
| Dist.C37_bits | propext, Classical.choice, Quot.sound |
| Dist.C37_group_validate | propext, Classical.choice, Quot.sound |
| Dist.C37_nonempty_group | propext, Classical.choice, Quot.sound |
| Dist.C37_row_without_weight | propext, Classical.choice, Quot.sound |
| Dist.C38_clamp | propext, Classical.choice, Quot.sound |
| Dist.C38_known | propext, Classical.choice, Quot.sound |
| Dist.C38_partial | propext, Classical.choice, Quot.sound |
| Dist.C39_mass_gain | propext, Classical.choice, Quot.sound |
| Dist.C39_overflow | propext, Classical.choice, Quot.sound |
| Dist.C39_partial | propext, Classical.choice, Quot.sound |
| Dist.C39_terminates | propext, Classical.choice, Quot.sound |
| Dist.C40_bb | propext, Quot.sound |
| Dist.C40_bnb | propext |
| Dist.C40_clustering | propext, Quot.sound |
| Dist.C40_dd_group_partial | propext, Classical.choice, Quot.sound |
| Dist.C40_dd_merged | propext, Classical.choice, Quot.sound |
| Dist.C40_dd_shared | propext, Quot.sound |
| Dist.C40_dpd_group_holds | propext, Classical.choice, Quot.sound |
| Dist.C40_dpd_group_partial | propext, Classical.choice, Quot.sound |
| Dist.C40_dpd_lost | propext, Classical.choice, Quot.sound |
| Dist.C40_dpd_overflow | propext, Classical.choice, Quot.sound |
| Dist.C40_dpd_shared_exact | propext, Classical.choice, Quot.sound |
| Dist.C40_dpd_shared_partial | propext, Classical.choice, Quot.sound |
| Dist.C40_gp | propext |
| Dist.C40_nich | propext, Quot.sound |
| Dist.C40_niw_group | propext, Classical.choice, Quot.sound |
| Dist.C40_niw_shared | propext, Classical.choice, Quot.sound |
| Dist.C41_chain | propext, Classical.choice, Quot.sound |
| Dist.C41_contents | propext, Classical.choice, Quot.sound |
| Dist.C41_exchangeable | propext, Classical.choice, Quot.sound |
| Dist.C41_inverse | propext, Classical.choice, Quot.sound |
| Dist.C41_merge | propext, Classical.choice, Quot.sound |
| Dist.C41_negative_count | propext, Classical.choice, Quot.sound |
| Dist.C41_order | propext, Classical.choice, Quot.sound |
| Dist.C41_posterior | propext, Classical.choice, Quot.sound |
| Dist.C41_predictive | propext, Classical.choice, Quot.sound |
| Dist.C41_repeated | propext, Classical.choice, Quot.sound |
| Dist.C41_step | propext, Classical.choice, Quot.sound |
| Dist.C42 | propext, Classical.choice, Quot.sound |
| Dist.C42_index | propext, Classical.choice, Quot.sound |
| Dist.C42_probability | propext, Classical.choice, Quot.sound |
| Dist.C43_index | propext, Quot.sound |
| Dist.C43_partial | propext, Classical.choice, Quot.sound |
| Dist.C43_probability | propext, Classical.choice, Quot.sound |
| Dist.C43_probs | propext, Classical.choice, Quot.sound |
| Dist.C43_select | propext, Classical.choice, Quot.sound |
| Dist.C43_zero_draw | propext, Classical.choice, Quot.sound |
| Dist.C44_empty | propext |
| Dist.C44_log_sum_exp | propext, Classical.choice, Quot.sound |
| Dist.C44_normalised | propext, Classical.choice, Quot.sound |
| Dist.C44_probability | propext, Classical.choice, Quot.sound |
| Dist.C44_probs | propext, Classical.choice, Quot.sound |
| Dist.C44_sampling | propext, Classical.choice, Quot.sound |
| Dist.C44_shift | propext, Classical.choice, Quot.sound |
| Dist.C45 | propext, Classical.choice, Quot.sound |
| Dist.C45_single | propext, Classical.choice, Quot.sound |
| Dist.C45_uniform | propext, Classical.choice, Quot.sound |
| Dist.C46_beta | propext, Classical.choice, Quot.sound |
| Dist.C46_dirichlet | propext, Classical.choice, Quot.sound |
| Dist.C46_dirichlet_safe | propext, Classical.choice, Quot.sound |
| Dist.C47_accuracy | propext, Classical.choice, Quot.sound |
| Dist.C47_index | propext, Classical.choice, Quot.sound |
| Dist.C47_index_any_size | propext, Classical.choice, Quot.sound |
| Dist.C47_monotone | propext, Classical.choice, Quot.sound |
| Dist.C47_pow2 | propext, Classical.choice, Quot.sound |
| Dist.C47_sign_blind | propext, Classical.choice, Quot.sound |
| Dist.C47_special | propext, Classical.choice, Quot.sound |
| Dist.C48_lgamma_delegates | propext, Classical.choice, Quot.sound |
| Dist.C48_lgamma_nan | propext, Classical.choice, Quot.sound |
| Dist.C48_lgamma_partial | propext, Classical.choice, Quot.sound |
| Dist.C48_nu_nan | propext, Classical.choice, Quot.sound |
| Dist.C48_nu_partial | propext, Classical.choice, Quot.sound |
| Dist.C49_accuracy | propext, Classical.choice, Quot.sound |
| Dist.C49_accuracy_rounded | propext, Classical.choice, Quot.sound |
| Dist.C49_full_fails | propext, Classical.choice, Quot.sound |
| Dist.C49_minus_infinity | propext, Classical.choice, Quot.sound |
| Dist.C49_positive_nan | propext, Classical.choice, Quot.sound |
| Dist.C49_positive_ub | propext, Classical.choice, Quot.sound |
| Dist.C49_positive_wraps | propext, Classical.choice, Quot.sound |
| Dist.C49_saturates_partial | propext, Classical.choice, Quot.sound |
| Dist.C49_tiny_partial | propext, Classical.choice, Quot.sound |
| Dist.C49_very_negative | propext, Classical.choice, Quot.sound |
| Dist.C51_floor_log2 | propext, Classical.choice, Quot.sound |
| Dist.C51_log_factorial | propext, Classical.choice, Quot.sound |
| Dist.C51_log_factorial_accuracy | propext, Classical.choice, Quot.sound |
| Dist.C51_log_table | propext |
| Dist.C51_log_table_zero | propext |
| Dist.C51_partition_table | propext, Quot.sound |
| Dist.C52_callers | propext, Classical.choice, Quot.sound |
| Dist.C52_elementwise | propext, Classical.choice, Quot.sound |
| Dist.C52_empty_min_max | propext |
| Dist.C52_folds | propext, Quot.sound |
| Dist.C52_functions | propext, Classical.choice, Quot.sound |
| Dist.C52_min_max | propext, Classical.choice, Quot.sound |
| Dist.C52_partial | propext, Classical.choice, Quot.sound |
| Dist.C52_short_buffer | propext, Quot.sound |
| Dist.C53_dpd_group_dumps | propext, Classical.choice, Quot.sound |
| Dist.C53_dpd_group_order | propext, Quot.sound |
| Dist.C53_dpd_group_truncates | propext, Quot.sound |
| Dist.C53_dpd_shared_dumps | propext, Classical.choice, Quot.sound |
| Dist.C53_dpd_shared_order | propext, Quot.sound |
| Dist.C53_dpd_symm | propext, Classical.choice, Quot.sound |
| Dist.C53_gp_log_prod | propext |
| Dist.C53_nan | propext, Classical.choice, Quot.sound |
| Dist.C53_not_transitive | propext, Classical.choice, Quot.sound |
| Dist.C53_refl | propext, Classical.choice, Quot.sound |
| Dist.C53_symm | propext, Classical.choice, Quot.sound |
| Dist.C53_tolerance | propext, Classical.choice, Quot.sound |
| Dist.C54_json | propext, Classical.choice, Quot.sound |
| Dist.C54_roundtrip | propext, Classical.choice, Quot.sound |
| Dist.C54_too_long | propext, Quot.sound |
| Dist.C54_truncated_corrupt | propext, Classical.choice, Quot.sound |
| Dist.C54_truncated_partial | propext, Classical.choice, Quot.sound |
| Dist.C55_allocate | propext, Classical.choice, Quot.sound |
| Dist.C55_assert_aligned | propext, Classical.choice, Quot.sound |
| Dist.C55_beyond | propext, Quot.sound |
| Dist.C55_misaligned | propext, Classical.choice, Quot.sound |
| Dist.C55_no_overflow | propext, Quot.sound |
| Dist.C55_view | propext, Classical.choice, Quot.sound |
| Dist.C56_counter | propext, Classical.choice, Quot.sound |
| Dist.C56_counter_before_clear | propext, Classical.choice, Quot.sound |
| Dist.C56_dpd_example | propext, Classical.choice, Quot.sound |
| Dist.C56_driver | propext, Classical.choice, Quot.sound |
| Dist.C56_driver_before_init | propext, Classical.choice, Quot.sound |
| Dist.C56_tracker | propext, Classical.choice, Quot.sound |
| Dist.C56_tracker_before_init | propext, Classical.choice, Quot.sound |
| Dist.C57_bb_score_data | propext, Classical.choice, Quot.sound |
| Dist.C57_bb_score_value | propext, Classical.choice, Quot.sound |
| Dist.C57_bb_score_value_defined | propext, Classical.choice, Quot.sound |
| Dist.C57_bb_updates | propext, Quot.sound |
| Dist.C57_bnb_score_data | propext, Classical.choice, Quot.sound |
| Dist.C57_bnb_score_value | propext, Classical.choice, Quot.sound |
| Dist.C57_bnb_updates | propext, Quot.sound |
| Dist.C57_dd_count_sum | propext, Classical.choice, Quot.sound |
| Dist.C57_dd_merge_differs | propext, Classical.choice, Quot.sound |
| Dist.C57_dd_negative | propext, Quot.sound |
| Dist.C57_dd_score_data | propext, Classical.choice, Quot.sound |
| Dist.C57_dd_score_value | propext, Classical.choice, Quot.sound |
| Dist.C57_dd_score_value_defined | propext, Classical.choice, Quot.sound |
| Dist.C57_dd_updates | propext, Classical.choice, Quot.sound |
| Dist.C57_dpd_score_data | propext, Classical.choice, Quot.sound |
| Dist.C57_dpd_score_data_defined | propext, Classical.choice, Quot.sound |
| Dist.C57_dpd_score_value | propext, Classical.choice, Quot.sound |
| Dist.C57_dpd_score_value_defined | propext, Classical.choice, Quot.sound |
| Dist.C57_dpd_updates | propext, Classical.choice, Quot.sound |
| Dist.C57_gp_score_data | propext, Classical.choice, Quot.sound |
| Dist.C57_gp_score_data_defined | propext, Classical.choice, Quot.sound |
| Dist.C57_gp_score_value | propext, Classical.choice, Quot.sound |
| Dist.C57_gp_score_value_defined | propext, Classical.choice, Quot.sound |
| Dist.C57_gp_updates | propext, Quot.sound |
| Dist.C57_low_entropy_correction_partial | propext, Classical.choice, Quot.sound |
| Dist.C57_low_entropy_differs | propext, Classical.choice, Quot.sound |
| Dist.C57_low_entropy_score_partial | propext, Classical.choice, Quot.sound |
| Dist.C57_nich_score_data | propext, Classical.choice, Quot.sound |
| Dist.C57_nich_score_data_defined | propext, Classical.choice, Quot.sound |
| Dist.C57_nich_score_value | propext, Classical.choice, Quot.sound |
| Dist.C57_nich_score_value_defined | propext, Classical.choice, Quot.sound |
| Dist.C57_nich_updates | propext, Classical.choice, Quot.sound |
| Dist.C57_niw_score_data | propext, Classical.choice, Quot.sound |
| Dist.C57_niw_score_data_defined | propext, Classical.choice, Quot.sound |
| Dist.C57_niw_score_value | propext, Classical.choice, Quot.sound |
| Dist.C57_niw_updates | propext, Quot.sound |
| Dist.C58_bb | propext, Classical.choice, Quot.sound |
| Dist.C58_bb_probability | propext, Classical.choice, Quot.sound |
| Dist.C58_dd | propext, Classical.choice, Quot.sound |
| Dist.C58_dpd | propext, Classical.choice, Quot.sound |
| Dist.C59_bb | propext, Classical.choice, Quot.sound |
| Dist.C59_bnb_fails | propext, Classical.choice, Quot.sound |
| Dist.C59_bnb_partial | propext, Classical.choice, Quot.sound |
| Dist.C59_dd | propext, Classical.choice, Quot.sound |
| Dist.C59_dpd | propext, Classical.choice, Quot.sound |
| Dist.C59_gp | propext, Classical.choice, Quot.sound |
| Dist.C59_nich | propext, Classical.choice, Quot.sound |
| Dist.C59_niw_fails | propext, Classical.choice, Quot.sound |
| Dist.C59_niw_law | propext, Classical.choice, Quot.sound |
| Dist.C59_niw_partial | propext, Classical.choice, Quot.sound |
| Dist.C60_nonzero_alpha | propext, Classical.choice, Quot.sound |
| Dist.C60_others | propext, Classical.choice, Quot.sound |
| Dist.C60_pitman_yor | propext, Classical.choice, Quot.sound |
| Dist.C60_seating | propext, Classical.choice, Quot.sound |
| Dist.C61_dd_accepts_unknown | propext, Quot.sound |
| Dist.C61_dd_failed_load | propext, Classical.choice, Quot.sound |
| Dist.C61_dd_init | propext |
| Dist.C61_dd_load_dump | propext, Classical.choice, Quot.sound |
| Dist.C61_dd_sample_empty | propext, Classical.choice, Quot.sound |
| Dist.C61_dd_sample_value | propext, Classical.choice, Quot.sound |
| Dist.C61_dd_score_data | propext, Classical.choice, Quot.sound |
| Dist.C61_dd_score_value | propext, Classical.choice, Quot.sound |
| Dist.C61_dd_updates | propext, Classical.choice, Quot.sound |
| Dist.C61_gp_large_value | propext, Classical.choice, Quot.sound |
| Dist.C61_gp_sample_value | propext, Classical.choice, Quot.sound |
| Dist.C61_gp_sample_zero_rate | propext, Classical.choice, Quot.sound |
| Dist.C61_gp_score_data | propext, Classical.choice, Quot.sound |
| Dist.C61_gp_score_value | propext, Classical.choice, Quot.sound |
| Dist.C61_gp_updates | propext, Classical.choice, Quot.sound |
| Dist.C61_nich_merge_empty | propext, Classical.choice, Quot.sound |
| Dist.C61_nich_remove_empty | propext, Classical.choice, Quot.sound |
| Dist.C61_nich_sample_value | propext, Classical.choice, Quot.sound |
| Dist.C61_nich_sample_value_defined | propext, Classical.choice, Quot.sound |
| Dist.C61_nich_score_data | propext, Classical.choice, Quot.sound |
| Dist.C61_nich_score_value | propext, Classical.choice, Quot.sound |
| Dist.C61_nich_swallowed_error | propext, Classical.choice, Quot.sound |
| Dist.C61_nich_updates | propext, Classical.choice, Quot.sound |
| Dist.C62_bb | propext, Classical.choice, Quot.sound |
| Dist.C62_bnb_fails | propext, Classical.choice, Quot.sound |
| Dist.C62_bnb_one | propext, Classical.choice, Quot.sound |
| Dist.C62_bnb_partial | propext, Classical.choice, Quot.sound |
| Dist.C62_dd | propext, Classical.choice, Quot.sound |
| Dist.C62_dpd | propext, Classical.choice, Quot.sound |
| Dist.C62_gp | propext, Classical.choice, Quot.sound |
| Dist.C62_hp_dd | propext, Classical.choice, Quot.sound |
| Dist.C62_hp_dd_empty | propext, Classical.choice, Quot.sound |
| Dist.C62_hp_dd_law | propext, Classical.choice, Quot.sound |
| Dist.C62_hp_gp | propext, Classical.choice, Quot.sound |
| Dist.C62_hp_gp_law | propext, Classical.choice, Quot.sound |
| Dist.C62_hp_nich | propext, Classical.choice, Quot.sound |
| Dist.C62_hp_nich_law | propext, Classical.choice, Quot.sound |
| Dist.C62_hp_nich_zero | propext, Classical.choice, Quot.sound |
| Dist.C62_nich | propext, Classical.choice, Quot.sound |
| Dist.C62_niw_fails | propext, Classical.choice, Quot.sound |
| Dist.C62_niw_law | propext, Classical.choice, Quot.sound |
| Dist.C62_niw_partial | propext, Classical.choice, Quot.sound |
| Dist.C63_fails | propext, Classical.choice, Quot.sound |
| Dist.C63_last_item_partial | propext, Classical.choice, Quot.sound |
| Dist.C63_law | propext, Classical.choice, Quot.sound |
| Dist.C63_two | propext, Classical.choice, Quot.sound |
| Dist.C65_caught | propext |
| Dist.C65_containers_partial | propext, Classical.choice, Quot.sound |
| Dist.C65_dd_load | propext, Quot.sound |
| Dist.C65_dd_mixture | propext, Classical.choice, Quot.sound |
| Dist.C65_dpd_add | propext, Classical.choice, Quot.sound |
| Dist.C65_dpd_load | propext, Classical.choice, Quot.sound |
| Dist.C65_dpd_mixture_partial | propext, Classical.choice, Quot.sound |
| Dist.C65_dpd_mixture_remove | propext, Classical.choice, Quot.sound |
| Dist.C65_driver | propext, Classical.choice, Quot.sound |
| Dist.C65_driver_caught | propext, Classical.choice, Quot.sound |
| Dist.C65_driver_init | propext, Classical.choice, Quot.sound |
| Dist.C65_groups | propext, Classical.choice, Quot.sound |
| Dist.C65_ids | propext, Classical.choice, Quot.sound |
| Dist.C65_ids_caught | propext, Classical.choice, Quot.sound |
| Dist.C65_refines_counter | propext, Classical.choice, Quot.sound |
| Dist.C65_refines_dd_load | propext, Quot.sound |
| Dist.C65_refines_dpd_shared | propext, Classical.choice, Quot.sound |
| Dist.C65_refines_driver | propext, Classical.choice, Quot.sound |
| Dist.C65_refines_groups | propext, Classical.choice, Quot.sound |
| Dist.C65_refines_ids | propext, Classical.choice, Quot.sound |
| Dist.C65_refines_scorers | propext, Classical.choice, Quot.sound |
| Dist.C65_refines_slave | propext, Quot.sound |
| Dist.C65_refines_sparse | propext, Classical.choice, Quot.sound |
| Dist.C65_rename | propext, Classical.choice, Quot.sound |
| Dist.C65_slave | propext, Quot.sound |
| Dist.C66_compress_gibbs | propext, Classical.choice, Quot.sound |
| Dist.C66_compress_seq_gibbs | propext, Classical.choice, Quot.sound |
| Dist.C66_compress_sequential | propext, Classical.choice, Quot.sound |
| Dist.C66_converges | propext, Classical.choice, Quot.sound |
| Dist.C66_dd_uninitialised | propext, Classical.choice, Quot.sound |
| Dist.C66_draws | propext, Classical.choice, Quot.sound |
| Dist.C66_invariant | propext, Classical.choice, Quot.sound |
| Dist.C66_place | propext, Classical.choice, Quot.sound |
| Dist.C66_prior_start | propext, Classical.choice, Quot.sound |
| Dist.C66_reached | propext, Classical.choice, Quot.sound |
| Dist.C66_sequential_ends | propext, Classical.choice, Quot.sound |
| Dist.C66_step | propext, Classical.choice, Quot.sound |
| Dist.C67_annealing | propext, Classical.choice, Quot.sound |
| Dist.C67_draws | propext, Classical.choice, Quot.sound |
| Dist.C67_no_samples | propext, Classical.choice, Quot.sound |
| Dist.C68_bb_group | propext, Classical.choice, Quot.sound |
| Dist.C68_bb_value | propext, Classical.choice, Quot.sound |
| Dist.C68_bnb_fails | propext, Classical.choice, Quot.sound |
| Dist.C68_bnb_group_partial | propext, Classical.choice, Quot.sound |
| Dist.C68_bnb_one | propext, Classical.choice, Quot.sound |
| Dist.C68_bnb_value_partial | propext, Classical.choice, Quot.sound |
| Dist.C68_dd_group | propext, Classical.choice, Quot.sound |
| Dist.C68_dd_value | propext, Classical.choice, Quot.sound |
| Dist.C68_dpd_group | propext, Classical.choice, Quot.sound |
| Dist.C68_dpd_value | propext, Classical.choice, Quot.sound |
| Dist.C68_gp_group | propext, Classical.choice, Quot.sound |
| Dist.C68_gp_value | propext, Classical.choice, Quot.sound |
| Dist.C68_nich_group | propext, Classical.choice, Quot.sound |
| Dist.C68_nich_value | propext, Classical.choice, Quot.sound |
| Dist.C68_niw_group | propext, Classical.choice, Quot.sound |
| Dist.C68_niw_value | propext, Classical.choice, Quot.sound |
| Dist.C69_lgamma | propext, Classical.choice, Quot.sound |
| Dist.C69_lgamma_exact | propext, Classical.choice, Quot.sound |
| Dist.C69_log_factorial | propext, Classical.choice, Quot.sound |
| Dist.C69_log_factorial_wrap | propext, Classical.choice, Quot.sound |
| Dist.C70_nu | propext, Classical.choice, Quot.sound |
| Dist.C70_nu_sharp | propext, Classical.choice, Quot.sound |
| Dist.C71_partition | propext, Classical.choice, Quot.sound |
| Dist.C71_partition_fail | propext |
| Dist.C71_partition_uniform | propext, Classical.choice, Quot.sound |
| Dist.C71_stick | propext, Classical.choice, Quot.sound |
| Dist.C71_stick_empty | propext, Classical.choice, Quot.sound |
| Dist.C71_stick_ends | propext, Classical.choice, Quot.sound |
| Dist.C71_stick_rounds | propext, Classical.choice, Quot.sound |
| Dist.C72_student_t_fails | propext, Classical.choice, Quot.sound |
| Dist.C72_student_t_law | propext, Classical.choice, Quot.sound |
| Dist.C72_student_t_partial | propext, Classical.choice, Quot.sound |
| Dist.C72_student_t_score | propext, Classical.choice, Quot.sound |
| Dist.C72_wishart_mean | propext, Classical.choice, Quot.sound |
| Dist.C72_wishart_naive_partial | propext, Classical.choice, Quot.sound |
| Dist.C72_wishart_v2_mean | propext, Classical.choice, Quot.sound |
| Dist.C78_lmultigamma | propext, Classical.choice, Quot.sound |
| Dist.C78_lmultigamma_wraps | propext, Classical.choice, Quot.sound |
| Dist.C78_log_beta | propext, Classical.choice, Quot.sound |
| Dist.C78_log_binom | propext, Classical.choice, Quot.sound |
| Dist.C78_multigamma_recursion | propext, Classical.choice, Quot.sound |
| Dist.C78_student_t | propext, Classical.choice, Quot.sound |
| Dist.C78_student_t_nich | propext, Classical.choice, Quot.sound |
| Dist.C81_log_sum_exp | propext, Classical.choice, Quot.sound |
| Dist.C81_probability | propext, Classical.choice, Quot.sound |
| Dist.C81_probs | propext, Classical.choice, Quot.sound |
| Dist.C81_sampling | propext, Classical.choice, Quot.sound |
| Dist.C82_compress_gibbs | propext, Classical.choice, Quot.sound |
| Dist.C82_compress_seq_gibbs | propext, Classical.choice, Quot.sound |
| Dist.C82_converges | propext, Classical.choice, Quot.sound |
| Dist.C82_draws | propext, Classical.choice, Quot.sound |
| Dist.C82_scores | propext, Classical.choice, Quot.sound |
| Dist.C82_step | propext, Classical.choice, Quot.sound |
| Dist.C85_law | propext, Classical.choice, Quot.sound |
| Dist.C85_not_exchangeable | propext, Classical.choice, Quot.sound |
| Dist.C85_partition | propext, Classical.choice, Quot.sound |
| Dist.C85_range | propext, Classical.choice, Quot.sound |
| Dist.C85_remove_partial | propext, Classical.choice, Quot.sound |
| Dist.C85_score_complete | propext, Classical.choice, Quot.sound |
| Dist.C85_score_incomplete | propext, Classical.choice, Quot.sound |
| Dist.C85_score_refused | propext, Classical.choice, Quot.sound |
| Dist.C85_total | propext, Classical.choice, Quot.sound |
| Dist.C85_valid | propext, Classical.choice, Quot.sound |
| Dist.C86_coefficient | propext, Classical.choice, Quot.sound |
| Dist.C86_counts | propext, Classical.choice, Quot.sound |
| Dist.C86_incomplete_mass | propext, Classical.choice, Quot.sound |
| Dist.C86_incomplete_not_normalised | propext, Classical.choice, Quot.sound |
| Dist.C86_log_partition | propext, Classical.choice, Quot.sound |
| Dist.C86_new_cluster_inexact | propext, Classical.choice, Quot.sound |
| Dist.C86_pairwise | propext, Classical.choice, Quot.sound |
| Dist.C86_postpred | propext, Classical.choice, Quot.sound |
| Dist.C86_postpred_complete | propext, Classical.choice, Quot.sound |
| Dist.C86_postpred_single | propext, Classical.choice, Quot.sound |
| Dist.C86_subprobs | propext, Classical.choice, Quot.sound |
| Dist.C86_table | propext, Classical.choice, Quot.sound |
| Dist.C92_chain | propext, Classical.choice, Quot.sound |
| Dist.C92_fourth_order | propext, Classical.choice, Quot.sound |
| Dist.C92_gauss | propext, Classical.choice, Quot.sound |
| Dist.C92_histogram | propext, Classical.choice, Quot.sound |
| Dist.C92_histogram_mass | propext, Classical.choice, Quot.sound |
| Dist.C92_histogram_shifted | propext, Classical.choice, Quot.sound |
| Dist.C92_order | propext, Classical.choice, Quot.sound |
| Dist.C92_predictive | propext, Classical.choice, Quot.sound |
| Dist.C92_simone | propext, Classical.choice, Quot.sound |
| Dist.C92_simtwo | propext, Classical.choice, Quot.sound |
| Dist.C95_group_load | propext, Classical.choice, Quot.sound |
| Dist.C95_group_load_twice | propext, Classical.choice, Quot.sound |
| Dist.C95_group_message_debt | propext, Classical.choice, Quot.sound |
| Dist.C95_group_round_trip | propext, Classical.choice, Quot.sound |
| Dist.C95_history | propext, Classical.choice, Quot.sound |
| Dist.C95_load | propext, Classical.choice, Quot.sound |
| Dist.C95_load_excess | propext, Classical.choice, Quot.sound |
| Dist.C95_message_lengths | propext, Classical.choice, Quot.sound |
| Dist.C95_message_missing | propext, Classical.choice, Quot.sound |
| Dist.C95_message_round_trip | propext, Classical.choice, Quot.sound |
| Dist.C95_new_weight | propext, Classical.choice, Quot.sound |
| Dist.C95_realize | propext, Classical.choice, Quot.sound |
| Dist.C95_realize_orphan | propext, Classical.choice, Quot.sound |
| Dist.C95_refused | propext, Classical.choice, Quot.sound |
| Dist.C95_round_trip | propext, Classical.choice, Quot.sound |
| Dist.C96_dd_group_exchange | propext, Classical.choice, Quot.sound |
| Dist.C96_dd_message_large | propext, Quot.sound |
| Dist.C96_dictionaries | propext |
| Dist.C96_exchange | propext, Classical.choice, Quot.sound |
| Dist.C96_group_exchange | propext, Classical.choice, Quot.sound |
| Dist.C96_group_messages | propext, Quot.sound |
| Dist.C96_group_refused | propext, Quot.sound |
| Dist.C96_niw_group_debt | propext, Quot.sound |
| Dist.C96_niw_group_load | propext, Classical.choice, Quot.sound |
| Dist.C96_niw_group_message | propext, Quot.sound |
| Dist.C96_niw_load | propext, Classical.choice, Quot.sound |
| Dist.C96_niw_message | propext, Quot.sound |
| Dist.C96_niw_message_kappa | propext, Classical.choice, Quot.sound |
| Dist.C96_niw_round_trip | propext, Classical.choice, Quot.sound |
| Dist.C96_niw_third_axis | propext, Quot.sound |
| Dist.C96_shared_messages | propext, Quot.sound |
| Dist.C97_chdir | propext |
| Dist.C97_chdir_old_gone | propext |
| Dist.C97_chdir_paths | propext |
| Dist.C97_chdir_refused | propext |
| Dist.C97_clean | propext, Quot.sound |
| Dist.C97_clean_nothing | propext, Quot.sound |
| Dist.C97_nested | propext, Classical.choice, Quot.sound |
| Dist.C97_setup | propext, Quot.sound |
| Dist.C97_tempdir | propext, Quot.sound |
| Dist.C97_tempdir_leak | propext, Quot.sound |
| Dist.C97_tempdir_no_trace | propext, Quot.sound |
| Dist.C97_tempdir_refused | propext, Quot.sound |
| Dist.C97_tempdir_self_removed | propext, Quot.sound |
| Dist.C98_count | propext, Classical.choice, Quot.sound |
| Dist.C98_entries | propext, Classical.choice, Quot.sound |
| Dist.C98_layout | propext, Classical.choice, Quot.sound |
| Dist.C98_listings | propext, Classical.choice, Quot.sound |
| Dist.C98_listings_agree | propext, Classical.choice, Quot.sound |
| Dist.C98_no_width | none |
| Dist.Examples.C56_examples | propext, Classical.choice, Quot.sound |
| Dist.GP.C89_gp_cycles | propext, Classical.choice, Quot.sound |
| Dist.Img.C90_blank | propext, Classical.choice, Quot.sound |
| Dist.Img.C90_coordinates | propext, Classical.choice, Quot.sound |
| Dist.Img.C90_density | propext, Classical.choice, Quot.sound |
| Dist.Img.C90_narrow | propext, Classical.choice, Quot.sound |
| Dist.Img.C90_sample | propext, Classical.choice, Quot.sound |
| Dist.Img.C90_synthesis | propext, Classical.choice, Quot.sound |
| Dist.Img.C90_tally | propext, Classical.choice, Quot.sound |
| Dist.License.C94_code | propext, Classical.choice, Quot.sound |
| Dist.License.C94_commands | propext, Classical.choice, Quot.sound |
| Dist.License.C94_comments_only | propext, Classical.choice, Quot.sound |
| Dist.License.C94_files | propext, Classical.choice, Quot.sound |
| Dist.License.C94_leading_comments_lost | propext, Classical.choice, Quot.sound |
| Dist.License.C94_strip | propext, Classical.choice, Quot.sound |
| Dist.License.C94_strip_idempotent | propext, Classical.choice, Quot.sound |
| Dist.License.C94_symbol | propext, Classical.choice, Quot.sound |
| Dist.License.C94_update | propext, Classical.choice, Quot.sound |
| Dist.License.C94_update_idempotent | propext, Classical.choice, Quot.sound |
| Dist.License.C94_update_no_code | propext, Classical.choice, Quot.sound |
| Dist.License.C94_update_replaces | propext, Classical.choice, Quot.sound |
| Dist.License.C94_which | propext, Classical.choice, Quot.sound |
| Dist.NICH.C88_accurate | propext, Classical.choice, Quot.sound |
| Dist.NICH.C88_add | propext, Classical.choice, Quot.sound |
| Dist.NICH.C88_bounded | propext, Classical.choice, Quot.sound |
| Dist.NICH.C88_grows | propext, Classical.choice, Quot.sound |
| Dist.NICH.C88_merge | propext, Classical.choice, Quot.sound |
| Dist.NICH.C88_merge_empty | propext, Classical.choice, Quot.sound |
| Dist.NICH.C88_merge_overshoots | propext, Classical.choice, Quot.sound |
| Dist.NICH.C88_posterior | propext, Classical.choice, Quot.sound |
| Dist.NICH.C88_remove_negative | propext, Classical.choice, Quot.sound |
| Dist.NICH.C88_stalls | propext, Classical.choice, Quot.sound |
| Dist.NIW.C89_cycles | propext, Classical.choice, Quot.sound |
| Dist.NIW.C89_exact | propext, Classical.choice, Quot.sound |
| Dist.NIW.C89_posterior_indefinite | propext, Classical.choice, Quot.sound |
| Dist.NIW.C89_remove_inexact | propext, Classical.choice, Quot.sound |
| Dist.NIW.Dyn.C93_checked_safe | propext, Quot.sound |
| Dist.NIW.Dyn.C93_load_flat | propext, Quot.sound |
| Dist.NIW.Dyn.C93_load_unvalidated | propext, Quot.sound |
| Dist.NIW.Dyn.C93_plus_group | propext, Quot.sound |
| Dist.NIW.Dyn.C93_round_trip | propext, Quot.sound |
| Dist.NIW.Dyn.C93_sample_value | propext, Quot.sound |
| Dist.NIW.Dyn.C93_scores | propext, Quot.sound |
| Dist.NIW.Dyn.C93_sizes | propext, Quot.sound |
| Dist.NIW.Dyn.C93_updates | propext, Quot.sound |
| Dist.NIW.Dyn.C93_wrong_argument | propext, Quot.sound |
| Dist.NIW.Dyn.C93_wrong_call | propext, Quot.sound |
| Dist.NIW.Dyn.C93_wrong_value_score | propext, Quot.sound |
| Dist.Props.C73_density | propext, Classical.choice, Quot.sound |
| Dist.Props.C73_density_units | propext, Classical.choice, Quot.sound |
| Dist.Props.C73_discrete | propext, Classical.choice, Quot.sound |
| Dist.Props.C73_discrete_truncated | propext, Classical.choice, Quot.sound |
| Dist.Props.C73_empirical_kl | propext, Classical.choice, Quot.sound |
| Dist.Props.C73_impossible_fails | propext, Classical.choice, Quot.sound |
| Dist.Props.C73_multinomial_value | propext, Classical.choice, Quot.sound |
| Dist.Props.C73_truncated_partial | propext, Classical.choice, Quot.sound |
| Dist.Props.C73_two_categories_fails | propext, Classical.choice, Quot.sound |
| Dist.Props.C73_unif01 | propext, Classical.choice, Quot.sound |
| Dist.Props.C73_unif01_one_fails | propext, Classical.choice, Quot.sound |
| Dist.Props.C73_untruncated_fails | propext, Classical.choice, Quot.sound |
| Dist.Props.C74_bin_few_fails | propext, Classical.choice, Quot.sound |
| Dist.Props.C74_bin_fill | propext, Classical.choice, Quot.sound |
| Dist.Props.C74_bin_ranges_partial | propext, Classical.choice, Quot.sound |
| Dist.Props.C74_bin_ties_fails | propext, Classical.choice, Quot.sound |
| Dist.Props.C74_histogram | propext, Classical.choice, Quot.sound |
| Dist.Props.C74_histogram_default | propext, Classical.choice, Quot.sound |
| Dist.Props.C74_histogram_fails | propext, Classical.choice, Quot.sound |
| Dist.Props.C74_histogram_negative | propext, Classical.choice, Quot.sound |
| Dist.Props.C87_chi_squared | propext, Classical.choice, Quot.sound |
| Dist.Props.C87_over_rejects | propext, Classical.choice, Quot.sound |
| Dist.Props.C87_pearson | propext, Classical.choice, Quot.sound |
| Dist.Props.C87_single_category_partial | propext, Classical.choice, Quot.sound |
| Dist.Props.C87_three_categories | propext, Classical.choice, Quot.sound |
| Dist.Props.C87_truncated_fails | propext, Classical.choice, Quot.sound |
| Dist.Props.C87_truncated_limit | propext, Classical.choice, Quot.sound |
| Dist.Props.C87_two_categories | propext, Classical.choice, Quot.sound |
| Dist.Props.C87_uniform_limit | propext, Classical.choice, Quot.sound |
| Dist.Py.C79_bnb_large_r | propext, Quot.sound |
| Dist.Py.C79_dd_add_value | propext, Classical.choice, Quot.sound |
| Dist.Py.C79_dd_group | propext, Classical.choice, Quot.sound |
| Dist.Py.C79_dd_group_dim | propext, Classical.choice, Quot.sound |
| Dist.Py.C79_dd_group_initialised | propext, Classical.choice, Quot.sound |
| Dist.Py.C79_dd_group_overrun | propext, Classical.choice, Quot.sound |
| Dist.Py.C79_dd_overrun | propext, Classical.choice, Quot.sound |
| Dist.Py.C79_dd_shared | propext, Classical.choice, Quot.sound |
| Dist.Py.C79_dpd_beta0 | propext, Classical.choice, Quot.sound |
| Dist.Py.C79_dpd_count_lost | propext, Classical.choice, Quot.sound |
| Dist.Py.C79_dpd_group | propext, Classical.choice, Quot.sound |
| Dist.Py.C79_dpd_load | propext, Classical.choice, Quot.sound |
| Dist.Py.C79_dpd_message | propext, Classical.choice, Quot.sound |
| Dist.Py.C79_dpd_message_large | propext, Classical.choice, Quot.sound |
| Dist.Py.C79_dpd_minus_one | none |
| Dist.Py.C79_dpd_shared | propext, Classical.choice, Quot.sound |
| Dist.Py.C79_gp_large_sum | propext, Quot.sound |
| Dist.Py.C79_group | propext, Classical.choice, Quot.sound |
| Dist.Py.C79_low_entropy | propext, Classical.choice, Quot.sound |
| Dist.Py.C79_niw | propext, Quot.sound |
| Dist.Py.C79_partial_assignment | propext, Quot.sound |
| Dist.Py.C79_pitman_yor | propext, Classical.choice, Quot.sound |
| Dist.Py.C79_shared | propext, Classical.choice, Quot.sound |
| Dist.Py.C79_shared_message | propext, Classical.choice, Quot.sound |
| Dist.Py.C80_append | propext, Classical.choice, Quot.sound |
| Dist.Py.C80_append_without_init | propext, Classical.choice, Quot.sound |
| Dist.Py.C80_bad_id | propext, Quot.sound |
| Dist.Py.C80_getitem | propext, Quot.sound |
| Dist.Py.C80_good_id | propext, Classical.choice, Quot.sound |
| Dist.Py.C80_iteration | propext, Classical.choice, Quot.sound |
| Dist.Py.C80_length | propext, Classical.choice, Quot.sound |
| Dist.Py.C80_negative_value | propext, Classical.choice, Quot.sound |
| Dist.Py.C80_reversed | propext, Quot.sound |
| Dist.Py.C80_score_value | propext, Classical.choice, Quot.sound |
| Dist.Py.C80_single_item | propext, Classical.choice, Quot.sound |
| Dist.Py.C80_spaced | propext, Classical.choice, Quot.sound |
| Dist.Py.C80_spaced_read | propext, Classical.choice, Quot.sound |
| Dist.Py.C80_tracker | propext, Classical.choice, Quot.sound |
| Dist.Py.C80_tracker_init | propext, Classical.choice, Quot.sound |
| Dist.Py.C80_tracker_large | propext, Classical.choice, Quot.sound |
| Dist.Py.C80_write | propext, Classical.choice, Quot.sound |
| Dist.Py.C80_write_spaced | propext, Classical.choice, Quot.sound |
| Dist.Py.C83_call | propext, Classical.choice, Quot.sound |
| Dist.Py.C83_count_then_init | propext, Classical.choice, Quot.sound |
| Dist.Py.C83_init | propext, Classical.choice, Quot.sound |
| Dist.Py.C83_init_range | propext, Classical.choice, Quot.sound |
| Dist.Py.C83_low_entropy_call | propext, Classical.choice, Quot.sound |
| Dist.Py.C83_low_entropy_program | propext, Classical.choice, Quot.sound |
| Dist.Py.C83_low_entropy_scores | propext, Classical.choice, Quot.sound |
| Dist.Py.C83_negative_counts | propext, Classical.choice, Quot.sound |
| Dist.Py.C83_program | propext, Classical.choice, Quot.sound |
| Dist.Py.C83_score_arrays | propext, Classical.choice, Quot.sound |
| Dist.Py.C83_scores | propext, Classical.choice, Quot.sound |
| Dist.Py.C83_unready | propext, Classical.choice, Quot.sound |
| Dist.Py.C84_bad_index | propext, Classical.choice, Quot.sound |
| Dist.Py.C84_count_range | propext, Quot.sound |
| Dist.Py.C84_discrete | propext, Classical.choice, Quot.sound |
| Dist.Py.C84_discrete_spaced | propext, Classical.choice, Quot.sound |
| Dist.Py.C84_empty | propext |
| Dist.Py.C84_log_sum_exp | propext, Classical.choice, Quot.sound |
| Dist.Py.C84_probs | propext, Classical.choice, Quot.sound |
| Dist.Py.C84_sample_sizes | propext, Quot.sound |
| Dist.Py.C84_urn | propext, Classical.choice, Quot.sound |
| Dist.Py.C91_bb_values | propext, Classical.choice, Quot.sound |
| Dist.Py.C91_clusterings | propext, Classical.choice, Quot.sound |
| Dist.Py.C91_count_values | propext, Classical.choice, Quot.sound |
| Dist.Py.C91_dd_shared | propext, Classical.choice, Quot.sound |
| Dist.Py.C91_dd_values | propext, Classical.choice, Quot.sound |
| Dist.Py.C91_from_dict | propext, Classical.choice, Quot.sound |
| Dist.Py.C91_nich_values | propext, Classical.choice, Quot.sound |
| Dist.Py.C91_shared | propext, Classical.choice, Quot.sound |
| Dist.Repeated.C99_disagree | propext, Classical.choice, Quot.sound |
| Dist.Repeated.C99_equal | propext, Classical.choice, Quot.sound |
| Dist.Repeated.C99_equal_floats | propext, Classical.choice, Quot.sound |
| Dist.Repeated.C99_equal_integers | propext, Classical.choice, Quot.sound |
| Dist.Repeated.C99_equal_nan | propext, Classical.choice, Quot.sound |
| Dist.Repeated.C99_message | propext, Classical.choice, Quot.sound |
| Dist.Repeated.C99_print | propext, Classical.choice, Quot.sound |
| Dist.Repeated.C99_print_integers | propext, Classical.choice, Quot.sound |
| Dist.Single.C75_bb | propext, Classical.choice, Quot.sound |
| Dist.Single.C75_dd | propext, Classical.choice, Quot.sound |
| Dist.Single.C75_dd_mixture | propext, Classical.choice, Quot.sound |
| Dist.Single.C75_dpd | propext, Classical.choice, Quot.sound |
| Dist.Single.C75_dpd_mixture | propext, Classical.choice, Quot.sound |
| Dist.Single.C75_pitman_yor | propext, Classical.choice, Quot.sound |
| Dist.Single.C76_nich_contrast | propext, Classical.choice, Quot.sound |
| Dist.Single.C76_nich_flat | propext, Classical.choice, Quot.sound |
| Dist.Single.C76_nich_mass_fails | propext, Classical.choice, Quot.sound |
| Dist.Single.C76_nich_partial | propext, Classical.choice, Quot.sound |
| Dist.Single.C77_bnb_contrast | propext, Classical.choice, Quot.sound |
| Dist.Single.C77_bnb_integer | propext, Classical.choice, Quot.sound |
| Dist.Single.C77_bnb_partial | propext, Classical.choice, Quot.sound |
| Dist.Single.C77_gp_contrast | propext, Classical.choice, Quot.sound |
| Dist.Single.C77_gp_partial | propext, Classical.choice, Quot.sound |
| Dist.Single.C77_gp_zero | propext, Classical.choice, Quot.sound |
| Dist.Single.C78_fast_log_beta_single | propext, Classical.choice, Quot.sound |
| Dist.Single.C78_fast_log_binom_lost | propext, Classical.choice, Quot.sound |
| Dist.Single.C78_fast_log_binom_single | propext, Classical.choice, Quot.sound |
| Dist.Single.C78_fast_score_student_t_single | propext, Classical.choice, Quot.sound |
| Dist.Stirling.C50_approx | propext, Classical.choice, Quot.sound |
| Dist.Stirling.C50_exact | propext, Classical.choice, Quot.sound |
| Dist.Stirling.C50_history | propext, Classical.choice, Quot.sound |
| Dist.Stirling.C50_progress | propext, Classical.choice, Quot.sound |
| Dist.Stirling.C50_threads | propext, Classical.choice, Quot.sound |
| Dist.Util.C73_histogram | propext, Classical.choice, Quot.sound |
| Dist.Util.C73_histogram_raises | propext, Classical.choice, Quot.sound |
| Dist.Wire.C64_checked_objects | propext, Classical.choice, Quot.sound |
| Dist.Wire.C64_clustering | propext, Classical.choice, Quot.sound |
| Dist.Wire.C64_concat | propext, Classical.choice, Quot.sound |
| Dist.Wire.C64_copy | propext, Classical.choice, Quot.sound |
| Dist.Wire.C64_equal | propext, Classical.choice, Quot.sound |
| Dist.Wire.C64_missing | propext, Classical.choice, Quot.sound |
| Dist.Wire.C64_objects | propext, Classical.choice, Quot.sound |
| Dist.Wire.C64_packed | propext, Classical.choice, Quot.sound |
| Dist.Wire.C64_packed_cut | propext, Classical.choice, Quot.sound |
| Dist.Wire.C64_records | propext, Classical.choice, Quot.sound |
| Dist.Wire.C64_roundtrip | propext, Classical.choice, Quot.sound |
| Dist.Wire.C64_size | propext, Classical.choice, Quot.sound |
| Dist.Wire.C64_truncated | propext, Classical.choice, Quot.sound |
| Dist.Wire.C64_truncated_repeated | propext, Classical.choice, Quot.sound |
| Dist.Wire.C64_truncated_required | propext, Classical.choice, Quot.sound |

# Axioms of the property theorems

Generated by `tools/axioms.py` (`#print axioms`).

| property | theorem | axioms |
|---|---|---|
| C01 | `PiCF.Utils.C01_gcd_greatest_common_divisor` | propext, Quot.sound |
| C02 | `PiCF.Utils.C02_gcd_sign_violated` | propext, Quot.sound |
| C02 | `PiCF.Utils.C02_gcd_sign_partial` | propext, Classical.choice, Quot.sound |
| C03 | `PiCF.Utils.C03_subs_in_polynom` | propext, Classical.choice, Quot.sound |
| C04 | `PiCF.Utils.C04_grouper` | propext, Classical.choice, Quot.sound |
| C05 | `PiCF.Utils.C05_stopwatch` | propext, Classical.choice, Quot.sound |
| C06 | `PiCF.Utils.C06_secs` | propext, Classical.choice, Quot.sound |
| C07 | `PiCF.Utils.C07_progressbar_partial` | propext, Classical.choice, Quot.sound |
| C07 | `PiCF.Utils.C07_progressbar_empty_violated` | propext, Classical.choice, Quot.sound |
| C07 | `PiCF.Utils.C07_progressbar_est_len_zero_violated` | propext, Classical.choice, Quot.sound |
| C07 | `PiCF.Utils.C07_progressbar_missing_est_len` | propext, Quot.sound |
| C08 | `PiCF.ContFrac.C08_convergent_value` | propext, Classical.choice, Quot.sound |
| C09 | `PiCF.ContFrac.C09_iterations_compose` | propext, Classical.choice, Quot.sound |
| C10 | `PiCF.ContFrac.C10_history_independence_partial` | propext, Classical.choice, Quot.sound |
| C10 | `PiCF.ContFrac.C10_approach_violated` | propext, Classical.choice, Quot.sound |
| C11 | `PiCF.ContFrac.C11_zero_b_reported` | propext, Classical.choice, Quot.sound |
| C12 | `PiCF.ContFrac.C12_failed_iteration_partial` | propext, Classical.choice, Quot.sound |
| C12 | `PiCF.ContFrac.C12_failed_iteration_logging_violated` | propext, Classical.choice, Quot.sound |
| C12 | `PiCF.ContFrac.C12_logging_exact` | propext, Classical.choice, Quot.sound |
| C13 | `PiCF.ContFrac.C13_determinant_nan` | propext, Classical.choice, Quot.sound |
| C14 | `PiCF.ContFrac.C14_get_p_q_violated` | propext, Classical.choice, Quot.sound |
| C14 | `PiCF.ContFrac.C14_get_p_q_partial` | propext, Classical.choice, Quot.sound |
| C15 | `PiCF.ContFrac.C15_logging_violated` | propext, Classical.choice, Quot.sound |
| C15 | `PiCF.ContFrac.C15_logging_partial` | propext, Classical.choice, Quot.sound |
| C16 | `PiCF.ContFrac.C16_shrinks_iff` | propext, Classical.choice, Quot.sound |
| C16 | `PiCF.ContFrac.C16_is_convergence_fast` | propext, Classical.choice, Quot.sound |
| C17 | `PiCF.ContFrac.C17_index_in_step_partial` | propext, Classical.choice, Quot.sound |
| C17 | `PiCF.ContFrac.C17_samples_labelled_partial` | propext, Classical.choice, Quot.sound |
| C17 | `PiCF.ContFrac.C17_index_in_step_violated` | propext, Classical.choice, Quot.sound |
| C18 | `PiCF.ContFrac.C18_accuracy_limited` | propext, Classical.choice, Quot.sound |
| C19 | `PiCF.ContFrac.C19_negating_a` | propext, Classical.choice, Quot.sound |
| C20 | `PiCF.ContFrac.C20_squeeze` | propext, Classical.choice, Quot.sound |
| C21 | `PiCF.ContFrac.C21_eval_contfrac_partial` | propext, Classical.choice, Quot.sound |
| C21 | `PiCF.ContFrac.C21_equal_length_violated` | propext, Classical.choice, Quot.sound |
| C22 | `PiCF.ContFrac.C22_evaluators_agree` | propext, Classical.choice, Quot.sound |
| C23 | `PiCF.ContFrac.C23_estimation_terminates` | propext, Classical.choice, Quot.sound |
| C23 | `PiCF.ContFrac.C23_windows` | propext, Classical.choice, Quot.sound |
| C24 | `PiCF.C24_write_succeeds_iff` | propext |
| C24 | `PiCF.C24_read_your_write` | propext, Quot.sound |
| C25 | `PiCF.C25_prefix_map` | propext, Classical.choice, Quot.sound |
| C25 | `PiCF.C25_negative_accuracy` | propext, Quot.sound |
| C26 | `PiCF.C26_accuracy_change_keeps_values` | propext, Quot.sound |
| C27 | `PiCF.C27_violated` | propext, Classical.choice, Quot.sound |
| C27 | `PiCF.C27_others_undisturbed_partial` | propext, Quot.sound |
| C28 | `PiCF.C28_violated` | propext, Quot.sound |
| C28 | `PiCF.C28_delete_partial` | propext, Quot.sound |
| C29 | `PiCF.C29_violated` | propext, Classical.choice, Quot.sound |
| C29 | `PiCF.C29_violated_numbers` | propext, Quot.sound |
| C29 | `PiCF.C29_inherited_methods_partial` | propext, Quot.sound |
| C30 | `PiCF.C30_wf` | propext, Quot.sound |
| C30 | `PiCF.C30_pickle_round_trip` | propext, Quot.sound |
| C31 | `PiCF.C31_append_dict` | propext, Quot.sound |
| C32 | `PiCF.C32_join_order` | propext, Classical.choice, Quot.sound |
| C33 | `PiCF.C33_cleanup_partial` | propext, Classical.choice, Quot.sound |
| C33 | `PiCF.C33_violated` | propext, Classical.choice, Quot.sound |
| C34 | `PiCF.C34_enumeration` | propext, Classical.choice, Quot.sound |
| C35 | `PiCF.C35_length_basic` | propext, Classical.choice, Quot.sound |
| C35 | `PiCF.C35_length_indexed` | propext, Classical.choice, Quot.sound |
| C35 | `PiCF.C35_sparse_count` | propext, Classical.choice, Quot.sound |
| C35 | `PiCF.C35_length_sparse_partial` | propext, Classical.choice, Quot.sound |
| C35 | `PiCF.C35_length_sparse_violated` | propext, Classical.choice, Quot.sound |
| C36 | `PiCF.C36_integer_roots_partial` | propext, Classical.choice, Quot.sound |
| C36 | `PiCF.C36_quadratic` | propext, Classical.choice, Quot.sound |
| C36 | `PiCF.C36_exact` | propext, Classical.choice, Quot.sound |
| C36 | `PiCF.C36_integer_roots_violated` | propext, Classical.choice, Quot.sound |
| C37 | `PiCF.C37_no_zero_b` | propext, Classical.choice, Quot.sound |
| C38 | `PiCF.C38_degree` | propext, Classical.choice, Quot.sound |
| C39 | `PiCF.C39_indexed` | propext, Classical.choice, Quot.sound |
| C40 | `PiCF.C40_sparse` | propext, Classical.choice, Quot.sound |
| C40 | `PiCF.C40_zero_coefficients_repeat` | propext, Classical.choice, Quot.sound |
| C41 | `PiCF.C41_exp_filter` | propext, Classical.choice, Quot.sound |
| C42 | `PiCF.C42_ulcd_calls` | propext, Classical.choice, Quot.sound |
| C43 | `PiCF.C43_rational_calls` | propext, Classical.choice, Quot.sound |
| C43 | `PiCF.C43_rational_sequence` | propext, Classical.choice, Quot.sound |
| C44 | `PiCF.C44_canonical_partial` | propext, Classical.choice, Quot.sound |
| C44 | `PiCF.C44_canonical_violated` | propext, Classical.choice, Quot.sound |
| C45 | `PiCF.C45_rational_degenerate_partial` | propext, Classical.choice, Quot.sound |
| C45 | `PiCF.C45_ulcd_degenerate_violated` | propext, Classical.choice, Quot.sound |
| C46 | `PiCF.C46_sound` | propext, Classical.choice, Quot.sound |
| C46 | `PiCF.C46_equivalence` | propext, Classical.choice, Quot.sound |
| C47 | `PiCF.C47_equivalence_partial` | propext, Classical.choice, Quot.sound |
| C47 | `PiCF.C47_equivalence_violated` | propext, Classical.choice, Quot.sound |
| C48 | `PiCF.C48_ulcd_enumeration` | propext, Classical.choice, Quot.sound |
| C48 | `PiCF.C48_up_to_integer` | propext, Classical.choice, Quot.sound |
| C49 | `PiCF.C49_rational_enumeration` | propext, Classical.choice, Quot.sound |
| C50 | `PiCF.C50_params_partial` | propext, Classical.choice, Quot.sound |
| C50 | `PiCF.C50_params_violated` | propext, Classical.choice, Quot.sound |
| C50 | `PiCF.C50_ulcd` | propext, Classical.choice, Quot.sound |
| C51 | `PiCF.C51_sound` | propext, Classical.choice, Quot.sound |
| C51 | `PiCF.C51_complete` | propext, Classical.choice, Quot.sound |
| C52 | `PiCF.C52_no_loss_no_duplicates` | propext, Classical.choice, Quot.sound |
| C52 | `PiCF.C52_rebuild` | propext, Classical.choice, Quot.sound |
| C53 | `PiCF.C53_validation_partial` | propext, Classical.choice, Quot.sound |
| C53 | `PiCF.C53_validation_violated` | propext, Classical.choice, Quot.sound |
| C53 | `PiCF.C53_same_work_violated` | propext, Classical.choice, Quot.sound |
| C54 | `PiCF.C54_clicks_exact_partial` | propext, Classical.choice, Quot.sound |
| C54 | `PiCF.C54_clicks_failure` | propext, Classical.choice, Quot.sound |
| C54 | `PiCF.C54_clicks_violated` | propext, Classical.choice, Quot.sound |
| C55 | `PiCF.C55_matches_found_violated` | propext, Classical.choice, Quot.sound |
| C55 | `PiCF.C55_matches_found_partial` | propext, Classical.choice, Quot.sound |
| C55 | `PiCF.C55_same_key` | propext, Classical.choice, Quot.sound |
| C56 | `PiCF.C56_refine_partial` | propext, Classical.choice, Quot.sound |
| C56 | `PiCF.C56_refine_failure` | propext, Classical.choice, Quot.sound |
| C56 | `PiCF.C56_refine_violated` | propext, Classical.choice, Quot.sound |
| C56 | `PiCF.C56_refine_returns` | propext, Classical.choice, Quot.sound |
| C57 | `PiCF.C57_identity_partial` | propext, Classical.choice, Quot.sound |
| C57 | `PiCF.C57_identity_violated` | propext, Classical.choice, Quot.sound |
| C58 | `PiCF.C58_cancel_partial` | propext, Classical.choice, Quot.sound |
| C58 | `PiCF.C58_cancel_violated` | propext, Classical.choice, Quot.sound |
| C59 | `PiCF.C59_unique` | propext, Classical.choice, Quot.sound |
| C59 | `PiCF.C59_twice` | propext, Classical.choice, Quot.sound |
| C59 | `PiCF.C59_ulcd_returns` | propext, Classical.choice, Quot.sound |
| C60 | `PiCF.C60_roots_partial` | propext, Classical.choice, Quot.sound |
| C60 | `PiCF.C60_no_zero_numerators` | propext, Classical.choice, Quot.sound |
| C60 | `PiCF.C60_roots_violated` | propext, Classical.choice, Quot.sound |
| C61 | `PiCF.C61_approach_partial` | propext |
| C61 | `PiCF.C61_failure` | propext |
| C61 | `PiCF.C61_approach_violated` | propext |
| C61 | `PiCF.C61_construction_violated` | propext |
| C62 | `PiCF.C62_settings_partial` | propext, Quot.sound |
| C62 | `PiCF.C62_settings_violated` | propext |
| C63 | `PiCF.C63_all_or_nothing` | propext, Quot.sound |
| C63 | `PiCF.C63_row_content` | propext, Classical.choice, Quot.sound |
| C63 | `PiCF.C63_mpf` | propext, Classical.choice, Quot.sound |
| C64 | `PiCF.C64_fraction` | propext, Classical.choice, Quot.sound |
| C64 | `PiCF.C64_equations_partial` | propext, Classical.choice, Quot.sound |
| C64 | `PiCF.C64_ulcd_partial` | propext, Classical.choice, Quot.sound |
| C64 | `PiCF.C64_zero_b_raised` | propext, Classical.choice, Quot.sound |
| C64 | `PiCF.C64_depth_zero_violated` | propext, Classical.choice, Quot.sound |
| C65 | `PiCF.C65_ulcd` | propext, Classical.choice, Quot.sound |
| C65 | `PiCF.C65_rational_partial` | propext, Classical.choice, Quot.sound |
| C65 | `PiCF.C65_integer_violated` | propext, Classical.choice, Quot.sound |
| C65 | `PiCF.C65_degree_violated` | propext, Classical.choice, Quot.sound |
| C66 | `PiCF.C66_equations_partial` | propext, Classical.choice, Quot.sound |
| C66 | `PiCF.C66_sqrt_violated` | propext, Classical.choice, Quot.sound |
| C66 | `PiCF.C66_exp_violated` | propext, Classical.choice, Quot.sound |
| C66 | `PiCF.C66_ln_violated` | propext, Classical.choice, Quot.sound |
| C67 | `PiCF.C67_inverse_pairs` | propext, Classical.choice, Quot.sound |
| C67 | `PiCF.C67_this_table` | propext, Classical.choice, Quot.sound |
| C68 | `PiCF.C68_evaluable_partial` | propext, Classical.choice, Quot.sound |
| C68 | `PiCF.C68_evaluable_violated` | propext, Classical.choice, Quot.sound |
| C68 | `PiCF.C68_mpf_violated` | propext, Classical.choice, Quot.sound |
| C69 | `PiCF.Config.C69_generate_partial` | propext, Classical.choice, Quot.sound |
| C69 | `PiCF.Config.C69_use_partial` | propext, Classical.choice, Quot.sound |
| C69 | `PiCF.Config.C69_versions_violated` | propext, Classical.choice, Quot.sound |
| C70 | `PiCF.Config.C70_string` | propext, Classical.choice, Quot.sound |
| C70 | `PiCF.Config.C70_forms` | propext, Classical.choice, Quot.sound |
| C70 | `PiCF.Config.C70_bool` | propext, Classical.choice, Quot.sound |
| C70 | `PiCF.Config.C70_idempotent` | propext, Classical.choice, Quot.sound |
| C71 | `PiCF.Config.C71_path_partial` | propext, Classical.choice, Quot.sound |
| C71 | `PiCF.Config.C71_case_violated` | propext, Classical.choice, Quot.sound |
| C72 | `PiCF.Config.C72_file_partial` | propext, Classical.choice, Quot.sound |
| C72 | `PiCF.Config.C72_percent_violated` | propext, Classical.choice, Quot.sound |
| C72 | `PiCF.Config.C72_option_partial` | propext, Classical.choice, Quot.sound |
| C72 | `PiCF.Config.C72_filter` | propext, Classical.choice, Quot.sound |
| C72 | `PiCF.Config.C72_reload_partial` | propext, Classical.choice, Quot.sound |
| C72 | `PiCF.Config.C72_lhs_type_violated` | propext, Classical.choice, Quot.sound |
| C72 | `PiCF.Config.C72_true_violated` | propext, Classical.choice, Quot.sound |
| C72 | `PiCF.Config.C72_generate_violated` | propext, Classical.choice, Quot.sound |
| C73 | `PiCF.Config.C73_missing_partial` | propext, Classical.choice, Quot.sound |
| C73 | `PiCF.Config.C73_defaults_violated` | propext, Classical.choice, Quot.sound |
| C74 | `PiCF.Config.C74_auto` | propext, Classical.choice, Quot.sound |
| C74 | `PiCF.Config.C74_rejects` | propext, Classical.choice, Quot.sound |
| C75 | `PiCF.Main.C75_new_partial` | propext, Classical.choice, Quot.sound |
| C75 | `PiCF.Main.C75_use_partial` | propext, Classical.choice, Quot.sound |
| C75 | `PiCF.Main.C75_zeta_violated` | propext, Classical.choice, Quot.sound |
| C75 | `PiCF.Main.C75_undefined_violated` | propext, Classical.choice, Quot.sound |
| C75 | `PiCF.Main.C75_use_violated` | propext, Classical.choice, Quot.sound |
| C76 | `PiCF.C76_partition` | propext, Classical.choice, Quot.sound |
| C76 | `PiCF.C76_when` | propext, Classical.choice, Quot.sound |
| C76 | `PiCF.C76_no_polynomial` | propext |
| C77 | `PiCF.C77_hashtable_names` | propext, Classical.choice, Quot.sound |
| C77 | `PiCF.C77_config_names` | propext, Classical.choice, Quot.sound |
| C78 | `PiCF.C78_plain` | propext, Classical.choice, Quot.sound |
| C78 | `PiCF.C78_indexed` | propext, Classical.choice, Quot.sound |
| C78 | `PiCF.C78_sparse_partial` | propext, Classical.choice, Quot.sound |
| C78 | `PiCF.C78_parts_end_normally` | propext, Classical.choice, Quot.sound |
| C78 | `PiCF.C78_sparse_violated` | propext, Classical.choice, Quot.sound |
| C79 | `PiCF.DecStr.C79_digits_partial` | propext, Classical.choice, Quot.sound |
| C79 | `PiCF.DecStr.C79_close_partial` | propext, Classical.choice, Quot.sound |
| C79 | `PiCF.DecStr.C79_zeros_violated` | propext, Classical.choice, Quot.sound |
| C79 | `PiCF.DecStr.C79_small_violated` | propext, Classical.choice, Quot.sound |
| C79 | `PiCF.DecStr.C79_exponent_violated` | propext, Classical.choice, Quot.sound |
| C79 | `PiCF.DecStr.C79_mpf_violated` | none |
| C80 | `PiCF.Process.C80_errors_partial` | propext, Classical.choice, Quot.sound |
| C80 | `PiCF.Process.C80_zero_b_violated` | propext, Classical.choice, Quot.sound |
| C81 | `PiCF.Process.C81_nested` | propext, Classical.choice, Quot.sound |
| C81 | `PiCF.Process.C81_poly` | propext, Classical.choice, Quot.sound |
| C82 | `PiCF.Process.C82_name_partial` | propext, Classical.choice, Quot.sound |
| C82 | `PiCF.Process.C82_name_violated` | propext, Classical.choice, Quot.sound |
| C83 | `PiCF.Main.C83_use` | propext, Classical.choice, Quot.sound |
| C83 | `PiCF.Main.C83_generate_partial` | propext, Classical.choice, Quot.sound |
| C83 | `PiCF.Main.C83_expand_violated` | propext, Classical.choice, Quot.sound |
| C84 | `PiCF.Main.C84_complete` | propext, Classical.choice, Quot.sound |
| C84 | `PiCF.Main.C84_failed` | propext, Classical.choice, Quot.sound |
| C85 | `PiCF.Main.C85_only` | propext, Classical.choice, Quot.sound |
| C85 | `PiCF.Main.C85_auto` | propext, Classical.choice, Quot.sound |
| C86 | `PiCF.Main.C86_partial` | propext, Classical.choice, Quot.sound |
| C86 | `PiCF.Main.C86_index_violated` | propext, Quot.sound |
| C87 | `PiCF.ContFrac.C87_geometric_recognised` | propext, Classical.choice, Quot.sound |
| C87 | `PiCF.ContFrac.C87_slow_recognised` | propext, Classical.choice, Quot.sound |
| C87 | `PiCF.ContFrac.C87_no_false_exponential_partial` | propext, Classical.choice, Quot.sound |
| C87 | `PiCF.ContFrac.C87_no_false_stored_partial` | propext, Classical.choice, Quot.sound |
| C87 | `PiCF.ContFrac.C87_small_step_violated` | propext, Classical.choice, Quot.sound |
| C87 | `PiCF.ContFrac.C87_default_violated` | propext, Classical.choice, Quot.sound |
| C88 | `PiCF.ContFrac.C88_exponential_params_usable` | propext, Classical.choice, Quot.sound |
| C88 | `PiCF.ContFrac.C88_geometric_params_exact` | propext, Classical.choice, Quot.sound |
| C89 | `PiCF.ContFrac.C89_documented_none_violated` | propext, Classical.choice, Quot.sound |
| C89 | `PiCF.ContFrac.C89_documented_raises_violated` | propext, Classical.choice, Quot.sound |
| C89 | `PiCF.ContFrac.C89_documented_partial` | propext, Classical.choice, Quot.sound |
| C90 | `PiCF.C90_mpf_violated` | propext, Classical.choice, Quot.sound |
| C90 | `PiCF.ContFrac.C90_accuracy_partial` | propext, Classical.choice, Quot.sound |
| C90 | `PiCF.ContFrac.C90_accuracy_violated` | propext, Classical.choice, Quot.sound |
| C91 | `PiCF.C91_results_partial` | propext, Classical.choice, Quot.sound |
| C91 | `PiCF.C91_ulcd_partial` | propext, Classical.choice, Quot.sound |
| C91 | `PiCF.C91_rf_partial` | propext, Classical.choice, Quot.sound |
| C91 | `PiCF.C91_cancelled` | propext, Classical.choice, Quot.sound |
| C91 | `PiCF.C91_results_violated` | propext, Classical.choice, Quot.sound |
| C92 | `PiCF.ContFrac.C92_fast` | propext, Classical.choice, Quot.sound |
| C92 | `PiCF.ContFrac.C92_approach` | propext, Classical.choice, Quot.sound |
| C92 | `PiCF.ContFrac.C92_accurate_result` | propext, Classical.choice, Quot.sound |
| C92 | `PiCF.ContFrac.C92_eval` | propext, Classical.choice, Quot.sound |
| C93 | `PiCF.C93_complete_partial` | propext, Classical.choice, Quot.sound |
| C93 | `PiCF.C93_ulcd` | propext, Classical.choice, Quot.sound |
| C93 | `PiCF.C93_code` | propext, Classical.choice, Quot.sound |
| C93 | `PiCF.C93_rf_violated` | propext, Classical.choice, Quot.sound |
| C94 | `PiCF.Process.C94_polys_partial` | propext, Classical.choice, Quot.sound |
| C94 | `PiCF.Process.C94_polys_violated` | propext, Classical.choice, Quot.sound |
| C94 | `PiCF.Process.C94_tuples_violated` | propext, Classical.choice, Quot.sound |
| C95 | `PiCF.Process.C95_rows_partial` | propext, Classical.choice, Quot.sound |
| C95 | `PiCF.Process.C95_rows_violated` | propext, Classical.choice, Quot.sound |
| C96 | `PiCF.Process.C96_formula_partial` | propext, Classical.choice, Quot.sound |
| C96 | `PiCF.Process.C96_formula_violated` | propext, Classical.choice, Quot.sound |
| C97 | `PiCF.Process.C97_analysis_partial` | propext, Classical.choice, Quot.sound |
| C97 | `PiCF.Process.C97_ends` | propext, Classical.choice, Quot.sound |
| C97 | `PiCF.Process.C97_default_violated` | propext, Classical.choice, Quot.sound |
| C97 | `PiCF.Process.C97_cutoff` | propext, Classical.choice, Quot.sound |
| C98 | `PiCF.Process.C98_commands_partial` | propext, Classical.choice, Quot.sound |
| C98 | `PiCF.Process.C98_commands_violated` | propext, Classical.choice, Quot.sound |
| C99 | `PiCF.Output.C99_results_partial` | propext, Classical.choice, Quot.sound |
| C99 | `PiCF.Output.C99_same_minute_violated` | propext, Classical.choice, Quot.sound |
| C99 | `PiCF.Output.C99_clock_violated` | propext, Classical.choice, Quot.sound |
| C100 | `PiCF.Output.C100_join_partial` | propext, Classical.choice, Quot.sound |
| C100 | `PiCF.Output.C100_join_violated` | propext, Classical.choice, Quot.sound |
| C101 | `PiCF.Mitm.C101_print_partial` | propext |
| C101 | `PiCF.Mitm.C101_print_violated` | propext, Classical.choice, Quot.sound |
| C102 | `PiCF.ContFrac.C102_reinitialize_partial` | propext, Classical.choice, Quot.sound |
| C102 | `PiCF.ContFrac.C102_stale_violated` | propext, Classical.choice, Quot.sound |
| C102 | `PiCF.ContFrac.C102_flat_violated` | propext, Quot.sound |
| C103 | `PiCF.ContFrac.C103_compare_partial` | propext, Classical.choice, Quot.sound |
| C103 | `PiCF.ContFrac.C103_fresh_violated` | propext, Classical.choice, Quot.sound |
| C104 | `PiCF.Config.C104_order_partial` | propext, Classical.choice, Quot.sound |
| C104 | `PiCF.Config.C104_unknown_partial` | propext, Classical.choice, Quot.sound |
| C104 | `PiCF.Config.C104_percent_violated` | propext, Classical.choice, Quot.sound |
| C104 | `PiCF.Config.C104_section_violated` | propext, Classical.choice, Quot.sound |
| C105 | `PiCF.Process.C105_read_partial` | propext, Classical.choice, Quot.sound |
| C105 | `PiCF.Process.C105_equations_partial` | propext, Classical.choice, Quot.sound |
| C105 | `PiCF.Process.C105_export_violated` | propext, Classical.choice, Quot.sound |
| C105 | `PiCF.Process.C105_indexed_violated` | propext, Classical.choice, Quot.sound |
| C106 | `PiCF.Process.C106_default_violated` | propext, Classical.choice, Quot.sound |
| C106 | `PiCF.Process.C106_one_window_partial` | propext, Classical.choice, Quot.sound |
| C106 | `PiCF.Process.C106_nan_violated` | propext, Classical.choice, Quot.sound |
| C107 | `PiCF.DistributeMain.C107_parts_partial` | propext, Classical.choice, Quot.sound |
| C107 | `PiCF.DistributeMain.C107_lhs_type_violated` | propext, Classical.choice, Quot.sound |
| C107 | `PiCF.DistributeMain.C107_directory_violated` | propext, Classical.choice, Quot.sound |
| C107 | `PiCF.DistributeMain.C107_absolute_violated` | propext, Classical.choice, Quot.sound |
| C107 | `PiCF.DistributeMain.C107_power` | propext, Classical.choice, Quot.sound |
| C108 | `PiCF.C108_expand_partial` | propext, Classical.choice, Quot.sound |
| C108 | `PiCF.C108_short_violated` | propext, Classical.choice, Quot.sound |
| C108 | `PiCF.C108_iterations_violated` | propext, Classical.choice, Quot.sound |
| C109 | `PiCF.C109_kept_partial` | propext, Classical.choice, Quot.sound |
| C109 | `PiCF.C109_searched` | propext, Classical.choice, Quot.sound |
| C109 | `PiCF.C109_dump_violated` | propext, Classical.choice, Quot.sound |
| C110 | `PiCF.C110_no_exponential_lost` | propext, Classical.choice, Quot.sound |
| C111 | `PiCF.C111_kept_partial` | propext, Classical.choice, Quot.sound |
| C111 | `PiCF.C111_positive` | propext, Classical.choice, Quot.sound |
| C111 | `PiCF.C111_slow_violated` | propext, Classical.choice, Quot.sound |
| C111 | `PiCF.C111_divergent_violated` | propext, Classical.choice, Quot.sound |
| C112 | `PiCF.Process.C112_errors` | propext, Classical.choice, Quot.sound |
| C112 | `PiCF.Process.C112_cf1` | propext, Classical.choice, Quot.sound |
| C112 | `PiCF.Process.C112_cf2` | propext, Classical.choice, Quot.sound |
| C112 | `PiCF.Process.C112_cf3` | propext, Classical.choice, Quot.sound |
| C112 | `PiCF.Process.C112_cf4` | propext, Classical.choice, Quot.sound |
| C113 | `PiCF.C113_value` | propext, Classical.choice, Quot.sound |
| C113 | `PiCF.C113_enumerated` | propext, Classical.choice, Quot.sound |
| C114 | `PiCF.C114_limit_partial` | propext, Classical.choice, Quot.sound |
| C114 | `PiCF.C114_iterations_partial` | propext, Classical.choice, Quot.sound |
| C114 | `PiCF.C114_rational_violated` | propext, Classical.choice, Quot.sound |
| C115 | `PiCF.C115_fit_partial` | propext, Classical.choice, Quot.sound |
| C115 | `PiCF.C115_between` | propext, Classical.choice, Quot.sound |
| C115 | `PiCF.C115_short_violated` | propext, Classical.choice, Quot.sound |
| C115 | `PiCF.C115_order` | propext, Classical.choice, Quot.sound |
| C116 | `PiCF.C116_exponential` | propext, Classical.choice, Quot.sound |
| C116 | `PiCF.C116_positive` | propext, Classical.choice, Quot.sound |
| C116 | `PiCF.C116_slow_violated` | propext, Classical.choice, Quot.sound |
| C116 | `PiCF.C116_divergent_violated` | propext, Classical.choice, Quot.sound |
| C116 | `PiCF.C116_infinite` | propext, Classical.choice, Quot.sound |
| C117 | `PiCF.C117_exponential` | propext, Classical.choice, Quot.sound |
| C117 | `PiCF.C117_positive` | propext, Classical.choice, Quot.sound |
| C117 | `PiCF.C117_underflow_violated` | propext, Classical.choice, Quot.sound |
| C117 | `PiCF.C117_infinite` | propext, Classical.choice, Quot.sound |
| C118 | `PiCF.C118_get_result` | propext, Classical.choice, Quot.sound |
| C118 | `PiCF.C118_eval_positive` | propext, Classical.choice, Quot.sound |
| C118 | `PiCF.C118_precision` | propext, Classical.choice, Quot.sound |
| C118 | `PiCF.C118_lists` | propext, Classical.choice, Quot.sound |
| C118 | `PiCF.C118_refine` | propext, Classical.choice, Quot.sound |
| C118 | `PiCF.C118_refine_mpf` | propext, Classical.choice, Quot.sound |
| C118 | `PiCF.C118_cancellation_violated` | propext, Classical.choice, Quot.sound |
| C119 | `PiCF.ContFrac.C119_rule` | propext, Classical.choice, Quot.sound |
| C120 | `PiCF.C120_calls` | propext, Classical.choice, Quot.sound |
| C120 | `PiCF.C120_flip` | propext, Classical.choice, Quot.sound |
| C120 | `PiCF.C120_precision` | propext, Classical.choice, Quot.sound |
| C120 | `PiCF.C120_refine` | propext, Classical.choice, Quot.sound |
| C121 | `PiCF.Precision.C121_given_partial` | propext, Quot.sound |
| C121 | `PiCF.Precision.C121_raises` | propext, Quot.sound |
| C121 | `PiCF.Precision.C121_reset` | propext, Classical.choice, Quot.sound |
| C121 | `PiCF.Precision.C121_shared_violated` | propext, Quot.sound |
| C121 | `PiCF.Precision.C121_redefined_violated` | propext, Classical.choice, Quot.sound |
| C121 | `PiCF.Precision.C121_main_partial` | propext, Classical.choice, Quot.sound |
| C121 | `PiCF.Precision.C121_use_violated` | propext, Classical.choice, Quot.sound |
| C122 | `PiCF.Scripts.C122_files` | propext, Classical.choice, Quot.sound |
| C122 | `PiCF.Scripts.C122_content` | propext, Classical.choice, Quot.sound |
| C123 | `PiCF.Scripts.C123_usage` | propext, Classical.choice, Quot.sound |
| C123 | `PiCF.Scripts.C123_main_partial` | propext, Classical.choice, Quot.sound |
| C123 | `PiCF.Scripts.C123_main_violated` | propext, Classical.choice, Quot.sound |
| C124 | `PiCF.C124_floats` | propext, Classical.choice, Quot.sound |
| C124 | `PiCF.C124_bound_needed` | propext, Classical.choice, Quot.sound |
| C125 | `PiCF.C125_calls` | propext, Classical.choice, Quot.sound |
| C125 | `PiCF.C125_precision` | propext, Classical.choice, Quot.sound |
| C125 | `PiCF.C125_degenerate` | propext, Classical.choice, Quot.sound |
| C125 | `PiCF.C125_enumeration` | propext, Classical.choice, Quot.sound |
| C125 | `PiCF.C125_refine` | propext, Classical.choice, Quot.sound |
| C126 | `PiCF.ContFrac.C126_default` | propext, Classical.choice, Quot.sound |
| C126 | `PiCF.ContFrac.C126_value` | propext, Classical.choice, Quot.sound |
| C126 | `PiCF.ContFrac.C126_raises` | propext, Classical.choice, Quot.sound |
| C126 | `PiCF.ContFrac.C126_failed` | propext, Classical.choice, Quot.sound |
| C126 | `PiCF.ContFrac.C126_first` | propext, Quot.sound |
| C126 | `PiCF.ContFrac.C126_zero_b_violated` | propext, Classical.choice, Quot.sound |
| C127 | `PiCF.Ini.C127_layout_partial` | propext, Classical.choice, Quot.sound |
| C127 | `PiCF.Ini.C127_same_partial` | propext, Classical.choice, Quot.sound |
| C127 | `PiCF.Ini.C127_duplicate` | propext, Classical.choice, Quot.sound |
| C127 | `PiCF.Ini.C127_no_section` | propext, Classical.choice, Quot.sound |
| C127 | `PiCF.Ini.C127_junk` | propext, Classical.choice, Quot.sound |
| C127 | `PiCF.Ini.C127_written` | propext, Classical.choice, Quot.sound |
| C127 | `PiCF.Ini.C127_saved` | propext, Classical.choice, Quot.sound |
| C127 | `PiCF.Ini.C127_reload_partial` | propext, Classical.choice, Quot.sound |
| C127 | `PiCF.Ini.C127_indent_violated` | propext, Classical.choice, Quot.sound |
| C127 | `PiCF.Ini.C127_inline_violated` | propext, Classical.choice, Quot.sound |
| C128 | `PiCF.ContFrac.C128_limits` | propext, Classical.choice, Quot.sound |
| C128 | `PiCF.ContFrac.C128_assertions` | propext, Classical.choice, Quot.sound |
| C129 | `PiCF.Main.C129_rejected` | propext, Classical.choice, Quot.sound |
| C129 | `PiCF.Main.C129_early_partial` | propext, Classical.choice, Quot.sound |
| C129 | `PiCF.Main.C129_unfinished` | propext, Classical.choice, Quot.sound |
| C129 | `PiCF.Main.C129_third` | propext, Classical.choice, Quot.sound |
| C129 | `PiCF.Main.C129_late_violated` | propext, Classical.choice, Quot.sound |
| C130 | `PiCF.C130_margin` | propext, Classical.choice, Quot.sound |
| C130 | `PiCF.C130_value` | propext, Classical.choice, Quot.sound |
| C130 | `PiCF.C130_refine_partial` | propext, Classical.choice, Quot.sound |
| C130 | `PiCF.C130_exact_partial` | propext, Classical.choice, Quot.sound |
| C130 | `PiCF.C130_bound_violated` | propext, Classical.choice, Quot.sound |
| C131 | `PiCF.C131_tracks` | propext, Classical.choice, Quot.sound |
| C131 | `PiCF.C131_funcs` | propext, Classical.choice, Quot.sound |
| C131 | `PiCF.C131_rhs` | propext, Classical.choice, Quot.sound |
| C131 | `PiCF.C131_refine` | propext, Classical.choice, Quot.sound |
| C132 | `PiCF.Process.C132_plot` | propext, Classical.choice, Quot.sound |
| C132 | `PiCF.Process.C132_raises` | propext, Classical.choice, Quot.sound |
| C132 | `PiCF.Process.C132_line` | propext, Classical.choice, Quot.sound |
| C132 | `PiCF.Process.C132_nips_partial` | propext, Classical.choice, Quot.sound |
| C132 | `PiCF.Process.C132_window_violated` | propext, Classical.choice, Quot.sound |
| C132 | `PiCF.Process.C132_default_violated` | propext, Classical.choice, Quot.sound |
| C133 | `PiCF.Concurrent.C133_runs_partial` | propext, Classical.choice, Quot.sound |
| C133 | `PiCF.Concurrent.C133_minute_violated` | propext, Classical.choice, Quot.sound |
| C133 | `PiCF.Concurrent.C133_same_table_violated` | propext, Classical.choice, Quot.sound |
| C133 | `PiCF.Concurrent.C133_clock_violated` | propext, Classical.choice, Quot.sound |
| C133 | `PiCF.Concurrent.C133_race_violated` | propext, Classical.choice, Quot.sound |
| C133 | `PiCF.Concurrent.C133_lost_violated` | propext, Classical.choice, Quot.sound |
| C133 | `PiCF.Concurrent.C133_parts_partial` | propext, Classical.choice, Quot.sound |
| C134 | `PiCF.Workflow.C134_workflow_partial` | propext, Classical.choice, Quot.sound |
| C134 | `PiCF.Workflow.C134_missing_violated` | propext, Classical.choice, Quot.sound |
| C134 | `PiCF.Workflow.C134_again_violated` | propext, Classical.choice, Quot.sound |
| C135 | `PiCF.C135_keys_partial` | propext, Classical.choice, Quot.sound |
| C135 | `PiCF.C135_decimal_partial` | propext, Classical.choice, Quot.sound |
| C135 | `PiCF.C135_fractional_part` | propext, Classical.choice, Quot.sound |
| C135 | `PiCF.C135_integer_violated` | propext, Classical.choice, Quot.sound |
| C135 | `PiCF.C135_cancellation_violated` | propext, Classical.choice, Quot.sound |
| C136 | `PiCF.C136_sound` | propext, Classical.choice, Quot.sound |
| C136 | `PiCF.C136_exact_partial` | propext, Classical.choice, Quot.sound |
| C136 | `PiCF.C136_wider_partial` | propext, Classical.choice, Quot.sound |
| C136 | `PiCF.C136_divided_partial` | propext, Classical.choice, Quot.sound |
| C136 | `PiCF.C136_code` | propext, Classical.choice, Quot.sound |
| C136 | `PiCF.C136_wider_violated` | propext, Classical.choice, Quot.sound |
| C137 | `PiCF.C137_uninterrupted` | propext, Classical.choice, Quot.sound |
| C137 | `PiCF.C137_cancelled` | propext, Classical.choice, Quot.sound |
| C137 | `PiCF.C137_sound` | propext, Classical.choice, Quot.sound |
| C137 | `PiCF.C137_code` | propext, Classical.choice, Quot.sound |
| C138 | `PiCF.C138_found_partial` | propext, Classical.choice, Quot.sound |
| C138 | `PiCF.C138_true` | propext, Classical.choice, Quot.sound |
| C138 | `PiCF.C138_errors` | propext, Classical.choice, Quot.sound |
| C138 | `PiCF.C138_code` | propext, Classical.choice, Quot.sound |
| C138 | `PiCF.C138_built_violated` | propext, Classical.choice, Quot.sound |
| C139 | `PiCF.C139_tables` | propext, Classical.choice, Quot.sound |
| C139 | `PiCF.C139_outcome` | propext, Classical.choice, Quot.sound |
| C139 | `PiCF.C139_search` | propext, Classical.choice, Quot.sound |
| C140 | `PiCF.C140_tests` | propext, Classical.choice, Quot.sound |
| C140 | `PiCF.C140_digits_partial` | propext, Classical.choice, Quot.sound |
| C140 | `PiCF.C140_first` | propext, Classical.choice, Quot.sound |
| C140 | `PiCF.C140_code_partial` | propext, Classical.choice, Quot.sound |
| C140 | `PiCF.C140_violated` | propext, Classical.choice, Quot.sound |
| C141 | `PiCF.C141_table` | propext, Classical.choice, Quot.sound |
| C141 | `PiCF.C141_outcome` | propext, Classical.choice, Quot.sound |
| C141 | `PiCF.C141_extend` | propext, Classical.choice, Quot.sound |
| C141 | `PiCF.C141_ulcd` | propext, Classical.choice, Quot.sound |
| C141 | `PiCF.C141_numbers` | propext, Classical.choice, Quot.sound |
| C141 | `PiCF.C141_rational` | propext, Classical.choice, Quot.sound |
| C141 | `PiCF.C141_search` | propext, Classical.choice, Quot.sound |
| C142 | `PiCF.Main.C142_passed` | propext, Classical.choice, Quot.sound |
| C142 | `PiCF.Main.C142_skipped` | propext, Classical.choice, Quot.sound |
| C142 | `PiCF.Main.C142_unused_violated` | propext, Classical.choice, Quot.sound |
| C142 | `PiCF.Main.C142_used_partial` | propext, Classical.choice, Quot.sound |
| C142 | `PiCF.Main.C142_index_violated` | propext, Classical.choice, Quot.sound |
| C143 | `PiCF.C143_refine_partial` | propext, Classical.choice, Quot.sound |
| C143 | `PiCF.C143_whole_violated` | propext, Classical.choice, Quot.sound |
| C143 | `PiCF.C143_filters` | propext, Classical.choice, Quot.sound |
| C143 | `PiCF.C143_unique` | propext, Classical.choice, Quot.sound |
| C144 | `PiCF.C144_filters` | propext, Classical.choice, Quot.sound |
| C144 | `PiCF.C144_unique` | propext, Classical.choice, Quot.sound |
| C144 | `PiCF.C144_unique_code` | propext, Classical.choice, Quot.sound |
| C144 | `PiCF.C144_refine` | propext, Classical.choice, Quot.sound |
| C144 | `PiCF.C144_refine_unique_violated` | propext, Classical.choice, Quot.sound |
| C145 | `PiCF.C145_empty_violated` | propext, Classical.choice, Quot.sound |
| C145 | `PiCF.C145_nonempty_partial` | propext, Classical.choice, Quot.sound |
| C146 | `PiCF.C146_result` | propext, Classical.choice, Quot.sound |
| C146 | `PiCF.C146_eval` | propext, Classical.choice, Quot.sound |
| C146 | `PiCF.C146_fast` | propext, Classical.choice, Quot.sound |
| C146 | `PiCF.C146_samples` | propext, Classical.choice, Quot.sound |
| C146 | `PiCF.C146_estimate_partial` | propext, Classical.choice, Quot.sound |
| C146 | `PiCF.C146_type_partial` | propext, Classical.choice, Quot.sound |
| C146 | `PiCF.C146_estimate_violated` | propext, Classical.choice, Quot.sound |
| C146 | `PiCF.C146_unique_violated` | propext, Classical.choice, Quot.sound |
| C147 | `PiCF.C147_plain` | propext, Classical.choice, Quot.sound |
| C147 | `PiCF.C147_indexed` | propext, Classical.choice, Quot.sound |
| C147 | `PiCF.C147_sparse_partial` | propext, Classical.choice, Quot.sound |
| C147 | `PiCF.C147_sparse_violated` | propext, Classical.choice, Quot.sound |
| C147 | `PiCF.C147_table` | propext, Classical.choice, Quot.sound |
| C147 | `PiCF.C147_two_builds_violated` | propext, Classical.choice, Quot.sound |

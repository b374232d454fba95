{
 "claims": [
  {
   "property": "C01",
   "status": "proved",
   "theorems": [
    "PiCF.Utils.C01_gcd_greatest_common_divisor"
   ],
   "note": ""
  },
  {
   "property": "C02",
   "status": "partial",
   "theorems": [
    "PiCF.Utils.C02_gcd_sign_violated",
    "PiCF.Utils.C02_gcd_sign_partial"
   ],
   "note": "False as documented (gcd(-4,6)<0, C02_gcd_sign_violated); exact condition and the real sign rule proved in C02_gcd_sign_partial."
  },
  {
   "property": "C03",
   "status": "proved",
   "theorems": [
    "PiCF.Utils.C03_subs_in_polynom"
   ],
   "note": ""
  },
  {
   "property": "C04",
   "status": "proved",
   "theorems": [
    "PiCF.Utils.C04_grouper"
   ],
   "note": ""
  },
  {
   "property": "C05",
   "status": "proved",
   "theorems": [
    "PiCF.Utils.C05_stopwatch"
   ],
   "note": ""
  },
  {
   "property": "C06",
   "status": "proved",
   "theorems": [
    "PiCF.Utils.C06_secs"
   ],
   "note": ""
  },
  {
   "property": "C07",
   "status": "partial",
   "theorems": [
    "PiCF.Utils.C07_progressbar_partial",
    "PiCF.Utils.C07_progressbar_empty_violated",
    "PiCF.Utils.C07_progressbar_est_len_zero_violated",
    "PiCF.Utils.C07_progressbar_missing_est_len"
   ],
   "note": "Proved for all non-empty iterables with est_len != 0; the empty iterable raises AttributeError and est_len=0 ZeroDivisionError (both proved). A bar without a length and without est_len raises NameError when it is made (C07_progressbar_missing_est_len)."
  },
  {
   "property": "C08",
   "status": "proved",
   "theorems": [
    "PiCF.ContFrac.C08_convergent_value"
   ],
   "note": ""
  },
  {
   "property": "C09",
   "status": "proved",
   "theorems": [
    "PiCF.ContFrac.C09_iterations_compose"
   ],
   "note": ""
  },
  {
   "property": "C10",
   "status": "partial",
   "theorems": [
    "PiCF.ContFrac.C10_history_independence_partial",
    "PiCF.ContFrac.C10_approach_violated"
   ],
   "note": "Proved for everything but the approach type: get_approach_type_and_params() returns 'undefined' after reinitialize and None for a fresh object (C10_approach_violated)."
  },
  {
   "property": "C11",
   "status": "proved",
   "theorems": [
    "PiCF.ContFrac.C11_zero_b_reported"
   ],
   "note": ""
  },
  {
   "property": "C12",
   "status": "partial",
   "theorems": [
    "PiCF.ContFrac.C12_failed_iteration_partial",
    "PiCF.ContFrac.C12_failed_iteration_logging_violated",
    "PiCF.ContFrac.C12_logging_exact"
   ],
   "note": "Proved for objects without logging (any state, count, exception). False with logging: the convergents before the zero are appended although the counter is not advanced (C12_failed_iteration_logging_violated; exactly what is left is C12_logging_exact)."
  },
  {
   "property": "C13",
   "status": "proved",
   "theorems": [
    "PiCF.ContFrac.C13_determinant_nan"
   ],
   "note": ""
  },
  {
   "property": "C14",
   "status": "partial",
   "theorems": [
    "PiCF.ContFrac.C14_get_p_q_violated",
    "PiCF.ContFrac.C14_get_p_q_partial"
   ],
   "note": "False: get_p_q returns the previous convergent (C14_get_p_q_violated). C14_get_p_q_partial proves that it is always convergent n-1."
  },
  {
   "property": "C15",
   "status": "partial",
   "theorems": [
    "PiCF.ContFrac.C15_logging_violated",
    "PiCF.ContFrac.C15_logging_partial"
   ],
   "note": "Proved for n >= 1, including every logged intermediate result. False for n = 0, where a logging object reports 1 (C15_logging_violated)."
  },
  {
   "property": "C16",
   "status": "proved",
   "theorems": [
    "PiCF.ContFrac.C16_shrinks_iff",
    "PiCF.ContFrac.C16_is_convergence_fast"
   ],
   "note": ""
  },
  {
   "property": "C17",
   "status": "partial",
   "theorems": [
    "PiCF.ContFrac.C17_index_in_step_partial",
    "PiCF.ContFrac.C17_samples_labelled_partial",
    "PiCF.ContFrac.C17_index_in_step_violated"
   ],
   "note": "Proved for non-logging objects, non-negative counts and sampling steps >= 5, over all call histories including raising calls. The guard for small steps is built but not raised, and the code itself uses step 1, so samples are mislabelled (C17_index_in_step_violated)."
  },
  {
   "property": "C18",
   "status": "proved",
   "theorems": [
    "PiCF.ContFrac.C18_accuracy_limited"
   ],
   "note": ""
  },
  {
   "property": "C19",
   "status": "proved",
   "theorems": [
    "PiCF.ContFrac.C19_negating_a"
   ],
   "note": ""
  },
  {
   "property": "C20",
   "status": "proved",
   "theorems": [
    "PiCF.ContFrac.C20_squeeze"
   ],
   "note": ""
  },
  {
   "property": "C21",
   "status": "partial",
   "theorems": [
    "PiCF.ContFrac.C21_eval_contfrac_partial",
    "PiCF.ContFrac.C21_equal_length_violated"
   ],
   "note": "Proved for len(a)=len(b)+1, omitted b, and ValueError; for equal lengths the documented value is wrong (C21_equal_length_violated) and the value really computed is proved."
  },
  {
   "property": "C22",
   "status": "proved",
   "theorems": [
    "PiCF.ContFrac.C22_evaluators_agree"
   ],
   "note": ""
  },
  {
   "property": "C23",
   "status": "proved",
   "theorems": [
    "PiCF.ContFrac.C23_estimation_terminates",
    "PiCF.ContFrac.C23_windows"
   ],
   "note": ""
  },
  {
   "property": "C24",
   "status": "proved",
   "theorems": [
    "PiCF.C24_write_succeeds_iff",
    "PiCF.C24_read_your_write"
   ],
   "note": ""
  },
  {
   "property": "C25",
   "status": "proved",
   "theorems": [
    "PiCF.C25_prefix_map",
    "PiCF.C25_negative_accuracy"
   ],
   "note": ""
  },
  {
   "property": "C26",
   "status": "proved",
   "theorems": [
    "PiCF.C26_accuracy_change_keeps_values"
   ],
   "note": ""
  },
  {
   "property": "C27",
   "status": "partial",
   "theorems": [
    "PiCF.C27_violated",
    "PiCF.C27_others_undisturbed_partial"
   ],
   "note": "False of the code: __setitem__ deletes the entry of an earlier, lower accuracy that both keys share (witness: 3.14999999 written at accuracy 2, then 3.14159265 written at accuracy 5). The partial theorem covers all states in which the two keys share no earlier entry. Also required: the key written, cut to the current accuracy, equals no cut of the other key."
  },
  {
   "property": "C28",
   "status": "partial",
   "theorems": [
    "PiCF.C28_violated",
    "PiCF.C28_delete_partial"
   ],
   "note": "False of the code: __delitem__ of an entry at the current accuracy only reads it (line 54), for every table without a matching older entry. The partial theorem covers entries of earlier accuracies and absent keys. For the former the key must have no other entry at another accuracy."
  },
  {
   "property": "C29",
   "status": "partial",
   "theorems": [
    "PiCF.C29_violated",
    "PiCF.C29_violated_numbers",
    "PiCF.C29_inherited_methods_partial"
   ],
   "note": "False of the code: get/setdefault/pop are the plain dict methods and use the raw key. Also proved: a numeric key stored with setdefault, as the builder does, is never visible to t[k] or k in t. The partial theorem covers short string keys. The keys must have at most accuracy+1 characters and no entry of an earlier accuracy."
  },
  {
   "property": "C30",
   "status": "proved",
   "theorems": [
    "PiCF.C30_wf",
    "PiCF.C30_pickle_round_trip"
   ],
   "note": ""
  },
  {
   "property": "C31",
   "status": "proved",
   "theorems": [
    "PiCF.C31_append_dict"
   ],
   "note": ""
  },
  {
   "property": "C32",
   "status": "proved",
   "theorems": [
    "PiCF.C32_join_order"
   ],
   "note": ""
  },
  {
   "property": "C33",
   "status": "partial",
   "theorems": [
    "PiCF.C33_cleanup_partial",
    "PiCF.C33_violated"
   ],
   "note": "False of the code in general: numeric keys (which the builder stores) make the script raise AttributeError, and with an accuracy history offending entries survive. The partial theorem covers tables filled by t[k]=v at one accuracy. The table must hold the 'parameters' key."
  },
  {
   "property": "C34",
   "status": "proved",
   "theorems": [
    "PiCF.C34_enumeration"
   ],
   "note": ""
  },
  {
   "property": "C35",
   "status": "partial",
   "theorems": [
    "PiCF.C35_length_basic",
    "PiCF.C35_length_indexed",
    "PiCF.C35_sparse_count",
    "PiCF.C35_length_sparse_partial",
    "PiCF.C35_length_sparse_violated"
   ],
   "note": "Proved for the plain and indexed classes; false for interlaces of the sparse class (len_factor uses binom(n,k) once, not once per interlaced polynomial): C35_length_sparse_violated. C35_sparse_count gives the exact number; the estimate is right for single sparse polynomials."
  },
  {
   "property": "C36",
   "status": "partial",
   "theorems": [
    "PiCF.C36_integer_roots_partial",
    "PiCF.C36_quadratic",
    "PiCF.C36_exact",
    "PiCF.C36_integer_roots_violated"
   ],
   "note": "False as stated: the quadratic branch divides by 2*poly[0], so it tests the reversed polynomial (C36_quadratic), counts negative roots, and factoring stops at an interior zero. Proved for at most two adjacent non-zero coefficients; what the test answers for every polynomial is C36_exact."
  },
  {
   "property": "C37",
   "status": "proved",
   "theorems": [
    "PiCF.C37_no_zero_b"
   ],
   "note": ""
  },
  {
   "property": "C38",
   "status": "proved",
   "theorems": [
    "PiCF.C38_degree"
   ],
   "note": ""
  },
  {
   "property": "C39",
   "status": "proved",
   "theorems": [
    "PiCF.C39_indexed"
   ],
   "note": ""
  },
  {
   "property": "C40",
   "status": "proved",
   "theorems": [
    "PiCF.C40_sparse",
    "PiCF.C40_zero_coefficients_repeat"
   ],
   "note": ""
  },
  {
   "property": "C41",
   "status": "proved",
   "theorems": [
    "PiCF.C41_exp_filter"
   ],
   "note": ""
  },
  {
   "property": "C42",
   "status": "proved",
   "theorems": [
    "PiCF.C42_ulcd_calls"
   ],
   "note": ""
  },
  {
   "property": "C43",
   "status": "proved",
   "theorems": [
    "PiCF.C43_rational_calls",
    "PiCF.C43_rational_sequence"
   ],
   "note": ""
  },
  {
   "property": "C44",
   "status": "partial",
   "theorems": [
    "PiCF.C44_canonical_partial",
    "PiCF.C44_canonical_violated"
   ],
   "note": "False as stated: an LHS whose value is an integer becomes NaN when the integer part is all there is (2/1, C44_canonical_violated). Proved for all other values, together with reducedness, idempotence and the polynomial identity."
  },
  {
   "property": "C45",
   "status": "partial",
   "theorems": [
    "PiCF.C45_rational_degenerate_partial",
    "PiCF.C45_ulcd_degenerate_violated"
   ],
   "note": "Rational function part proved in full (exactly the constant functions, at every reachable state). The ULCD part is false (C45_ulcd_degenerate_violated)."
  },
  {
   "property": "C46",
   "status": "proved",
   "theorems": [
    "PiCF.C46_sound",
    "PiCF.C46_equivalence"
   ],
   "note": ""
  },
  {
   "property": "C47",
   "status": "partial",
   "theorems": [
    "PiCF.C47_equivalence_partial",
    "PiCF.C47_equivalence_violated"
   ],
   "note": "False of the code: denominators are not compared, 1/(x+1) and 1/(x+2) are reported equivalent (C47_equivalence_violated). Proved when the reduced denominators agree."
  },
  {
   "property": "C48",
   "status": "proved",
   "theorems": [
    "PiCF.C48_ulcd_enumeration",
    "PiCF.C48_up_to_integer"
   ],
   "note": ""
  },
  {
   "property": "C49",
   "status": "proved",
   "theorems": [
    "PiCF.C49_rational_enumeration"
   ],
   "note": ""
  },
  {
   "property": "C50",
   "status": "partial",
   "theorems": [
    "PiCF.C50_params_partial",
    "PiCF.C50_params_violated",
    "PiCF.C50_ulcd"
   ],
   "note": "ULCD: proved for all sequences (C50_ulcd). Rational functions: false right after reinit_params, which leaves the old parameters (C50_params_violated); proved for all sequences not ending in reinit_params."
  },
  {
   "property": "C51",
   "status": "proved",
   "theorems": [
    "PiCF.C51_sound",
    "PiCF.C51_complete"
   ],
   "note": ""
  },
  {
   "property": "C52",
   "status": "proved",
   "theorems": [
    "PiCF.C52_no_loss_no_duplicates",
    "PiCF.C52_rebuild"
   ],
   "note": ""
  },
  {
   "property": "C53",
   "status": "partial",
   "theorems": [
    "PiCF.C53_validation_partial",
    "PiCF.C53_validation_violated",
    "PiCF.C53_same_work_violated"
   ],
   "note": "Same resulting table and outcome: proved. The saving is false: the blacklist of integers is subtracted from a set of (index, function) pairs, so no combination is ever skipped (C53_validation_violated, C53_same_work_violated). Hypotheses: the function filter is not empty and the stored entries can be read as a blacklist."
  },
  {
   "property": "C54",
   "status": "partial",
   "theorems": [
    "PiCF.C54_clicks_exact_partial",
    "PiCF.C54_clicks_failure",
    "PiCF.C54_clicks_violated"
   ],
   "note": "Exact in both directions for any number type that has to_eng_string. With mpf, the type the code imports, every search with a finite first LHS raises AttributeError (C54_clicks_violated)."
  },
  {
   "property": "C55",
   "status": "partial",
   "theorems": [
    "PiCF.C55_matches_found_violated",
    "PiCF.C55_matches_found_partial",
    "PiCF.C55_same_key"
   ],
   "note": "False: build_hashtable stores with setdefault under the number, find_clicks looks under the text, so after any sequence of builds nothing is ever found (C55_matches_found_violated). The partial theorem covers entries stored under the text."
  },
  {
   "property": "C56",
   "status": "partial",
   "theorems": [
    "PiCF.C56_refine_partial",
    "PiCF.C56_refine_failure",
    "PiCF.C56_refine_violated",
    "PiCF.C56_refine_returns"
   ],
   "note": "Proved for number types with to_eng_string (which clicks survive, order, failure, termination). With mpf the refinement raises (C56_refine_violated)."
  },
  {
   "property": "C57",
   "status": "partial",
   "theorems": [
    "PiCF.C57_identity_partial",
    "PiCF.C57_identity_violated"
   ],
   "note": "False when the cut-off integer parts and the compared keys are ordered differently: the adjusted LHS is off by almost 1 (C57_identity_violated). The partial theorem gives the exact distance in all cases."
  },
  {
   "property": "C58",
   "status": "partial",
   "theorems": [
    "PiCF.C58_cancel_partial",
    "PiCF.C58_cancel_violated"
   ],
   "note": "Proved for every interruption point, except that an interrupt inside the bare except around add_int becomes a RuntimeError and ends main (C58_cancel_violated)."
  },
  {
   "property": "C59",
   "status": "proved",
   "theorems": [
    "PiCF.C59_unique",
    "PiCF.C59_twice",
    "PiCF.C59_ulcd_returns"
   ],
   "note": ""
  },
  {
   "property": "C60",
   "status": "partial",
   "theorems": [
    "PiCF.C60_roots_partial",
    "PiCF.C60_no_zero_numerators",
    "PiCF.C60_roots_violated"
   ],
   "note": "False: the absolute value around r.real - round(r.real) is missing, a root 1.6 drops the click (C60_roots_violated). The partial theorem gives the exact condition for all root lists; all true positive integer roots are caught (C60_no_zero_numerators)."
  },
  {
   "property": "C61",
   "status": "partial",
   "theorems": [
    "PiCF.C61_approach_partial",
    "PiCF.C61_failure",
    "PiCF.C61_approach_violated",
    "PiCF.C61_construction_violated"
   ],
   "note": "Proved when exactly one list is really given. False when only blacklist= is passed (the default whitelist counts as given, ValueError) and when construction, outside the try, fails. Hypotheses: the list is not empty, construction succeeds, and no KeyboardInterrupt happens in an estimation."
  },
  {
   "property": "C62",
   "status": "partial",
   "theorems": [
    "PiCF.C62_settings_partial",
    "PiCF.C62_settings_violated"
   ],
   "note": "Stored entries are found and the class is right for all states except: requesting the plain class while a subclass is in use has no effect; special parameters of the sparse class are never updated (C62_settings_violated)."
  },
  {
   "property": "C63",
   "status": "proved",
   "theorems": [
    "PiCF.C63_all_or_nothing",
    "PiCF.C63_row_content",
    "PiCF.C63_mpf"
   ],
   "note": ""
  },
  {
   "property": "C64",
   "status": "partial",
   "theorems": [
    "PiCF.C64_fraction",
    "PiCF.C64_equations_partial",
    "PiCF.C64_ulcd_partial",
    "PiCF.C64_zero_b_raised",
    "PiCF.C64_depth_zero_violated"
   ],
   "note": "Proved for all result lists and depths >= 1 for the 20 post-processing functions with a correct LaTeX form (C66) and LHS objects with a LaTeX expression (C65). depth=0 raises IndexError (C64_depth_zero_violated)."
  },
  {
   "property": "C65",
   "status": "partial",
   "theorems": [
    "PiCF.C65_ulcd",
    "PiCF.C65_rational_partial",
    "PiCF.C65_integer_violated",
    "PiCF.C65_degree_violated"
   ],
   "note": "ULCD proved for all states and target names that are one LaTeX symbol. Rational functions proved up to degree 9; false when the value is 0 or an integer shift only (IndexError, C65_integer_violated) and for degree >= 10, where the exponent needs braces (C65_degree_violated)."
  },
  {
   "property": "C66",
   "status": "partial",
   "theorems": [
    "PiCF.C66_equations_partial",
    "PiCF.C66_sqrt_violated",
    "PiCF.C66_exp_violated",
    "PiCF.C66_ln_violated"
   ],
   "note": "Proved for 20 of 24 functions and all sides. The two square-root templates are malformed (ValueError, C66_sqrt_violated), exp loses the left hand side (C66_exp_violated), ln exchanges the sides without inverting (C66_ln_violated)."
  },
  {
   "property": "C67",
   "status": "proved",
   "theorems": [
    "PiCF.C67_inverse_pairs",
    "PiCF.C67_this_table"
   ],
   "note": ""
  },
  {
   "property": "C68",
   "status": "partial",
   "theorems": [
    "PiCF.C68_evaluable_partial",
    "PiCF.C68_evaluable_violated",
    "PiCF.C68_mpf_violated"
   ],
   "note": "Proved for finite Decimals and functions 0-11, 20, 21, and for positive Decimals also 22, 23. False: sin..1/cot raise NameError for every input, ln of a negative Decimal raises (C68_evaluable_violated); with mpf numbers most functions raise (C68_mpf_violated)."
  },
  {
   "property": "C69",
   "status": "partial",
   "theorems": [
    "PiCF.Config.C69_generate_partial",
    "PiCF.Config.C69_use_partial",
    "PiCF.Config.C69_versions_violated"
   ],
   "note": "Proved for hashtable names without dots when the files of this hashtable in the directory are versions whose numbers have the same number of digits. False otherwise: versions are ordered as texts, so with versions 9 and 10 generate chooses the existing version 10 and use chooses 9, and h_v1.pkl.bak counts as a version (C69_versions_violated)."
  },
  {
   "property": "C70",
   "status": "proved",
   "theorems": [
    "PiCF.Config.C70_string",
    "PiCF.Config.C70_forms",
    "PiCF.Config.C70_bool",
    "PiCF.Config.C70_idempotent"
   ],
   "note": ""
  },
  {
   "property": "C71",
   "status": "partial",
   "theorems": [
    "PiCF.Config.C71_path_partial",
    "PiCF.Config.C71_case_violated"
   ],
   "note": "Proved for paths in lower case. Capital letters in a path are lost, so another file is used (C71_case_violated). Hypotheses: no white space at either end, and the path is not none, true or false."
  },
  {
   "property": "C72",
   "status": "partial",
   "theorems": [
    "PiCF.Config.C72_file_partial",
    "PiCF.Config.C72_percent_violated",
    "PiCF.Config.C72_option_partial",
    "PiCF.Config.C72_filter",
    "PiCF.Config.C72_reload_partial",
    "PiCF.Config.C72_lhs_type_violated",
    "PiCF.Config.C72_true_violated",
    "PiCF.Config.C72_generate_violated"
   ],
   "note": "Proved for configurations without lhs_type, with list options that hold (nested) lists of integers, and when the program still chooses the same hashtable file. False: a given lhs_type is written as a dictionary of classes and the saved file is rejected (C72_lhs_type_violated), true inside a list is written as True and rejected (C72_true_violated), after generate the saved file names a new version (C72_generate_violated). A hashtable name with a percent sign is accepted, but saving the configuration raises ValueError at the end of the run (C72_percent_violated). The file theorem needs files, loaded and saved, without percent signs."
  },
  {
   "property": "C73",
   "status": "partial",
   "theorems": [
    "PiCF.Config.C73_missing_partial",
    "PiCF.Config.C73_defaults_violated"
   ],
   "note": "Proved: options left out are None. The documented defaults are never used (C73_defaults_violated)."
  },
  {
   "property": "C74",
   "status": "proved",
   "theorems": [
    "PiCF.Config.C74_auto",
    "PiCF.Config.C74_rejects"
   ],
   "note": ""
  },
  {
   "property": "C75",
   "status": "partial",
   "theorems": [
    "PiCF.Main.C75_new_partial",
    "PiCF.Main.C75_use_partial",
    "PiCF.Main.C75_zeta_violated",
    "PiCF.Main.C75_undefined_violated",
    "PiCF.Main.C75_use_violated"
   ],
   "note": "Proved for the constants without index, with generate/expand, and with use when the stored hashtable was made for the configured constant. False: zeta raises TypeError and sets the precision to the index (C75_zeta_violated), feig and percolation raise NameError (C75_undefined_violated), use searches for the constant of the stored hashtable (C75_use_violated)."
  },
  {
   "property": "C76",
   "status": "proved",
   "theorems": [
    "PiCF.C76_partition",
    "PiCF.C76_when",
    "PiCF.C76_no_polynomial"
   ],
   "note": ""
  },
  {
   "property": "C77",
   "status": "proved",
   "theorems": [
    "PiCF.C77_hashtable_names",
    "PiCF.C77_config_names"
   ],
   "note": ""
  },
  {
   "property": "C78",
   "status": "partial",
   "theorems": [
    "PiCF.C78_plain",
    "PiCF.C78_indexed",
    "PiCF.C78_sparse_partial",
    "PiCF.C78_parts_end_normally",
    "PiCF.C78_sparse_violated"
   ],
   "note": "Proved for the plain and the indexed class (equal collections under every number, any join order). Sparse class: same entries always, same multiplicities when no coefficient range contains 0; with 0 in a range the join repeats entries (C78_sparse_violated: 0,1,0 is enumerated in both parts). The 'parameters' key is outside the comparison."
  },
  {
   "property": "C79",
   "status": "partial",
   "theorems": [
    "PiCF.DecStr.C79_digits_partial",
    "PiCF.DecStr.C79_close_partial",
    "PiCF.DecStr.C79_zeros_violated",
    "PiCF.DecStr.C79_small_violated",
    "PiCF.DecStr.C79_exponent_violated",
    "PiCF.DecStr.C79_mpf_violated"
   ],
   "note": "Proved for Decimals in [0,1) printed without exponent with at least n digits. False: 0.5 and 0.50 differ at accuracy 2, small numbers are printed with an exponent so that equal digits compare different (C79_small_violated) and different digits equal (C79_exponent_violated); mpf numbers have no to_eng_string (C79_mpf_violated). C79_close_partial: numbers in [0,1) that compare equal differ by less than max(10^-n, 10^-6)."
  },
  {
   "property": "C80",
   "status": "partial",
   "theorems": [
    "PiCF.Process.C80_errors_partial",
    "PiCF.Process.C80_zero_b_violated"
   ],
   "note": "Proved when no b_1..b_n is zero (or zeros are not avoided), including NaN for undefined convergents. With a zero b_i the method raises and leaves the object part-way, not at zero iterations (C80_zero_b_violated)."
  },
  {
   "property": "C81",
   "status": "proved",
   "theorems": [
    "PiCF.Process.C81_nested",
    "PiCF.Process.C81_poly"
   ],
   "note": ""
  },
  {
   "property": "C82",
   "status": "partial",
   "theorems": [
    "PiCF.Process.C82_name_partial",
    "PiCF.Process.C82_name_violated"
   ],
   "note": "Proved for names that neither begin nor end (before .csv) with one of the characters c, s, v and dot. False otherwise: strip removes characters, results.csv becomes result (C82_name_violated)."
  },
  {
   "property": "C83",
   "status": "partial",
   "theorems": [
    "PiCF.Main.C83_use",
    "PiCF.Main.C83_generate_partial",
    "PiCF.Main.C83_expand_violated"
   ],
   "note": "use proved; generate proved for hashtable names without dots and versions of equal length (see C69). False for expand: the loaded file itself is replaced in every successful run (C83_expand_violated)."
  },
  {
   "property": "C84",
   "status": "proved",
   "theorems": [
    "PiCF.Main.C84_complete",
    "PiCF.Main.C84_failed"
   ],
   "note": ""
  },
  {
   "property": "C85",
   "status": "proved",
   "theorems": [
    "PiCF.Main.C85_only",
    "PiCF.Main.C85_auto"
   ],
   "note": ""
  },
  {
   "property": "C86",
   "status": "partial",
   "theorems": [
    "PiCF.Main.C86_partial",
    "PiCF.Main.C86_index_violated"
   ],
   "note": "Proved for all generators called with a precision or with nothing where no index is needed. False when a generator with an index gets only the index: it is taken as the precision and TypeError is raised (C86_index_violated). Indexed generators are covered with and without a precision (given as first argument); precisions must be positive."
  },
  {
   "property": "C87",
   "status": "partial",
   "theorems": [
    "PiCF.ContFrac.C87_geometric_recognised",
    "PiCF.ContFrac.C87_slow_recognised",
    "PiCF.ContFrac.C87_no_false_exponential_partial",
    "PiCF.ContFrac.C87_no_false_stored_partial",
    "PiCF.ContFrac.C87_small_step_violated",
    "PiCF.ContFrac.C87_default_violated"
   ],
   "note": "Recognition is proved for step >= 5, cutoff > 0, at least six samples, sampled convergents defined, no zero b_i used, and factors in a band hi <= 1.5 lo (lo > 1.1 for exp, hi <= 1.1 for poly2sympoly). That exp/super_exp is never reported without a decrease by more than 1.1 is proved for one window with step >= 5, and for the stored type when the first window is not answered 'fast'. False for steps below 5, which the guard fails to reject: a continued fraction whose convergents repeat forever is answered 'exp' with iters_step=1 (C87_small_step_violated). With the default arguments the method's own later windows do the same: a continued fraction with b = -1 and 75 interlaced constants a, whose convergents repeat forever, is stored as 'exp' (C87_default_violated). Open: convergence not within such a band."
  },
  {
   "property": "C88",
   "status": "proved",
   "theorems": [
    "PiCF.ContFrac.C88_exponential_params_usable",
    "PiCF.ContFrac.C88_geometric_params_exact"
   ],
   "note": ""
  },
  {
   "property": "C89",
   "status": "partial",
   "theorems": [
    "PiCF.ContFrac.C89_documented_none_violated",
    "PiCF.ContFrac.C89_documented_raises_violated",
    "PiCF.ContFrac.C89_documented_partial"
   ],
   "note": "Proved when there are at least six sampling indices with step >= 5 and the sampled convergents exist, differ and have distances that do not vanish as floats. False otherwise: 1-1/(1-...) gets the type None (C89_documented_none_violated), a continued fraction with every other convergent undefined raises ZeroDivisionError (C89_documented_raises_violated). The cutoff must be positive and no b_i used zero (unless zeros are not avoided)."
  },
  {
   "property": "C90",
   "status": "partial",
   "theorems": [
    "PiCF.C90_mpf_violated",
    "PiCF.ContFrac.C90_accuracy_partial",
    "PiCF.ContFrac.C90_accuracy_violated"
   ],
   "note": "Proved when the coefficient is at most the base, with the number of iterations given by the formula's inequality base <= acc*base^r. False in general: the coefficient is ignored (C90_accuracy_violated: error 0.19 at accuracy 0.01). With mpf the formula raises AttributeError, so no search ever ends with a result (C90_mpf_violated). Objects without logging, no zero b_i used, convergent at the chosen depth defined."
  },
  {
   "property": "C91",
   "status": "partial",
   "theorems": [
    "PiCF.C91_results_partial",
    "PiCF.C91_ulcd_partial",
    "PiCF.C91_rf_partial",
    "PiCF.C91_cancelled",
    "PiCF.C91_results_violated"
   ],
   "note": "Proved for both LHS classes and all runs (also cancelled ones) except that the two sides are only known to agree to the accuracy or to differ by almost exactly 1 (numbers just above and below an integer look alike without their integer part). False without that: C91_results_violated, a search returning 4.2349 for a continued fraction with the value 5.2348. Rational functions under the hypothesis that no enumerated value is an integer or infinite."
  },
  {
   "property": "C92",
   "status": "proved",
   "theorems": [
    "PiCF.ContFrac.C92_fast",
    "PiCF.ContFrac.C92_approach",
    "PiCF.ContFrac.C92_accurate_result",
    "PiCF.ContFrac.C92_eval"
   ],
   "note": ""
  },
  {
   "property": "C93",
   "status": "partial",
   "theorems": [
    "PiCF.C93_complete_partial",
    "PiCF.C93_ulcd",
    "PiCF.C93_code",
    "PiCF.C93_rf_violated"
   ],
   "note": "Proved for ULCD with the code's own evaluators and convergence tests (C93_code), and for every LHS class whose test of equivalent clicks compares values. False for rational functions (C93_rf_violated): is_equiv ignores the denominators (C47), and in a concrete search the LHS which equals the continued fraction is dropped in favour of another one which agrees in the digits compared. Hypotheses: the integer part is truncated, the search is not cancelled, negating a changes only the sign of the values (proved for the code's own evaluators in C93_code)."
  },
  {
   "property": "C94",
   "status": "partial",
   "theorems": [
    "PiCF.Process.C94_polys_partial",
    "PiCF.Process.C94_polys_violated",
    "PiCF.Process.C94_tuples_violated"
   ],
   "note": "Exact: the polynomials with three coefficients are read back, in order; all others are dropped silently (C94_polys_violated) and rows with tuples, as export_to_csv writes them, are never read (C94_tuples_violated)."
  },
  {
   "property": "C95",
   "status": "partial",
   "theorems": [
    "PiCF.Process.C95_rows_partial",
    "PiCF.Process.C95_rows_violated"
   ],
   "note": "Proved for files whose rows have at least four cells. A blank line or a short row raises IndexError and everything is lost (C95_rows_violated)."
  },
  {
   "property": "C96",
   "status": "partial",
   "theorems": [
    "PiCF.Process.C96_formula_partial",
    "PiCF.Process.C96_formula_violated"
   ],
   "note": "Only the first character and the compilation are checked (proved); any expression after '0 or ' is accepted (C96_formula_violated)."
  },
  {
   "property": "C97",
   "status": "partial",
   "theorems": [
    "PiCF.Process.C97_analysis_partial",
    "PiCF.Process.C97_ends",
    "PiCF.Process.C97_default_violated",
    "PiCF.Process.C97_cutoff"
   ],
   "note": "Proved for the file type 'cont_frac', for answers (C97_analysis_partial) and that there are answers (C97_ends). With the default file type the function raises NameError for every file (C97_default_violated)."
  },
  {
   "property": "C98",
   "status": "partial",
   "theorems": [
    "PiCF.Process.C98_commands_partial",
    "PiCF.Process.C98_commands_violated"
   ],
   "note": "Proved for paths without spaces. A path with a space is given to main.py as several arguments (C98_commands_violated)."
  },
  {
   "property": "C99",
   "status": "partial",
   "theorems": [
    "PiCF.Output.C99_results_partial",
    "PiCF.Output.C99_same_minute_violated",
    "PiCF.Output.C99_clock_violated"
   ],
   "note": "Proved if both readings of the clock agree and the directory is new. A search that ends in the same minute as another one loses all its results (C99_same_minute_violated), and so does one during whose last lines the minute changes (C99_clock_violated)."
  },
  {
   "property": "C100",
   "status": "partial",
   "theorems": [
    "PiCF.Output.C100_join_partial",
    "PiCF.Output.C100_join_violated"
   ],
   "note": "Proved for a new output file: it holds all entries, and errors change nothing. An existing output file is overwritten although 'Aborting' is printed; running the script twice doubles every entry (C100_join_violated). Hypotheses for success: all tables load, are well-formed and have the same accuracy, there is at least one, and the directory of the output exists."
  },
  {
   "property": "C101",
   "status": "partial",
   "theorems": [
    "PiCF.Mitm.C101_print_partial",
    "PiCF.Mitm.C101_print_violated"
   ],
   "note": "Proved if the estimator returns for every dropped click. For 1 + 1/(0 + 1/(1 + 1/(0 + ...))) the filter ends with ZeroDivisionError only because printing is requested (C101_print_violated)."
  },
  {
   "property": "C102",
   "status": "partial",
   "theorems": [
    "PiCF.ContFrac.C102_reinitialize_partial",
    "PiCF.ContFrac.C102_stale_violated",
    "PiCF.ContFrac.C102_flat_violated"
   ],
   "note": "Proved for gen_iterations, is_convergence_fast and estimate_approach_type_and_params. Until one of them is called, get_result shows the old result and add_iterations continues with the old polynomials (C102_stale_violated); a flat list, which the constructor accepts, raises TypeError (C102_flat_violated)."
  },
  {
   "property": "C103",
   "status": "partial",
   "theorems": [
    "PiCF.ContFrac.C103_compare_partial",
    "PiCF.ContFrac.C103_fresh_violated"
   ],
   "note": "Proved after gen_iterations. Without a generated result it does not raise but compares the target with 1 (C103_fresh_violated). Hypotheses: the convergent is defined, no zero b_i used, with logging at least one iteration."
  },
  {
   "property": "C104",
   "status": "partial",
   "theorems": [
    "PiCF.Config.C104_order_partial",
    "PiCF.Config.C104_unknown_partial",
    "PiCF.Config.C104_percent_violated",
    "PiCF.Config.C104_section_violated"
   ],
   "note": "Proved for files without percent signs. configparser replaces them (line 34 uses the default interpolation): an unknown option 'note = 50% done' makes the load fail (C104_percent_violated), and a reference %(base)s works only if both options are in the same section (C104_section_violated)."
  },
  {
   "property": "C105",
   "status": "partial",
   "theorems": [
    "PiCF.Process.C105_read_partial",
    "PiCF.Process.C105_equations_partial",
    "PiCF.Process.C105_export_violated",
    "PiCF.Process.C105_indexed_violated"
   ],
   "note": "Reading is proved for files of the old format for e, pi and euler_masch with any functions of POSTPROC_FUNCS, the equations for pi with all functions listed and the conditions of C64 (results with a zero b_i are left out). Every file written by the present export_to_csv raises ValueError (C105_export_violated), every file with a result for feig or percolation raises TypeError (C105_indexed_violated). Cells that are not tuples of tuples of ints are not treated."
  },
  {
   "property": "C106",
   "status": "partial",
   "theorems": [
    "PiCF.Process.C106_default_violated",
    "PiCF.Process.C106_one_window_partial",
    "PiCF.Process.C106_nan_violated"
   ],
   "note": "Proved for a single window of six convergents (iters < initial_cutoff + iters_step; with find_poly_parameter whether the logarithms raise, the numbers of the linear fit are not modelled). With more windows, as with the default arguments, every continued fraction without a zero b_i raises AttributeError, as mpf numbers have no is_zero (C106_default_violated). Convergents with denominator zero are not filtered: 1 - 1/(1 - 1/(1 - ...)), which has no limit, is 'poly2sympoly' (C106_nan_violated)."
  },
  {
   "property": "C107",
   "status": "partial",
   "theorems": [
    "PiCF.DistributeMain.C107_parts_partial",
    "PiCF.DistributeMain.C107_lhs_type_violated",
    "PiCF.DistributeMain.C107_directory_violated",
    "PiCF.DistributeMain.C107_absolute_violated",
    "PiCF.DistributeMain.C107_power"
   ],
   "note": "Proved for a configuration in the current directory without lhs_type, with list options holding lists of integers and a table path without capital letters (as for C72). With lhs_type all written files are rejected (C107_lhs_type_violated). For a configuration given as dir/name.ini the program ends with FileNotFoundError, as it looks for dir inside the new directory (C107_directory_violated); for an absolute path the parts are written beside the original and the new directory stays empty (C107_absolute_violated)."
  },
  {
   "property": "C108",
   "status": "partial",
   "theorems": [
    "PiCF.C108_expand_partial",
    "PiCF.C108_short_violated",
    "PiCF.C108_iterations_violated"
   ],
   "note": "Proved for hashtable_precision >= 8 in all runs and unchanged ab_polys_type, special parameters and hashtable_num_of_iterations; failing runs in between allowed. With a precision of at most 7 the key 'parameters' is cut off when stored, and every later expand ends with an exception (C108_short_violated; the default is 8). expand ignores hashtable_num_of_iterations (C108_iterations_violated). Changes of the polynomial class: C62."
  },
  {
   "property": "C109",
   "status": "partial",
   "theorems": [
    "PiCF.C109_kept_partial",
    "PiCF.C109_searched",
    "PiCF.C109_dump_violated"
   ],
   "note": "Proved for all runs in which pickle.dump does not raise. main.py:113 empties the file before it writes: if dump raises, the stored table is lost and later runs raise (C109_dump_violated)."
  },
  {
   "property": "C110",
   "status": "proved",
   "theorems": [
    "PiCF.C110_no_exponential_lost"
   ],
   "note": ""
  },
  {
   "property": "C111",
   "status": "partial",
   "theorems": [
    "PiCF.C111_kept_partial",
    "PiCF.C111_positive",
    "PiCF.C111_slow_violated",
    "PiCF.C111_divergent_violated"
   ],
   "note": "Complete classification of the kept pairs without a zero b: if deg b < 2 deg a, the convergents tend to a limit or to infinity faster than every exponential rate; if deg b = 2 deg a, with leading coefficients la, lb, they tend to a limit or to infinity exponentially iff la^2 + 4 lb > 0, and never faster. So the claim is true, up to limits at infinity, iff that discriminant is positive or deg b < 2 deg a; and true, with the filter exact, if all a_n and b_n (n >= 1) are positive. It fails for a_n = 2, b_n = -1 (C111_slow_violated, discriminant 0) and for a_n = 2n - 4, b_n = 2n - 1 (C111_divergent_violated, convergents tend to infinity)."
  },
  {
   "property": "C112",
   "status": "proved",
   "theorems": [
    "PiCF.Process.C112_errors",
    "PiCF.Process.C112_cf1",
    "PiCF.Process.C112_cf2",
    "PiCF.Process.C112_cf3",
    "PiCF.Process.C112_cf4"
   ],
   "note": ""
  },
  {
   "property": "C113",
   "status": "proved",
   "theorems": [
    "PiCF.C113_value",
    "PiCF.C113_enumerated"
   ],
   "note": ""
  },
  {
   "property": "C114",
   "status": "partial",
   "theorems": [
    "PiCF.C114_limit_partial",
    "PiCF.C114_iterations_partial",
    "PiCF.C114_rational_violated"
   ],
   "note": "Proved for irrational limits whose absolute values have fractional parts above 10^-6. For a rational limit the comparison of cut off digits may fail for ever: 1/(3 - 2/(3 - 2/(3 - ...))) against 1/2 is dropped for every number of iterations, accuracy and number of digits (C114_rational_violated). Smaller fractional parts are printed with an exponent (C79_exponent_violated), and mpf numbers cannot be printed at all (C56_refine_violated). C130_margin treats rational limits that keep a distance from the numbers with n digits."
  },
  {
   "property": "C115",
   "status": "partial",
   "theorems": [
    "PiCF.C115_fit_partial",
    "PiCF.C115_between",
    "PiCF.C115_short_violated",
    "PiCF.C115_order"
   ],
   "note": "Proved, except that process_and_compare.find_linear_fitting raises IndexError for every trace that is not longer than the initial cutoff, 500 by default (C115_short_violated). linregress is only assumed to return a best fit; its last three results are not modelled."
  },
  {
   "property": "C116",
   "status": "partial",
   "theorems": [
    "PiCF.C116_exponential",
    "PiCF.C116_positive",
    "PiCF.C116_slow_violated",
    "PiCF.C116_divergent_violated",
    "PiCF.C116_infinite"
   ],
   "note": "Proved for exponentially converging fractions (C116_exponential, with the formula for rho) and, for positive terms, for the others (C116_positive). The claim fails for 1 + 2000/(1 + ...), which converges exponentially but is rejected because rho > 16/17 (C116_slow_violated), and for fractions without a limit: 9 - 21/(9 - ...) is accepted with the default arguments, 3 - 3/(3 - ...) with step 6 for arbitrarily large cutoffs (C116_divergent_violated). Fractions tending to infinity exponentially are rejected (C116_infinite). Interlaced polynomials are not treated."
  },
  {
   "property": "C117",
   "status": "partial",
   "theorems": [
    "PiCF.C117_exponential",
    "PiCF.C117_positive",
    "PiCF.C117_underflow_violated",
    "PiCF.C117_infinite"
   ],
   "note": "Proved for exact results (C117_exponential, C117_positive; fractions tending to infinity never get an exponential type, C117_infinite); poly2sympoly is only proved under the assumption that the distances stay positive as floats. Without it the claim fails: with floats that underflow, 1 + 2000/(1 + ...) makes the method raise ValueError for every large enough cutoff (C117_underflow_violated), because math.log gets a distance that became 0.0. Rounding of the results to the working precision is not modelled: with a fixed precision the distances vanish for large cutoffs and the method starts over with smaller ones."
  },
  {
   "property": "C118",
   "status": "partial",
   "theorems": [
    "PiCF.C118_get_result",
    "PiCF.C118_eval_positive",
    "PiCF.C118_precision",
    "PiCF.C118_lists",
    "PiCF.C118_refine",
    "PiCF.C118_refine_mpf",
    "PiCF.C118_cancellation_violated"
   ],
   "note": "Proved except that an exact division by zero is not always reported: with terms of both signs, cancellation after a rounding gives a tiny number instead of zero. For a_n = -31+18n-n^2, b_n = 43-14n and depth 4 the exact evaluation divides by zero, but with mp.dps = 50 (169 bits) a number above 10^49 in absolute value is returned (C118_cancellation_violated). The refinement is proved here for a constant number of iterations, one click and positive terms, with a given LHS value; C120 has lists of clicks, terms of any sign and rounded ULCD values."
  },
  {
   "property": "C119",
   "status": "proved",
   "theorems": [
    "PiCF.ContFrac.C119_rule"
   ],
   "note": ""
  },
  {
   "property": "C120",
   "status": "proved",
   "theorems": [
    "PiCF.C120_calls",
    "PiCF.C120_flip",
    "PiCF.C120_precision",
    "PiCF.C120_refine"
   ],
   "note": ""
  },
  {
   "property": "C121",
   "status": "partial",
   "theorems": [
    "PiCF.Precision.C121_given_partial",
    "PiCF.Precision.C121_raises",
    "PiCF.Precision.C121_reset",
    "PiCF.Precision.C121_shared_violated",
    "PiCF.Precision.C121_redefined_violated",
    "PiCF.Precision.C121_main_partial",
    "PiCF.Precision.C121_use_violated"
   ],
   "note": "Proved: a successful construction or redefinition makes its precision the working one until another call names a precision; raising calls change nothing; reset_precision always restores the constructor's precision; generate and expand runs of the program end with 50 digits. False: the precision is shared by all objects (C121_shared_violated), reset_precision ignores redefine_settings because self.prec is never updated (C121_redefined_violated), and use runs work with the 150 digits set at import instead of DECIMAL_PREC (C121_use_violated)."
  },
  {
   "property": "C122",
   "status": "proved",
   "theorems": [
    "PiCF.Scripts.C122_files",
    "PiCF.Scripts.C122_content"
   ],
   "note": ""
  },
  {
   "property": "C123",
   "status": "partial",
   "theorems": [
    "PiCF.Scripts.C123_usage",
    "PiCF.Scripts.C123_main_partial",
    "PiCF.Scripts.C123_main_violated"
   ],
   "note": "Proved for join_hashtables, fix_hashtable, distribute_run and run_distributed_configs for all command lines, for main.py with at most one argument. False for main.py with more arguments: it ignores all but the first and starts a search (C123_main_violated); together with C98 a configuration path with a space runs another configuration."
  },
  {
   "property": "C124",
   "status": "proved",
   "theorems": [
    "PiCF.C124_floats",
    "PiCF.C124_bound_needed"
   ],
   "note": ""
  },
  {
   "property": "C125",
   "status": "proved",
   "theorems": [
    "PiCF.C125_calls",
    "PiCF.C125_precision",
    "PiCF.C125_degenerate",
    "PiCF.C125_enumeration",
    "PiCF.C125_refine"
   ],
   "note": ""
  },
  {
   "property": "C126",
   "status": "partial",
   "theorems": [
    "PiCF.ContFrac.C126_default",
    "PiCF.ContFrac.C126_value",
    "PiCF.ContFrac.C126_raises",
    "PiCF.ContFrac.C126_failed",
    "PiCF.ContFrac.C126_first",
    "PiCF.ContFrac.C126_zero_b_violated"
   ],
   "note": "Proved for all generators and first matrices. False: avoid_zero_b=True has no effect with a generator of the caller, as only the default generator looks at it; a zero numerator is evaluated without ZeroB (C126_zero_b_violated)."
  },
  {
   "property": "C127",
   "status": "partial",
   "theorems": [
    "PiCF.Ini.C127_layout_partial",
    "PiCF.Ini.C127_same_partial",
    "PiCF.Ini.C127_duplicate",
    "PiCF.Ini.C127_no_section",
    "PiCF.Ini.C127_junk",
    "PiCF.Ini.C127_written",
    "PiCF.Ini.C127_saved",
    "PiCF.Ini.C127_reload_partial",
    "PiCF.Ini.C127_indent_violated",
    "PiCF.Ini.C127_inline_violated"
   ],
   "note": "Proved for files whose options begin at the margin and whose comments are lines of their own. False: an indented option is silently taken for a part of the text before it (C127_indent_violated), and a comment after a text is part of the text (C127_inline_violated; the inline comment changes the name of the hashtable file). C127_reload_partial is C72 for the texts of files, with the restrictions of C72."
  },
  {
   "property": "C128",
   "status": "proved",
   "theorems": [
    "PiCF.ContFrac.C128_limits",
    "PiCF.ContFrac.C128_assertions"
   ],
   "note": ""
  },
  {
   "property": "C129",
   "status": "partial",
   "theorems": [
    "PiCF.Main.C129_rejected",
    "PiCF.Main.C129_early_partial",
    "PiCF.Main.C129_unfinished",
    "PiCF.Main.C129_third",
    "PiCF.Main.C129_late_violated"
   ],
   "note": "Proved for missing and rejected files, unknown constants, and missing hashtable_precision, ab_polys_type, a_coeffs_range and b_coeffs_range (given that the constructor, redefine_settings and build_hashtable raise for None). False for the options of the three refinements: they are looked at after the table has been stored and the clicks have been found, and then '%d' % None raises TypeError and nothing is written (C129_late_violated; C129_unfinished and C129_third: no such run ever writes results, unless the last refinement is cancelled)."
  },
  {
   "property": "C130",
   "status": "partial",
   "theorems": [
    "PiCF.C130_margin",
    "PiCF.C130_value",
    "PiCF.C130_refine_partial",
    "PiCF.C130_exact_partial",
    "PiCF.C130_bound_violated"
   ],
   "note": "Proved, for number types with ln and to_eng_string, when the bound on the number of iterations is at least what the accuracy needs, no b_i used is zero, the convergent used is defined and fractional parts are above 10^-6. The coefficient may have any size, it only enters the error. A smaller bound on the iterations is not noticed: a true identity is dropped and a wrong one kept (C130_bound_violated). With mpf every evaluation raises (C90_mpf_violated)."
  },
  {
   "property": "C131",
   "status": "proved",
   "theorems": [
    "PiCF.C131_tracks",
    "PiCF.C131_funcs",
    "PiCF.C131_rhs",
    "PiCF.C131_refine"
   ],
   "note": ""
  },
  {
   "property": "C132",
   "status": "partial",
   "theorems": [
    "PiCF.Process.C132_plot",
    "PiCF.Process.C132_raises",
    "PiCF.Process.C132_line",
    "PiCF.Process.C132_nips_partial",
    "PiCF.Process.C132_window_violated",
    "PiCF.Process.C132_default_violated"
   ],
   "note": "plot_errors of process_and_compare.py: proved for all errors (C132_plot, C132_raises, C132_line). gen_errors_for_nips.py: proved if all errors up to the boundary are above 10^-100. The boundary is applied after the invisible errors are dropped, so the picture can show iterations beyond it (C132_window_violated); with the default boundaries the last error is never drawn (C132_default_violated). Logarithms are exact, linregress is only assumed to return a best fit."
  },
  {
   "property": "C133",
   "status": "partial",
   "theorems": [
    "PiCF.Concurrent.C133_runs_partial",
    "PiCF.Concurrent.C133_minute_violated",
    "PiCF.Concurrent.C133_same_table_violated",
    "PiCF.Concurrent.C133_clock_violated",
    "PiCF.Concurrent.C133_race_violated",
    "PiCF.Concurrent.C133_lost_violated",
    "PiCF.Concurrent.C133_parts_partial"
   ],
   "note": "Proved for runs with different tables (names without dots and versions), or that only use the same table, whose two readings of the clock agree (C133_runs_partial), in particular for the parts written by distribute_run (C133_parts_partial); there a run ends normally with its results or raises. Of several searches that end in the same minute at most one ends normally (C133_minute_violated) and the results of the others are lost (C133_lost_violated); two runs that generate the same table can store only one (C133_same_table_violated); a run whose clock changes the minute replaces the results of another (C133_clock_violated); the race on 'results' loses results (C133_race_violated). An access to a file (reading, emptying, writing its content, making a directory) is one step; stored tables are read at once."
  },
  {
   "property": "C134",
   "status": "partial",
   "theorems": [
    "PiCF.Workflow.C134_workflow_partial",
    "PiCF.Workflow.C134_missing_violated",
    "PiCF.Workflow.C134_again_violated"
   ],
   "note": "Proved for the configurations of C133_parts_partial with operation generate, for executions in which all parts end normally and a directory whose .pkl files are exactly the stored tables (C134_workflow_partial; same entries for every class, equally often for the plain and the indexed class and for the sparse class without zeros, see C78_sparse_violated). join_hashtables does not notice that the table of a part is missing (C134_missing_violated) and joins every .pkl file, so that older tables in the directory repeat entries (C134_again_violated). The value under 'parameters' is outside the comparison; pickle is a function whose round trip is C30, a full disk is not considered."
  },
  {
   "property": "C135",
   "status": "partial",
   "theorems": [
    "PiCF.C135_keys_partial",
    "PiCF.C135_decimal_partial",
    "PiCF.C135_fractional_part",
    "PiCF.C135_integer_violated",
    "PiCF.C135_cancellation_violated"
   ],
   "note": "Proved with binary rounding to nearest for fractions that have an exact value, and the functions x, x**2 to x**5 and sqrt with mpf numbers (C135_keys_partial; the other functions raise exceptions with mpf), or all but the trigonometric functions with Decimals (C135_decimal_partial). Near integers modulo 1 matters: a fraction with the exact value 4 is stored under a key above 1 - 10^(-50) (C135_integer_violated). A fraction without a value, as a denominator is zero, can be stored all the same (C135_cancellation_violated). The precision that is enough depends on the enumeration and is not computed."
  },
  {
   "property": "C136",
   "status": "partial",
   "theorems": [
    "PiCF.C136_sound",
    "PiCF.C136_exact_partial",
    "PiCF.C136_wider_partial",
    "PiCF.C136_divided_partial",
    "PiCF.C136_code",
    "PiCF.C136_wider_violated"
   ],
   "note": "Proved for uninterrupted searches with the integer part removed and LHS classes whose test of equivalence compares the values (ULCD; C136_code with the code's own functions). That every result passes all tests holds for rational functions as well (C136_sound), but there a wider search can lose a right result to a wrong one with another denominator (C136_wider_violated)."
  },
  {
   "property": "C137",
   "status": "proved",
   "theorems": [
    "PiCF.C137_uninterrupted",
    "PiCF.C137_cancelled",
    "PiCF.C137_sound",
    "PiCF.C137_code"
   ],
   "note": ""
  },
  {
   "property": "C138",
   "status": "partial",
   "theorems": [
    "PiCF.C138_found_partial",
    "PiCF.C138_true",
    "PiCF.C138_errors",
    "PiCF.C138_code",
    "PiCF.C138_built_violated"
   ],
   "note": "Found: proved for uninterrupted searches with the integer part removed, LHS classes whose test of equivalence compares the values (ULCD; C138_code with the code's own functions), fractions estimated as exponential, and explicit margins; for irrational values small enough errors exist (C138_errors). The digits after the point of the absolute values have to agree. The table has to have texts as keys: a search in a table as build_hashtable makes it reports nothing (C138_built_violated). The converse (C138_true) holds for both LHS classes."
  },
  {
   "property": "C139",
   "status": "proved",
   "theorems": [
    "PiCF.C139_tables",
    "PiCF.C139_outcome",
    "PiCF.C139_search"
   ],
   "note": ""
  },
  {
   "property": "C140",
   "status": "partial",
   "theorems": [
    "PiCF.C140_tests",
    "PiCF.C140_digits_partial",
    "PiCF.C140_first",
    "PiCF.C140_code_partial",
    "PiCF.C140_violated"
   ],
   "note": "Proved for first_filtering_precision in ULCD searches with the code's own functions, and for all three precisions if the number of iterations found necessary does not depend on the precision. If it grows with the precision, as the code intends (line 141 of basic_representation_types.py; with mpf numbers that line raises), a larger precision can add a result: the smaller one stops iterating too early (C140_violated). For rational functions the results pass all tests of the search with fewer digits (C140_tests), but may be dropped as equivalent to others (C136)."
  },
  {
   "property": "C141",
   "status": "proved",
   "theorems": [
    "PiCF.C141_table",
    "PiCF.C141_outcome",
    "PiCF.C141_extend",
    "PiCF.C141_ulcd",
    "PiCF.C141_numbers",
    "PiCF.C141_rational",
    "PiCF.C141_search"
   ],
   "note": ""
  },
  {
   "property": "C142",
   "status": "partial",
   "theorems": [
    "PiCF.Main.C142_passed",
    "PiCF.Main.C142_skipped",
    "PiCF.Main.C142_unused_violated",
    "PiCF.Main.C142_used_partial",
    "PiCF.Main.C142_index_violated"
   ],
   "note": "Proved: a run depends on the options of the table, the search and the filters only by passing each to its own step, steps that are skipped leave their options unused, and 20 of the 23 options matter. False: is_test and validate_hashtable_extend_no_replication are never used, hashtable_num_of_iterations has no effect when a table is expanded (C142_unused_violated), and i never decides what is searched (C142_index_violated)."
  },
  {
   "property": "C143",
   "status": "partial",
   "theorems": [
    "PiCF.C143_refine_partial",
    "PiCF.C143_whole_violated",
    "PiCF.C143_filters",
    "PiCF.C143_unique"
   ],
   "note": "Proved for the filters and for the refinement with trunc_integer (the default), with the same or fewer digits. False without trunc_integer: the left hand side is adjusted by an integer that can take it across a power of ten, and the same refinement then drops the result (C143_whole_violated)."
  },
  {
   "property": "C144",
   "status": "partial",
   "theorems": [
    "PiCF.C144_filters",
    "PiCF.C144_unique",
    "PiCF.C144_unique_code",
    "PiCF.C144_refine",
    "PiCF.C144_refine_unique_violated"
   ],
   "note": "Proved for each two of the filters, and for refinement with the filters by speed and by integer roots. False for refinement and the filter for unique parameters: refinement makes left hand sides that differ by an integer equal, so a result can be there twice if the filter is applied only before it (C144_refine_unique_violated). With the filter by type, which writes the convergence information, this is proved for the refinement with a constant number of iterations; the other refinement is documented to come after that filter."
  },
  {
   "property": "C145",
   "status": "partial",
   "theorems": [
    "PiCF.C145_empty_violated",
    "PiCF.C145_nonempty_partial"
   ],
   "note": "False: with an empty range the table is built without an exception and nothing is added (C145_empty_violated); config_apery_extend_hashtable.ini has such a range. Proved: without empty ranges there is something to enumerate, before the filters, and the estimated length is positive."
  },
  {
   "property": "C146",
   "status": "partial",
   "theorems": [
    "PiCF.C146_result",
    "PiCF.C146_eval",
    "PiCF.C146_fast",
    "PiCF.C146_samples",
    "PiCF.C146_estimate_partial",
    "PiCF.C146_type_partial",
    "PiCF.C146_estimate_violated",
    "PiCF.C146_unique_violated"
   ],
   "note": "False: the filter for unique parameters keeps an identity and the same one multiplied by 2 (C146_unique_violated); an estimation with fewer than six pairs of samples compares the distances with a fixed number and depends on the factor (C146_estimate_violated). Proved for objects without logging: the value is multiplied by c, in ContFrac and in the table, with the same exceptions; is_convergence_fast gives the same answer for all arguments; estimate_approach_type_and_params gives the same type and base, and |c| times the coefficient, if its first estimation has six pairs and no small distance is rounded to zero."
  },
  {
   "property": "C147",
   "status": "partial",
   "theorems": [
    "PiCF.C147_plain",
    "PiCF.C147_indexed",
    "PiCF.C147_sparse_partial",
    "PiCF.C147_sparse_violated",
    "PiCF.C147_table",
    "PiCF.C147_two_builds_violated"
   ],
   "note": "Proved for the plain and the indexed class, and for the sparse class if its polynomials have one length and no range contains 0. False for the sparse class with zeros: the coefficients 0, 1 and 1, 0 at two of three places both give the polynomial n (C147_sparse_violated); tuples with the same terms then still have the same polynomials. For all three classes the table holds each continued fraction at most once with each function after one build (C147_table); a second build with a longer range of coefficients stores it again with a leading zero (C147_two_builds_violated)."
  }
 ]
}